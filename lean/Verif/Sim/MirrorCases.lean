import Verif.Sim.Mirror
import Verif.Sim.Witness
import Verif.Sim.Symmetry
/-!
# Mirrored simulations: symmetric solutions, and a case of C86
-/
set_option linter.unusedSectionVars false
namespace Pylbm.Sim
open Scheme Halo SchemeSpec Matrix HaloSpec Mpi Boundary
open Domain (Elem.Mirrored mirrorVec)

/-- `d1q2` with an equilibrium which does not choose a direction. -/
def even2 : Kernel ℚ 2 1 0 := { d1q2 with EQ := ![fun w => w 0, fun _ => 0] }

/-- The mirror image of the plug: the interval [5, 6]. -/
def plug' : Domain.Elem ℚ 1 where
  isFluid := false
  bl := fun _ => 5
  ur := fun _ => 6
  inside := fun x => decide (5 ≤ x 0 ∧ x 0 ≤ 6)
  alpha := fun x v => if 0 < v 0 ∧ x 0 ≤ 5 ∧ 5 ≤ x 0 + v 0 then (5 - x 0) / v 0
    else if v 0 < 0 ∧ 6 ≤ x 0 ∧ x 0 + v 0 ≤ 6 then (6 - x 0) / v 0 else -1
  border := fun _ _ => 5
  normvect := fun _ v j => -v j

theorem plug'_sound : plug'.Sound where
  inside := by
    intro x hx j
    obtain rfl : j = 0 := Subsingleton.elim _ _
    simpa [plug'] using hx
  hit := by
    intro x v
    simp only [plug']
    split_ifs with h1 h2
    · intro _
      refine ⟨(div_le_one h1.1).2 (by linarith [h1.2.2]), fun j => ?_⟩
      obtain rfl : j = 0 := Subsingleton.elim _ _
      rw [div_mul_cancel₀ _ h1.1.ne']
      constructor <;> linarith
    · intro _
      refine ⟨(div_le_one_of_neg h2.1).2 (by linarith [h2.2.2]), fun j => ?_⟩
      obtain rfl : j = 0 := Subsingleton.elim _ _
      rw [div_mul_cancel₀ _ h2.1.ne]
      constructor <;> linarith
    · intro h; linarith

/-- The mirror image of the pipe. -/
def pipe' : WallData ℚ 1 sten2 where
  elems := [plug']
  els := [5]
  dico := pipe.dico
  ψ := fun l t x k => if l = 5 then 0 else t + (7 - x 0) + (1 - k : Fin 2)

theorem pipe'_wf : pipe'.WF (flipLab (fun _ => true) pipeLab) where
  sten := pipe_wf.sten
  sound := by intro e he; rw [List.mem_singleton.1 he]; exact plug'_sound
  labels := by intro e he x v _; rw [List.mem_singleton.1 he]; simp [plug', pipe']
  dict := pipe_wf.dict
  no999 := by simp [pipe']
  noFace := by intro j side; cases side <;> simp [flipLab, pipeLab]

theorem pipe_mirrored : MirrorData pipe pipe' grid7.N grid7.w (fun _ => 0) 1 pipeLab (fun _ => true)
    (Equiv.swap 0 1) where
  elems := by
    have hm : ∀ x : Fin 1 → ℚ, (boxGrid grid7.N grid7.w (fun _ => (0 : ℚ)) 1 pipeLab sten2).mirrorPoint
        (fun _ => true) x 0 = 7 - x 0 := by
      intro x
      have : (grid7.N 0 : ℚ) = 7 := by norm_num [grid7]
      simp [Domain.Grid.mirrorPoint, boxGrid, this]
    refine .cons ⟨rfl, fun x => ?_, fun x v => ?_, fun _ _ => rfl, fun x v => ?_⟩ .nil
    · simp only [plug', plug, hm]
      rw [decide_eq_decide]
      constructor <;> rintro ⟨h1, h2⟩ <;> constructor <;> linarith
    · have hv : mirrorVec (fun _ => true) v 0 = -v 0 := by simp [mirrorVec]
      simp only [plug', plug, hm, hv]
      have e1 : (5 : ℚ) - (7 - x 0) = -(2 - x 0) := by ring
      have e2 : (6 : ℚ) - (7 - x 0) = -(1 - x 0) := by ring
      rw [e1, e2, neg_div_neg_eq, neg_div_neg_eq]
      have a1 : (0 < -v 0 ∧ 7 - x 0 ≤ 5 ∧ 5 ≤ 7 - x 0 + -v 0) ↔ (v 0 < 0 ∧ 2 ≤ x 0 ∧ x 0 + v 0 ≤ 2) := by
        constructor <;> rintro ⟨p, q, r⟩ <;> refine ⟨?_, ?_, ?_⟩ <;> linarith
      have a2 : (-v 0 < 0 ∧ 6 ≤ 7 - x 0 ∧ 7 - x 0 + -v 0 ≤ 6) ↔ (0 < v 0 ∧ x 0 ≤ 1 ∧ 1 ≤ x 0 + v 0) := by
        constructor <;> rintro ⟨p, q, r⟩ <;> refine ⟨?_, ?_, ?_⟩ <;> linarith
      simp only [a1, a2]
      by_cases h1 : v 0 < 0 ∧ 2 ≤ x 0 ∧ x 0 + v 0 ≤ 2
      · have h2 : ¬ (0 < v 0 ∧ x 0 ≤ 1 ∧ 1 ≤ x 0 + v 0) := fun h => by linarith [h.1, h1.1]
        rw [if_pos h1, if_neg h2, if_pos h1]
      · rw [if_neg h1, if_neg h1]
    · funext j
      simp [plug', plug, mirrorVec]
  els := rfl
  dico := rfl
  values := by
    intro label t x j
    have hm : (boxGrid grid7.N grid7.w (fun _ => (0 : ℚ)) 1 pipeLab sten2).mirrorPoint
        (fun _ => true) x 0 = 7 - x 0 := by
      have : (grid7.N 0 : ℚ) = 7 := by norm_num [grid7]
      simp [Domain.Grid.mirrorPoint, boxGrid, this]
    simp only [pipe', pipe, hm]
    have : ((1 - (Equiv.swap (0 : Fin 2) 1 j : Fin 2) : Fin 2)) = j := by revert j; decide
    rw [this]
    split_ifs <;> ring

theorem sten2_mirror : MirrorStencil sten2 (fun _ => true) (Equiv.swap 0 1) (Equiv.swap 0 1) where
  uvel := by decide
  ux := by decide
  scheme := by decide

/-- The domain of the mirrored pipe on one process and the entries of its boundary methods. -/
def pipeData' (c : Proc grid7one) : Option (Domain.State ℚ 1 2 × List (Method 1 × List (Entry ℚ 1 2))) := do
  let st ← Domain.build (procGrid grid7one (fun _ => 0) 1 (flipLab (fun _ => true) pipeLab) sten2 c) pipe'.elems
  let I ← instances sten2 (procGrid grid7one (fun _ => (0 : ℚ)) 1 (flipLab (fun _ => true) pipeLab) sten2 c).total st.link
    (listOfLabels (procGrid grid7one (fun _ => (0 : ℚ)) 1 (flipLab (fun _ => true) pipeLab) sten2 c) pipe'.els) pipe'.dico
  return (st, I)

theorem pipe'_onGrid (c : Proc grid7one) {st I} (h : pipeData' c = some (st, I)) :
    OnGrid pipe' (procGrid grid7one (fun _ => 0) 1 (flipLab (fun _ => true) pipeLab) sten2 c) st I := by
  unfold pipeData' at h
  simp only [Option.bind_eq_bind, Option.bind_eq_some_iff, Option.pure_def, Option.some.injEq,
    Prod.mk.injEq] at h
  obtain ⟨st', h1, I', h2, rfl, rfl⟩ := h
  exact ⟨procGrid_wf _ _ _ one_pos _ _ (by decide) c, rfl, h1, h2⟩

/-- The setup of the mirrored pipe on one process. -/
def pipeSetup' (c : Proc grid7one) : Setup ℚ 2 1 0 1 :=
  { ring even2 sten2.vel .pull grid7one c with
    backend := .numpy
    bc := fun t A => match pipeData' c with
      | none => A
      | some p => toArr (boundaryCondition sten2
          (withValues sten2 (procGrid grid7one (fun _ => 0) 1 (flipLab (fun _ => true) pipeLab) sten2 c) pipe'.ψ p.2 t)
          (toDist A)) }

theorem pipe'_fluidRun : FluidRun pipe' grid7one (fun _ => 0) 1 (flipLab (fun _ => true) pipeLab) even2 .pull
    pipeSetup' := by
  have hs : ∀ c, (pipeData' c).isSome := by decide +kernel
  have h := ring_uniform even2 sten2.vel .pull grid7one
  refine ⟨⟨(large_iff grid7one).2 (by decide), fun c => ?_, fun c x hx k => Or.inl fun j => ?_⟩, h.scheme, h.vel, h.algo,
    fun c hc => ?_, h.nodup, h.loops, fun c => by simp [pipeSetup']⟩
  · obtain ⟨⟨st, I⟩, hp⟩ := Option.isSome_iff_exists.1 (hs c)
    exact ⟨st, I, pipe'_onGrid c hp, fun t A => by simp only [pipeSetup', hp]⟩
  · have h1 : ∀ (c : Proc grid7one) (j : Fin 1), first grid7one c j = 0 ∧ first grid7one c j + size grid7one c j = 7 := by
      decide +kernel
    refine ⟨fun h => absurd (h1 c j).1 h, fun h => absurd (h1 c j).2 h⟩
  · have : (pipeSetup' c).cfg.checkFluid = false := rfl
    rw [this] at hc
    exact absurd hc (by decide)

/-- The setup of the pipe with the collision `even2` and `check_isfluid`, on two processes. -/
def pipeEven (c : Proc grid7) : Setup ℚ 2 1 0 1 := { pipeFluid grid7 .c .pull c with S := even2 }

theorem pipeEven_fluidRun : FluidRun pipe grid7 (fun _ => 0) 1 pipeLab even2 .pull pipeEven :=
  let h := pipe_case.1
  ⟨⟨h.walls.large, h.walls.onGrid, h.walls.away⟩, fun _ => rfl, h.vel, h.algo, h.fluid, h.nodup, h.loops,
    fun c h => absurd h.2.2 (by decide)⟩

/-- A case for `C86_mirror`: the pipe with its plug at [1, 2] on two processes with `check_isfluid`, and the mirrored
pipe on one process without it. -/
example (k : Nat) (G : Arr ℚ 2 1) : ∃ σ σ' ST,
    Domain.build (boxGrid grid7.N grid7.w (fun _ => 0) 1 pipeLab sten2) pipe.elems = some ST ∧
    PRun grid7 pipeEven (fun c => startWith 2 0 1 fun x => G (globalPos (first grid7 c) grid7.w x)) k σ ∧
    PRun grid7one pipeSetup' (fun c => { (startWith 2 0 1 fun x j => G (flipCell grid7.N (fun _ => true)
      (globalPos (first grid7one c) grid7one.w x)) (Equiv.swap 0 1 j)) with Fnew := 0 }) k σ' ∧
    ∀ c x, Owned (size grid7 c) grid7.w x → ∀ c' x', Owned (size grid7one c') grid7one.w x' →
      globalPos (first grid7one c') grid7one.w x' = flipCell grid7.N (fun _ => true) (globalPos (first grid7 c) grid7.w x) →
      fluidMap grid7.w ST (globalPos (first grid7 c) grid7.w x) = true →
      ∀ j, (σ' c').arr x' (Equiv.swap 0 1 j) = (σ c).arr x j := by
  obtain ⟨_, _, hmeth, ST, J, hJ, hlinks, hreads, hfree, _⟩ := pipe_case
  have h : ∀ c i, grid7.w i ≤ size grid7 c i := (large_iff grid7).2 (by decide)
  have h' : ∀ c i, grid7one.w i ≤ size grid7one c i := (large_iff grid7one).2 (by decide)
  obtain ⟨σ, hσ⟩ := C42_run_exists (by decide) grid7 h pipeEven
    (fun c => startWith 2 0 1 fun x => G (globalPos (first grid7 c) grid7.w x)) k
  obtain ⟨σ', hσ'⟩ := C42_run_exists (by decide) grid7one h' pipeSetup'
    (fun c => { (startWith 2 0 1 fun x j => G (flipCell grid7.N (fun _ => true)
      (globalPos (first grid7one c) grid7one.w x)) (Equiv.swap 0 1 j)) with Fnew := 0 }) k
  have hs' : ∀ c, (pipeData' c).isSome := by decide +kernel
  obtain ⟨⟨ST', J'⟩, hp⟩ := Option.isSome_iff_exists.1 (hs' fun i => ⟨0, grid7one.hp i⟩)
  have hJ' := pipe'_onGrid _ hp
  have he : procGrid grid7one (fun _ => (0 : ℚ)) 1 (flipLab (fun _ => true) pipeLab) sten2
      (fun i => ⟨0, grid7one.hp i⟩) = boxGrid grid7.N grid7.w (fun _ => 0) 1 (flipLab (fun _ => true) pipeLab) sten2 := by
    have e1 : first grid7one (fun i => ⟨0, grid7one.hp i⟩) = fun _ => 0 := by
      funext i; revert i; decide +kernel
    have e2 : size grid7one (fun i => ⟨0, grid7one.hp i⟩) = fun _ => 7 := by
      funext i; revert i; decide +kernel
    unfold procGrid boxGrid
    simp only [e1, e2]
    rfl
  rw [he] at hJ'
  refine ⟨σ, σ', ST, hJ.built, hσ, hσ', fun c x hx c' x' hx' hpos hf j => ?_⟩
  refine C86_mirror (by decide) pipe pipe' (fun _ => 0) 1 pipeLab (fun _ => true) pipe_wf pipe'_wf grid7 grid7one rfl rfl
    _ _ sten2_mirror pipe_mirrored ST ST' J J' hJ hJ' hfree hlinks hmeth hreads even2 (by decide) .pull ?_ pipeEven
    pipeEven_fluidRun pipeSetup' pipe'_fluidRun _ (fun c => ?_) _ (fun c => ?_) ?_ k σ hσ σ' hσ'
    c x hx c' x' hx' hpos hf j
  · intro f
    refine C81_collision even2 ?_ (by decide +kernel) (fun _ => rfl) rfl .pull _ !![1, 0; 0, -1] (by decide +kernel)
      ?_ ?_ f
    · intro j w; fin_cases j <;> rfl
    · intro m i
      fin_cases i <;> simp [even2, d1q2, Matrix.mulVec, dotProduct, Fin.sum_univ_two]
    · intro m i l h
      fin_cases i <;> fin_cases l <;> simp_all [even2, d1q2, Matrix.mulVec, dotProduct, Fin.sum_univ_two]
  · exact ⟨show (0 : Fin 2) ≠ 1 by decide, rfl, rfl, rfl⟩
  · exact ⟨rfl, rfl, rfl, rfl⟩
  · intro c x hx c' x' hx' hpos _ j
    show G (flipCell grid7.N (fun _ => true) (globalPos (first grid7one c') grid7one.w x'))
      (Equiv.swap 0 1 (Equiv.swap 0 1 j)) = G (globalPos (first grid7 c) grid7.w x) j
    rw [Equiv.swap_apply_self, hpos]
    congr 1
    funext i
    simp [flipCell]

/-- Seven cells between two walls with the same label, with bounce-back and an imposed value. -/
def bowl : WallData ℚ 1 sten2 where
  elems := []
  els := []
  dico := fun _ => some [(0, .bounceBack)]
  ψ := fun _ t x _ => t + x 0 * (7 - x 0)

theorem bowl_wf : bowl.WF (fun _ _ => 0) where
  sten := pipe_wf.sten
  sound := by intro e he; simp [bowl] at he
  labels := by intro e he; simp [bowl] at he
  dict := by intro l ms h; simp only [bowl] at h; cases h; simp
  no999 := by simp [bowl]
  noFace := by intro j side; decide

theorem bowl_mirrored : MirrorData bowl bowl grid7.N grid7.w (fun _ => 0) 1 (fun _ _ => 0) (fun _ => true)
    (Equiv.swap 0 1) where
  elems := .nil
  els := rfl
  dico := rfl
  values := by
    intro label t x j
    have hm : (boxGrid grid7.N grid7.w (fun _ => (0 : ℚ)) 1 (fun _ _ => 0) sten2).mirrorPoint
        (fun _ => true) x 0 = 7 - x 0 := by
      have : (grid7.N 0 : ℚ) = 7 := by norm_num [grid7]
      simp [Domain.Grid.mirrorPoint, boxGrid, this]
    simp only [bowl, hm]
    ring

/-- The domain of a process and the entries of its boundary methods. -/
def bowlData (g : Grid 1) (c : Proc g) : Option (Domain.State ℚ 1 2 × List (Method 1 × List (Entry ℚ 1 2))) := do
  let st ← Domain.build (procGrid g (fun _ => 0) 1 (fun _ _ => 0) sten2 c) bowl.elems
  let I ← instances sten2 (procGrid g (fun _ => (0 : ℚ)) 1 (fun _ _ => 0) sten2 c).total st.link
    (listOfLabels (procGrid g (fun _ => (0 : ℚ)) 1 (fun _ _ => 0) sten2 c) bowl.els) bowl.dico
  return (st, I)

theorem bowl_onGrid (g : Grid 1) (hw : ∀ k j, |sten2.uvel k j| ≤ g.w j) (c : Proc g) {st I}
    (h : bowlData g c = some (st, I)) : OnGrid bowl (procGrid g (fun _ => 0) 1 (fun _ _ => 0) sten2 c) st I := by
  unfold bowlData at h
  simp only [Option.bind_eq_bind, Option.bind_eq_some_iff, Option.pure_def, Option.some.injEq,
    Prod.mk.injEq] at h
  obtain ⟨st', h1, I', h2, rfl, rfl⟩ := h
  exact ⟨procGrid_wf _ _ _ one_pos _ _ hw c, rfl, h1, h2⟩

/-- The setup of a process. -/
def bowlSetup (c : Proc grid7) : Setup ℚ 2 1 0 1 :=
  { ring even2 sten2.vel .base grid7 c with
    bc := fun t A => match bowlData grid7 c with
      | none => A
      | some p => toArr (boundaryCondition sten2
          (withValues sten2 (procGrid grid7 (fun _ => 0) 1 (fun _ _ => 0) sten2 c) bowl.ψ p.2 t) (toDist A)) }

theorem bowl_fluidRun : FluidRun bowl grid7 (fun _ => 0) 1 (fun _ _ => 0) even2 .base bowlSetup := by
  have hs : ∀ c, (bowlData grid7 c).isSome := by decide +kernel
  have h := ring_uniform even2 sten2.vel .base grid7
  refine ⟨⟨(large_iff grid7).2 (by decide), fun c => ?_, fun c x hx k => Or.inr fun e he => ?_⟩, h.scheme, h.vel, h.algo,
    fun c hc => ?_, h.nodup, h.loops, fun c h => absurd h.2.2 (by decide)⟩
  · obtain ⟨⟨st, I⟩, hp⟩ := Option.isSome_iff_exists.1 (hs c)
    exact ⟨st, I, bowl_onGrid grid7 (by decide) c hp, fun t A => by simp only [bowlSetup, hp]⟩
  · simp [bowl] at he
  · have : (bowlSetup c).cfg.checkFluid = false := rfl
    rw [this] at hc
    exact absurd hc (by decide)

/-- A case for `C86_symmetric`: symmetric populations in the bowl on two processes. -/
example (k : Nat) (G : Arr ℚ 2 1) (hG : ∀ y j, G (flipCell grid7.N (fun _ => true) y) (Equiv.swap 0 1 j) = G y j) :
    ∃ σ, PRun grid7 bowlSetup (fun c => startWith 2 0 1 fun x => G (globalPos (first grid7 c) grid7.w x)) k σ ∧
    ∀ c x, Owned (size grid7 c) grid7.w x → ∀ c' x', Owned (size grid7 c') grid7.w x' →
      globalPos (first grid7 c') grid7.w x' = flipCell grid7.N (fun _ => true) (globalPos (first grid7 c) grid7.w x) →
      ∀ j, (σ c').arr x' (Equiv.swap 0 1 j) = (σ c).arr x j := by
  have h : ∀ c i, grid7.w i ≤ size grid7 c i := (large_iff grid7).2 (by decide)
  obtain ⟨σ, hσ⟩ := C42_run_exists (by decide) grid7 h bowlSetup
    (fun c => startWith 2 0 1 fun x => G (globalPos (first grid7 c) grid7.w x)) k
  have hd : (bowlData grid7one fun i => ⟨0, grid7one.hp i⟩).map (fun p =>
      (List.range 7).map (fun i : Nat => fluidMap grid7.w p.1 fun _ => (i : Int))) =
      some [true, true, true, true, true, true, true] := by decide +kernel
  have hs' : ∀ c, (bowlData grid7one c).isSome := by decide +kernel
  obtain ⟨⟨ST, J⟩, hp⟩ := Option.isSome_iff_exists.1 (hs' fun i => ⟨0, grid7one.hp i⟩)
  have hJ := bowl_onGrid grid7one (by decide) _ hp
  have he : procGrid grid7one (fun _ => (0 : ℚ)) 1 (fun _ _ => 0) sten2
      (fun i => ⟨0, grid7one.hp i⟩) = boxGrid grid7.N grid7.w (fun _ => 0) 1 (fun _ _ => 0) sten2 := by
    have e1 : first grid7one (fun i => ⟨0, grid7one.hp i⟩) = fun _ => 0 := by
      funext i; revert i; decide +kernel
    have e2 : size grid7one (fun i => ⟨0, grid7one.hp i⟩) = fun _ => 7 := by
      funext i; revert i; decide +kernel
    unfold procGrid boxGrid
    simp only [e1, e2]
    rfl
  rw [he] at hJ
  have hone : ∀ label ms, bowl.dico label = some ms → ∀ p ∈ ms, OneCell p.2 := by
    intro l ms hl p hp
    simp only [bowl] at hl
    cases hl
    rw [List.mem_singleton.1 hp]
    trivial
  have hmeth : AllMethods bowl := by
    intro l ms hl j
    have hj : sten2.scheme j = 0 := by revert j; decide
    simp only [bowl] at hl
    cases hl
    rw [hj]
    simp
  refine ⟨σ, hσ, fun c x hx c' x' hx' hpos j => ?_⟩
  refine C86_symmetric (by decide) bowl (fun _ => 0) 1 (fun _ _ => 0) (fun _ => true) bowl_wf (fun _ _ _ => rfl) grid7
    _ _ sten2_mirror bowl_mirrored ST J hJ (fun t => hJ.free bowl_wf hone t) ?_ hmeth
    (oneCell_reads bowl _ _ _ _ _ bowl_wf ST J hJ (hJ.oneCell bowl_wf hone)) even2 (by decide) .base ?_ bowlSetup
    bowl_fluidRun _ (fun c => ?_) ?_ k σ hσ c x hx c' x' hx' hpos ?_ j
  · refine allLinks_closed bowl _ _ _ _ _ bowl_wf ST J hJ ?_ ?_ ?_ ?_
    · intro j side; decide
    · intro l hl; simp [bowl] at hl
    · intro e he; simp [bowl] at he
    · intro c hc hf e he; simp [bowl] at he
  · intro f
    refine C81_collision even2 ?_ (by decide +kernel) (fun _ => rfl) rfl .base _ !![1, 0; 0, -1] (by decide +kernel)
      ?_ ?_ f
    · intro j w; fin_cases j <;> rfl
    · intro m i
      fin_cases i <;> simp [even2, d1q2, Matrix.mulVec, dotProduct, Fin.sum_univ_two]
    · intro m i l h
      fin_cases i <;> fin_cases l <;> simp_all [even2, d1q2, Matrix.mulVec, dotProduct, Fin.sum_univ_two]
  · exact ⟨show (0 : Fin 2) ≠ 1 by decide, rfl, rfl, rfl⟩
  · intro c x hx c' x' hx' hpos _ j
    show G (globalPos (first grid7 c') grid7.w x') (Equiv.swap 0 1 j) = G (globalPos (first grid7 c) grid7.w x) j
    rw [hpos, hG]
  · rw [hp] at hd
    have hb : (List.range 7).map (fun i : Nat => fluidMap grid7.w ST fun _ => (i : Int)) =
        [true, true, true, true, true, true, true] := Option.some.inj hd
    have hall : ∀ i : Nat, i < 7 → fluidMap grid7.w ST (fun _ => (i : Int)) = true := by
      intro i hi
      have hb' : ∀ b ∈ (List.range 7).map (fun i : Nat => fluidMap grid7.w ST fun _ => (i : Int)), b = true := by
        rw [hb]; simp
      exact hb' _ (List.mem_map.2 ⟨i, List.mem_range.2 hi, rfl⟩)
    have hr : ∃ i : Nat, i < 7 ∧ globalPos (first grid7 c) grid7.w x = fun _ => (i : Int) := by
      have h1 := hx 0
      have h2 : ∀ c : Proc grid7, first grid7 c 0 + size grid7 c 0 ≤ 7 := by decide +kernel
      have h3 := h2 c
      refine ⟨(globalPos (first grid7 c) grid7.w x 0).toNat, ?_, ?_⟩
      · unfold globalPos; omega
      · funext i
        obtain rfl : i = 0 := Subsingleton.elim _ _
        unfold globalPos; omega
    obtain ⟨i, hi, e⟩ := hr
    rw [e]
    exact hall i hi

end Pylbm.Sim
