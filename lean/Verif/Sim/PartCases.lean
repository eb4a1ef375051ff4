import Verif.Sim.Part
import Verif.Sim.ConeCases
/-!
# A case for C103: the pipe of C42, alone or with a scalar carried in it
-/
set_option linter.unusedSectionVars false
namespace Pylbm.Sim
open Scheme hiding Entry Part
open Halo SchemeSpec Matrix HaloSpec Mpi Boundary

/-- The scheme with the velocities 2, −2 and number 0, and the scheme with the velocities 1, −1 and number 1. -/
abbrev sten4 : Sten 1 where
  nu := 4
  ns := 4
  uvel := ![fun _ => 2, fun _ => -2, fun _ => 1, fun _ => -1]
  usym := ![1, 0, 3, 2]
  ux := id
  scheme := ![0, 0, 1, 1]
  sym := ![1, 0, 3, 2]

theorem sten4_wf : sten4.WF :=
  ⟨by unfold Function.Injective; decide +kernel, by decide +kernel, by decide +kernel, by decide +kernel, by decide +kernel⟩

/-- The place of the distribution functions of the pipe. -/
abbrev last2 : Fin sten2.ns ↪ Fin sten4.ns := ⟨fun k => (![2, 3] : Fin 2 → Fin 4) k, by unfold Function.Injective; decide⟩

/-- The place of its moments: the conserved moments are in front. -/
abbrev odd2 : Fin sten2.ns ↪ Fin sten4.ns := ⟨fun k => (![1, 3] : Fin 2 → Fin 4) k, by unfold Function.Injective; decide⟩

theorem sten4_part : PartSten sten4 sten2 last2 (· + 1) :=
  ⟨by decide +kernel, by decide +kernel, fun a b h => by simpa using h⟩

/-- A scalar carried by `d1q2`: its equilibrium is the product of the two conserved moments. -/
def carried : Kernel ℚ 4 2 0 where
  M := !![1, 1, 0, 0; 0, 0, 1, 1; 2, -2, 0, 0; 0, 0, 1, -1]
  invM := !![1 / 2, 0, 1 / 4, 0; 1 / 2, 0, -1 / 4, 0; 0, 1 / 2, 0, 1 / 2; 0, 1 / 2, 0, -1 / 2]
  Tu := fun _ => 1
  Tmu := fun _ => 1
  EQ := ![fun w => w 0, fun w => w 1, fun w => w 0 * w 1, fun w => w 1 / 2]
  s := ![fun _ => 0, fun _ => 0, fun w => 1 + w 1, fun _ => 3 / 2]
  consm := ![0, 1]
  relVel := none
  source := ![none, none, some fun m => m 0 * m 1, none]
  dt := 1

theorem carried_part : PartScheme carried d1q2 odd2 last2 second1 := by
  have R : ∀ {x y : ℚ}, decide (x = y) = true → x = y := of_decide_eq_true
  have q : ∀ {b : Fin 4} {P : Prop} (p : Fin sten2.ns ↪ Fin sten4.ns), (b ∉ Finset.univ.map p → P) → b ∉ Set.range p → P := by
    intro b P p h hb
    refine h ?_
    intro hm
    obtain ⟨a, -, ha⟩ := Finset.mem_map.1 hm
    exact hb ⟨a, ha⟩
  constructor
  · constructor
    · intro (a : Fin 2) (b : Fin 2); fin_cases a <;> fin_cases b <;> exact R (by decide +kernel)
    · exact fun a b => q _ (by revert a b; decide +kernel)
    · intro (a : Fin 2) (b : Fin 2); fin_cases a <;> fin_cases b <;> exact R (by decide +kernel)
    · exact fun a b => q _ (by revert a b; decide +kernel)
    · intro u (a : Fin 2) (b : Fin 2); show (1 : Matrix (Fin 4) (Fin 4) ℚ) _ _ = (1 : Matrix (Fin 2) (Fin 2) ℚ) _ _
      fin_cases a <;> fin_cases b <;> exact R (by decide +kernel)
    · intro u a b; show _ → (1 : Matrix (Fin 4) (Fin 4) ℚ) _ _ = 0; exact q _ (by revert a b; decide +kernel)
    · intro u (a : Fin 2) (b : Fin 2); show (1 : Matrix (Fin 4) (Fin 4) ℚ) _ _ = (1 : Matrix (Fin 2) (Fin 2) ℚ) _ _
      fin_cases a <;> fin_cases b <;> exact R (by decide +kernel)
    · intro u a b; show _ → (1 : Matrix (Fin 4) (Fin 4) ℚ) _ _ = 0; exact q _ (by revert a b; decide +kernel)
    · intro (a : Fin 2) w; fin_cases a <;> rfl
    · intro (a : Fin 2) w; fin_cases a <;> rfl
    · decide
  · rfl
  · exact ⟨fun _ => rfl, fun _ => rfl⟩
  · intro v v' h; cases h
  · intro (a : Fin 2); fin_cases a <;> exact ⟨fun _ => rfl, fun _ => rfl⟩
  · intro a r r' h h'; cases h'

/-- The source of the scalar uses two moments without sources. -/
theorem carried_triangular : Triangular carried.source := by
  intro (i : Fin 4) r h m m' hm
  fin_cases i <;> cases h
  have e0 := hm (0 : Fin 4) (Or.inr rfl)
  have e1 := hm (1 : Fin 4) (Or.inr rfl)
  show m (0 : Fin 4) * m (1 : Fin 4) = m' (0 : Fin 4) * m' (1 : Fin 4)
  rw [e0, e1]

/-- The pipe with the scalar, which bounces back on all the walls. -/
def pipe4 : WallData ℚ 1 sten4 where
  elems := pipe.elems
  els := pipe.els
  dico := fun l => if l = 5 then some [(0, .bounceBack), (1, .bounceBack)] else some [(1, .antiBounceBack), (0, .bounceBack)]
  ψ := fun l t x => ![7, 8, pipe.ψ l t x 0, pipe.ψ l t x 1]

theorem pipe4_wf : pipe4.WF pipeLab where
  sten := sten4_wf
  sound := pipe_wf.sound
  labels := pipe_wf.labels
  dict := by intro l ms h; simp only [pipe4] at h; split_ifs at h <;> cases h <;> simp
  no999 := pipe_wf.no999
  noFace := pipe_wf.noFace

theorem pipe4_part : PartWalls last2 (· + 1) pipe4 pipe where
  elems := rfl
  els := rfl
  dico := by
    intro l i m
    simp only [pipe4, pipe]
    split_ifs <;> simp
  values := by
    intro l t x (j : Fin 2)
    fin_cases j <;> rfl

/-- The seven cells on one process, with a halo of two cells. -/
def grid7wide : Grid 1 := ⟨fun _ => 7, fun _ => 1, fun _ => 2, by decide⟩

/-- The domain and the entries of the boundary methods. -/
def pipeData4 (c : Proc grid7wide) : Option (Domain.State ℚ 1 4 × List (Method 1 × List (Entry ℚ 1 4))) := do
  let st ← Domain.build (procGrid grid7wide (fun _ => 0) 1 pipeLab sten4 c) pipe4.elems
  let I ← instances sten4 (procGrid grid7wide (fun _ => (0 : ℚ)) 1 pipeLab sten4 c).total st.link
    (listOfLabels (procGrid grid7wide (fun _ => (0 : ℚ)) 1 pipeLab sten4 c) pipe4.els) pipe4.dico
  return (st, I)

theorem pipe4_onGrid (c : Proc grid7wide) {st I} (h : pipeData4 c = some (st, I)) :
    OnGrid pipe4 (procGrid grid7wide (fun _ => 0) 1 pipeLab sten4 c) st I := by
  unfold pipeData4 at h
  simp only [Option.bind_eq_bind, Option.bind_eq_some_iff, Option.pure_def, Option.some.injEq,
    Prod.mk.injEq] at h
  obtain ⟨st', h1, I', h2, rfl, rfl⟩ := h
  exact ⟨procGrid_wf _ _ _ (by norm_num) _ _ (by decide) c, rfl, h1, h2⟩

/-- The setup of the pipe with the scalar. -/
def pipeSetup4 (c : Proc grid7wide) : Setup ℚ 4 2 0 1 :=
  { ring carried sten4.vel .pull grid7wide c with
    backend := .numpy
    bc := fun t A => match pipeData4 c with
      | none => A
      | some p => toArr (boundaryCondition sten4
          (withValues sten4 (procGrid grid7wide (fun _ => 0) 1 pipeLab sten4 c) pipe4.ψ p.2 t) (toDist A)) }

theorem pipe4_fluidRun : FluidRun pipe4 grid7wide (fun _ => 0) 1 pipeLab carried .pull pipeSetup4 := by
  have hs : ∀ c, (pipeData4 c).isSome := by decide +kernel
  have h := ring_uniform carried sten4.vel .pull grid7wide
  refine ⟨⟨(large_iff grid7wide).2 (by decide), fun c => ?_, fun c x hx k => Or.inl fun j => ?_⟩, h.scheme, h.vel, h.algo,
    fun c hc => ?_, h.nodup, h.loops, fun c => by simp [pipeSetup4]⟩
  · obtain ⟨⟨st, I⟩, hp⟩ := Option.isSome_iff_exists.1 (hs c)
    exact ⟨st, I, pipe4_onGrid c hp, fun t A => by simp only [pipeSetup4, hp]⟩
  · have h1 : ∀ (c : Proc grid7wide) (j : Fin 1), first grid7wide c j = 0 ∧ first grid7wide c j + size grid7wide c j = 7 := by
      decide +kernel
    refine ⟨fun h => absurd (h1 c j).1 h, fun h => absurd (h1 c j).2 h⟩
  · have : (pipeSetup4 c).cfg.checkFluid = false := rfl
    rw [this] at hc
    exact absurd hc (by decide)

theorem pipe4_case : AllMethods pipe4 ∧
    ∃ ST J, OnGrid pipe4 (boxGrid grid7wide.N grid7wide.w (fun _ => 0) 1 pipeLab sten4) ST J ∧
      AllLinks grid7wide.N grid7wide.w ST ∧ ReadsFluid pipe4 grid7wide.N grid7wide.w (fun _ => 0) 1 pipeLab ST J ∧
      (∀ t, Free sten4 (flat sten4 (withValues sten4 (boxGrid grid7wide.N grid7wide.w (fun _ => 0) 1 pipeLab sten4)
        pipe4.ψ J t))) ∧
      (List.range 7).map (fun i : Nat => fluidMap grid7wide.w ST fun _ => (i : Int)) =
        [true, false, true, true, true, true, true] ∧ J.map (fun q => q.2.length) = [2, 6] := by
  have hs' : ∀ c, (pipeData4 c).isSome := by decide +kernel
  refine ⟨?_, ?_⟩
  · intro l ms hl j
    have hj : sten4.scheme j = 0 ∨ sten4.scheme j = 1 := by revert j; decide
    simp only [pipe4] at hl
    split_ifs at hl <;> cases hl <;> rcases hj with hj | hj <;> rw [hj] <;> simp
  · have hd : (pipeData4 fun i => ⟨0, grid7wide.hp i⟩).map (fun p =>
        ((List.range 7).map (fun i : Nat => fluidMap grid7wide.w p.1 fun _ => (i : Int)), p.2.map fun q => q.2.length)) =
        some ([true, false, true, true, true, true, true], [2, 6]) := by decide +kernel
    obtain ⟨⟨st, I⟩, hp⟩ := Option.isSome_iff_exists.1 (hs' fun i => ⟨0, grid7wide.hp i⟩)
    rw [hp] at hd
    have ho := pipe4_onGrid _ hp
    have he : procGrid grid7wide (fun _ => (0 : ℚ)) 1 pipeLab sten4 (fun i => ⟨0, grid7wide.hp i⟩) =
        boxGrid grid7wide.N grid7wide.w (fun _ => 0) 1 pipeLab sten4 := by
      have e1 : first grid7wide (fun i => ⟨0, grid7wide.hp i⟩) = fun _ => 0 := by
        funext i; revert i; decide +kernel
      have e2 : size grid7wide (fun i => ⟨0, grid7wide.hp i⟩) = fun _ => 7 := by
        funext i; revert i; decide +kernel
      unfold procGrid boxGrid
      simp only [e1, e2]
      rfl
    rw [he] at ho
    have hone : ∀ label ms, pipe4.dico label = some ms → ∀ p ∈ ms, OneCell p.2 := by
      intro l ms hl p hp
      simp only [pipe4] at hl
      split_ifs at hl <;> cases hl <;> simp only [List.mem_cons, List.not_mem_nil, or_false] at hp <;>
        rcases hp with rfl | rfl <;> trivial
    refine ⟨st, I, ho, ?_, oneCell_reads pipe4 _ _ _ _ _ pipe4_wf st I ho (ho.oneCell pipe4_wf hone),
      fun t => ho.free pipe4_wf hone t, congrArg Prod.fst (Option.some.inj hd), congrArg Prod.snd (Option.some.inj hd)⟩
    refine allLinks_closed pipe4 _ _ _ _ _ pipe4_wf st I ho ?_ ?_ ?_ ?_
    · intro j side; cases side <;> simp [pipeLab]
    · intro l hl; simp only [pipe4, pipe, List.mem_singleton] at hl; subst hl; decide
    · intro e he c k _
      rw [List.mem_singleton.1 he]
      exact plug_sees _ _
    · intro c hc hf e he _
      rw [List.mem_singleton.1 he]
      have := Domain.C21_fluid_map _ ho.wf _ pipe4_wf.sound st ho.built c
      rw [hf] at this
      split_ifs at this with h1
      have h2 := h1.2
      by_contra hh
      rw [Bool.not_eq_false] at hh
      change DomainSpec.material [(plug.isFluid, plug.inside)] _ = true at h2
      simp only [DomainSpec.material, hh, List.any_nil, Bool.false_eq_true, if_false, if_true] at h2
      exact absurd h2 (by decide)

/-- The initial state of the run with the scalar. -/
def start4 (G : Arr ℚ 4 1) (c : Proc grid7wide) :=
  { (startWith 4 0 1 fun x => G (globalPos (first grid7wide c) grid7wide.w x)) with Fnew := 0 }

/-- A case for `C103_alone_partial`: the pipe alone on two processes with a halo of one cell, and with the scalar on one
process with a halo of two cells, for all initial values of the scalar. -/
example (k : Nat) (G : Arr ℚ 4 1) : ∃ σ σ₁ ST,
    Domain.build (boxGrid grid7wide.N grid7wide.w (fun _ => 0) 1 pipeLab sten4) pipe4.elems = some ST ∧
    PRun grid7wide pipeSetup4 (start4 G) k σ ∧
    PRun grid7 (pipeFluid grid7 .c .pull) (startC fun y => ![G y 2, G y 3]) k σ₁ ∧
    ∀ c x, Owned (size grid7wide c) grid7wide.w x → ∀ c₁ x₁, Owned (size grid7 c₁) grid7.w x₁ →
      globalPos (first grid7wide c) grid7wide.w x = globalPos (first grid7 c₁) grid7.w x₁ →
      fluidMap grid7wide.w ST (globalPos (first grid7wide c) grid7wide.w x) = true →
      (σ₁ c₁).arr x₁ 0 = (σ c).arr x 2 ∧ (σ₁ c₁).arr x₁ 1 = (σ c).arr x 3 ∧
      (d1q2.M *ᵥ (σ₁ c₁).arr x₁) 0 = (carried.M *ᵥ (σ c).arr x) 1 := by
  obtain ⟨hQ₁, _, _, ST₁, J₁, hJ₁, _⟩ := pipe_case
  obtain ⟨hmeth, ST, J, hJ, hlinks, hreads, hfree, _⟩ := pipe4_case
  obtain ⟨σ, hσ⟩ := C42_run_exists (by decide) grid7wide ((large_iff grid7wide).2 (by decide)) pipeSetup4 (start4 G) k
  obtain ⟨σ₁, hσ₁⟩ := C42_run_exists (by decide) grid7 ((large_iff grid7).2 (by decide)) (pipeFluid grid7 .c .pull)
    (startC fun y => ![G y 2, G y 3]) k
  refine ⟨σ, σ₁, ST, hJ.built, hσ, hσ₁, fun c x hx c₁ x₁ hx₁ he hf => ?_⟩
  obtain ⟨h1, h2, h3, h4⟩ := C103_alone_partial (by decide) last2 (· + 1) sten4_part pipe4 pipe (fun _ => 0) 1 pipeLab
    pipe4_wf pipe_wf pipe4_part grid7wide grid7 rfl ST J hJ ST₁ J₁ hJ₁ hfree hlinks hmeth hreads carried d1q2 odd2 second1
    carried_part (by decide) (by decide) .pull (Or.inl ⟨rfl, by intro j w; fin_cases j <;> rfl, carried_triangular, by intro i q h; cases h⟩)
    _ pipe4_fluidRun _ hQ₁ (fun c => start4 G c) (fun c => ⟨rfl, rfl, rfl, rfl⟩)
    (fun c => startC (fun y => ![G y 2, G y 3]) c) (fun c => ⟨show (0 : Fin 2) ≠ 1 by decide, rfl, rfl, rfl⟩) G
    (fun _ _ _ _ => rfl) (fun _ _ _ _ (j : Fin 2) => by fin_cases j <;> rfl) k σ hσ σ₁ hσ₁ c x hx c₁ x₁ hx₁ he hf
  exact ⟨h1 0, h1 1, h3 0⟩

end Pylbm.Sim
