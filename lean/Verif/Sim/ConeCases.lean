import Verif.Sim.Cone
import Verif.Sim.Fluid
/-!
# Cases for C88: the pipe of C42 with other values imposed at one end
-/
set_option linter.unusedSectionVars false
namespace Pylbm.Sim
open Scheme Halo SchemeSpec Matrix HaloSpec Mpi Boundary

/-- The pipe on one process, with other imposed values. -/
def pipeOther (ψ' : Int → ℚ → (Fin 1 → ℚ) → Fin 2 → ℚ) (c : Proc grid7one) : Setup ℚ 2 1 0 1 :=
  { pipeSetup grid7one .numpy .pull c with
    bc := fun t A => match pipeData grid7one c with
      | none => A
      | some p => toArr (boundaryCondition sten2
          (withValues sten2 (procGrid grid7one (fun _ => 0) 1 pipeLab sten2 c) ψ' p.2 t) (toDist A)) }

theorem pipeOther_run (ψ' : Int → ℚ → (Fin 1 → ℚ) → Fin 2 → ℚ) :
    FluidRun (otherValues pipe ψ') grid7one (fun _ => 0) 1 pipeLab d1q2 .pull (pipeOther ψ') ∧
    Uniform grid7one d1q2 sten2.vel .pull (pipeOther ψ') := by
  have hs' : ∀ c, (pipeData grid7one c).isSome := by decide +kernel
  have h := pipe_case.2.1
  have hu := pipe_uniform grid7one .numpy .pull
  refine ⟨⟨⟨h.walls.large, fun c => ?_, h.walls.away⟩, h.scheme, h.vel, h.algo, h.fluid, h.nodup, h.loops, h.split⟩,
    ⟨hu.scheme, hu.vel, hu.algo, hu.all, hu.nodup, hu.loops, hu.split⟩⟩
  obtain ⟨⟨st, I⟩, hp⟩ := Option.isSome_iff_exists.1 (hs' c)
  exact ⟨st, I, otherValues_onGrid (pipe_onGrid grid7one (by decide) c hp) ψ', fun t A => by simp only [pipeOther, hp]; rfl⟩

/-- The initial state of a process of the parallel run, with the values `G` of the box. -/
def startC (G : Arr ℚ 2 1) (c : Proc grid7) := startWith 2 0 1 fun x => G (globalPos (first grid7 c) grid7.w x)

/-- The initial state of the run on one process. -/
def startN (G : Arr ℚ 2 1) (c : Proc grid7one) :=
  { (startWith 2 0 1 fun x => G (globalPos (first grid7one c) grid7one.w x)) with Fnew := 0 }

/-- The labels of the links of the pipe. -/
theorem pipe_flags {ST : Domain.State ℚ 1 2}
    (h : Domain.build (boxGrid grid7.N grid7.w (fun _ => 0) 1 pipeLab sten2) pipe.elems = some ST) :
    ∀ y ∈ ([0, 3, 4, 5] : List Int), ∀ k : Fin 2, (ST.link k (fun i => (fun _ => (y : Int)) i + grid7.w i)).flag =
      if y = 0 then (if sten2.uvel k 0 = 1 then 5 else 0) else 999 := by
  have key : (Domain.build (boxGrid grid7.N grid7.w (fun _ => (0 : ℚ)) 1 pipeLab sten2) pipe.elems).map (fun ST =>
      decide (∀ y ∈ ([0, 3, 4, 5] : List Int), ∀ k : Fin 2, (ST.link k (fun i => (fun _ => (y : Int)) i + grid7.w i)).flag =
        if y = 0 then (if sten2.uvel k 0 = 1 then 5 else 0) else 999)) = some true := by decide +kernel
  rw [h] at key
  simpa using key

/-- `C88_separated`: the cell 0 is separated from the others by the plug; the values at the other end and the initial
values beyond the plug are arbitrary. -/
example (k : Nat) (G G' : Arr ℚ 2 1) (hG : G (fun _ => 0) = G' (fun _ => 0)) (v : ℚ → Fin 2 → ℚ) : ∃ σ σ',
    PRun grid7 (pipeFluid grid7 .c .pull) (startC G) k σ ∧
    PRun grid7one (pipeOther fun l t x => if l = 1 then v t else pipe.ψ l t x)
      (startN G') k σ' ∧
    ∀ c x, Owned (size grid7 c) grid7.w x → ∀ c' x', Owned (size grid7one c') grid7one.w x' →
      globalPos (first grid7 c) grid7.w x = globalPos (first grid7one c') grid7one.w x' →
      globalPos (first grid7 c) grid7.w x = (fun _ => 0) → (σ c).arr x = (σ' c').arr x' := by
  obtain ⟨hQ, _, hmeth, ST, J, hJ, hlinks, hreads, hfree, hmap⟩ := pipe_case
  have h : ∀ c i, grid7.w i ≤ size grid7 c i := (large_iff grid7).2 (by decide)
  have h' : ∀ c i, grid7one.w i ≤ size grid7one c i := (large_iff grid7one).2 (by decide)
  obtain ⟨σ, hσ⟩ := C42_run_exists (by decide) grid7 h (pipeFluid grid7 .c .pull)
    (startC G) k
  obtain ⟨σ', hσ'⟩ := C42_run_exists (by decide) grid7one h' (pipeOther fun l t x => if l = 1 then v t else pipe.ψ l t x)
    (startN G') k
  have hone : ∀ label ms, pipe.dico label = some ms → ∀ p ∈ ms, OneCell p.2 := by
    intro l ms hl p hp
    simp only [pipe] at hl
    split_ifs at hl <;> cases hl <;> rw [List.mem_singleton.1 hp] <;> trivial
  have hone' := hJ.oneCell pipe_wf hone
  have hfl := fun k => pipe_flags hJ.built 0 (by simp) k
  have hA : Part pipe grid7.N grid7.w (fun _ => 0) 1 pipeLab ST J (fun y => y = fun _ => 0) := by
    refine ⟨?_, ?_, ?_, ?_⟩
    · rintro y rfl; rw [mem_box]; intro i; exact ⟨le_rfl, by revert i; decide⟩
    · rintro y rfl
      have := congrArg (fun l => l.head?) hmap
      exact Option.some.inj this
    · rintro y rfl k hk
      rw [hfl k] at hk
      exact absurd hk (by revert k; decide)
    · rintro y rfl t q hq hsrc p hp
      rw [oneCell_source hone' hq hp, hsrc]
      funext i; simp [wrap]
  refine ⟨σ, σ', hσ, hσ', fun c x hx c' x' hx' he hx0 => ?_⟩
  refine C88_separated (by decide) pipe (fun _ => 0) 1 pipeLab pipe_wf grid7 grid7one rfl rfl ST J hJ hfree hlinks hmeth
    hreads d1q2 (by decide) .pull _ hQ _ _ (pipeOther_run _).1 (fun c => startC G c) (fun c => ⟨show (0 : Fin 2) ≠ 1 by decide, rfl, rfl, rfl⟩)
    (fun c => startN G' c) (fun c => ⟨rfl, rfl, rfl, rfl⟩) G G' (fun _ _ _ _ => rfl) (fun _ _ _ _ => rfl) k σ hσ σ' hσ' _ hA ?_ ?_
    c x hx c' x' hx' he hx0
  · rintro y rfl; exact hG
  · rintro m _ y rfl
    refine sameValues_of_flags pipe_wf hJ _ _ _ fun k => ?_
    rw [hfl k]
    split_ifs <;> first | rfl | omega

/-- `C88_speed`: two steps do not bring to the cell 4 anything from the cell 0 or from the left end of the pipe. -/
example (G G' : Arr ℚ 2 1) (hG : ∀ y : Cell 1, 2 ≤ y 0 → G y = G' y) (v : ℚ → Fin 2 → ℚ) : ∃ σ σ',
    PRun grid7 (pipeSetup grid7 .c .pull) (startC G) 2 σ ∧
    PRun grid7one (pipeOther fun l t x => if l = 0 then v t else pipe.ψ l t x)
      (startN G') 2 σ' ∧
    ∀ c x, Owned (size grid7 c) grid7.w x → ∀ c' x', Owned (size grid7one c') grid7one.w x' →
      globalPos (first grid7 c) grid7.w x = globalPos (first grid7one c') grid7one.w x' →
      globalPos (first grid7 c) grid7.w x = (fun _ => 4) → (σ c).arr x = (σ' c').arr x' := by
  obtain ⟨_, _, _, ST, J, hJ, _, _, hfree, _⟩ := pipe_case
  have h : ∀ c i, grid7.w i ≤ size grid7 c i := (large_iff grid7).2 (by decide)
  have h' : ∀ c i, grid7one.w i ≤ size grid7one c i := (large_iff grid7one).2 (by decide)
  have hs : ∀ c, (pipeData grid7 c).isSome := by decide +kernel
  obtain ⟨σ, hσ⟩ := C42_run_exists (by decide) grid7 h (pipeSetup grid7 .c .pull)
    (startC G) 2
  obtain ⟨σ', hσ'⟩ := C42_run_exists (by decide) grid7one h' (pipeOther fun l t x => if l = 0 then v t else pipe.ψ l t x)
    (startN G') 2
  have hin : ∀ (r : Nat) (z : Cell 1), r ≤ 2 → Within grid7.N (fun i => r * grid7.w i) (fun _ => 4) z →
      4 - (r : Int) ≤ z 0 ∧ z 0 ≤ 4 + r := by
    rintro r z hr ⟨e, he, rfl⟩
    have h1 := abs_le.1 (he 0)
    have hw : grid7.w 0 = 1 := rfl
    have hN : grid7.N 0 = 7 := rfl
    simp only [hw, mul_one] at h1
    simp only [wrap, hN]
    rw [Int.emod_eq_of_lt (by omega) (by push_cast; omega)]
    omega
  refine ⟨σ, σ', hσ, hσ', fun c x hx c' x' hx' he hx0 => ?_⟩
  refine C88_speed (by decide) pipe (fun _ => 0) 1 pipeLab pipe_wf grid7 grid7one rfl rfl ST J hJ hfree
    d1q2 (by decide) .pull _ (pipe_uniform _ _ _)
    (pipe_wallRun grid7 h (by decide) hs _ _ (by decide +kernel) (by decide +kernel)) _ _ (pipeOther_run _).2
    (pipeOther_run _).1.walls (fun c => startC G c) (fun c => ⟨show (0 : Fin 2) ≠ 1 by decide, rfl, rfl, rfl⟩)
    (fun c => startN G' c) (fun c => ⟨rfl, rfl, rfl, rfl⟩) G G' (fun _ _ _ => rfl) (fun _ _ _ => rfl) 2 σ hσ σ' hσ'
    c x hx c' x' hx' he ?_ ?_
  · intro z hz
    rw [hx0] at hz
    exact hG z (by have := hin 2 z le_rfl hz; omega)
  · intro m hm z hz
    rw [hx0] at hz
    have h2 := hin (2 - 1 - m) z (by omega) hz
    refine sameValues_of_flags pipe_wf hJ _ _ _ fun k => ?_
    have hz' : z = fun _ => z 0 := by funext i; rw [Subsingleton.elim i 0]
    have h3 := pipe_flags hJ.built (z 0) (by
      have : z 0 = 3 ∨ z 0 = 4 ∨ z 0 = 5 := by omega
      rcases this with h | h | h <;> rw [h] <;> decide) k
    rw [← hz'] at h3
    rw [h3]
    split_ifs with h4 <;> first | rfl | omega

end Pylbm.Sim
