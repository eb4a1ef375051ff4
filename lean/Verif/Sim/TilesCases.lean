import Verif.Sim.Tiles
import Verif.Sim.SublatticeCases
/-!
# C120: D2Q9 on a box and on a box three times as long, and on one row of cells
-/

set_option linter.unusedSectionVars false

namespace Pylbm.Sim
open Scheme Halo SchemeSpec Matrix HaloSpec Mpi Boundary

/-- 18 × 8 cells on 3 × 2 processes. -/
def gridT : Grid 2 := ⟨![18, 8], ![3, 2], fun _ => 1, by decide⟩

/-- One row of 6 cells. -/
def gridR : Grid 2 := ⟨![6, 1], ![1, 1], fun _ => 1, by decide⟩

theorem gridT_large : ∀ c i, gridT.w i ≤ size gridT c i := (large_iff gridT).2 (by decide)

theorem gridR_large : ∀ c i, gridR.w i ≤ size gridR c i := (large_iff gridR).2 (by decide)

/-- The initial values `A` of a box of `N` cells, copied. -/
def copies (N : Fin 2 → Nat) (A : Arr ℚ 9 2) (g : Grid 2) (c : Proc g) : Simu ℚ 9 0 2 :=
  startWith 9 0 2 fun x => A fun i => globalPos (first g c) g.w x i % N i

theorem copies_same (A : Arr ℚ 9 2) (g g' : Grid 2) (c : Proc g) (x : Cell 2) (c' : Proc g') (x' : Cell 2)
    (h : ∀ i, globalPos (first g c) g.w x i = globalPos (first g' c') g'.w x' i % g.N i) :
    (copies g.N A g c).arr x = (copies g.N A g' c').arr x' := by
  show A (fun i => globalPos (first g c) g.w x i % g.N i) = A fun i => globalPos (first g' c') g'.w x' i % g.N i
  congr 1
  funext i
  rw [h, Int.emod_emod]

/-- A case for `C120_tiles`: the equations of Navier-Stokes by D2Q9, three copies of a box of 6 × 8 cells. -/
example (r : Fin 9 → ℚ) (β : ℚ) (alg : Algo) (A : Arr ℚ 9 2) (k : Nat) : ∃ σ σ',
    PRun gridI (torus (free9 r β) sten9.vel alg gridI) (copies gridI.N A gridI) k σ ∧
    PRun gridT (torus (free9 r β) sten9.vel alg gridT) (copies gridI.N A gridT) k σ' ∧
    ∀ c x c' x', Owned (size gridI c) gridI.w x → Owned (size gridT c') gridT.w x' →
      (∀ i, globalPos (first gridI c) gridI.w x i = globalPos (first gridT c') gridT.w x' i % gridI.N i) →
      (σ c).arr x = (σ' c').arr x' := by
  obtain ⟨σ, hσ⟩ := C42_run_exists (by decide) gridI gridI_large (torus (free9 r β) sten9.vel alg gridI)
    (copies gridI.N A gridI) k
  obtain ⟨σ', hσ'⟩ := C42_run_exists (by decide) gridT gridT_large (torus (free9 r β) sten9.vel alg gridT)
    (copies gridI.N A gridT) k
  refine ⟨σ, σ', hσ, hσ', fun c x c' x' hx hx' he => ?_⟩
  exact C120_tiles (by decide) gridI gridT (by decide) gridI_large gridT_large (free9 r β) (free9_front r β) sten9.vel alg
    (by decide) (by decide) _ (torus_uniform _ _ _ _) (fun _ _ _ => rfl) _ (torus_uniform _ _ _ _) (fun _ _ _ => rfl) _
    (fun c => torus_start _ _ _ _ _ _) _ (fun c => torus_start _ _ _ _ _ _)
    (fun c x c' x' _ _ h => copies_same A gridI gridT c x c' x' h) k σ hσ σ' hσ' c x c' x' hx hx' he

/-- Initial values which do not depend on y: the values of the box of 6 × 8 cells are those of one row, after any number of
steps. -/
example (r : Fin 9 → ℚ) (β : ℚ) (alg : Algo) (A : Arr ℚ 9 2) (k : Nat) : ∃ σ σ',
    PRun gridR (torus (free9 r β) sten9.vel alg gridR) (copies gridR.N A gridR) k σ ∧
    PRun gridI (torus (free9 r β) sten9.vel alg gridI) (copies gridR.N A gridI) k σ' ∧
    ∀ c x c' x', Owned (size gridR c) gridR.w x → Owned (size gridI c') gridI.w x' →
      globalPos (first gridR c) gridR.w x 0 = globalPos (first gridI c') gridI.w x' 0 → (σ c).arr x = (σ' c').arr x' := by
  obtain ⟨σ, hσ⟩ := C42_run_exists (by decide) gridR gridR_large (torus (free9 r β) sten9.vel alg gridR)
    (copies gridR.N A gridR) k
  obtain ⟨σ', hσ'⟩ := C42_run_exists (by decide) gridI gridI_large (torus (free9 r β) sten9.vel alg gridI)
    (copies gridR.N A gridI) k
  refine ⟨σ, σ', hσ, hσ', fun c x c' x' hx hx' he => ?_⟩
  refine C120_tiles (by decide) gridR gridI (by decide) gridR_large gridI_large (free9 r β) (free9_front r β) sten9.vel alg
    (by decide) (by decide) _ (torus_uniform _ _ _ _) (fun _ _ _ => rfl) _ (torus_uniform _ _ _ _) (fun _ _ _ => rfl) _
    (fun c => torus_start _ _ _ _ _ _) _ (fun c => torus_start _ _ _ _ _ _)
    (fun c x c' x' _ _ h => copies_same A gridR gridI c x c' x' h) k σ hσ σ' hσ' c x c' x' hx hx' fun i => ?_
  have h1 := (mem_box _ _).1 (owned_box gridR hx)
  have h2 := (mem_box _ _).1 (owned_box gridI hx')
  fin_cases i
  · have h3 := h2 0
    show globalPos (first gridR c) gridR.w x 0 = globalPos (first gridI c') gridI.w x' 0 % 6
    have h4 : globalPos (first gridI c') gridI.w x' 0 < 6 := h3.2
    rw [he, Int.emod_eq_of_lt h3.1 h4]
  · have h3 := h1 1
    have h4 : globalPos (first gridR c) gridR.w x 1 < 1 := h3.2
    show globalPos (first gridR c) gridR.w x 1 = globalPos (first gridI c') gridI.w x' 1 % 1
    rw [Int.emod_one]
    omega

end Pylbm.Sim
