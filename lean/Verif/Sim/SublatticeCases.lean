import Verif.Sim.Sublattice
import Verif.Sim.ImagesCases
/-!
# C115: D2Q9 and D2Q4
-/

set_option linter.unusedSectionVars false

namespace Pylbm.Sim
open Scheme Halo SchemeSpec Matrix HaloSpec Mpi Boundary

/-- D2Q9 for the equations of Navier-Stokes, without force. -/
def free9 (r : Fin 9 → ℚ) (β : ℚ) : Kernel ℚ 9 3 0 := { d2q9q r β 0 0 1 with source := fun _ => none }

theorem free9_eq (r : Fin 9 → ℚ) (β : ℚ) : ∀ j w, (free9 r β).EQ ((free9 r β).consm j) w = w j := by
  intro j w
  fin_cases j <;> simp [free9, d2q9q, d2q9, Matrix.mulVec, dotProduct, Fin.sum_univ_three, lin9, eq9, quad9]

theorem free9_front (r : Fin 9 → ℚ) (β : ℚ) : ∀ j, ((free9 r β).consm j : Nat) < 3 :=
  show ∀ j : Fin 3, ((![0, 1, 2] : Fin 3 → Fin 9) j : Nat) < 3 by decide

theorem gridI_large : ∀ c i, gridI.w i ≤ size gridI c i := (large_iff gridI).2 (by decide)

/-- A case for `C115_alternating`: the momentum along x of D2Q9 in a periodic box of 6 × 8 cells on two processes. The
viscosities do not damp its alternating sum. -/
example (r : Fin 9 → ℚ) (β : ℚ) (alg : Algo) (G : Arr ℚ 9 2) (k : Nat) : ∃ σ,
    PRun gridI (torus (free9 r β) sten9.vel alg gridI)
      (fun c => startWith 9 0 2 fun x => G (globalPos (first gridI c) gridI.w x)) k σ ∧
    ∑ c : Proc gridI, ∑ x ∈ inner (size gridI c) gridI.w,
        (-1) ^ (globalPos (first gridI c) gridI.w x 0).natAbs * (mat9 *ᵥ (σ c).arr x) 1 =
      (-1) ^ k * ∑ c : Proc gridI, ∑ x ∈ inner (size gridI c) gridI.w,
        (-1) ^ (globalPos (first gridI c) gridI.w x 0).natAbs *
          (mat9 *ᵥ G (globalPos (first gridI c) gridI.w x)) 1 := by
  obtain ⟨σ, hσ⟩ := C42_run_exists (by decide) gridI gridI_large (torus (free9 r β) sten9.vel alg gridI)
    (fun c => startWith 9 0 2 fun x => G (globalPos (first gridI c) gridI.w x)) k
  refine ⟨σ, hσ, ?_⟩
  exact C115_alternating (by decide) gridI gridI_large (free9 r β) (free9_front r β) (free9_eq r β) mat9_inv (fun _ => rfl) rfl
    sten9.vel alg (by decide) 0 (by decide) 1 (by
      intro j hj
      have h : ∀ j, mom9 1 j ≠ 0 → _root_.Odd (sten9.vel j 0) := by decide +kernel
      refine h j fun h' => hj ?_
      show (mom9 1 j : ℚ) = 0
      rw [h', Int.cast_zero]) _ (torus_uniform _ _ _ _) (fun _ _ _ => rfl) _ (fun c => torus_start _ _ _ _ _ _) k σ hσ

/-- A case for `C115_only`: the alternating sum of the density of D2Q9 is not multiplied by a number at each step. -/
example (r : Fin 9 → ℚ) (β : ℚ) (alg : Algo) (ε : ℚ) :
    ¬ ∀ σ₀ : Proc gridI → Simu ℚ 9 0 2, (∀ c, (σ₀ c).Start (torus (free9 r β) sten9.vel alg gridI c)) →
      ∀ σ, PRun gridI (torus (free9 r β) sten9.vel alg gridI) σ₀ 1 σ →
      ∑ c : Proc gridI, ∑ x ∈ inner (size gridI c) gridI.w,
        (-1) ^ (globalPos (first gridI c) gridI.w x 0).natAbs * (mat9 *ᵥ (σ c).arr x) 0 =
      ε * ∑ c : Proc gridI, ∑ x ∈ inner (size gridI c) gridI.w,
        (-1) ^ (globalPos (first gridI c) gridI.w x 0).natAbs * (mat9 *ᵥ (σ₀ c).arr x) 0 := by
  intro h
  have h1 := C115_only (by decide) gridI gridI_large (free9 r β) (free9_front r β) (free9_eq r β) mat9_inv (fun _ => rfl) rfl
    sten9.vel alg (by decide) (by decide) 0 (by decide) 0 _ (torus_uniform _ _ _ _) (fun _ _ _ => rfl) ε h
  have hm : ∀ j, (free9 r β).M ((free9 r β).consm 0) j ≠ 0 := by
    intro j
    have : ∀ j, mom9 0 j ≠ 0 := by decide +kernel
    show (mom9 0 j : ℚ) ≠ 0
    exact_mod_cast this j
  have h2 := h1 0 (hm 0)
  have h3 := h1 1 (hm 1)
  rw [h2] at h3
  norm_num [Sten.vel] at h3

/-- The checkerboard of the four velocities. -/
theorem stenP_checkerboard : ∀ j, checkerboard (stenP.vel j) = 1 := by
  intro j
  unfold checkerboard
  rw [AddMonoidHom.finsetSum_apply, Fin.sum_univ_two]
  show ((stenP.vel j 0 : ℤ) : ZMod 2) + ((stenP.vel j 1 : ℤ) : ZMod 2) = 1
  revert j
  decide +kernel

/-- A case for `C115_sublattices`: D2Q4 with a nonlinear equilibrium, two simulations which agree in the cells with an even sum
of the coordinates. -/
example (alg : Algo) (G G' : Arr ℚ 4 2) (h : ∀ y, checkerboard y = 0 → G y = G' y) (k : Nat) : ∃ σ σ',
    PRun gridI (torus turning stenP.vel alg gridI)
      (fun c => startWith 4 0 2 fun x => G (globalPos (first gridI c) gridI.w x)) k σ ∧
    PRun gridI (torus turning stenP.vel alg gridI)
      (fun c => startWith 4 0 2 fun x => G' (globalPos (first gridI c) gridI.w x)) k σ' ∧
    ∀ c x, Owned (size gridI c) gridI.w x → checkerboard (globalPos (first gridI c) gridI.w x) = k →
      (σ c).arr x = (σ' c).arr x := by
  obtain ⟨σ, hσ⟩ := C42_run_exists (by decide) gridI gridI_large (torus turning stenP.vel alg gridI)
    (fun c => startWith 4 0 2 fun x => G (globalPos (first gridI c) gridI.w x)) k
  obtain ⟨σ', hσ'⟩ := C42_run_exists (by decide) gridI gridI_large (torus turning stenP.vel alg gridI)
    (fun c => startWith 4 0 2 fun x => G' (globalPos (first gridI c) gridI.w x)) k
  refine ⟨σ, σ', hσ, hσ', fun c x hx hc => ?_⟩
  refine C115_sublattices (by decide) gridI gridI rfl gridI_large gridI_large turning (by decide) stenP.vel alg (by decide)
    (by decide) checkerboard (checkerboard_colouring (by decide)) 1 stenP_checkerboard _ (torus_uniform _ _ _ _)
    (fun _ _ _ => rfl) _ (torus_uniform _ _ _ _) (fun _ _ _ => rfl) _ (fun c => torus_start _ _ _ _ _ _) _
    (fun c => torus_start _ _ _ _ _ _) 0 ?_ k σ hσ σ' hσ' c x c x hx hx rfl (by rw [hc, zero_add, nsmul_one])
  intro c x c' x' _ _ he hb
  show G (globalPos (first gridI c) gridI.w x) = G' (globalPos (first gridI c') gridI.w x')
  rw [← he]
  exact h _ hb

/-- A case for `C115_totals`: the mass of the diffusion on D2Q4 in the cells of each colour. -/
example (alg : Algo) (G : Arr ℚ 4 2) (k : Nat) (θ : ZMod 2 → ℚ) : ∃ σ,
    PRun gridI (torus heat4 stenP.vel alg gridI)
      (fun c => startWith 4 0 2 fun x => G (globalPos (first gridI c) gridI.w x)) k σ ∧
    ∑ c : Proc gridI, ∑ x ∈ inner (size gridI c) gridI.w,
        θ (checkerboard (globalPos (first gridI c) gridI.w x) - k • 1) * (heat4.M *ᵥ (σ c).arr x) 0 =
      ∑ c : Proc gridI, ∑ x ∈ inner (size gridI c) gridI.w,
        θ (checkerboard (globalPos (first gridI c) gridI.w x)) *
          (heat4.M *ᵥ G (globalPos (first gridI c) gridI.w x)) 0 := by
  obtain ⟨σ, hσ⟩ := C42_run_exists (by decide) gridI gridI_large (torus heat4 stenP.vel alg gridI)
    (fun c => startWith 4 0 2 fun x => G (globalPos (first gridI c) gridI.w x)) k
  refine ⟨σ, hσ, ?_⟩
  exact C115_totals (by decide) gridI gridI_large heat4 (by decide) (by intro j w; fin_cases j; rfl) (by decide +kernel)
    (fun _ => rfl) rfl stenP.vel alg (by decide) checkerboard (checkerboard_colouring (by decide)) 1 0
    (fun j _ => stenP_checkerboard j) _ (torus_uniform _ _ _ _) (fun _ _ _ => rfl) _ (fun c => torus_start _ _ _ _ _ _) θ
    k σ hσ

end Pylbm.Sim
