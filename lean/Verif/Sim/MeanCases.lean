import Verif.Sim.Mean
import Mathlib.Tactic.FinCases
import Mathlib.Data.Fintype.Basic
/-!
# C121: D1Q2 on an odd and on an even number of cells
-/

set_option linter.unusedSectionVars false

namespace Pylbm.Sim
open Scheme Halo SchemeSpec Matrix HaloSpec Mpi

/-- D1Q2 for the advection with velocity `v`, relaxation parameter `r`. -/
noncomputable def advectR (v r : ℝ) : Kernel ℝ 2 1 0 where
  M := !![1, 1; 1, -1]
  invM := !![1 / 2, 1 / 2; 1 / 2, -1 / 2]
  Tu := fun _ => 1
  Tmu := fun _ => 1
  EQ := ![fun w => w 0, fun w => v * w 0]
  s := ![fun _ => 0, fun _ => r]
  consm := ![0]
  relVel := none
  source := fun _ => none
  dt := 1

theorem advectR_conserved (v r : ℝ) (i : Fin 2) : Conserved (advectR v r) i ↔ i = 0 := by
  constructor
  · rintro ⟨l, rfl⟩
    fin_cases l
    rfl
  · rintro rfl
    exact ⟨0, rfl⟩

/-- The hypotheses hold for velocities smaller than that of the lattice and relaxation parameters between 0 and 2. -/
theorem advectR_damped (v r : ℝ) (hv : |v| < 1) (hr : 0 < r ∧ r < 2) :
    Damped (advectR v r) ![(1 + v) / 2, (1 - v) / 2] !![1; v] 0 ![0, r] ![(1 + v) / 2, (1 - v) / 2] := by
  have h := abs_lt.1 hv
  have n0 : Conserved (advectR v r) 0 := (advectR_conserved v r 0).2 rfl
  have n1 : ¬ Conserved (advectR v r) 1 := fun h => absurd ((advectR_conserved v r 1).1 h) (by decide)
  refine ⟨⟨?_, ?_, ?_, ?_, ?_⟩, ?_, ?_, fun _ => rfl, rfl, ?_, ?_, ?_⟩
  · intro i w
    fin_cases i <;> simp [advectR]
  · intro i w
    fin_cases i <;> simp [advectR]
  · intro j
    fin_cases j
    · show 0 < (1 + v) / 2; linarith
    · show 0 < (1 - v) / 2; linarith
  · intro i hi
    fin_cases i
    · exact absurd n0 hi
    · exact ⟨hr.1.le, hr.2.le⟩
  · have hd0 : ∀ j, deviation (advectR v r) !![1; v] 0 j = 1 := by
      intro j
      unfold deviation
      rw [if_pos n0]
      fin_cases j <;> rfl
    have hd1 : deviation (advectR v r) !![1; v] 1 = ![1 - v, -1 - v] := by
      funext j
      unfold deviation
      rw [if_neg n1]
      fin_cases j <;> simp [advectR]
    intro i i' hii
    fin_cases i <;> fin_cases i'
    · exact absurd rfl hii
    · simp only [Fin.zero_eta, Fin.mk_one, hd0, hd1, Fin.sum_univ_two, Matrix.cons_val_zero, Matrix.cons_val_one]
      ring
    · simp only [Fin.zero_eta, Fin.mk_one, hd0, hd1, Fin.sum_univ_two, Matrix.cons_val_zero, Matrix.cons_val_one]
      ring
    · exact absurd rfl hii
  · intro j w
    fin_cases j
    rfl
  · ext i j
    fin_cases i <;> fin_cases j <;> simp [advectR, Matrix.mul_apply, Fin.sum_univ_two] <;> norm_num
  · intro i hi
    fin_cases i
    · exact absurd n0 hi
    · exact hr
  · intro i
    fin_cases i <;> simp [advectR, Matrix.mulVec, dotProduct, Fin.sum_univ_two] <;> ring
  · intro j
    fin_cases j
    · show (1 + v) / 2 ≠ 0; linarith
    · show (1 - v) / 2 ≠ 0; linarith

/-- The equilibrium of a density. -/
theorem advectR_equilibrium (v r ρ : ℝ) : AtEquilibrium (advectR v r) ![ρ * (1 + v) / 2, ρ * (1 - v) / 2] := by
  intro i
  fin_cases i <;> simp [advectR, Matrix.mulVec, dotProduct, Fin.sum_univ_two] <;> ring

theorem grid7_large : ∀ c i, grid7.w i ≤ size grid7 c i := (large_iff grid7).2 (by decide)

/-- A case for `C121_mean`: seven cells on two processes. The density tends to its mean. -/
example (v r : ℝ) (hv : |v| < 1) (hr : 0 < r ∧ r < 2) (a : Algo) (A : Arr ℝ 2 1) :
    (∀ k, ∃ σ, PRun grid7 (ring (advectR v r) (fun j _ => ![1, -1] j) a grid7) (fun _ => startWith 2 0 1 A) k σ) ∧
    ∃ q C ρ : ℝ, q < 1 ∧ ∀ k σ, PRun grid7 (ring (advectR v r) (fun j _ => ![1, -1] j) a grid7) (fun _ => startWith 2 0 1 A) k σ →
      ∀ c x, Owned (size grid7 c) grid7.w x → ((σ c).arr x 0 - ρ * (1 + v) / 2) ^ 2 ≤ C * q ^ k := by
  refine ⟨fun k => C42_run_exists (by omega) grid7 grid7_large _ _ k, ?_⟩
  obtain ⟨q, -, h1, h⟩ := C121_mean (by omega) grid7 grid7_large (by decide) (advectR_damped v r hv hr)
    (show ∀ j : Fin 1, ((![0] : Fin 1 → Fin 2) j : Nat) < 1 by decide)
    (fun j _ => ![1, -1] j) a (by decide) ((connects_d1q2 7).2 (by decide)) _ (ring_uniform _ _ _ _) (fun _ _ _ => rfl)
  set T := ∑ c : Proc grid7, ∑ x ∈ inner (size grid7 c) grid7.w, ((advectR v r).M *ᵥ A x) ((advectR v r).consm 0) with hT
  obtain ⟨C, hC⟩ := h (fun _ => startWith 2 0 1 A) (fun c => startWith_start _ _ _ _ c _) _ (advectR_equilibrium v r (T / 7)) (by
    have h7 : ((∏ i, grid7.N i : ℕ) : ℝ) = 7 := by
      rw [show (∏ i, grid7.N i : ℕ) = 7 from by decide]
      norm_num
    rw [h7]
    refine hT.symm.trans ?_
    simp [advectR, Matrix.mulVec, dotProduct, Fin.sum_univ_two]
    ring)
  exact ⟨q, C, T / 7, h1, fun k σ hr c x hx => hC k σ hr c x 0 hx⟩

/-- Eight cells on two processes. -/
def grid8 : Grid 1 := ⟨fun _ => 8, fun _ => 2, fun _ => 1, by decide⟩

theorem grid8_large : ∀ c i, grid8.w i ≤ size grid8 c i := (large_iff grid8).2 (by decide)

/-- A case for `C121_negation`: eight cells. Some cells are empty and some are full after any number of steps, whatever the
relaxation parameter. -/
example (v r : ℝ) (hv : |v| < 1) (hr : 0 < r ∧ r < 2) (a : Algo) : ∃ A : Arr ℝ 2 1,
    ∀ k, ∃ σ, PRun grid8 (ring (advectR v r) (fun j _ => ![1, -1] j) a grid8)
        (fun c => startWith 2 0 1 fun x => A (globalPos (first grid8 c) grid8.w x)) k σ ∧
      ∃ c x c' x', Owned (size grid8 c) grid8.w x ∧ Owned (size grid8 c') grid8.w x' ∧
        ((advectR v r).M *ᵥ (σ c).arr x) 0 = 1 ∧ ((advectR v r).M *ᵥ (σ c').arr x') 0 = 0 := by
  obtain ⟨A, hA⟩ := C121_negation (by omega) grid8 grid8_large (by decide) (advectR_damped v r hv hr)
    (show ∀ j : Fin 1, ((![0] : Fin 1 → Fin 2) j : Nat) < 1 by decide)
    (fun j _ => ![1, -1] j) a (by decide) (fun h => absurd ((connects_d1q2 8).1 h) (by decide)) _ (ring_uniform _ _ _ _)
    (fun _ _ _ => rfl) _ (advectR_equilibrium v r 0)
  refine ⟨A, fun k => ?_⟩
  obtain ⟨σ, hσ⟩ := C42_run_exists (by omega) grid8 grid8_large (ring (advectR v r) (fun j _ => ![1, -1] j) a grid8)
    (fun c => startWith 2 0 1 fun x => A (globalPos (first grid8 c) grid8.w x)) k
  refine ⟨σ, hσ, ?_⟩
  obtain ⟨c, x, c', x', hx, hx', e1, e2⟩ := hA _ (fun c => startWith_start _ _ _ _ c _) (fun _ _ _ => rfl) k σ hσ
  refine ⟨c, x, c', x', hx, hx', ?_, ?_⟩
  · rw [e1]
    simp [advectR, Matrix.mulVec, dotProduct, Fin.sum_univ_two]
    ring
  · rw [e2]
    simp [advectR, Matrix.mulVec, dotProduct, Fin.sum_univ_two]

end Pylbm.Sim
