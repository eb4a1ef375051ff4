import Mathlib.LinearAlgebra.Matrix.Charpoly.Coeff
import Mathlib.Algebra.Polynomial.Derivative
import Mathlib.RingTheory.Polynomial.Basic
import Mathlib.Tactic.FieldSimp
import Mathlib.Tactic.LinearCombination
import Verif.Common.List
/-!
# C48: the characteristic polynomial in `algo_cohn_schur`
-/

namespace Pylbm.Stability
open Matrix Polynomial

variable {K : Type} [Field K] {n : Nat}

/-! ## Model -/

/-- The body of the loop, stability.py 470-472: `Gk` and the coefficients in descending order. -/
def faddeevStep (G : Matrix (Fin n) (Fin n) K) (r : Matrix (Fin n) (Fin n) K × List K) (k : Nat) :
    Matrix (Fin n) (Fin n) K × List K :=
  let Gk := G * (r.1 + r.2.getD k 0 • (1 : Matrix (Fin n) (Fin n) K))
  (Gk, r.2 ++ [-Gk.trace / (k + 1)])

/-- The coefficients computed by `algo_cohn_schur`, stability.py 465-473, in ascending order
(`range(1, d - 1)` with `d = n + 1`).  Simplification: exact arithmetic. -/
def faddeev (G : Matrix (Fin n) (Fin n) K) : List K :=
  ((List.range' 1 (n - 1)).foldl (faddeevStep G) (G, [1, -1 * G.trace])).2.reverse

/-! ## Proofs -/

/-- Derivative of a determinant. -/
theorem derivative_det_col (A : Matrix (Fin n) (Fin n) K[X]) :
    derivative A.det = ∑ i, (A.updateCol i fun j => derivative (A j i)).det := by
  simp only [det_apply', derivative_sum]
  rw [Finset.sum_comm]
  apply Finset.sum_congr rfl
  intro σ _
  rw [← Finset.mul_sum, derivative_mul]
  have h0 : derivative (((Equiv.Perm.sign σ : ℤˣ) : ℤ) : K[X]) = 0 := derivative_intCast
  rw [h0, zero_mul, zero_add, derivative_prod_finset]
  congr 1
  apply Finset.sum_congr rfl
  intro i _
  rw [← Finset.mul_prod_erase Finset.univ _ (Finset.mem_univ i), updateCol_self, mul_comm]
  congr 1
  apply Finset.prod_congr rfl
  intro j hj
  rw [updateCol_ne (Finset.ne_of_mem_erase hj)]

/-- The derivative of the characteristic polynomial is the trace of the adjugate. -/
theorem derivative_charpoly (G : Matrix (Fin n) (Fin n) K) :
    derivative G.charpoly = (adjugate (charmatrix G)).trace := by
  unfold charpoly
  rw [derivative_det_col]
  unfold trace
  apply Finset.sum_congr rfl
  intro i _
  have h : (fun j => derivative (charmatrix G j i)) = Pi.single i (1 : K[X]) := by
    funext j
    by_cases hj : j = i
    · subst hj; simp [charmatrix_apply_eq]
    · rw [charmatrix_apply_ne _ _ _ hj, Pi.single_eq_of_ne hj]; simp
  rw [h, diag_apply]
  rw [← det_transpose, ← updateRow_transpose, ← adjugate_apply, ← adjugate_transpose, transpose_apply]

/-- The coefficient matrices of the adjugate of `X - G`. -/
noncomputable def adjCoeff (G : Matrix (Fin n) (Fin n) K) (k : Nat) : Matrix (Fin n) (Fin n) K :=
  Matrix.of fun i j => (adjugate (charmatrix G) i j).coeff k

theorem trace_adjCoeff (G : Matrix (Fin n) (Fin n) K) (k : Nat) :
    (adjCoeff G k).trace = (k + 1) * G.charpoly.coeff (k + 1) := by
  have h := congrArg (fun p => coeff p k) (derivative_charpoly G)
  simp only [coeff_derivative] at h
  rw [mul_comm, h]
  unfold trace adjCoeff
  simp only [diag_apply, of_apply, finsetSum_coeff]

theorem adj_entry (G : Matrix (Fin n) (Fin n) K) (i j : Fin n) :
    X * adjugate (charmatrix G) i j - ∑ l, C (G i l) * adjugate (charmatrix G) l j =
      G.charpoly * (if i = j then 1 else 0) := by
  have h := congrFun (congrFun (mul_adjugate (charmatrix G)) i) j
  set B := adjugate (charmatrix G)
  have hc : charmatrix G * B = (diagonal fun _ => X) * B - G.map C * B := by
    unfold charmatrix
    rw [← sub_mul]; rfl
  rw [hc, Matrix.sub_apply, diagonal_mul, Matrix.mul_apply, Matrix.smul_apply, smul_eq_mul,
    Matrix.one_apply] at h
  exact h

/-- Coefficients of `(X - G) adj (X - G) = charpoly`. -/
theorem adjCoeff_rec (G : Matrix (Fin n) (Fin n) K) (k : Nat) :
    adjCoeff G k = G * adjCoeff G (k + 1) + G.charpoly.coeff (k + 1) • (1 : Matrix (Fin n) (Fin n) K) := by
  ext i j
  have h := congrArg (fun p => coeff p (k + 1)) (adj_entry G i j)
  simp only [coeff_sub, coeff_X_mul, finsetSum_coeff, coeff_C_mul] at h
  rw [Matrix.add_apply, Matrix.mul_apply, Matrix.smul_apply, smul_eq_mul, Matrix.one_apply]
  simp only [adjCoeff, of_apply]
  split at h <;> simp_all [sub_eq_iff_eq_add, add_comm]

theorem adjCoeff_zero_eq (G : Matrix (Fin n) (Fin n) K) :
    G * adjCoeff G 0 = - G.charpoly.coeff 0 • (1 : Matrix (Fin n) (Fin n) K) := by
  ext i j
  have h := congrArg (fun p => coeff p 0) (adj_entry G i j)
  simp only [coeff_sub, mul_coeff_zero, coeff_X_zero, zero_mul, zero_sub, finsetSum_coeff, coeff_C_zero] at h
  rw [Matrix.mul_apply, Matrix.smul_apply, smul_eq_mul, Matrix.one_apply]
  simp only [adjCoeff, of_apply]
  split at h <;> simp_all [neg_eq_iff_eq_neg]

theorem adjCoeff_large (G : Matrix (Fin n) (Fin n) K) (k : Nat) (hk : n ≤ k) : adjCoeff G k = 0 := by
  have hex : ∃ N, ∀ k, N ≤ k → adjCoeff G k = 0 := by
    refine ⟨(Finset.univ.sup fun i => Finset.univ.sup fun j => (adjugate (charmatrix G) i j).natDegree) + 1, ?_⟩
    intro k hk
    ext i j
    simp only [adjCoeff, of_apply, Matrix.zero_apply]
    apply coeff_eq_zero_of_natDegree_lt
    have h1 : (adjugate (charmatrix G) i j).natDegree ≤
        Finset.univ.sup fun j => (adjugate (charmatrix G) i j).natDegree :=
      Finset.le_sup (f := fun j => (adjugate (charmatrix G) i j).natDegree) (Finset.mem_univ j)
    have h2 := Finset.le_sup (f := fun i => Finset.univ.sup fun j => (adjugate (charmatrix G) i j).natDegree)
      (Finset.mem_univ i)
    omega
  obtain ⟨N, hN⟩ := hex
  have : ∀ d k, n ≤ k → N ≤ k + d → adjCoeff G k = 0 := by
    intro d
    induction d with
    | zero => intro k _ h; exact hN k h
    | succ d ih =>
      intro k hk h
      rw [adjCoeff_rec, ih (k + 1) (by omega) (by omega)]
      have : G.charpoly.coeff (k + 1) = 0 := by
        apply coeff_eq_zero_of_natDegree_lt
        rw [charpoly_natDegree_eq_dim, Fintype.card_fin]; omega
      rw [this]; simp
  exact this N k hk (by omega)

theorem charpoly_coeff_n (G : Matrix (Fin n) (Fin n) K) : G.charpoly.coeff n = 1 := by
  have h := charpoly_monic G
  unfold Monic leadingCoeff at h
  rwa [charpoly_natDegree_eq_dim, Fintype.card_fin] at h

/-- The recursion of Faddeev and Le Verrier: the trace gives the next coefficient. -/
theorem trace_next (G : Matrix (Fin n) (Fin n) K) (j : Nat) (hj : j < n) :
    (G * adjCoeff G (n - 1 - j)).trace = -((j : K) + 1) * G.charpoly.coeff (n - 1 - j) := by
  rcases Nat.lt_or_ge j (n - 1) with h | h
  · obtain ⟨k, hk⟩ : ∃ k, n - 1 - j = k + 1 := ⟨n - 2 - j, by omega⟩
    rw [hk]
    have h1 := congrArg trace (adjCoeff_rec G k)
    rw [trace_add, trace_smul, trace_one, Fintype.card_fin, trace_adjCoeff, smul_eq_mul] at h1
    have hn : (n : K) = j + (k + 1) + 1 := by
      have : n = j + (k + 1) + 1 := by omega
      exact_mod_cast congrArg (Nat.cast : Nat → K) this
    rw [hn] at h1
    linear_combination -h1
  · have : n - 1 - j = 0 := by omega
    rw [this, adjCoeff_zero_eq, trace_smul, trace_one, Fintype.card_fin]
    have hn : (n : K) = j + 1 := by
      have : n = j + 1 := by omega
      exact_mod_cast congrArg (Nat.cast : Nat → K) this
    rw [hn, smul_eq_mul]; ring

theorem faddeev_loop [CharZero K] (G : Matrix (Fin n) (Fin n) K) (hn : 0 < n) (k : Nat) (hk : k ≤ n - 1) :
    (List.range' 1 k).foldl (faddeevStep G) (G, [1, -1 * G.trace]) =
      (G * adjCoeff G (n - 1 - k), (List.range (k + 2)).map fun j => G.charpoly.coeff (n - j)) := by
  have hone : adjCoeff G (n - 1) = 1 := by
    rw [adjCoeff_rec, adjCoeff_large G _ (by omega), show n - 1 + 1 = n by omega, charpoly_coeff_n]
    simp
  induction k with
  | zero =>
    have ht := trace_next G 0 hn
    simp only [Nat.sub_zero, hone, Nat.cast_zero, zero_add, Matrix.mul_one] at ht
    simp only [List.range', List.foldl_nil, Nat.sub_zero, hone, Matrix.mul_one]
    simp only [List.range_succ, List.range_zero, List.nil_append, List.map_cons, List.map_nil,
      List.singleton_append, Nat.sub_zero, charpoly_coeff_n]
    rw [ht]; simp
  | succ k ih =>
    rw [List.range'_concat, List.foldl_append, ih (by omega)]
    simp only [List.foldl_cons, List.foldl_nil, Nat.one_mul]
    unfold faddeevStep
    have hget : ((List.range (k + 2)).map fun j => G.charpoly.coeff (n - j)).getD (1 + k) 0 =
        G.charpoly.coeff (n - 1 - k) := by
      rw [List.getD_eq_getElem?_getD, List.getElem?_map, List.getElem?_range (by omega)]
      simp only [Option.map_some, Option.getD_some]
      congr 1
      omega
    have hM : G * adjCoeff G (n - 1 - k) + G.charpoly.coeff (n - 1 - k) • (1 : Matrix (Fin n) (Fin n) K) =
        adjCoeff G (n - 1 - (k + 1)) := by
      have h := adjCoeff_rec G (n - 1 - (k + 1))
      rw [show n - 1 - (k + 1) + 1 = n - 1 - k by omega] at h
      exact h.symm
    simp only [hget, hM]
    have ht := trace_next G (k + 1) (by omega)
    rw [List.range_succ (n := k + 2), List.map_append]
    congr 2
    simp only [List.map_cons, List.map_nil]
    congr 1
    rw [ht, show n - (k + 2) = n - 1 - (k + 1) by omega]
    have hne : ((1 + k : ℕ) : K) + 1 ≠ 0 := by exact_mod_cast (by omega : 1 + k + 1 ≠ 0)
    rw [div_eq_iff hne]
    push_cast
    ring

/-- **C48.** The coefficients computed by `algo_cohn_schur` are those of the characteristic polynomial
`det (X - G)`, in ascending order, for square matrices of all sizes. -/
theorem C48_charpoly [CharZero K] (G : Matrix (Fin n) (Fin n) K) (hn : 0 < n) :
    faddeev G = (List.range (n + 1)).map fun k => G.charpoly.coeff k := by
  unfold faddeev
  rw [faddeev_loop G hn (n - 1) le_rfl, show n - 1 + 2 = n + 1 by omega, ← List.map_reverse]
  apply List.ext_getElem?
  intro i
  rcases Nat.lt_or_ge i (n + 1) with h | h
  · rw [List.getElem?_map, List.getElem?_map, List.getElem?_reverse (by simpa using h),
      List.getElem?_range (by simp), List.getElem?_range h]
    simp only [List.length_range, Option.map_some]
    congr 2
    omega
  · rw [List.getElem?_eq_none (by simpa using h), List.getElem?_eq_none (by simpa using h)]

/-- A case: `(X - 2) (X² + 1)`. -/
example : faddeev (!![2, 5, 0; 0, 0, -1; 0, 1, 0] : Matrix (Fin 3) (Fin 3) ℚ) = [-2, 1, -2, 1] := by
  decide +kernel

end Pylbm.Stability
