import Verif.Stability.Schur
import Mathlib.Algebra.Polynomial.Reverse
import Mathlib.Analysis.Convex.StrictConvexSpace
/-!
# Lemmas on the reciprocal polynomial
-/

namespace Pylbm.Stability
open Polynomial ComplexConjugate

/-- `z^N conj (P (1 / conj z))`. -/
noncomputable def st (N : Nat) (P : ℂ[X]) : ℂ[X] := reflect N (P.map (starRingEnd ℂ))

theorem st_coeff (N : Nat) (P : ℂ[X]) (k : Nat) (hk : k ≤ N) : (st N P).coeff k = conj (P.coeff (N - k)) := by
  unfold st
  rw [coeff_reflect, revAt_le hk, coeff_map]

theorem st_coeff_large (N : Nat) (P : ℂ[X]) (hP : P.natDegree ≤ N) (k : Nat) (hk : N < k) :
    (st N P).coeff k = 0 := by
  unfold st
  rw [coeff_reflect, revAt_eq_self_of_lt hk, coeff_map, coeff_eq_zero_of_natDegree_lt (by omega), map_zero]

theorem st_mul (M N : Nat) (P Q : ℂ[X]) (hP : P.natDegree ≤ M) (hQ : Q.natDegree ≤ N) :
    st (M + N) (P * Q) = st M P * st N Q := by
  unfold st
  rw [Polynomial.map_mul]
  exact reflect_mul _ _ (natDegree_map_le.trans hP) (natDegree_map_le.trans hQ)

theorem st_linear (a : ℂ) : st 1 (X - C a) = 1 - C (conj a) * X := by
  ext k
  rcases Nat.lt_or_ge 1 k with h | h
  · rw [st_coeff_large 1 _ (by simp) k h]
    simp [coeff_one, coeff_X, show k ≠ 0 by omega, show 1 ≠ k by omega]
  · rw [st_coeff 1 _ k h]
    interval_cases k <;> simp [coeff_one, coeff_X, coeff_C]

/-- Every polynomial of positive degree has a linear factor. -/
theorem factor (P : ℂ[X]) (N : Nat) (hP : P.natDegree = N + 1) :
    ∃ a Q, P = (X - C a) * Q ∧ Q.natDegree = N ∧ P.leadingCoeff = Q.leadingCoeff ∧ P.IsRoot a := by
  have hdeg : P.degree ≠ 0 := by
    intro h
    have : P.natDegree = 0 := by rw [natDegree, h]; rfl
    omega
  obtain ⟨a, ha⟩ := IsAlgClosed.exists_root P hdeg
  obtain ⟨Q, hQ⟩ := dvd_iff_isRoot.2 ha
  have hP0 : P ≠ 0 := by rintro rfl; simp at hP
  have hQ0 : Q ≠ 0 := by rintro rfl; simp at hQ; exact hP0 hQ
  refine ⟨a, Q, hQ, ?_, ?_, ha⟩
  · have := natDegree_mul (X_sub_C_ne_zero a) hQ0
    rw [← hQ, hP, natDegree_X_sub_C] at this
    omega
  · rw [hQ, leadingCoeff_mul, leadingCoeff_X_sub_C, one_mul]

theorem root_of_factor {P Q : ℂ[X]} {a z : ℂ} (h : P = (X - C a) * Q) (hz : Q.IsRoot z) : P.IsRoot z := by
  rw [h, IsRoot.def, eval_mul, hz.eq_zero, mul_zero]

/-- `|1 - conj a z| ≤ |z - a|` outside the disc. -/
theorem blaschke (a z : ℂ) (ha : ‖a‖ ≤ 1) (hz : 1 ≤ ‖z‖) : ‖1 - conj a * z‖ ≤ ‖z - a‖ := by
  refine (sq_le_sq₀ (norm_nonneg _) (norm_nonneg _)).1 ?_
  rw [← Complex.normSq_eq_norm_sq, ← Complex.normSq_eq_norm_sq]
  have h1 : Complex.normSq a ≤ 1 := by rw [Complex.normSq_eq_norm_sq]; nlinarith [norm_nonneg a]
  have h2 : 1 ≤ Complex.normSq z := by rw [Complex.normSq_eq_norm_sq]; nlinarith
  simp only [Complex.normSq_apply, Complex.sub_re, Complex.sub_im, Complex.one_re, Complex.one_im,
    Complex.mul_re, Complex.mul_im, Complex.conj_re, Complex.conj_im] at *
  nlinarith [mul_nonneg (sub_nonneg.2 h1) (sub_nonneg.2 h2)]

/-- On the circle a polynomial and its reciprocal have the same modulus. -/
theorem norm_st_circle (N : Nat) (P : ℂ[X]) (hP : P.natDegree ≤ N) (z : ℂ) (hz : ‖z‖ = 1) :
    eval z (st N P) = z ^ N * conj (eval z P) := by
  have hzz : z * conj z = 1 := by
    rw [Complex.mul_conj, Complex.normSq_eq_norm_sq, hz]; norm_num
  rw [eval_eq_sum_range' (n := N + 1) (p := P) (by omega),
    eval_eq_sum_range' (n := N + 1) (p := st N P) (by
      rw [Nat.lt_succ_iff, natDegree_le_iff_coeff_eq_zero]
      intro k hk
      exact st_coeff_large N P hP k hk)]
  rw [map_sum, Finset.mul_sum, ← Finset.sum_range_reflect]
  apply Finset.sum_congr rfl
  intro k hk
  have hk' : k ≤ N := by simpa [Nat.lt_succ_iff] using hk
  rw [show N + 1 - 1 - k = N - k by omega, st_coeff N P (N - k) (by omega), map_mul, map_pow,
    show N - (N - k) = k by omega]
  have : z ^ N * (conj z) ^ k = z ^ (N - k) := by
    calc z ^ N * (conj z) ^ k = z ^ (N - k) * (z * conj z) ^ k := by
          rw [mul_pow, ← mul_assoc, ← pow_add]; congr 2; omega
      _ = z ^ (N - k) := by rw [hzz, one_pow, mul_one]
  rw [← this]; ring

/-- Outside of the disc the reciprocal of a von Neumann polynomial is smaller. -/
theorem norm_st_le (N : Nat) (P : ℂ[X]) (hP : P.natDegree = N) (hv : VonNeumann P) (z : ℂ) (hz : 1 ≤ ‖z‖) :
    ‖eval z (st N P)‖ ≤ ‖eval z P‖ := by
  induction N generalizing P with
  | zero =>
    rw [eq_C_of_natDegree_eq_zero hP]
    simp [st]
  | succ N ih =>
    obtain ⟨a, Q, h1, h2, -, h3⟩ := factor P N hP
    have hst : st (N + 1) P = st 1 (X - C a) * st N Q := by
      rw [h1, Nat.add_comm, st_mul 1 N _ _ (by simp) h2.le]
    rw [hst, h1, eval_mul, eval_mul, norm_mul, norm_mul, st_linear]
    have hb := blaschke a z (hv a h3) hz
    have hi := ih Q h2 fun w hw => hv w (root_of_factor h1 hw)
    simp only [eval_sub, eval_one, eval_mul, eval_C, eval_X]
    exact mul_le_mul hb hi (norm_nonneg _) (norm_nonneg _)

theorem coeff_zero_factor (a : ℂ) (Q : ℂ[X]) : ((X - C a) * Q).coeff 0 = -a * Q.coeff 0 := by
  rw [mul_coeff_zero]; simp

theorem norm_coeff_le (N : Nat) (P : ℂ[X]) (hP : P.natDegree = N) (hv : VonNeumann P) :
    ‖P.coeff 0‖ ≤ ‖P.leadingCoeff‖ := by
  induction N generalizing P with
  | zero => rw [leadingCoeff, hP]
  | succ N ih =>
    obtain ⟨a, Q, h1, h2, h4, h3⟩ := factor P N hP
    have hi := ih Q h2 fun w hw => hv w (root_of_factor h1 hw)
    rw [h4, h1, coeff_zero_factor, norm_mul, norm_neg]
    calc ‖a‖ * ‖Q.coeff 0‖ ≤ 1 * ‖Q.leadingCoeff‖ :=
          mul_le_mul (hv a h3) hi (norm_nonneg _) zero_le_one
      _ = _ := one_mul _

theorem norm_coeff_lt (N : Nat) (P : ℂ[X]) (hP : P.natDegree = N + 1) (hv : Schur P) :
    ‖P.coeff 0‖ < ‖P.leadingCoeff‖ := by
  obtain ⟨a, Q, h1, h2, h4, h3⟩ := factor P N hP
  have hi := norm_coeff_le N Q h2 fun w hw => (hv w (root_of_factor h1 hw)).le
  have hP0 : P ≠ 0 := by rintro rfl; simp at hP
  have hl : 0 < ‖Q.leadingCoeff‖ := by
    rw [← h4]; exact norm_pos_iff.2 (leadingCoeff_ne_zero.2 hP0)
  rw [h4]
  conv_lhs => rw [h1, coeff_zero_factor, norm_mul, norm_neg]
  have ha := hv a h3
  calc ‖a‖ * ‖Q.coeff 0‖ ≤ ‖a‖ * ‖Q.leadingCoeff‖ := mul_le_mul_of_nonneg_left hi (norm_nonneg _)
    _ < 1 * ‖Q.leadingCoeff‖ := mul_lt_mul_of_pos_right ha hl
    _ = _ := one_mul _

/-- With equality the polynomial is its own reciprocal, up to a factor of modulus 1. -/
theorem self_inversive (N : Nat) (P : ℂ[X]) (hP : P.natDegree = N) (hP0 : P ≠ 0) (hv : VonNeumann P)
    (he : ‖P.coeff 0‖ = ‖P.leadingCoeff‖) : ∃ κ : ℂ, ‖κ‖ = 1 ∧ st N P = C κ * P := by
  induction N generalizing P with
  | zero =>
    have hc := eq_C_of_natDegree_eq_zero hP
    set c := P.coeff 0
    have hc0 : c ≠ 0 := by
      intro h; rw [h, map_zero] at hc; exact hP0 hc
    refine ⟨conj c / c, ?_, ?_⟩
    · rw [norm_div, RCLike.norm_conj, div_self (norm_ne_zero_iff.2 hc0)]
    · rw [hc]
      simp only [st, map_C, reflect_C, pow_zero, mul_one, ← C_mul]
      rw [div_mul_cancel₀ _ hc0]
  | succ N ih =>
    obtain ⟨a, Q, h1, h2, h4, h3⟩ := factor P N hP
    have hvQ : VonNeumann Q := fun w hw => hv w (root_of_factor h1 hw)
    have hQ0 : Q ≠ 0 := by rintro rfl; simp at h1; exact hP0 h1
    have hi := norm_coeff_le N Q h2 hvQ
    have hl : 0 < ‖Q.leadingCoeff‖ := norm_pos_iff.2 (leadingCoeff_ne_zero.2 hQ0)
    rw [h4] at he
    rw [h1, coeff_zero_factor, norm_mul, norm_neg] at he
    have ha := hv a h3
    have ha1 : ‖a‖ = 1 := by
      by_contra hne
      have hlt : ‖a‖ < 1 := lt_of_le_of_ne ha hne
      have : ‖a‖ * ‖Q.coeff 0‖ < ‖Q.leadingCoeff‖ := by
        calc ‖a‖ * ‖Q.coeff 0‖ ≤ ‖a‖ * ‖Q.leadingCoeff‖ := mul_le_mul_of_nonneg_left hi (norm_nonneg _)
          _ < 1 * ‖Q.leadingCoeff‖ := mul_lt_mul_of_pos_right hlt hl
          _ = _ := one_mul _
      exact absurd he this.ne
    rw [ha1, one_mul] at he
    obtain ⟨κ, hκ, hst⟩ := ih Q h2 hQ0 hvQ he
    refine ⟨-conj a * κ, ?_, ?_⟩
    · rw [norm_mul, norm_neg, RCLike.norm_conj, ha1, hκ, one_mul]
    · have haa : a * conj a = 1 := by
        rw [Complex.mul_conj, Complex.normSq_eq_norm_sq, ha1]; norm_num
      have hst' : st (N + 1) P = st 1 (X - C a) * st N Q := by
        rw [h1, Nat.add_comm, st_mul 1 N _ _ (by simp) h2.le]
      rw [hst', hst, st_linear, h1]
      have hC : C a * C (conj a) = (1 : ℂ[X]) := by rw [← C_mul, haa, C_1]
      rw [C_mul, C_neg]
      linear_combination (-(C κ * Q)) * hC

/-- Reciprocal of the derivative. -/
theorem st_derivative (N : Nat) (P : ℂ[X]) (hP : P.natDegree ≤ N + 1) :
    st N (derivative P) = C ((N : ℂ) + 1) * st (N + 1) P - X * derivative (st (N + 1) P) := by
  ext k
  rw [coeff_sub, coeff_C_mul]
  have hX : (X * derivative (st (N + 1) P)).coeff k = k * (st (N + 1) P).coeff k := by
    cases k with
    | zero => simp
    | succ k => rw [coeff_X_mul, coeff_derivative]; push_cast; ring
  rw [hX]
  have hdP : (derivative P).natDegree ≤ N := by
    have := natDegree_derivative_le P; omega
  rcases Nat.lt_or_ge N k with h | h
  · rw [st_coeff_large N _ hdP k h]
    rcases Nat.lt_or_ge (N + 1) k with h' | h'
    · rw [st_coeff_large (N + 1) _ hP k h']; ring
    · obtain rfl : k = N + 1 := by omega
      push_cast; ring
  · rw [st_coeff N _ k h, st_coeff (N + 1) _ k (by omega), coeff_derivative, map_mul,
      show N - k + 1 = N + 1 - k by omega]
    have : conj (((N - k : ℕ) : ℂ) + 1) = (N : ℂ) + 1 - k := by
      rw [map_add, map_one, map_natCast, Nat.cast_sub h]; ring
    rw [this]; ring

/-- A double root on the circle is a double root of the reciprocal. -/
theorem double_root_st (N : Nat) (P : ℂ[X]) (hP : P.natDegree ≤ N + 1) (z : ℂ) (hz : ‖z‖ = 1)
    (h0 : eval z P = 0) (h1 : eval z (derivative P) = 0) :
    eval z (st (N + 1) P) = 0 ∧ eval z (derivative (st (N + 1) P)) = 0 := by
  have hd : (derivative P).natDegree ≤ N := by have := natDegree_derivative_le P; omega
  have e1 := norm_st_circle (N + 1) P hP z hz
  have e2 := norm_st_circle N (derivative P) hd z hz
  rw [h0, map_zero, mul_zero] at e1
  rw [h1, map_zero, mul_zero, st_derivative N P hP, eval_sub, eval_mul, eval_mul, e1, mul_zero, zero_sub,
    eval_X, neg_eq_zero, mul_eq_zero] at e2
  refine ⟨e1, e2.resolve_left ?_⟩
  rintro rfl
  simp at hz

/-- Gauss–Lucas for the closed disc. -/
theorem vonNeumann_derivative (P : ℂ[X]) (hd : 0 < P.natDegree) (hv : VonNeumann P) :
    VonNeumann (derivative P) := by
  intro z hz
  have hdeg : 0 < P.degree := natDegree_pos_iff_degree_pos.1 hd
  have hne : derivative P ≠ 0 := by
    intro h
    have := derivative_eq_zero.1 h
    omega
  have hmem : z ∈ (derivative P).rootSet ℂ := by
    rw [mem_rootSet]; exact ⟨hne, by simpa [coe_aeval_eq_eval] using hz⟩
  have h := rootSet_derivative_subset_convexHull_rootSet hdeg hmem
  have hsub : P.rootSet ℂ ⊆ Metric.closedBall (0 : ℂ) 1 := by
    intro w hw
    rw [mem_rootSet, coe_aeval_eq_eval] at hw
    rw [mem_closedBall_zero_iff]
    exact hv w hw.2
  have := convexHull_min hsub (convex_closedBall (0 : ℂ) 1) h
  rwa [mem_closedBall_zero_iff] at this

end Pylbm.Stability
