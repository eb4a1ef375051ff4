import Mathlib.Analysis.Matrix.Normed
import Mathlib.Analysis.SpecialFunctions.Exponential
import Mathlib.Analysis.Normed.Algebra.MatrixExponential
import Mathlib.Analysis.Complex.Exponential
import Mathlib.Tactic.Module
/-!
# Second order expansion of a linear scheme near its equilibria (used for C67)
-/
set_option linter.unusedSectionVars false
namespace Pylbm.Stability
open Matrix NormedSpace
open scoped Matrix.Norms.Operator

section Big
variable {α β γ : Type} [Fintype α] [Fintype β] [Fintype γ] {τ0 : ℝ}

/-- `F τ = O(τ^k)`, uniformly for `0 < τ ≤ τ0`. -/
def Big (τ0 : ℝ) (k : ℕ) (F : ℝ → Matrix α β ℂ) : Prop :=
  ∃ C, 0 ≤ C ∧ ∀ τ, 0 < τ → τ ≤ τ0 → ‖F τ‖ ≤ C * τ ^ k

theorem Big.add {k : ℕ} {F G : ℝ → Matrix α β ℂ} (hF : Big τ0 k F) (hG : Big τ0 k G) :
    Big τ0 k (fun τ => F τ + G τ) := by
  obtain ⟨C, hC, h⟩ := hF
  obtain ⟨D, hD, h'⟩ := hG
  refine ⟨C + D, by positivity, fun τ h0 h1 => (norm_add_le _ _).trans ?_⟩
  have := h τ h0 h1
  have := h' τ h0 h1
  linarith

theorem Big.neg {k : ℕ} {F : ℝ → Matrix α β ℂ} (hF : Big τ0 k F) : Big τ0 k (fun τ => -F τ) := by
  obtain ⟨C, hC, h⟩ := hF
  exact ⟨C, hC, fun τ h0 h1 => by rw [norm_neg]; exact h τ h0 h1⟩

theorem Big.sub {k : ℕ} {F G : ℝ → Matrix α β ℂ} (hF : Big τ0 k F) (hG : Big τ0 k G) :
    Big τ0 k (fun τ => F τ - G τ) := by
  simpa only [sub_eq_add_neg] using hF.add hG.neg

theorem Big.mul {k l : ℕ} {F : ℝ → Matrix α β ℂ} {G : ℝ → Matrix β γ ℂ} (hF : Big τ0 k F)
    (hG : Big τ0 l G) : Big τ0 (k + l) (fun τ => F τ * G τ) := by
  obtain ⟨C, hC, h⟩ := hF
  obtain ⟨D, hD, h'⟩ := hG
  refine ⟨C * D, by positivity, fun τ h0 h1 => (linfty_opNorm_mul _ _).trans ?_⟩
  calc ‖F τ‖ * ‖G τ‖ ≤ (C * τ ^ k) * (D * τ ^ l) :=
        mul_le_mul (h τ h0 h1) (h' τ h0 h1) (norm_nonneg _) (by positivity)
    _ = C * D * τ ^ (k + l) := by rw [pow_add]; ring

theorem Big.const (A : Matrix α β ℂ) : Big τ0 0 (fun _ => A) :=
  ⟨‖A‖, norm_nonneg _, fun _ _ _ => by simp⟩

theorem Big.smul {k : ℕ} (l : ℕ) {F : ℝ → Matrix α β ℂ} (hF : Big τ0 k F) :
    Big τ0 (k + l) (fun τ => (τ : ℂ) ^ l • F τ) := by
  obtain ⟨C, hC, h⟩ := hF
  refine ⟨C, hC, fun τ h0 h1 => ?_⟩
  rw [norm_smul, norm_pow, Complex.norm_real, Real.norm_of_nonneg h0.le, pow_add]
  have := mul_le_mul_of_nonneg_left (h τ h0 h1) (pow_nonneg h0.le l)
  linarith

theorem Big.csmul {k : ℕ} (c : ℂ) {F : ℝ → Matrix α β ℂ} (hF : Big τ0 k F) :
    Big τ0 k (fun τ => c • F τ) := by
  obtain ⟨C, hC, h⟩ := hF
  refine ⟨‖c‖ * C, by positivity, fun τ h0 h1 => ?_⟩
  rw [norm_smul, mul_assoc]
  exact mul_le_mul_of_nonneg_left (h τ h0 h1) (norm_nonneg _)

theorem Big.mono {k : ℕ} (l : ℕ) {F : ℝ → Matrix α β ℂ} (hF : Big τ0 (k + l) F) : Big τ0 k F := by
  obtain ⟨C, hC, h⟩ := hF
  rcases le_or_gt τ0 0 with h0 | h0
  · exact ⟨0, le_rfl, fun τ h1 h2 => absurd (h1.trans_le h2) (not_lt.2 h0)⟩
  refine ⟨C * τ0 ^ l, by positivity, fun τ h1 h2 => (h τ h1 h2).trans ?_⟩
  have : τ ^ l ≤ τ0 ^ l := pow_le_pow_left₀ h1.le h2 l
  calc C * τ ^ (k + l) = C * τ ^ k * τ ^ l := by rw [pow_add]; ring
    _ ≤ C * τ ^ k * τ0 ^ l := mul_le_mul_of_nonneg_left this (by positivity)
    _ = C * τ0 ^ l * τ ^ k := by ring

theorem Big.congr {k : ℕ} {F G : ℝ → Matrix α β ℂ} (hF : Big τ0 k F) (h : ∀ τ, G τ = F τ) :
    Big τ0 k G := by
  have : G = F := funext h
  rwa [this]

end Big

section Exp
variable {α : Type} [Fintype α] [DecidableEq α] {τ0 : ℝ}

theorem norm_one_le' : ‖(1 : Matrix α α ℂ)‖ ≤ 1 := by
  rw [← Matrix.diagonal_one, linfty_opNorm_diagonal, pi_norm_le_iff_of_nonneg zero_le_one]
  simp

theorem exp_taylor (X : Matrix α α ℂ) :
    ‖exp X - 1 - X - (1 / 2 : ℂ) • (X * X)‖ ≤ ‖X‖ ^ 3 * Real.exp ‖X‖ := by
  have h1 : HasSum (fun n : ℕ => ((n.factorial : ℂ)⁻¹) • X ^ n) (exp X) := exp_series_hasSum_exp' X
  have h2 := (hasSum_nat_add_iff' 3).2 h1
  have h3 : exp X - ∑ i ∈ Finset.range 3, ((i.factorial : ℂ)⁻¹) • X ^ i =
      exp X - 1 - X - (1 / 2 : ℂ) • (X * X) := by
    simp only [Finset.sum_range_succ, Finset.sum_range_zero, Nat.factorial]
    norm_num [pow_two]
    abel
  rw [h3] at h2
  have h4 : HasSum (fun n : ℕ => ‖X‖ ^ 3 * (((n.factorial : ℝ)⁻¹) • ‖X‖ ^ n)) (‖X‖ ^ 3 * Real.exp ‖X‖) := by
    refine HasSum.mul_left _ ?_
    rw [Real.exp_eq_exp_ℝ]
    exact exp_series_hasSum_exp' ‖X‖
  rw [← h2.tsum_eq]
  refine tsum_of_norm_bounded h4 (fun n => ?_)
  rw [norm_smul, pow_add, smul_eq_mul]
  have h5 : ‖X ^ n * X ^ 3‖ ≤ ‖X‖ ^ n * ‖X‖ ^ 3 := by
    refine (norm_mul_le _ _).trans ?_
    refine mul_le_mul ?_ (norm_pow_le' X (by norm_num)) (norm_nonneg _) (by positivity)
    rcases Nat.eq_zero_or_pos n with rfl | hn
    · simp only [pow_zero]
      exact norm_one_le'
    · exact norm_pow_le' X hn
  have h6 : ‖(((n + 3).factorial : ℂ)⁻¹)‖ ≤ ((n.factorial : ℝ)⁻¹) := by
    rw [norm_inv, Complex.norm_natCast]
    have : (n.factorial : ℝ) ≤ ((n + 3).factorial : ℝ) := by
      exact_mod_cast Nat.factorial_le (by omega)
    exact inv_anti₀ (by exact_mod_cast Nat.factorial_pos n) this
  calc _ ≤ ((n.factorial : ℝ)⁻¹) * (‖X‖ ^ n * ‖X‖ ^ 3) :=
        mul_le_mul h6 h5 (norm_nonneg _) (by positivity)
    _ = _ := by ring

theorem big_exp {Z : ℝ → Matrix α α ℂ} (hZ : Big τ0 0 Z) :
    Big τ0 3 (fun τ => exp ((τ : ℂ) • Z τ) - 1 - (τ : ℂ) • Z τ -
      (1 / 2 : ℂ) • (((τ : ℂ) • Z τ) * ((τ : ℂ) • Z τ))) := by
  obtain ⟨C, hC, h⟩ := hZ
  refine ⟨C ^ 3 * Real.exp (τ0 * C), by positivity, fun τ h0 h1 => (exp_taylor _).trans ?_⟩
  have h2 : ‖(τ : ℂ) • Z τ‖ ≤ τ * C := by
    rw [norm_smul, Complex.norm_real, Real.norm_of_nonneg h0.le]
    have := h τ h0 h1
    rw [pow_zero, mul_one] at this
    exact mul_le_mul_of_nonneg_left this h0.le
  have h3 : ‖(τ : ℂ) • Z τ‖ ^ 3 ≤ (τ * C) ^ 3 := pow_le_pow_left₀ (norm_nonneg _) h2 3
  have h4 : Real.exp ‖(τ : ℂ) • Z τ‖ ≤ Real.exp (τ0 * C) :=
    Real.exp_le_exp.2 (h2.trans (mul_le_mul_of_nonneg_right h1 hC))
  calc _ ≤ (τ * C) ^ 3 * Real.exp (τ0 * C) := mul_le_mul h3 h4 (Real.exp_pos _).le (by positivity)
    _ = _ := by ring

end Exp

/-- A discrete Gronwall inequality for a slow and a relaxing quantity. -/
theorem gronwall_two (ρ c τ0 T : ℝ) (hρ : ρ < 1) (hc : 0 ≤ c) (hτ0 : 0 ≤ τ0) (hT : 0 ≤ T) :
    ∃ C, 0 ≤ C ∧ ∀ (τ : ℝ), 0 < τ → τ ≤ τ0 → ∀ a b : ℕ → ℝ, (∀ n, 0 ≤ a n) → (∀ n, 0 ≤ b n) →
      a 0 = 0 → b 0 ≤ c * τ → ∀ N : ℕ, N * τ ≤ T →
      (∀ n < N, a (n + 1) ≤ (1 + c * τ) * a n + c * τ * b n + c * τ ^ 3) →
      (∀ n < N, b (n + 1) ≤ (ρ + c * τ) * b n + c * τ * a n + c * τ ^ 2) → a N ≤ C * τ ^ 2 := by
  set κ := c / (1 - ρ) with hκ
  have hκ0 : 0 ≤ κ := div_nonneg hc (by linarith)
  have hκ1 : κ * (1 - ρ) = c := by rw [hκ]; field_simp [show (1 - ρ) ≠ 0 by linarith]
  clear_value κ
  set c' := c + κ * c * τ0 with hc'
  have hc'0 : 0 ≤ c' := by positivity
  set c2 := c + κ * c with hc2
  have hc20 : 0 ≤ c2 := by positivity
  refine ⟨Real.exp (c' * T) * (κ * c + T * c2), by positivity, ?_⟩
  intro τ h0 h1 a b ha hb ha0 hb0 N hN hA hB
  have key : ∀ n ≤ N, a n + κ * τ * b n ≤ (1 + c' * τ) ^ n * (κ * c * τ ^ 2 + n * (c2 * τ ^ 3)) := by
    intro n
    induction n with
    | zero =>
      intro _
      rw [ha0]
      have := mul_le_mul_of_nonneg_left hb0 (mul_nonneg hκ0 h0.le)
      simp only [pow_zero, Nat.cast_zero, zero_mul, add_zero, one_mul, zero_add]
      linarith
    | succ n ih =>
      intro hn
      have i1 := ih (by omega)
      have i2 := hA n (by omega)
      have i3 := mul_le_mul_of_nonneg_left (hB n (by omega)) (mul_nonneg hκ0 h0.le)
      have i4 : a (n + 1) + κ * τ * b (n + 1) ≤ (1 + c' * τ) * (a n + κ * τ * b n) + c2 * τ ^ 3 := by
        have e1 : c * τ * b n = κ * (1 - ρ) * τ * b n := by rw [hκ1]
        have e2 : κ * c * τ * τ * a n ≤ κ * c * τ0 * τ * a n := by
          have : κ * c * τ ≤ κ * c * τ0 := mul_le_mul_of_nonneg_left h1 (by positivity)
          exact mul_le_mul_of_nonneg_right (mul_le_mul_of_nonneg_right this h0.le) (ha n)
        have e3 : 0 ≤ κ * c * τ0 * τ * (κ * τ * b n) := by
          have := hb n
          positivity
        have e4 : (1 + c' * τ) * (a n + κ * τ * b n) + c2 * τ ^ 3 =
            (1 + c * τ) * a n + κ * c * τ0 * τ * a n + (1 + c * τ) * (κ * τ * b n) +
              κ * c * τ0 * τ * (κ * τ * b n) + (c * τ ^ 3 + κ * c * τ ^ 3) := by
          rw [hc', hc2]; ring
        rw [e4]
        nlinarith [i2, i3, e1, e2, e3]
      have hq : 1 ≤ 1 + c' * τ := by
        have := mul_nonneg hc'0 h0.le
        linarith
      have hq2 : 1 ≤ (1 + c' * τ) ^ (n + 1) := one_le_pow₀ hq
      have i5 := mul_le_mul_of_nonneg_left i1 (show 0 ≤ 1 + c' * τ by linarith)
      have i6 : c2 * τ ^ 3 ≤ (1 + c' * τ) ^ (n + 1) * (c2 * τ ^ 3) :=
        le_mul_of_one_le_left (by positivity) hq2
      calc a (n + 1) + κ * τ * b (n + 1) ≤ (1 + c' * τ) * (a n + κ * τ * b n) + c2 * τ ^ 3 := i4
        _ ≤ (1 + c' * τ) * ((1 + c' * τ) ^ n * (κ * c * τ ^ 2 + n * (c2 * τ ^ 3))) +
            (1 + c' * τ) ^ (n + 1) * (c2 * τ ^ 3) := add_le_add i5 i6
        _ = _ := by push_cast; ring
  have h2 := key N le_rfl
  have h3 : (1 + c' * τ) ^ N ≤ Real.exp (c' * T) := by
    have h4 : 1 + c' * τ ≤ Real.exp (c' * τ) := by
      have := Real.add_one_le_exp (c' * τ)
      linarith
    have h4' : 0 ≤ 1 + c' * τ := by positivity
    refine (pow_le_pow_left₀ h4' h4 N).trans ?_
    rw [← Real.exp_nat_mul]
    refine Real.exp_le_exp.2 ?_
    have := mul_le_mul_of_nonneg_left hN hc'0
    linarith
  have h5 : κ * c * τ ^ 2 + N * (c2 * τ ^ 3) ≤ (κ * c + T * c2) * τ ^ 2 := by
    have := mul_le_mul_of_nonneg_right hN (show 0 ≤ c2 * τ ^ 2 by positivity)
    nlinarith [this]
  have h6 : 0 ≤ κ * τ * b N := by
    have := hb N
    positivity
  calc a N ≤ a N + κ * τ * b N := by linarith
    _ ≤ _ := h2
    _ ≤ Real.exp (c' * T) * ((κ * c + T * c2) * τ ^ 2) :=
        mul_le_mul h3 h5 (by positivity) (Real.exp_pos _).le
    _ = _ := by ring

section Main
variable {ι ν μ : Type} [Fintype ι] [Fintype ν] [Fintype μ] [DecidableEq ι] [DecidableEq ν]
  [DecidableEq μ]

/-- `P τ` is the transport over a time step `τ`, with generator `L`; `J` sends the conserved moments to
the equilibrium, `p` reads the conserved moments, `k` and `q` are the deviations from the equilibrium. -/
theorem order_two (P : ℝ → Matrix ι ι ℂ) (L : Matrix ι ι ℂ) (J : Matrix ι ν ℂ) (p : Matrix ν ι ℂ)
    (k : Matrix ι μ ℂ) (q : Matrix μ ι ℂ) (s : μ → ℝ) (hs : ∀ i, 0 < s i ∧ s i < 2)
    (h1 : J * p + k * q = 1) (h2 : p * J = 1) (h3 : q * J = 0) (h4 : p * k = 0) (h5 : q * k = 1)
    (τ0 : ℝ) (hτ0 : 0 < τ0)
    (hP : Big τ0 3 (fun τ => P τ - 1 - (τ : ℂ) • L - ((τ : ℂ) ^ 2 * (1 / 2)) • (L * L)))
    (T : ℝ) (hT : 0 ≤ T) (u0 : ν → ℂ) :
    ∃ C, 0 ≤ C ∧ ∀ τ, 0 < τ → τ ≤ τ0 → ∀ n : ℕ, n * τ ≤ T →
      ‖p *ᵥ (((J * p + k * diagonal (fun i => ((1 - s i : ℝ) : ℂ)) * q) * P τ) ^ n *ᵥ (J *ᵥ u0)) -
        exp (((n * τ : ℝ) : ℂ) • (p * L * J + (τ : ℂ) •
          (p * L * k * diagonal (fun i => ((1 / s i - 1 / 2 : ℝ) : ℂ)) * (q * L * J)))) *ᵥ u0‖ ≤ C * τ ^ 2 := by
  set D : Matrix μ μ ℂ := diagonal (fun i => ((1 - s i : ℝ) : ℂ)) with hD
  set σ : Matrix μ μ ℂ := diagonal (fun i => ((1 / s i - 1 / 2 : ℝ) : ℂ)) with hσ
  set X := p * L * J with hX
  set B := p * L * k with hB
  set Φ := q * L * J with hΦ
  set Q := B * σ * Φ with hQ
  set V : Matrix μ ν ℂ := diagonal (fun i => (((1 - s i) / s i : ℝ) : ℂ)) * Φ with hV
  set Z : ℝ → Matrix ν ν ℂ := fun τ => X + (τ : ℂ) • Q with hZ
  have hZb : Big τ0 0 Z := by
    have h6 : Big τ0 0 (fun τ => (τ : ℂ) • Q) :=
      ((Big.const Q).smul 1).mono.congr (fun τ => by rw [pow_one])
    exact (Big.const X).add h6
  have hexp := big_exp hZb
  -- algebra
  have hLL : p * (L * L) * J = X * X + B * Φ := by
    have : p * (L * L) * J = p * L * (J * p + k * q) * L * J := by
      rw [h1]; simp only [Matrix.mul_one, Matrix.mul_assoc]
    rw [this, hX, hB, hΦ]
    simp only [Matrix.mul_add, Matrix.add_mul, Matrix.mul_assoc]
  have hQV : Q = (1 / 2 : ℂ) • (B * Φ) + B * V := by
    have : σ = (1 / 2 : ℂ) • (1 : Matrix μ μ ℂ) + diagonal (fun i => (((1 - s i) / s i : ℝ) : ℂ)) := by
      rw [hσ, ← diagonal_one, ← diagonal_smul, diagonal_add]
      congr 1
      funext i
      have : (s i : ℂ) ≠ 0 := by exact_mod_cast (hs i).1.ne'
      simp only [Pi.smul_apply, smul_eq_mul]
      push_cast
      field_simp
      ring
    rw [hQ, this, hV]
    simp only [Matrix.mul_add, Matrix.add_mul, Matrix.mul_assoc, Matrix.mul_one, Matrix.smul_mul,
      Matrix.mul_smul, Matrix.one_mul]
  have hVV : D * Φ + D * V = V := by
    clear_value Φ
    rw [hV, hD, ← Matrix.mul_assoc, diagonal_mul_diagonal, ← Matrix.add_mul, diagonal_add]
    congr 2
    funext i
    have : (s i : ℂ) ≠ 0 := by exact_mod_cast (hs i).1.ne'
    push_cast
    field_simp
    ring
  have hR1 : Big τ0 2 (fun τ => P τ - 1 - (τ : ℂ) • L) := by
    have h6 : Big τ0 2 (fun τ => (τ : ℂ) ^ 2 • ((1 / 2 : ℂ) • (L * L))) :=
      ((Big.const ((1 / 2 : ℂ) • (L * L))).smul 2)
    refine ((hP.mono (k := 2) 1).add h6).congr (fun τ => ?_)
    module
  have hR0 : Big τ0 1 (fun τ => P τ - 1) := by
    have h6 : Big τ0 1 (fun τ => (τ : ℂ) ^ 1 • L) := (Big.const L).smul 1
    refine ((hR1.mono (k := 1) 1).add h6).congr (fun τ => ?_)
    module
  have hexp1 : Big τ0 1 (fun τ => exp ((τ : ℂ) • Z τ) - 1) := by
    have h6 : Big τ0 1 (fun τ => (τ : ℂ) ^ 1 • Z τ) := by simpa using hZb.smul 1
    have h7 : Big τ0 1 (fun τ => (1 / 2 : ℂ) • (((τ : ℂ) ^ 1 • Z τ) * ((τ : ℂ) ^ 1 • Z τ))) :=
      ((h6.mul h6).mono (k := 1) 1).csmul _
    refine (((hexp.mono (k := 1) 2).add h6).add h7).congr (fun τ => ?_)
    rw [pow_one]
    module
  -- truncation errors
  have hDu : Big τ0 3 (fun τ => p * P τ * J + (τ : ℂ) • (p * P τ * k * V) - exp ((τ : ℂ) • Z τ)) := by
    have g1 := ((Big.const (τ0 := τ0) p).mul hP).mul (Big.const J)
    have g2 : Big τ0 3 (fun τ => (τ : ℂ) ^ 1 • (p * (P τ - 1 - (τ : ℂ) • L) * k * V)) := by
      simpa using ((((Big.const (τ0 := τ0) p).mul hR1).mul (Big.const k)).mul (Big.const V)).smul 1
    have g3 : Big τ0 3 (fun τ => (τ : ℂ) ^ 3 • ((1 / 2 : ℂ) • (X * Q + Q * X))) := by
      simpa using (Big.const (τ0 := τ0) ((1 / 2 : ℂ) • (X * Q + Q * X))).smul 3
    have g4 : Big τ0 3 (fun τ => (τ : ℂ) ^ 4 • ((1 / 2 : ℂ) • (Q * Q))) := by
      have := (Big.const (τ0 := τ0) ((1 / 2 : ℂ) • (Q * Q))).smul 4
      rw [show 0 + 4 = 3 + 1 by rfl] at this
      exact this.mono
    rw [show 0 + 3 + 0 = 3 by rfl] at g1
    refine ((((g1.add g2).sub hexp).sub g3).sub g4).congr (fun τ => ?_)
    have e1 : p * (P τ - 1 - (τ : ℂ) • L - ((τ : ℂ) ^ 2 * (1 / 2)) • (L * L)) * J =
        p * P τ * J - 1 - (τ : ℂ) • X - ((τ : ℂ) ^ 2 * (1 / 2)) • (X * X + B * Φ) := by
      rw [← hLL, ← h2]
      simp only [Matrix.mul_sub, Matrix.sub_mul, Matrix.mul_one, Matrix.mul_smul, Matrix.smul_mul, hX]
    have e2 : p * (P τ - 1 - (τ : ℂ) • L) * k * V = p * P τ * k * V - (τ : ℂ) • (B * V) := by
      simp only [Matrix.mul_sub, Matrix.sub_mul, Matrix.mul_one, Matrix.mul_smul, Matrix.smul_mul, h4, hB,
        Matrix.zero_mul, sub_zero]
    have e3 : ((τ : ℂ) • Z τ) * ((τ : ℂ) • Z τ) = (τ : ℂ) ^ 2 • (X * X) +
        (τ : ℂ) ^ 3 • (X * Q + Q * X) + (τ : ℂ) ^ 4 • (Q * Q) := by
      simp only [hZ, Matrix.mul_add, Matrix.add_mul, Matrix.mul_smul, Matrix.smul_mul]
      module
    rw [e1, e2, e3, show Z τ = X + (τ : ℂ) • Q from rfl]
    linear_combination (norm := module) (-(τ : ℂ) ^ 2) • hQV
  have hDv : Big τ0 2 (fun τ => D * (q * P τ * J) + (τ : ℂ) • (D * (q * P τ * k) * V) -
      (τ : ℂ) • (V * exp ((τ : ℂ) • Z τ))) := by
    have g1 := (Big.const (τ0 := τ0) D).mul (((Big.const (τ0 := τ0) q).mul hR1).mul (Big.const J))
    rw [show 0 + (0 + 2 + 0) = 2 by rfl] at g1
    have g2 : Big τ0 2 (fun τ => (τ : ℂ) ^ 1 • (D * (q * (P τ - 1) * k) * V)) := by
      simpa using (((Big.const (τ0 := τ0) D).mul (((Big.const (τ0 := τ0) q).mul hR0).mul
        (Big.const k))).mul (Big.const V)).smul 1
    have g3 : Big τ0 2 (fun τ => (τ : ℂ) ^ 1 • (V * (exp ((τ : ℂ) • Z τ) - 1))) := by
      simpa using ((Big.const (τ0 := τ0) V).mul hexp1).smul 1
    refine ((g1.add g2).sub g3).congr (fun τ => ?_)
    have e1 : D * (q * (P τ - 1 - (τ : ℂ) • L) * J) = D * (q * P τ * J) - (τ : ℂ) • (D * Φ) := by
      simp only [Matrix.mul_sub, Matrix.sub_mul, Matrix.mul_one, Matrix.mul_smul, Matrix.smul_mul, h3,
        Matrix.mul_zero, sub_zero, hΦ]
    have e2 : D * (q * (P τ - 1) * k) * V = D * (q * P τ * k) * V - D * V := by
      simp only [Matrix.mul_sub, Matrix.sub_mul, Matrix.mul_one, h5]
    have e3 : V * (exp ((τ : ℂ) • Z τ) - 1) = V * exp ((τ : ℂ) • Z τ) - V := by
      rw [Matrix.mul_sub, Matrix.mul_one]
    rw [e1, e2, e3, pow_one]
    linear_combination (norm := module) (τ : ℂ) • hVV
  -- the coefficients of the recursion
  have huu : Big τ0 1 (fun τ => p * P τ * J - 1) := by
    refine (((Big.const (τ0 := τ0) p).mul hR0).mul (Big.const J)).congr (fun τ => ?_)
    rw [Matrix.mul_sub, Matrix.sub_mul, Matrix.mul_one, h2]
  have huv : Big τ0 1 (fun τ => p * P τ * k) := by
    refine (((Big.const (τ0 := τ0) p).mul hR0).mul (Big.const k)).congr (fun τ => ?_)
    rw [Matrix.mul_sub, Matrix.sub_mul, Matrix.mul_one, h4, sub_zero]
  have hvu : Big τ0 1 (fun τ => D * (q * P τ * J)) := by
    refine ((Big.const (τ0 := τ0) D).mul (((Big.const (τ0 := τ0) q).mul hR0).mul (Big.const J))).congr
      (fun τ => ?_)
    rw [Matrix.mul_sub, Matrix.sub_mul, Matrix.mul_one, h3, sub_zero]
  have hvv : Big τ0 1 (fun τ => D * (q * P τ * k) - D) := by
    refine ((Big.const (τ0 := τ0) D).mul (((Big.const (τ0 := τ0) q).mul hR0).mul (Big.const k))).congr
      (fun τ => ?_)
    rw [Matrix.mul_sub, Matrix.sub_mul, Matrix.mul_one, h5, Matrix.mul_sub, Matrix.mul_one]
  obtain ⟨c1, hc1, huu⟩ := huu
  obtain ⟨c2, hc2, huv⟩ := huv
  obtain ⟨c3, hc3, hvu⟩ := hvu
  obtain ⟨c4, hc4, hvv⟩ := hvv
  obtain ⟨c5, hc5, hDu⟩ := hDu
  obtain ⟨c6, hc6, hDv⟩ := hDv
  obtain ⟨z, hz, hZb⟩ := hZb
  have hρ : ‖D‖ < 1 := by
    rw [hD, linfty_opNorm_diagonal, pi_norm_lt_iff zero_lt_one]
    intro i
    rw [Complex.norm_real, Real.norm_eq_abs, abs_lt]
    have := hs i
    constructor <;> linarith
  set Ub := (1 + T * z + 1 / 2 * (T * z) ^ 2 + (T * z) ^ 3 * Real.exp (T * z)) * ‖u0‖ with hUb
  have hUb0 : 0 ≤ Ub := by positivity
  set c := c1 + c2 + c3 + c4 + c5 * Ub + c6 * Ub + ‖V‖ * ‖u0‖ with hc
  have hu : 0 ≤ ‖V‖ * ‖u0‖ := by positivity
  have hc0 : 0 ≤ c := by positivity
  have b5 : 0 ≤ c5 * Ub := by positivity
  have b6 : 0 ≤ c6 * Ub := by positivity
  obtain ⟨C, hC, hG⟩ := gronwall_two ‖D‖ c τ0 T hρ hc0 hτ0.le hT
  refine ⟨C, hC, fun τ t0 t1 N hN => ?_⟩
  set x : ℕ → ι → ℂ := fun n => ((J * p + k * D * q) * P τ) ^ n *ᵥ (J *ᵥ u0) with hx
  set ub : ℕ → ν → ℂ := fun n => exp (((n * τ : ℝ) : ℂ) • Z τ) *ᵥ u0 with hub
  have hsplit0 : ∀ y : ι → ℂ, y = J *ᵥ (p *ᵥ y) + k *ᵥ (q *ᵥ y) := by
    intro y
    rw [mulVec_mulVec, mulVec_mulVec, ← add_mulVec, h1, one_mulVec]
  have hxs : ∀ n, x (n + 1) = (J * p + k * D * q) *ᵥ (P τ *ᵥ x n) := by
    intro n
    simp only [hx]
    rw [pow_succ', ← mulVec_mulVec, ← mulVec_mulVec]
  have hus : ∀ n, ub (n + 1) = exp ((τ : ℂ) • Z τ) *ᵥ ub n := by
    intro n
    simp only [hub]
    have hcomm : Commute ((τ : ℂ) • Z τ) (((n * τ : ℝ) : ℂ) • Z τ) :=
      ((Commute.refl (Z τ)).smul_left _).smul_right _
    rw [mulVec_mulVec, ← Matrix.exp_add_of_commute _ _ hcomm]
    congr 2
    push_cast
    module
  have hubB : ∀ n ≤ N, ‖ub n‖ ≤ Ub := by
    intro n hn
    have e0 : ‖((n * τ : ℝ) : ℂ) • Z τ‖ ≤ T * z := by
      rw [norm_smul, Complex.norm_real, Real.norm_of_nonneg (by positivity)]
      have e1 := hZb τ t0 t1
      rw [pow_zero, mul_one] at e1
      have e2 : (n : ℝ) * τ ≤ T :=
        (mul_le_mul_of_nonneg_right (by exact_mod_cast hn) t0.le).trans hN
      exact mul_le_mul e2 e1 (norm_nonneg _) hT
    set Y := ((n * τ : ℝ) : ℂ) • Z τ with hY
    have e3 : ‖exp Y‖ ≤ 1 + T * z + 1 / 2 * (T * z) ^ 2 + (T * z) ^ 3 * Real.exp (T * z) := by
      have e4 : exp Y = (exp Y - 1 - Y - (1 / 2 : ℂ) • (Y * Y)) + (1 + Y + (1 / 2 : ℂ) • (Y * Y)) := by
        abel
      have e5 : ‖(1 / 2 : ℂ) • (Y * Y)‖ ≤ 1 / 2 * (T * z) ^ 2 := by
        rw [norm_smul, pow_two]
        have : ‖Y * Y‖ ≤ (T * z) * (T * z) :=
          (norm_mul_le _ _).trans (mul_le_mul e0 e0 (norm_nonneg _) (by positivity))
        have h : ‖(1 / 2 : ℂ)‖ = 1 / 2 := by norm_num
        rw [h]
        linarith
      have e6 : ‖exp Y - 1 - Y - (1 / 2 : ℂ) • (Y * Y)‖ ≤ (T * z) ^ 3 * Real.exp (T * z) :=
        (exp_taylor Y).trans (mul_le_mul (pow_le_pow_left₀ (norm_nonneg _) e0 3)
          (Real.exp_le_exp.2 e0) (Real.exp_pos _).le (by positivity))
      have e7 : ‖(1 + Y + (1 / 2 : ℂ) • (Y * Y))‖ ≤ 1 + T * z + 1 / 2 * (T * z) ^ 2 :=
        (norm_add_le _ _).trans (add_le_add ((norm_add_le _ _).trans (add_le_add norm_one_le' e0)) e5)
      rw [e4]
      refine (norm_add_le _ _).trans ?_
      linarith
    exact (linfty_opNorm_mulVec _ _).trans (mul_le_mul_of_nonneg_right e3 (norm_nonneg _))
  have hub0 : ub 0 = u0 := by simp [hub]
  have hx0 : x 0 = J *ᵥ u0 := by simp [hx]
  change ‖p *ᵥ x N - ub N‖ ≤ C * τ ^ 2
  have hsplit : ∀ n, x n = J *ᵥ (p *ᵥ x n) + k *ᵥ (q *ᵥ x n) := fun n => hsplit0 (x n)
  clear_value x ub
  have hpx : ∀ n, p *ᵥ x (n + 1) = (p * P τ * J) *ᵥ (p *ᵥ x n) + (p * P τ * k) *ᵥ (q *ᵥ x n) := by
    intro n
    have e1 : p * (J * p + k * D * q) = p := by
      rw [Matrix.mul_add, ← Matrix.mul_assoc, h2, ← Matrix.mul_assoc, ← Matrix.mul_assoc, h4]; simp
    rw [hxs, mulVec_mulVec, e1]
    conv_lhs => rw [hsplit n]
    simp only [mulVec_add, mulVec_mulVec, Matrix.mul_assoc]
  have hqx : ∀ n, q *ᵥ x (n + 1) = (D * (q * P τ * J)) *ᵥ (p *ᵥ x n) +
      (D * (q * P τ * k)) *ᵥ (q *ᵥ x n) := by
    intro n
    have e1 : q * (J * p + k * D * q) = D * q := by
      rw [Matrix.mul_add, ← Matrix.mul_assoc, h3, ← Matrix.mul_assoc, ← Matrix.mul_assoc, h5]; simp
    rw [hxs, mulVec_mulVec, e1]
    conv_lhs => rw [hsplit n]
    simp only [mulVec_add, mulVec_mulVec, Matrix.mul_assoc]
  have hmv : ∀ {α β : Type} [Fintype α] [Fintype β] (A : Matrix α β ℂ) (y : β → ℂ) (r : ℝ), ‖A‖ ≤ r →
      ‖A *ᵥ y‖ ≤ r * ‖y‖ := by
    intro α β _ _ A y r hr
    exact (linfty_opNorm_mulVec _ _).trans (mul_le_mul_of_nonneg_right hr (norm_nonneg _))
  have hfin := hG τ t0 t1 (fun n => ‖p *ᵥ x n - ub n‖)
    (fun n => ‖q *ᵥ x n - (τ : ℂ) • (V *ᵥ ub n)‖) (fun n => norm_nonneg _) (fun n => norm_nonneg _)
    ?_ ?_ N hN ?_ ?_
  · exact hfin
  · simp only [hub0, hx0, mulVec_mulVec, h2, one_mulVec, sub_self, norm_zero]
  · simp only [hub0, hx0, mulVec_mulVec, h3, zero_mulVec, zero_sub, norm_neg, norm_smul,
      Complex.norm_real, Real.norm_of_nonneg t0.le]
    have e1 := linfty_opNorm_mulVec V u0
    have e2 : ‖V‖ * ‖u0‖ ≤ c := by rw [hc]; linarith
    have := mul_le_mul_of_nonneg_left (e1.trans e2) t0.le
    linarith
  · intro n hn
    have e1 : p *ᵥ x (n + 1) - ub (n + 1) = (p *ᵥ x n - ub n) + (p * P τ * J - 1) *ᵥ (p *ᵥ x n - ub n) +
        (p * P τ * k) *ᵥ (q *ᵥ x n - (τ : ℂ) • (V *ᵥ ub n)) +
        (p * P τ * J + (τ : ℂ) • (p * P τ * k * V) - exp ((τ : ℂ) • Z τ)) *ᵥ ub n := by
      rw [hpx, hus]
      simp only [sub_mulVec, add_mulVec, mulVec_sub, one_mulVec, smul_mulVec, mulVec_smul, mulVec_mulVec,
        Matrix.mul_assoc, Matrix.sub_mul, Matrix.one_mul]
      abel
    have f1 := hmv _ (p *ᵥ x n - ub n) _ (huu τ t0 t1)
    have f2 := hmv _ (q *ᵥ x n - (τ : ℂ) • (V *ᵥ ub n)) _ (huv τ t0 t1)
    have f3 := hmv _ (ub n) _ (hDu τ t0 t1)
    have f4 : c5 * τ ^ 3 * ‖ub n‖ ≤ c5 * τ ^ 3 * Ub :=
      mul_le_mul_of_nonneg_left (hubB n hn.le) (by positivity)
    rw [e1]
    refine (norm_add_le _ _).trans ?_
    have n1 := norm_add_le ((p *ᵥ x n - ub n) + (p * P τ * J - 1) *ᵥ (p *ᵥ x n - ub n))
      ((p * P τ * k) *ᵥ (q *ᵥ x n - (τ : ℂ) • (V *ᵥ ub n)))
    have n2 := norm_add_le (p *ᵥ x n - ub n) ((p * P τ * J - 1) *ᵥ (p *ᵥ x n - ub n))
    set A := ‖p *ᵥ x n - ub n‖
    set W := ‖q *ᵥ x n - (τ : ℂ) • (V *ᵥ ub n)‖
    have a0 : 0 ≤ τ * A := by positivity
    have w0 : 0 ≤ τ * W := by positivity
    have k1 : c1 * (τ * A) ≤ c * (τ * A) := mul_le_mul_of_nonneg_right (by rw [hc]; linarith) a0
    have k2 : c2 * (τ * W) ≤ c * (τ * W) := mul_le_mul_of_nonneg_right (by rw [hc]; linarith) w0
    have k3 : c5 * Ub * τ ^ 3 ≤ c * τ ^ 3 :=
      mul_le_mul_of_nonneg_right (by rw [hc]; linarith) (by positivity)
    rw [pow_one] at f1 f2
    linarith
  · intro n hn
    have e1 : q *ᵥ x (n + 1) - (τ : ℂ) • (V *ᵥ ub (n + 1)) =
        D *ᵥ (q *ᵥ x n - (τ : ℂ) • (V *ᵥ ub n)) +
        (D * (q * P τ * k) - D) *ᵥ (q *ᵥ x n - (τ : ℂ) • (V *ᵥ ub n)) +
        (D * (q * P τ * J)) *ᵥ (p *ᵥ x n - ub n) +
        (D * (q * P τ * J) + (τ : ℂ) • (D * (q * P τ * k) * V) -
          (τ : ℂ) • (V * exp ((τ : ℂ) • Z τ))) *ᵥ ub n := by
      rw [hqx, hus]
      simp only [sub_mulVec, add_mulVec, mulVec_sub, smul_mulVec, mulVec_smul, mulVec_mulVec,
        Matrix.mul_assoc, Matrix.sub_mul, smul_sub]
      abel
    have f0 := hmv D (q *ᵥ x n - (τ : ℂ) • (V *ᵥ ub n)) _ le_rfl
    have f1 := hmv _ (q *ᵥ x n - (τ : ℂ) • (V *ᵥ ub n)) _ (hvv τ t0 t1)
    have f2 := hmv _ (p *ᵥ x n - ub n) _ (hvu τ t0 t1)
    have f3 := hmv _ (ub n) _ (hDv τ t0 t1)
    have f4 : c6 * τ ^ 2 * ‖ub n‖ ≤ c6 * τ ^ 2 * Ub :=
      mul_le_mul_of_nonneg_left (hubB n hn.le) (by positivity)
    rw [e1]
    refine (norm_add_le _ _).trans ?_
    have n1 := norm_add_le (D *ᵥ (q *ᵥ x n - (τ : ℂ) • (V *ᵥ ub n)) +
      (D * (q * P τ * k) - D) *ᵥ (q *ᵥ x n - (τ : ℂ) • (V *ᵥ ub n)))
      ((D * (q * P τ * J)) *ᵥ (p *ᵥ x n - ub n))
    have n2 := norm_add_le (D *ᵥ (q *ᵥ x n - (τ : ℂ) • (V *ᵥ ub n)))
      ((D * (q * P τ * k) - D) *ᵥ (q *ᵥ x n - (τ : ℂ) • (V *ᵥ ub n)))
    set A := ‖p *ᵥ x n - ub n‖
    set W := ‖q *ᵥ x n - (τ : ℂ) • (V *ᵥ ub n)‖
    have a0 : 0 ≤ τ * A := by positivity
    have w0 : 0 ≤ τ * W := by positivity
    have k1 : c3 * (τ * A) ≤ c * (τ * A) := mul_le_mul_of_nonneg_right (by rw [hc]; linarith) a0
    have k2 : c4 * (τ * W) ≤ c * (τ * W) := mul_le_mul_of_nonneg_right (by rw [hc]; linarith) w0
    have k3 : c6 * Ub * τ ^ 2 ≤ c * τ ^ 2 :=
      mul_le_mul_of_nonneg_right (by rw [hc]; linarith) (by positivity)
    rw [pow_one] at f1 f2
    linarith
end Main

end Pylbm.Stability
