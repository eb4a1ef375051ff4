import Verif.Sim.Tiles
import Mathlib.Data.Nat.Sqrt
import Mathlib.Tactic.FinCases
/-!
# C123: the wave vectors of the stability analysis

`Stability.eigenvalues` with the number of wave vectors given by the user, in the order of the code.
-/

set_option linter.unusedSectionVars false

namespace Pylbm.Stability
open Matrix Sim Scheme Halo SchemeSpec HaloSpec Mpi

variable {n nc d dim : Nat}

/-! ## The model -/

/-- The entry `k` of `np.linspace(0, 2 * np.pi, n0, endpoint=False)`, exact. -/
noncomputable def linspace (n0 k : Nat) : ℝ := 2 * Real.pi * (k : ℝ) / n0

/-- The columns of `v_xi`, stability.py 81-89: `linspace` in dimension 1; in dimension 2 `meshgrid` (indexing 'xy') and `flatten`,
with `int(np.sqrt(n_wv))` points in each direction (the rounding of `np.sqrt` is not modelled). In dimension 3 no branch sets
`v_xi`, and line 107 (or the return) raises `UnboundLocalError`: `none`. -/
noncomputable def vXi : (dim : Nat) → (n_wv : Nat) → Option (List (Fin dim → ℝ))
  | 1, n_wv => some ((List.range n_wv).map fun k _ => linspace n_wv k)
  | 2, n_wv =>
    let n0 := Nat.sqrt n_wv
    some ((List.range (n0 * n0)).map fun k => ![linspace n0 (k % n0), linspace n0 (k / n0)])
  | _, _ => none

/-- `eigenvalues`, stability.py 68-144: the wave vectors and `is_stable_l2` (0 for "in", 1 for "on", 2 for "out") for the matrix `R`
of the relaxation in the populations. The eigenvalues themselves are not modelled, the verdict does not use them. -/
noncomputable def eigenvalues (τ : ℝ) (vel : Fin n → Cell dim) (R : Matrix (Fin n) (Fin n) ℝ) (n_wv : Nat) :
    Option (List (Fin dim → ℝ) × Nat) :=
  (vXi dim n_wv).map fun l =>
    let tests := l.map fun ξ => cohnSchur τ (amplification vel R ξ)
    let r := if tests.all (fun t => t.1) then 0 else 1
    (l, if ¬ tests.all (fun t => t.2) then 2 else r)

/-! ## Properties -/

/-- The wave vectors of the periodic box with `n0` cells in each direction. -/
def BoxWaves (n0 : Nat) (l : List (Fin dim → ℝ)) : Prop :=
  ∀ ξ, ξ ∈ l ↔ ∃ m : Fin dim → Fin n0, ξ = fun i => 2 * Real.pi * (m i : ℝ) / n0

/-- The number of cells in each direction of the box whose wave vectors are sampled. -/
def Side (dim n_wv n0 : Nat) : Prop := (dim = 1 ∧ n0 = n_wv) ∨ (dim = 2 ∧ n0 ^ 2 ≤ n_wv ∧ n_wv < (n0 + 1) ^ 2)

theorem side_unique {n_wv a b : Nat} (ha : Side dim n_wv a) (hb : Side dim n_wv b) : a = b := by
  rcases ha with ⟨h1, h2⟩ | ⟨h1, h2, h3⟩ <;> rcases hb with ⟨h1', h2'⟩ | ⟨h1', h2', h3'⟩
  · omega
  · omega
  · omega
  · have h4 : a < b + 1 := lt_of_pow_lt_pow_left₀ 2 (by omega) (h2.trans_lt h3')
    have h5 : b < a + 1 := lt_of_pow_lt_pow_left₀ 2 (by omega) (h2'.trans_lt h3)
    omega

theorem vXi_box (hdim : dim = 1 ∨ dim = 2) (n_wv : Nat) : ∃ n0 l, Side dim n_wv n0 ∧ vXi dim n_wv = some l ∧
    l.length = n0 ^ dim ∧ BoxWaves n0 l := by
  rcases hdim with rfl | rfl
  · refine ⟨n_wv, _, .inl ⟨rfl, rfl⟩, rfl, by simp, fun ξ => ?_⟩
    simp only [List.mem_map, List.mem_range]
    constructor
    · rintro ⟨k, hk, rfl⟩
      exact ⟨fun _ => ⟨k, hk⟩, rfl⟩
    · rintro ⟨m, rfl⟩
      refine ⟨m 0, (m 0).2, ?_⟩
      funext i
      rw [Subsingleton.elim i 0]
      rfl
  · refine ⟨Nat.sqrt n_wv, _, .inr ⟨rfl, ?_, ?_⟩, rfl, by simp [sq], fun ξ => ?_⟩
    · exact Nat.sqrt_le' n_wv
    · exact Nat.lt_succ_sqrt' n_wv
    · generalize Nat.sqrt n_wv = q
      simp only [List.mem_map, List.mem_range]
      constructor
      · rintro ⟨k, hk, rfl⟩
        have hq : 0 < q := by
          rcases Nat.eq_zero_or_pos q with rfl | h
          · simp at hk
          · exact h
        refine ⟨![⟨k % q, Nat.mod_lt _ hq⟩, ⟨k / q, Nat.div_lt_of_lt_mul hk⟩], ?_⟩
        funext i
        fin_cases i <;> rfl
      · rintro ⟨m, rfl⟩
        have h0 := (m 0).2
        have h1 := (m 1).2
        have hq : 0 < q := by omega
        refine ⟨m 0 + q * m 1, ?_, ?_⟩
        · calc (m 0 : Nat) + q * m 1 < q + q * m 1 := by omega
            _ = q * (m 1 + 1) := by ring
            _ ≤ q * q := Nat.mul_le_mul_left q h1
        · rw [Nat.add_mul_mod_self_left, Nat.mod_eq_of_lt h0, Nat.add_mul_div_left _ _ hq, Nat.div_eq_of_lt h0, zero_add]
          funext i
          fin_cases i <;> rfl

theorem all_boxWaves {n0 : Nat} {l : List (Fin dim → ℝ)} (hl : BoxWaves n0 l) (τ : ℝ) (vel : Fin n → Cell dim)
    (R : Matrix (Fin n) (Fin n) ℝ) (f : Bool × Bool → Bool) :
    (l.map fun ξ => cohnSchur τ (amplification vel R ξ)).all f =
      ((waveVectors n0 dim).map fun ξ => cohnSchur τ (amplification vel R ξ)).all f := by
  rw [Bool.eq_iff_iff, List.all_eq_true, List.all_eq_true]
  simp only [List.mem_map, forall_exists_index, and_imp, forall_apply_eq_imp_iff₂]
  refine forall_congr' fun ξ => imp_congr_left ?_
  rw [hl ξ]
  unfold waveVectors
  simp only [List.mem_map, Finset.mem_toList, Finset.mem_univ, true_and, eq_comm]

/-- **C123, dimensions 1 and 2.** `eigenvalues` returns all the wave vectors of the periodic box with `n0` cells in each direction,
each of them once, where `n0` is the number given by the user in dimension 1 and its integer square root in dimension 2; the verdict
is the one of C63 and C120 for this box. -/
theorem C123_box (hdim : dim = 1 ∨ dim = 2) (τ : ℝ) (vel : Fin n → Cell dim) (R : Matrix (Fin n) (Fin n) ℝ) (n_wv : Nat) :
    ∃ n0 l, Side dim n_wv n0 ∧ eigenvalues τ vel R n_wv = some (l, verdict τ vel R n0) ∧ l.length = n0 ^ dim ∧ BoxWaves n0 l := by
  obtain ⟨n0, l, h1, h2, h3, h4⟩ := vXi_box hdim n_wv
  refine ⟨n0, l, h1, ?_, h3, h4⟩
  unfold eigenvalues verdict
  rw [h2]
  simp only [Option.map_some, all_boxWaves h4]

/-- **C123, dimension 3.** The analysis gives an answer exactly in dimensions 1 and 2: no scheme in three dimensions can be analysed,
whatever the scheme and the number of wave vectors. -/
theorem C123_dimension_negation (τ : ℝ) (vel : Fin n → Cell dim) (R : Matrix (Fin n) (Fin n) ℝ) (n_wv : Nat) :
    (∃ l v, eigenvalues τ vel R n_wv = some (l, v)) ↔ dim = 1 ∨ dim = 2 := by
  constructor
  · rintro ⟨l, v, h⟩
    by_contra hc
    push Not at hc
    have : vXi dim n_wv = none := by
      unfold vXi
      split
      · exact absurd rfl hc.1
      · exact absurd rfl hc.2
      · rfl
    unfold eigenvalues at h
    rw [this] at h
    cases h
  · intro hdim
    obtain ⟨n0, l, _, h, _⟩ := C123_box hdim τ vel R n_wv
    exact ⟨l, _, h⟩

/-- A case for `C123_dimension_negation`: D3Q6. -/
example (τ : ℝ) (R : Matrix (Fin 6) (Fin 6) ℝ) (n_wv : Nat) : ¬ ∃ l v,
    eigenvalues τ (![![1, 0, 0], ![-1, 0, 0], ![0, 1, 0], ![0, -1, 0], ![0, 0, 1], ![0, 0, -1]] : Fin 6 → Cell 3) R n_wv =
      some (l, v) := by
  rw [C123_dimension_negation]
  decide

/-- **C123, more wave vectors.** If the number of points in each direction is multiplied by an integer, an instability is still
found, and if the larger number finds the scheme stable so does the smaller one. -/
theorem C123_multiples (τ : ℝ) (vel : Fin n → Cell dim) (R : Matrix (Fin n) (Fin n) ℝ) {a b n0 p : Nat}
    (ha : Side dim a n0) (hb : Side dim b (p * n0)) (hp : 0 < p) {l l' : List (Fin dim → ℝ)} {v v' : Nat}
    (h : eigenvalues τ vel R a = some (l, v)) (h' : eigenvalues τ vel R b = some (l', v')) :
    (∀ ξ ∈ l, ξ ∈ l') ∧ (v = 2 → v' = 2) ∧ (v' = 0 → v = 0) := by
  have hdim : dim = 1 ∨ dim = 2 := ha.imp And.left And.left
  obtain ⟨x, m, s, h2, _, hm⟩ := vXi_box hdim a
  obtain ⟨x', m', s', h2', _, hm'⟩ := vXi_box hdim b
  obtain rfl := side_unique ha s
  obtain rfl := side_unique hb s'
  unfold eigenvalues at h h'
  rw [h2] at h
  rw [h2'] at h'
  simp only [Option.map_some, Option.some.injEq, Prod.mk.injEq] at h h'
  obtain ⟨rfl, rfl⟩ := h
  obtain ⟨rfl, rfl⟩ := h'
  have hsub : ∀ ξ ∈ m, ξ ∈ m' := by
    intro ξ hξ
    obtain ⟨k, rfl⟩ := (hm ξ).1 hξ
    refine (hm' _).2 ⟨fun i => ⟨p * k i, Nat.mul_lt_mul_of_pos_left (k i).2 hp⟩, ?_⟩
    funext i
    have h0 : (n0 : ℝ) ≠ 0 := by
      have := (k i).2
      exact_mod_cast (by omega : n0 ≠ 0)
    have hp' : (p : ℝ) ≠ 0 := by exact_mod_cast hp.ne'
    push_cast
    field_simp
  have hall : ∀ f : Bool × Bool → Bool, (m'.map fun ξ => cohnSchur τ (amplification vel R ξ)).all f = true →
      (m.map fun ξ => cohnSchur τ (amplification vel R ξ)).all f = true := by
    intro f hf
    rw [List.all_eq_true] at hf ⊢
    intro t ht
    obtain ⟨ξ, hξ, rfl⟩ := List.mem_map.1 ht
    exact hf _ (List.mem_map.2 ⟨ξ, hsub ξ hξ, rfl⟩)
  refine ⟨hsub, fun hv => ?_, fun hv => ?_⟩
  · by_cases h4 : (m'.map fun ξ => cohnSchur τ (amplification vel R ξ)).all (fun t => t.2) = true
    · rw [if_neg (not_not.2 (hall _ h4))] at hv
      split_ifs at hv
      all_goals omega
    · rw [if_pos h4]
  · by_cases h4 : (m'.map fun ξ => cohnSchur τ (amplification vel R ξ)).all (fun t => t.2) = true
    · rw [if_neg (not_not.2 h4)] at hv
      by_cases h5 : (m'.map fun ξ => cohnSchur τ (amplification vel R ξ)).all (fun t => t.1) = true
      · rw [if_neg (not_not.2 (hall _ h4)), if_pos (hall _ h5)]
      · rw [if_neg h5] at hv
        omega
    · rw [if_pos h4] at hv
      omega

theorem far_four (p : Nat) : amplification (far (4 * p + 1)) !![2, 2; -1, -1]
    (fun _ => 2 * Real.pi * ((1 : ℕ) : ℝ) / (4 : ℕ)) = !![2 * Complex.I, -2 * Complex.I; -Complex.I, Complex.I] := by
  have h : Complex.exp (Complex.I * ((4 * p + 1) * (2 * Real.pi / 4))) = Complex.I := by
    rw [show Complex.I * ((4 * p + 1) * (2 * Real.pi / 4)) = Real.pi / 2 * Complex.I + (p : ℤ) * (2 * Real.pi * Complex.I) by
      push_cast; ring, Complex.exp_add, Complex.exp_int_mul_two_pi_mul_I, mul_one, Complex.exp_pi_div_two_mul_I]
  have h' : Complex.exp (Complex.I * ((-1 + -(4 * p)) * (2 * Real.pi / 4))) = -Complex.I := by
    rw [show Complex.I * ((-1 + -(4 * p)) * (2 * Real.pi / 4)) = -(Complex.I * ((4 * p + 1) * (2 * Real.pi / 4))) by ring,
      Complex.exp_neg, h, Complex.inv_I]
  ext i j
  fin_cases i <;> fin_cases j <;> simp [amplification, far, h, h'] <;> ring

/-- **C123, more wave vectors need not be better.** For any number there is a larger one and a scheme which is declared not stable
with four wave vectors and stable with the larger number, with any tolerance: D1Q2 with the velocities `± (4 p + 1)`. -/
theorem C123_more_negation (p : Nat) :
    (∃ l, eigenvalues (1 / 10 ^ 10) (far (4 * p + 1)) (relaxF fast.M fast.invM ![0, 1] !![1; 3]) 4 = some (l, 2)) ∧
    ∀ τ, 0 < τ → ∃ l, eigenvalues τ (far (4 * p + 1)) (relaxF fast.M fast.invM ![0, 1] !![1; 3]) (4 * p + 1) = some (l, 0) := by
  rw [fast_relaxF]
  constructor
  · obtain ⟨n0, l, h1, h2, _, _⟩ := C123_box (.inl rfl) (1 / 10 ^ 10) (far (4 * p + 1)) !![2, 2; -1, -1] 4
    obtain rfl := side_unique h1 (.inl ⟨rfl, rfl⟩)
    refine ⟨l, ?_⟩
    rw [h2]
    have : verdict (1 / 10 ^ 10) (far (4 * p + 1)) !![2, 2; -1, -1] 4 = 2 := by
      unfold verdict
      dsimp only
      rw [if_pos]
      intro h
      rw [List.all_eq_true] at h
      have := h (cohnSchur (1 / 10 ^ 10) (amplification (far (4 * p + 1)) !![2, 2; -1, -1]
        (fun _ => 2 * Real.pi * ((1 : ℕ) : ℝ) / (4 : ℕ)))) (List.mem_map.2 ⟨_, List.mem_map.2
          ⟨fun _ => (1 : Fin 4), Finset.mem_toList.2 (Finset.mem_univ _), rfl⟩, rfl⟩)
      rw [far_four] at this
      unfold cohnSchur at this
      rw [fast_faddeev, fast_isVN] at this
      exact absurd this (by simp)
    rw [this]
  · intro τ hτ
    obtain ⟨n0, l, h1, h2, _, _⟩ := C123_box (.inl rfl) τ (far (4 * p + 1)) !![2, 2; -1, -1] (4 * p + 1)
    obtain rfl := side_unique h1 (.inl ⟨rfl, rfl⟩)
    refine ⟨l, ?_⟩
    rw [h2, far_stable _ (by omega) τ hτ]

/-- A case for `C123_multiples` in dimension 2: 10 wave vectors (3 × 3 are used) and 40 (6 × 6). -/
example : Side 2 10 3 ∧ Side 2 40 (2 * 3) := ⟨.inr ⟨rfl, by decide, by decide⟩, .inr ⟨rfl, by decide, by decide⟩⟩

/-- A case for `C123_multiples` in dimension 1: an instability found with 4 wave vectors is found with 8, 12, … -/
example (p q : Nat) (hp : 0 < p) {l'} {v'}
    (h' : eigenvalues (1 / 10 ^ 10) (far (4 * q + 1)) (relaxF fast.M fast.invM ![0, 1] !![1; 3]) (p * 4) = some (l', v')) :
    v' = 2 := by
  obtain ⟨l, h⟩ := (C123_more_negation q).1
  exact (C123_multiples _ _ _ (.inl ⟨rfl, rfl⟩) (.inl ⟨rfl, rfl⟩) hp h h').2.1 rfl

end Pylbm.Stability
