import Verif.Scheme.Relative
import Mathlib.Tactic.LinearCombination
/-!
# C109: the choice of the moments

The moments which relax with the same parameter can be replaced by combinations of each other: the scheme is the same.
-/

namespace Pylbm.SchemeSpec
open Matrix
variable {K : Type} [Field K] {n nc nc' d d' : Nat}

/-- The scheme `S'` is the scheme `S` written with other moments: the new moments are the combinations `B` of the former
ones, the new conserved moments the combinations `C` of the former ones, and the new equilibria the same combinations
of the former equilibria. -/
structure NewMoments (S : Scheme.Kernel K n nc d) (S' : Scheme.Kernel K n nc' d') (B : Matrix (Fin n) (Fin n) K)
    (C : Matrix (Fin nc') (Fin nc) K) : Prop where
  moments : S'.M = B * S.M
  conserved : ∀ m : Fin n → K, (B *ᵥ m) ∘ S'.consm = C *ᵥ (m ∘ S.consm)
  equilibrium : ∀ i w, S'.EQ i (C *ᵥ w) = ∑ k, B i k * S.EQ k w

/-- Only moments with the same relaxation parameter are combined, apart from the conserved ones. -/
def SameRelaxation (S : Scheme.Kernel K n nc d) (S' : Scheme.Kernel K n nc' d') (B : Matrix (Fin n) (Fin n) K)
    (C : Matrix (Fin nc') (Fin nc) K) : Prop :=
  ∀ i k w, B i k ≠ 0 → (∀ l, S.consm l ≠ k) → S'.s i (C *ᵥ w) = S.s k w

end Pylbm.SchemeSpec

namespace Pylbm.Scheme
open Matrix SchemeSpec
set_option linter.unusedSectionVars false

section basis
variable {K : Type} [Field K] {n nc nc' d d' : Nat}

/-- **C109, the polynomials.** Combinations of the polynomials give the same combinations of the moments, and they are
accepted when the combinations can be inverted. -/
theorem C109_polynomials {dim : Nat} (la : K) (vel : Fin n → Fin dim → Int) (P P' : Fin n → (Fin dim → K) → K)
    (B : Matrix (Fin n) (Fin n) K) (hP : ∀ i x, P' i x = ∑ k, B i k * P k x) :
    localM la vel P' = B * localM la vel P ∧
    ((inv (localM la vel P')).isSome ↔ B.det ≠ 0 ∧ (inv (localM la vel P)).isSome) := by
  have h : localM la vel P' = B * localM la vel P := by
    ext i j
    rw [Matrix.mul_apply]
    exact hP i _
  refine ⟨h, ?_⟩
  have hs : ∀ A : Matrix (Fin n) (Fin n) K, (inv A).isSome ↔ A.det ≠ 0 := by
    intro A
    unfold inv
    split_ifs with h <;> simp [h]
  rw [hs, hs, h, Matrix.det_mul, mul_ne_zero_iff]

theorem relaxed_deviation (S : Kernel K n nc d) (hEQ : ∀ j w, S.EQ (S.consm j) w = w j) (m : Fin n → K) (l : Fin nc) :
    S.EQ (S.consm l) (m ∘ S.consm) - m (S.consm l) = 0 := by
  rw [hEQ]
  exact sub_self _

theorem mulVec_at (B : Matrix (Fin n) (Fin nc) K) (v : Fin nc → K) (i : Fin n) : (B *ᵥ v) i = ∑ k, B i k * v k := rfl

/-- **C109, one collision.** The collision does not depend on the choice of the moments. -/
theorem C109_collision (S : Kernel K n nc d) (S' : Kernel K n nc' d') (hEQ : ∀ j w, S.EQ (S.consm j) w = w j)
    (hM : S.M * S.invM = 1) (hM' : S'.M * S'.invM = 1) (B : Matrix (Fin n) (Fin n) K) (C : Matrix (Fin nc') (Fin nc) K)
    (hB : NewMoments S S' B C) (hs : SameRelaxation S S' B C) (f : Fin n → K) :
    collision S'.M S'.invM S'.consm S'.EQ S'.s f = collision S.M S.invM S.consm S.EQ S.s f := by
  have hi : S'.invM * S'.M = 1 := mul_eq_one_comm.1 hM'
  have h1 : relaxed S'.consm S'.EQ S'.s (B *ᵥ (S.M *ᵥ f)) = B *ᵥ relaxed S.consm S.EQ S.s (S.M *ᵥ f) := by
    set m := S.M *ᵥ f
    funext i
    rw [mulVec_at]
    simp only [relaxed]
    rw [hB.conserved, hB.equilibrium, mulVec_at, Finset.mul_sum, Finset.mul_sum, ← Finset.sum_add_distrib]
    refine Finset.sum_congr rfl fun k _ => ?_
    by_cases hk : B i k = 0
    · rw [hk]; ring
    · by_cases hc : ∃ l, S.consm l = k
      · obtain ⟨l, rfl⟩ := hc
        have := relaxed_deviation S hEQ m l
        have e : S.EQ (S.consm l) (m ∘ S.consm) = m (S.consm l) := sub_eq_zero.1 this
        rw [e]; ring
      · push Not at hc
        rw [hs i k (m ∘ S.consm) hk hc]; ring
  unfold collision
  rw [hB.moments, ← Matrix.mulVec_mulVec, h1]
  have h2 : (S.M * S.invM) *ᵥ relaxed S.consm S.EQ S.s (S.M *ᵥ f) = relaxed S.consm S.EQ S.s (S.M *ᵥ f) := by
    rw [hM, Matrix.one_mulVec]
  conv_lhs => rw [← h2]
  rw [Matrix.mulVec_mulVec, Matrix.mulVec_mulVec, ← Matrix.mul_assoc, Matrix.mul_assoc S'.invM,
    ← hB.moments, hi, Matrix.one_mul]

/-- **C109, the equilibrium.** The distribution functions at the equilibrium, from which a simulation starts, do not
depend on the choice of the moments. -/
theorem C109_equilibrium (S : Kernel K n nc d) (S' : Kernel K n nc' d')
    (hM : S.M * S.invM = 1) (hM' : S'.M * S'.invM = 1) (B : Matrix (Fin n) (Fin n) K) (C : Matrix (Fin nc') (Fin nc) K)
    (hB : NewMoments S S' B C) (w : Fin nc → K) :
    (S'.invM *ᵥ fun i => S'.EQ i (C *ᵥ w)) = S.invM *ᵥ fun i => S.EQ i w := by
  have hi : S'.invM * S'.M = 1 := mul_eq_one_comm.1 hM'
  have h1 : (fun i => S'.EQ i (C *ᵥ w)) = S'.M *ᵥ (S.invM *ᵥ fun i => S.EQ i w) := by
    rw [hB.moments, Matrix.mulVec_mulVec, Matrix.mul_assoc, hM, Matrix.mul_one]
    funext i
    exact hB.equilibrium i w
  rw [h1, Matrix.mulVec_mulVec, hi, Matrix.one_mulVec]

/-- **C109, nothing else is possible.** When the collisions with both sets of moments are the same for all distribution
functions, only moments with the same relaxation parameter have been combined. -/
theorem C109_only (S : Kernel K n nc d) (S' : Kernel K n nc' d') (hEQ : ∀ j w, S.EQ (S.consm j) w = w j)
    (hM : S.M * S.invM = 1) (hM' : S'.M * S'.invM = 1) (B : Matrix (Fin n) (Fin n) K) (C : Matrix (Fin nc') (Fin nc) K)
    (hB : NewMoments S S' B C)
    (h : ∀ f, collision S'.M S'.invM S'.consm S'.EQ S'.s f = collision S.M S.invM S.consm S.EQ S.s f) :
    SameRelaxation S S' B C := by
  intro i k w hik hk
  set m : Fin n → K := fun j => S.EQ j w + if j = k then 1 else 0 with hm
  have hmc : m ∘ S.consm = w := by
    funext l
    simp [hm, hEQ, hk l]
  have h1 := congrArg (S'.M *ᵥ ·) (h (S.invM *ᵥ m))
  simp only [collision] at h1
  have e1 : S.M *ᵥ (S.invM *ᵥ m) = m := by rw [Matrix.mulVec_mulVec, hM, Matrix.one_mulVec]
  have e2 : ∀ v, S'.M *ᵥ (S'.invM *ᵥ v) = v := fun v => by rw [Matrix.mulVec_mulVec, hM', Matrix.one_mulVec]
  have e3 : ∀ v, S'.M *ᵥ (S.invM *ᵥ v) = B *ᵥ v := fun v => by
    rw [hB.moments, Matrix.mulVec_mulVec, Matrix.mul_assoc, hM, Matrix.mul_one]
  rw [e1, e2, e3, e3] at h1
  have h2 := congrFun h1 i
  rw [mulVec_at] at h2
  simp only [relaxed] at h2
  rw [hB.conserved, hmc, hB.equilibrium, mulVec_at, Finset.mul_sum, Finset.mul_sum, ← Finset.sum_add_distrib,
    ← sub_eq_zero, ← Finset.sum_sub_distrib, Finset.sum_eq_single k] at h2
  · simp only [hm, if_true] at h2
    have h3 : B i k * (S.s k w - S'.s i (C *ᵥ w)) = 0 := by linear_combination h2
    rcases mul_eq_zero.1 h3 with h4 | h4
    · exact absurd h4 hik
    · exact (sub_eq_zero.1 h4).symm
  · intro j _ hj
    simp only [hm, if_neg hj]
    ring
  · intro hh; exact absurd (Finset.mem_univ k) hh

/-- **C109, relative velocity (partial).** When the translations combine only moments with the same relaxation parameter
(for instance when all the moments which are not conserved have the same one), a relative velocity changes nothing in
the Pull algorithm. What is missing (the Base algorithm, other parameters for the conserved moments) is false: see
`C46_base_negation`, `C46_parameters_negation`. -/
theorem C109_relative_partial (S : Kernel K n nc d) (hpos : ∀ j, (S.consm j : Nat) = j) (v : (Fin nc → K) → Fin d → K)
    (hv : S.relVel = some v) (hEQ : ∀ j w, S.EQ (S.consm j) w = w j) (hs : ∀ j w, S.s (S.consm j) w = 0)
    (hS : ∀ i, S.source i = none) (hT : ∀ u, S.Tmu u * S.Tu u = 1)
    (hsame : ∀ u i k w, S.Tu u i k ≠ 0 → (∀ l, S.consm l ≠ k) → S.s i w = S.s k w)
    (f : Fin n → K) (x : Local K n d) :
    (S.run f x (pullStep n nc d true)).fnew = collision S.M S.invM S.consm S.EQ S.s f := by
  rw [C46_frame_partial S hpos v hv hs hS]
  unfold relativeCollision collision
  set m := S.M *ᵥ f
  set w : Fin nc → K := fun j => m (S.consm j) with hw
  set u := v w
  have h1 : (fun i => (1 - S.s i w) * (S.Tu u *ᵥ m) i + S.s i w * (S.Tu u *ᵥ fun j => S.EQ j w) i) =
      S.Tu u *ᵥ relaxed S.consm S.EQ S.s m := by
    funext i
    simp only [relaxed, Matrix.mulVec, dotProduct, Finset.mul_sum, ← Finset.sum_add_distrib]
    refine Finset.sum_congr rfl fun k _ => ?_
    have e0 : m ∘ S.consm = w := rfl
    rw [e0]
    by_cases hk : S.Tu u i k = 0
    · rw [hk]; ring
    · by_cases hc : ∃ l, S.consm l = k
      · obtain ⟨l, rfl⟩ := hc
        rw [hEQ, show w l = m (S.consm l) from rfl]; ring
      · push Not at hc
        rw [hsame u i k w hk hc]; ring
  show (S.invM * S.Tmu u) *ᵥ (fun i => (1 - S.s i w) * (S.Tu u *ᵥ m) i + S.s i w * (S.Tu u *ᵥ fun j => S.EQ j w) i) = _
  rw [h1, Matrix.mulVec_mulVec, Matrix.mul_assoc, hT, Matrix.mul_one]

end basis

/-- `rotation` with its two moments exchanged. -/
def rotationSwapped : Kernel ℚ 2 2 0 :=
  { rotation with
    M := !![0, 1; 1, 0]
    invM := !![0, 1; 1, 0]
    source := ![some fun m => -m 1, some fun m => m 0] }

/-- The exchange of two moments. -/
def exchangeTwo : Matrix (Fin 2) (Fin 2) ℚ := !![0, 1; 1, 0]

/-- **C109 is false with coupled source terms**: the source terms are exchanged with the moments, but the result depends
on the order in which the moments are given, because each source term is computed with the moments which have already
been updated (`C45_coupled_negation`). -/
theorem C109_source_negation : NewMoments rotation rotationSwapped exchangeTwo exchangeTwo ∧
    SameRelaxation rotation rotationSwapped exchangeTwo exchangeTwo ∧
    (∀ (i k : Fin 2), exchangeTwo i k ≠ 0 → ∃ r r', rotation.source k = some r ∧ rotationSwapped.source i = some r' ∧
      ∀ m, r' (exchangeTwo *ᵥ m) = r m) ∧
    ∃ f, (rotationSwapped.run f ⟨0, 0, 0⟩ (pullStep 2 2 0 false)).fnew ≠
      (rotation.run f ⟨0, 0, 0⟩ (pullStep 2 2 0 false)).fnew := by
  refine ⟨⟨?_, ?_, ?_⟩, ?_, ?_, ![1, 1], by decide +kernel⟩
  · show (!![0, 1; 1, 0] : Matrix (Fin 2) (Fin 2) ℚ) = exchangeTwo * 1
    rw [Matrix.mul_one]; rfl
  · intro m; rfl
  · intro i w; rfl
  · intro i k w h hk
    exact absurd rfl (hk k)
  · intro i k h
    fin_cases i <;> fin_cases k
    · exact absurd rfl h
    · exact ⟨_, _, rfl, rfl, fun m => by simp [exchangeTwo, mulVec_at]⟩
    · exact ⟨_, _, rfl, rfl, fun m => by simp [exchangeTwo, mulVec_at]⟩
    · exact absurd rfl h

/-- D1Q3 with another basis: `1, X, 3 X² - 2` in place of `1, X, X²`. -/
def d1q3orth : Kernel ℚ 3 1 1 :=
  { d1q3adv with
    M := !![1, 1, 1; 0, 1, -1; -2, 1, 1]
    invM := !![1 / 3, 0, -1 / 3; 1 / 3, 1 / 2, 1 / 6; 1 / 3, -1 / 2, 1 / 6]
    EQ := ![fun w => w 0, fun w => w 0 / 2, fun w => -w 0 / 2] }

/-- The combinations: `3 X² - 2` combines the moment `X²` with the conserved moment. -/
def orthogonalised : Matrix (Fin 3) (Fin 3) ℚ := !![1, 0, 0; 0, 1, 0; -2, 0, 3]

/-- A case for `C109_collision`: the orthogonal moments, with two different relaxation parameters. -/
example (f : Fin 3 → ℚ) : collision d1q3orth.M d1q3orth.invM d1q3orth.consm d1q3orth.EQ d1q3orth.s f =
    collision d1q3adv.M d1q3adv.invM d1q3adv.consm d1q3adv.EQ d1q3adv.s f := by
  refine C109_collision d1q3adv d1q3orth (fun j w => by fin_cases j; rfl) (by decide +kernel) (by decide +kernel)
    orthogonalised 1 ⟨by decide +kernel, ?_, ?_⟩ ?_ f
  · intro m
    funext j
    fin_cases j
    simp [orthogonalised, mulVec_at, d1q3adv, d1q3orth]
    rfl
  · intro i w
    rw [Matrix.one_mulVec]
    fin_cases i <;> simp [orthogonalised, d1q3adv, d1q3orth, Fin.sum_univ_three]
    ring
  · intro i k w h hk
    fin_cases i <;> fin_cases k <;> first
      | rfl
      | exact absurd rfl h
      | exact absurd rfl (hk 0)

/-- The moments `1, X, X² + X` in place of `1, X, X²`, which have different relaxation parameters. -/
def d1q3mixed : Kernel ℚ 3 1 1 :=
  { d1q3adv with
    M := !![1, 1, 1; 0, 1, -1; 0, 2, 0]
    invM := !![1, 1, -1; 0, 0, 1 / 2; 0, -1, 1 / 2]
    EQ := ![fun w => w 0, fun w => w 0 / 2, fun w => w 0] }

/-- A case for `C109_only`: the collision is another one. -/
example : ∃ f, collision d1q3mixed.M d1q3mixed.invM d1q3mixed.consm d1q3mixed.EQ d1q3mixed.s f ≠
    collision d1q3adv.M d1q3adv.invM d1q3adv.consm d1q3adv.EQ d1q3adv.s f := by
  by_contra hh
  push Not at hh
  have := C109_only d1q3adv d1q3mixed (fun j w => by fin_cases j; rfl) (by decide +kernel) (by decide +kernel)
    !![1, 0, 0; 0, 1, 0; 0, 1, 1] 1 ⟨by decide +kernel, ?_, ?_⟩ hh 2 1 0 (by decide +kernel) (by decide)
  · exact absurd this (by rw [Matrix.one_mulVec]; decide +kernel)
  · intro m
    funext j
    fin_cases j
    simp [mulVec_at, d1q3adv, d1q3mixed]
    rfl
  · intro i w
    rw [Matrix.one_mulVec]
    fin_cases i <;> simp [d1q3adv, d1q3mixed, Fin.sum_univ_three]

/-- `d1q3adv` with one relaxation parameter. -/
def d1q3single : Kernel ℚ 3 1 1 := { d1q3adv with s := ![fun _ => 0, fun _ => 3 / 2, fun _ => 3 / 2] }

theorem d1q3single_inverse (u : Fin 1 → ℚ) : d1q3single.Tmu u * d1q3single.Tu u = 1 := by
  ext i j
  fin_cases i <;> fin_cases j <;> simp [d1q3single, d1q3adv, Matrix.mul_apply, Fin.sum_univ_three]
  ring

theorem d1q3single_same (u : Fin 1 → ℚ) (i k : Fin 3) (w : Fin 1 → ℚ) (h : d1q3single.Tu u i k ≠ 0)
    (hk : ∀ l, d1q3single.consm l ≠ k) : d1q3single.s i w = d1q3single.s k w := by
  fin_cases i <;> fin_cases k <;> first
    | rfl
    | exact absurd rfl h
    | exact absurd rfl (hk 0)

/-- A case for `C109_relative_partial`. -/
example (f : Fin 3 → ℚ) (x : Local ℚ 3 1) : (d1q3single.run f x (pullStep 3 1 1 true)).fnew =
    collision d1q3single.M d1q3single.invM d1q3single.consm d1q3single.EQ d1q3single.s f :=
  C109_relative_partial d1q3single (by decide) _ rfl (fun j w => by fin_cases j; rfl)
    (fun j w => by fin_cases j; rfl) (fun _ => rfl) d1q3single_inverse d1q3single_same f x

/-- A case for `C109_polynomials`. -/
example : (∀ i x, (![fun _ => 1, fun y => y 0, fun y => 3 * y 0 ^ 2 - 2] : Fin 3 → (Fin 1 → ℚ) → ℚ) i x =
    ∑ k, orthogonalised i k * (![fun _ => 1, fun y => y 0, fun y => y 0 ^ 2] : Fin 3 → (Fin 1 → ℚ) → ℚ) k x) ∧
    orthogonalised.det ≠ 0 := by
  refine ⟨fun i x => ?_, by decide +kernel⟩
  fin_cases i <;> simp [orthogonalised, Fin.sum_univ_three]
  ring

end Pylbm.Scheme
