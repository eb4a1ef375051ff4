import Verif.Stability.Equivalent
import Mathlib.LinearAlgebra.Eigenspace.Zero
import Mathlib.LinearAlgebra.Eigenspace.Triangularizable
/-!
# C63: a scheme which is declared stable has bounded solutions
-/

namespace Pylbm.Stability
open Matrix Sim Scheme Halo SchemeSpec HaloSpec Mpi
variable {n nc d dim : Nat}

/-- The vectors with a bounded orbit. -/
def orbits (G : Matrix (Fin n) (Fin n) ℂ) : Submodule ℂ (Fin n → ℂ) where
  carrier := {v | ∃ B : ℝ, ∀ t : Nat, ‖G ^ t *ᵥ v‖ ≤ B}
  add_mem' := by
    rintro a b ⟨A, hA⟩ ⟨B, hB⟩
    exact ⟨A + B, fun t => by rw [Matrix.mulVec_add]; exact (norm_add_le _ _).trans (add_le_add (hA t) (hB t))⟩
  zero_mem' := ⟨0, fun t => by simp⟩
  smul_mem' := by
    rintro c a ⟨A, hA⟩
    refine ⟨‖c‖ * A, fun t => ?_⟩
    rw [Matrix.mulVec_smul, norm_smul]
    exact mul_le_mul_of_nonneg_left (hA t) (norm_nonneg _)

theorem orbits_inside (G : Matrix (Fin n) (Fin n) ℂ) (μ : ℂ) (hμ : ‖μ‖ < 1) (k : Nat) (v : Fin n → ℂ)
    (hv : ((toLin' G - μ • (1 : Module.End ℂ (Fin n → ℂ))) ^ k) v = 0) : v ∈ orbits G := by
  induction k generalizing v with
  | zero =>
    have : v = 0 := by simpa using hv
    rw [this]; exact zero_mem _
  | succ k ih =>
    rw [pow_succ, Module.End.mul_apply] at hv
    obtain ⟨B, hB⟩ := ih _ hv
    simp only [LinearMap.sub_apply, toLin'_apply, LinearMap.smul_apply, Module.End.one_apply] at hB
    refine ⟨max ‖v‖ (B / (1 - ‖μ‖)), fun t => ?_⟩
    induction t with
    | zero => simp
    | succ t iht =>
      have e : G ^ (t + 1) *ᵥ v = G ^ t *ᵥ (G *ᵥ v - μ • v) + μ • (G ^ t *ᵥ v) := by
        rw [Matrix.mulVec_sub, Matrix.mulVec_smul, pow_succ, Matrix.mulVec_mulVec]; simp
      rw [e]
      refine (norm_add_le _ _).trans ?_
      rw [norm_smul]
      have h1 : 0 < 1 - ‖μ‖ := by linarith
      have h2 : B ≤ (1 - ‖μ‖) * max ‖v‖ (B / (1 - ‖μ‖)) := by
        rw [← div_le_iff₀' h1]; exact le_max_right _ _
      have h3 := mul_le_mul_of_nonneg_left iht (norm_nonneg μ)
      have h4 := hB t
      nlinarith

/-- Powers of a matrix with its eigenvalues in the closed disc, simple on the circle, are bounded. -/
theorem orbits_top (G : Matrix (Fin n) (Fin n) ℂ) (h : SimpleVonNeumann G.charpoly) (v : Fin n → ℂ) :
    v ∈ orbits G := by
  have ht : (⨆ μ : ℂ, Module.End.maxGenEigenspace (toLin' G) μ) ≤ orbits G := by
    apply iSup_le
    intro μ x hx
    have hrank := LinearMap.finrank_maxGenEigenspace_eq (toLin' G) μ
    rw [Matrix.charpoly_toLin'] at hrank
    by_cases hr : G.charpoly.IsRoot μ
    · rcases lt_or_eq_of_le (h.1 μ hr) with hlt | heq
      · obtain ⟨k, hk⟩ := (Module.End.mem_maxGenEigenspace _ _ _).1 hx
        exact orbits_inside G μ hlt k x hk
      · rw [h.2 μ heq hr] at hrank
        obtain ⟨w, hw0, hw⟩ := (isRoot_iff G μ).1 hr
        have hwm : w ∈ Module.End.maxGenEigenspace (toLin' G) μ := by
          rw [Module.End.mem_maxGenEigenspace]
          exact ⟨1, by simp [hw]⟩
        obtain ⟨c, hc⟩ := (finrank_eq_one_iff_of_nonzero' (⟨w, hwm⟩ : Module.End.maxGenEigenspace (toLin' G) μ) (by simpa using hw0)).1 hrank ⟨x, hx⟩
        have hx' : x = c • w := by simpa using (congrArg Subtype.val hc).symm
        rw [hx']
        apply Submodule.smul_mem
        refine ⟨‖w‖, fun t => ?_⟩
        have : G ^ t *ᵥ w = μ ^ t • w := by
          induction t with
          | zero => simp
          | succ t ih => rw [pow_succ', ← Matrix.mulVec_mulVec, ih, Matrix.mulVec_smul, hw, smul_smul, pow_succ]
        rw [this, norm_smul, norm_pow, heq]; simp
    · rw [Polynomial.rootMultiplicity_eq_zero hr, Submodule.finrank_eq_zero] at hrank
      rw [hrank] at hx
      rw [(Submodule.mem_bot ℂ).1 hx]
      exact zero_mem _
  rw [Module.End.iSup_maxGenEigenspace_eq_top] at ht
  exact ht trivial

theorem sum_exp (n0 : Nat) (hn0 : 0 < n0) (z : Int) :
    ∑ m : Fin n0, Complex.exp (Complex.I * ((z : ℂ) * (-(2 * Real.pi * ((m : Nat) : ℝ) / n0) : ℝ))) =
      if (n0 : Int) ∣ z then (n0 : ℂ) else 0 := by
  set ζ : ℂ := Complex.exp (Complex.I * ((z : ℂ) * (-(2 * Real.pi / n0) : ℝ))) with hζ
  have hne : (n0 : ℂ) ≠ 0 := by exact_mod_cast hn0.ne'
  have hm : ∀ m : Fin n0, Complex.exp (Complex.I * ((z : ℂ) * (-(2 * Real.pi * ((m : Nat) : ℝ) / n0) : ℝ))) = ζ ^ (m : Nat) := by
    intro m
    rw [hζ, ← Complex.exp_nat_mul]
    congr 1
    push_cast
    ring
  simp only [hm]
  rw [Fin.sum_univ_eq_sum_range (fun i => ζ ^ i) n0]
  split_ifs with h
  · obtain ⟨q, rfl⟩ := h
    have : ζ = 1 := by
      rw [hζ, Complex.exp_eq_one_iff]
      refine ⟨-q, ?_⟩
      push_cast
      field_simp
    rw [this]; simp
  · have h1 : ζ ≠ 1 := by
      rw [hζ, Ne, Complex.exp_eq_one_iff]
      rintro ⟨q, hq⟩
      apply h
      refine ⟨-q, ?_⟩
      push_cast at hq
      have h2 : (2 * (Real.pi : ℂ) * Complex.I) ≠ 0 := Complex.two_pi_I_ne_zero
      have h3 : (2 * (Real.pi : ℂ) * Complex.I) * (-(z : ℂ)) = (2 * (Real.pi : ℂ) * Complex.I) * (q * n0) := by
        field_simp at hq
        linear_combination (2 * (Real.pi : ℂ) * Complex.I) * hq
      have h4 := mul_left_cancel₀ h2 h3
      have h5 : -z = q * (n0 : Int) := by exact_mod_cast h4
      linarith
    have h2 : ζ ^ n0 = 1 := by
      rw [hζ, ← Complex.exp_nat_mul, Complex.exp_eq_one_iff]
      refine ⟨-z, ?_⟩
      push_cast
      field_simp
    rw [geom_sum_eq h1, h2]; simp

/-- The wave vectors, with the sign of the run. -/
noncomputable def kvec (n0 : Nat) (m : Fin dim → Fin n0) : Fin dim → ℝ := fun i => -(2 * Real.pi * ((m i : Nat) : ℝ) / n0)

theorem sum_phase (n0 : Nat) (hn0 : 0 < n0) (z : Fin dim → Int) :
    ∑ m : Fin dim → Fin n0, Complex.exp (Complex.I * ∑ l, (z l : ℂ) * kvec n0 m l) =
      if ∀ l, (n0 : Int) ∣ z l then (n0 : ℂ) ^ dim else 0 := by
  have h : ∀ m : Fin dim → Fin n0, Complex.exp (Complex.I * ∑ l, (z l : ℂ) * kvec n0 m l) =
      ∏ l, Complex.exp (Complex.I * ((z l : ℂ) * (-(2 * Real.pi * ((m l : Nat) : ℝ) / n0) : ℝ))) := by
    intro m
    rw [Finset.mul_sum, Complex.exp_sum]
    rfl
  simp only [h]
  rw [← Fintype.prod_sum (fun l (m : Fin n0) => Complex.exp (Complex.I * ((z l : ℂ) * (-(2 * Real.pi * ((m : Nat) : ℝ) / n0) : ℝ))))]
  simp only [sum_exp n0 hn0]
  split_ifs with h
  · simp [h]
  · push Not at h
    obtain ⟨l, hl⟩ := h
    exact Finset.prod_eq_zero (Finset.mem_univ l) (if_neg hl)

/-- Amplitudes of the waves of an array. -/
noncomputable def amplitude (n0 : Nat) (G : Arr ℝ n dim) (m : Fin dim → Fin n0) : Fin n → ℂ := fun j =>
  ((n0 : ℂ) ^ dim)⁻¹ * ∑ y : Fin dim → Fin n0, (G (fun l => ((y l : Nat) : Int)) j : ℂ) *
    Complex.exp (-(Complex.I * ∑ l, (((y l : Nat) : Int) : ℂ) * kvec n0 m l))

theorem fourier (n0 : Nat) (hn0 : 0 < n0) (G : Arr ℝ n dim) (x : Cell dim) (j : Fin n) :
    periodic (fun _ => n0) G x j = ∑ m, wave (amplitude n0 G m) (kvec n0 m) x j := by
  have hne : ((n0 : ℂ) ^ dim) ≠ 0 := pow_ne_zero _ (by exact_mod_cast hn0.ne')
  simp only [wave]
  rw [← Complex.re_sum]
  have hx : ∀ l, 0 ≤ x l % (n0 : Int) ∧ x l % (n0 : Int) < n0 := fun l =>
    ⟨Int.emod_nonneg _ (by omega), Int.emod_lt_of_pos _ (by omega)⟩
  have key : ∑ m, amplitude n0 G m j * Complex.exp (Complex.I * ∑ l, (x l : ℂ) * kvec n0 m l) =
      (G (fun l => x l % n0) j : ℂ) := by
    simp only [amplitude, Finset.mul_sum, Finset.sum_mul]
    rw [Finset.sum_comm]
    have h1 : ∀ y : Fin dim → Fin n0, ∑ m : Fin dim → Fin n0, ((n0 : ℂ) ^ dim)⁻¹ *
        ((G (fun l => ((y l : Nat) : Int)) j : ℂ) * Complex.exp (-∑ l, Complex.I * ((((y l : Nat) : Int) : ℂ) * kvec n0 m l))) *
        Complex.exp (∑ l, Complex.I * ((x l : ℂ) * kvec n0 m l)) =
        if y = fun l => (⟨(x l % n0).toNat, by have := hx l; omega⟩ : Fin n0) then (G (fun l => ((y l : Nat) : Int)) j : ℂ) else 0 := by
      intro y
      have h2 : ∀ m : Fin dim → Fin n0, ((n0 : ℂ) ^ dim)⁻¹ *
          ((G (fun l => ((y l : Nat) : Int)) j : ℂ) * Complex.exp (-∑ l, Complex.I * ((((y l : Nat) : Int) : ℂ) * kvec n0 m l))) *
          Complex.exp (∑ l, Complex.I * ((x l : ℂ) * kvec n0 m l)) =
          ((n0 : ℂ) ^ dim)⁻¹ * (G (fun l => ((y l : Nat) : Int)) j : ℂ) *
            Complex.exp (Complex.I * ∑ l, ((x l - ((y l : Nat) : Int) : Int) : ℂ) * kvec n0 m l) := by
        intro m
        have h6 : Complex.I * ∑ l, ((x l - ((y l : Nat) : Int) : Int) : ℂ) * kvec n0 m l =
            -∑ l, Complex.I * ((((y l : Nat) : Int) : ℂ) * kvec n0 m l) + ∑ l, Complex.I * ((x l : ℂ) * kvec n0 m l) := by
          rw [Finset.mul_sum, ← Finset.sum_neg_distrib, ← Finset.sum_add_distrib]
          refine Finset.sum_congr rfl fun l _ => ?_
          push_cast
          ring
        rw [h6, Complex.exp_add]
        ring
      simp only [h2]
      rw [← Finset.mul_sum, sum_phase n0 hn0]
      have h3 : (∀ l, (n0 : Int) ∣ x l - ((y l : Nat) : Int)) ↔
          y = fun l => (⟨(x l % n0).toNat, by have := hx l; omega⟩ : Fin n0) := by
        constructor
        · intro h
          funext l
          apply Fin.ext
          show (y l : Nat) = (x l % n0).toNat
          have h5 : x l % (n0 : Int) = ((y l : Nat) : Int) % n0 :=
            Int.emod_eq_emod_iff_emod_sub_eq_zero.2 (Int.emod_eq_zero_of_dvd (h l))
          rw [h5, Int.emod_eq_of_lt (by omega) (by exact_mod_cast (y l).2)]
          simp
        · rintro rfl l
          show (n0 : Int) ∣ x l - ((x l % n0).toNat : Int)
          rw [Int.toNat_of_nonneg (hx l).1]
          exact Int.dvd_self_sub_emod
      simp only [h3]
      split_ifs
      · field_simp
      · simp
    rw [Finset.sum_congr rfl fun y _ => h1 y]
    simp only [Finset.sum_ite_eq', Finset.mem_univ, if_true]
    congr 2
    funext l
    show (((x l % n0).toNat : Nat) : Int) = x l % n0
    rw [Int.toNat_of_nonneg (hx l).1]
  rw [key]
  rfl


/-- The run does not see the values outside the box. -/
theorem run_periodic {K : Type} [Field K] (N : Fin dim → Nat) (vel : Fin n → Cell dim) (φ : (Fin n → K) → Fin n → K) (dt : K)
    (G : Arr K n dim) (t : Nat) (x : Cell dim) (hx : ∀ i, 0 ≤ x i ∧ x i < N i) :
    lbmRun N vel φ (fun _ H => H) dt G t x = lbmRun N vel φ (fun _ H => H) dt (periodic N G) t x := by
  have hmod : ∀ x : Cell dim, (∀ i, 0 ≤ x i ∧ x i < N i) → (fun i => x i % (N i : Int)) = x := by
    intro x hx
    funext i
    exact Int.emod_eq_of_lt (hx i).1 (hx i).2
  cases t with
  | zero =>
    simp only [lbmRun, periodic]
    rw [hmod x hx]
  | succ t =>
    have key : ∀ t, periodic N (lbmRun N vel φ (fun _ H => H) dt G t) =
        periodic N (lbmRun N vel φ (fun _ H => H) dt (periodic N G) t) := by
      intro t
      induction t with
      | zero =>
        funext x
        simp [lbmRun, periodic]
      | succ t ih =>
        funext x
        simp only [lbmRun, lbmStep, periodic] at ih ⊢
        congr 1
        funext j
        exact congrFun (congrFun ih _) j
    simp only [lbmRun, lbmStep]
    rw [key t]

/-- **C63 (stable).** If the exact test (the test for arbitrarily small tolerances) of `Stability` says "stable"
for a scheme with linear equilibrium, then the values computed by the code on the periodic box with `n0` cells
in each direction stay bounded for all initial data. Missing: with the tolerance `1e-10` of the code the test
can accept matrices with larger eigenvalues (`C50_tolerance_negation`). -/
theorem C63_stable_partial (hn : 0 < n) (S : Kernel ℝ n nc d) (alg : Algo) (hfront : ∀ j, (S.consm j : Nat) = j)
    (hEQ : ∀ j w, S.EQ (S.consm j) w = w j) (hS : ∀ i, S.source i = none) (hrel : S.relVel = none)
    (E : Matrix (Fin n) (Fin nc) ℝ) (hE : ∀ i w, S.EQ i w = (E *ᵥ w) i)
    (s : Fin n → ℝ) (hs : ∀ i w, S.s i w = s i) (vel : Fin n → Cell dim) (n0 : Nat) (hn0 : 0 < n0)
    (hv : ∀ τ, 0 < τ → verdict τ vel (relaxF S.M S.invM s E) n0 = 0) (dt : ℝ) (G : Arr ℝ n dim) :
    ∃ B : ℝ, ∀ (t : Nat) (x : Cell dim) (j : Fin n), (∀ i, 0 ≤ x i ∧ x i < n0) →
      |lbmRun (fun _ => n0) vel (collide S alg) (fun _ H => H) dt G t x j| ≤ B := by
  have hall : ∀ m : Fin dim → Fin n0, SimpleVonNeumann
      (amplification vel (relaxF S.M S.invM s E) (fun i => -kvec n0 m i)).charpoly := by
    intro m
    rw [← toPoly_faddeev _ hn]
    apply svN_sound _ (n - 1) (faddeev_length _ hn) (faddeev_lead _ hn)
    intro τ hτ
    have h := hv τ hτ
    unfold verdict at h
    dsimp only at h
    split at h
    · omega
    split at h
    · next hin =>
      rw [List.all_eq_true] at hin
      have := hin _ (List.mem_map.2 ⟨_, List.mem_map.2 ⟨m, Finset.mem_toList.2 (Finset.mem_univ _), rfl⟩, rfl⟩)
      simpa [cohnSchur, kvec] using this
    · omega
  choose B hB using fun m => orbits_top _ (hall m) (amplitude n0 G m)
  refine ⟨∑ m, B m, fun t x j hx => ?_⟩
  rw [run_periodic _ _ _ _ _ _ _ hx]
  have e : periodic (fun _ => n0) G = fun x j => ∑ q, wave (amplitude n0 G ((Fintype.equivFin (Fin dim → Fin n0)).symm q))
      (kvec n0 ((Fintype.equivFin (Fin dim → Fin n0)).symm q)) x j := by
    funext x j
    rw [fourier n0 hn0]
    exact (Equiv.sum_comp (Fintype.equivFin (Fin dim → Fin n0)).symm fun m => wave (amplitude n0 G m) (kvec n0 m) x j).symm
  rw [e, run_sum S alg hfront hEQ hS hrel E hE s hs (fun _ => n0) vel _ ?_ dt]
  · beta_reduce
    rw [Equiv.sum_comp (Fintype.equivFin (Fin dim → Fin n0)).symm fun m =>
      wave (amplification vel (relaxF S.M S.invM s E) (fun i => -kvec n0 m i) ^ t *ᵥ amplitude n0 G m) (kvec n0 m) x j]
    refine (Finset.abs_sum_le_sum_abs _ _).trans (Finset.sum_le_sum fun m _ => ?_)
    refine (Complex.abs_re_le_norm _).trans ?_
    rw [norm_mul]
    have h1 : ‖Complex.exp (Complex.I * ∑ l, (x l : ℂ) * kvec n0 m l)‖ = 1 := by
      rw [show Complex.I * ∑ l, (x l : ℂ) * kvec n0 m l = ((∑ l, (x l : ℝ) * kvec n0 m l : ℝ) : ℂ) * Complex.I by
        push_cast; ring]
      exact Complex.norm_exp_ofReal_mul_I _
    rw [h1, mul_one]
    exact (norm_le_pi_norm _ j).trans (hB m t)
  · intro q i
    refine ⟨-(((Fintype.equivFin (Fin dim → Fin n0)).symm q i : Nat) : Int), ?_⟩
    have : (n0 : ℝ) ≠ 0 := by exact_mod_cast hn0.ne'
    simp only [kvec]
    push_cast
    field_simp

/-- **C63 (the three answers).** With any tolerance: when "stable" is not announced, one of the sampled matrices
has an eigenvalue of modulus larger than one or a multiple root of modulus one; when "not stable" is announced,
one has an eigenvalue of modulus larger than one. -/
theorem C63_answers (hn : 0 < n) (vel : Fin n → Cell dim) (R : Matrix (Fin n) (Fin n) ℝ) (n0 : Nat) (τ : ℝ)
    (hτ : 0 < τ) :
    (verdict τ vel R n0 ≠ 0 → ∃ (m : Fin dim → Fin n0) (μ : ℂ),
      (amplification vel R fun i => 2 * Real.pi * (m i : ℝ) / n0).charpoly.IsRoot μ ∧ (1 < ‖μ‖ ∨ ‖μ‖ = 1 ∧
        2 ≤ (amplification vel R fun i => 2 * Real.pi * (m i : ℝ) / n0).charpoly.rootMultiplicity μ)) ∧
    (verdict τ vel R n0 = 2 → ∃ (m : Fin dim → Fin n0) (μ : ℂ) (v : Fin n → ℂ), 1 < ‖μ‖ ∧ v ≠ 0 ∧
      (amplification vel R fun i => 2 * Real.pi * (m i : ℝ) / n0) *ᵥ v = μ • v) := by
  have hnot : ∀ f : Bool × Bool → Bool, ((waveVectors n0 dim).map fun ξ => cohnSchur τ (amplification vel R ξ)).all f ≠ true →
      ∃ m : Fin dim → Fin n0, f (cohnSchur τ (amplification vel R fun i => 2 * Real.pi * (m i : ℝ) / n0)) = false := by
    intro f h
    by_contra hc
    push Not at hc
    apply h
    rw [List.all_eq_true]
    intro b hb
    obtain ⟨ξ, hξ, rfl⟩ := List.mem_map.1 hb
    obtain ⟨m, -, rfl⟩ := List.mem_map.1 hξ
    simpa using hc m
  have h2 : verdict τ vel R n0 = 2 → ∃ (m : Fin dim → Fin n0) (μ : ℂ) (v : Fin n → ℂ), 1 < ‖μ‖ ∧ v ≠ 0 ∧
      (amplification vel R fun i => 2 * Real.pi * (m i : ℝ) / n0) *ᵥ v = μ • v := by
    intro h
    unfold verdict at h
    dsimp only at h
    split at h
    · next hb =>
      obtain ⟨m, hm⟩ := hnot _ hb
      exact ⟨m, (C50_matrix hn _ τ hτ).1 hm⟩
    · split at h <;> omega
  refine ⟨fun h => ?_, h2⟩
  by_cases hv : verdict τ vel R n0 = 2
  · obtain ⟨m, μ, v, hμ, h0, hv⟩ := h2 hv
    exact ⟨m, μ, (isRoot_iff _ μ).2 ⟨v, h0, hv⟩, Or.inl hμ⟩
  · unfold verdict at h hv
    dsimp only at h hv
    split at h
    · next hb => rw [if_pos hb] at hv; exact absurd rfl hv
    · split at h
      · exact absurd rfl h
      · next hb =>
        obtain ⟨m, hm⟩ := hnot _ hb
        exact ⟨m, (C50_matrix hn _ τ hτ).2 hm⟩

/-- A case for `C63_stable_partial`: D1Q2 with relaxation parameter 1 and velocity `c` of the waves, `|c| ≤ 1`. -/
noncomputable def slow (c : ℝ) : Kernel ℝ 2 1 0 where
  M := !![1, 1; 1, -1]
  invM := !![1 / 2, 1 / 2; 1 / 2, -1 / 2]
  Tu := fun _ => 1
  Tmu := fun _ => 1
  EQ := ![fun w => w 0, fun w => c * w 0]
  s := ![fun _ => 0, fun _ => 1]
  consm := ![0]
  relVel := none
  source := fun _ => none
  dt := 1

theorem slow_relaxF (c : ℝ) : relaxF (slow c).M (slow c).invM ![0, 1] (!![1; c] : Matrix (Fin 2) (Fin 1) ℝ) =
    !![(1 + c) / 2, (1 + c) / 2; (1 - c) / 2, (1 - c) / 2] := by
  have h : relaxMat ![0, 1] (!![1; c] : Matrix (Fin 2) (Fin 1) ℝ) = !![1, 0; c, 0] := by
    ext i j
    fin_cases i <;> fin_cases j <;> simp [relaxMat]
  unfold relaxF
  rw [h]
  ext i j
  fin_cases i <;> fin_cases j <;> simp [slow, Matrix.mul_apply, Fin.sum_univ_two] <;> ring

theorem slow_simple (c : ℝ) (hc : |c| ≤ 1) (ξ : Fin 1 → ℝ) : SimpleVonNeumann
    (amplification (fun j _ => ![1, -1] j : Fin 2 → Cell 1) !![(1 + c) / 2, (1 + c) / 2; (1 - c) / 2, (1 - c) / 2] ξ).charpoly := by
  set G := amplification (fun j _ => ![1, -1] j : Fin 2 → Cell 1)
    !![(1 + c) / 2, (1 + c) / 2; (1 - c) / 2, (1 - c) / 2] ξ with hG
  have htr : G.trace = Complex.exp (Complex.I * ξ 0) * ((1 + c) / 2 : ℝ) + Complex.exp (-(Complex.I * ξ 0)) * ((1 - c) / 2 : ℝ) := by
    simp [hG, Matrix.trace_fin_two, amplification]
  have hdet : G.det = 0 := by
    simp [hG, Matrix.det_fin_two, amplification]
    ring
  have hnorm : ‖G.trace‖ ≤ 1 := by
    rw [htr]
    refine (norm_add_le _ _).trans ?_
    have h1 : ‖Complex.exp (Complex.I * ξ 0)‖ = 1 := by
      rw [mul_comm]; exact Complex.norm_exp_ofReal_mul_I _
    have h2 : ‖Complex.exp (-(Complex.I * ξ 0))‖ = 1 := by
      rw [show -(Complex.I * (ξ 0 : ℂ)) = ((-ξ 0 : ℝ) : ℂ) * Complex.I by push_cast; ring]; exact Complex.norm_exp_ofReal_mul_I _
    rw [norm_mul, norm_mul, h1, h2, one_mul, one_mul, Complex.norm_real, Complex.norm_real, Real.norm_eq_abs, Real.norm_eq_abs]
    have := abs_le.1 hc
    rw [abs_of_nonneg (by linarith), abs_of_nonneg (by linarith)]
    linarith
  have hp : G.charpoly = Polynomial.X * (Polynomial.X - Polynomial.C G.trace) := by
    rw [Matrix.charpoly_fin_two, hdet]
    simp
    ring
  rw [hp]
  have hroot : ∀ z, (Polynomial.X * (Polynomial.X - Polynomial.C G.trace) : Polynomial ℂ).IsRoot z → z = 0 ∨ z = G.trace := by
    intro z hz
    simpa [Polynomial.IsRoot, sub_eq_zero] using hz
  refine ⟨fun z hz => ?_, fun z h1 hz => ?_⟩
  · rcases hroot z hz with rfl | rfl
    · simp
    · exact hnorm
  · rcases hroot z hz with rfl | rfl
    · simp at h1
    · rw [Polynomial.rootMultiplicity_mul (mul_ne_zero Polynomial.X_ne_zero (Polynomial.X_sub_C_ne_zero _)),
        Polynomial.rootMultiplicity_X_sub_C_self, Polynomial.rootMultiplicity_eq_zero]
      simpa using fun h : G.trace = 0 => by simp [h] at h1

example (c : ℝ) (hc : |c| ≤ 1) (n0 : Nat) (hn0 : 0 < n0) (G : Arr ℝ 2 1) :
    ∃ B : ℝ, ∀ (t : Nat) (x : Cell 1) (j : Fin 2), (∀ i, 0 ≤ x i ∧ x i < n0) →
      |lbmRun (fun _ => n0) (fun j _ => ![1, -1] j) (collide (slow c) .pull) (fun _ H => H) 1 G t x j| ≤ B := by
  refine C63_stable_partial (by norm_num) (slow c) .pull (fun j => by fin_cases j; rfl) (fun j w => by fin_cases j; rfl)
    (fun _ => rfl) rfl (!![1; c]) (fun i w => ?_) ![0, 1] (fun i w => by fin_cases i <;> rfl) _ n0 hn0 (fun τ hτ => ?_) 1 G
  · fin_cases i <;> simp [slow, Matrix.mulVec, dotProduct]
  · by_contra h
    obtain ⟨m, μ, hr, h⟩ := (C63_answers (by norm_num) _ _ _ τ hτ).1 h
    rw [slow_relaxF] at hr h
    obtain ⟨h1, h2⟩ := slow_simple c hc fun i => 2 * Real.pi * ((m i : Nat) : ℝ) / n0
    rcases h with h | ⟨h, h'⟩
    · exact absurd (h1 μ hr) (not_le.2 h)
    · exact absurd (h'.trans (le_of_eq (h2 μ h hr))) (by norm_num)

end Pylbm.Stability
