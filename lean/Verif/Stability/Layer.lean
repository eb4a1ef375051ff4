import Verif.Stability.Structure
import Mathlib.Analysis.SpecificLimits.Normed
/-!
# C67: the initial layer of a run which is started at equilibrium
-/
set_option linter.unusedSectionVars false
namespace Pylbm.Stability
open Matrix Sim Scheme Halo SchemeSpec HaloSpec Mpi
open scoped ContDiff

variable {n nc m d dim : Nat}

/-! ## Helper lemmas -/

/-- The derivative of the collision at an equilibrium in the direction of populations without conserved moments. -/
theorem collide_deriv (S : Kernel ℝ (nc + m) nc d) (alg : Algo) (hfront : ∀ j, (S.consm j : Nat) = j)
    (hEQ : ∀ j w, S.EQ (S.consm j) w = w j) (hS : ∀ i, S.source i = none) (hrel : S.relVel = none)
    (hinv : S.M * S.invM = 1) (Ω : Set (Fin nc → ℝ)) (ho : IsOpen Ω)
    (heq : ∀ i : Fin m, ContDiffOn ℝ ∞ (S.EQ (Fin.natAdd nc i)) Ω)
    (hs : ∀ i : Fin m, ContDiffOn ℝ ∞ (S.s (Fin.natAdd nc i)) Ω) (w : Fin nc → ℝ) (hw : w ∈ Ω) (h : Fin (nc + m) → ℝ)
    (hh : ∀ j, (S.M *ᵥ h) (S.consm j) = 0) :
    fderiv ℝ (collide S alg) (S.invM *ᵥ fun i => S.EQ i w) h = S.invM *ᵥ fun r => (1 - S.s r w) * (S.M *ᵥ h) r := by
  set p := S.invM *ᵥ fun i => S.EQ i w with hp
  have hMp : S.M *ᵥ p = fun i => S.EQ i w := by rw [hp, Matrix.mulVec_mulVec, hinv, Matrix.one_mulVec]
  have hopen : IsOpen {g : Fin (nc + m) → ℝ | (fun j => (S.M *ᵥ g) (S.consm j)) ∈ Ω} := by
    refine ho.preimage (continuous_pi fun j => ?_)
    simp only [Matrix.mulVec, dotProduct]
    fun_prop
  have hd : DifferentiableAt ℝ (collide S alg) p := by
    refine ((collide_smooth S alg hfront hEQ hS hrel Ω heq hs).contDiffAt (hopen.mem_nhds ?_)).differentiableAt (by simp)
    rw [Set.mem_ofPred_eq, hMp]
    simp only [hEQ]
    exact hw
  have hl : HasDerivAt (fun t : ℝ => p + t • h) h 0 := by
    simpa using ((hasDerivAt_id (0 : ℝ)).smul_const h).const_add p
  have hf : HasFDerivAt (collide S alg) (fderiv ℝ (collide S alg) p) (p + (0 : ℝ) • h) := by
    rw [zero_smul, add_zero]
    exact hd.hasFDerivAt
  refine (hf.comp_hasDerivAt 0 hl).unique ?_
  have hcomp : (collide S alg ∘ fun t : ℝ => p + t • h) = fun t =>
      (S.invM *ᵥ fun i => S.EQ i w) + t • (S.invM *ᵥ fun r => (1 - S.s r w) * (S.M *ᵥ h) r) := by
    funext t
    have hc : (S.M *ᵥ (p + t • h)) ∘ S.consm = w := by
      funext j
      rw [Function.comp_apply, Matrix.mulVec_add, Matrix.mulVec_smul, hMp, Pi.add_apply, Pi.smul_apply, hh, smul_zero, add_zero,
        hEQ]
    rw [Function.comp_apply, collide_eq S alg hEQ hS hrel, collision, ← Matrix.mulVec_smul, ← Matrix.mulVec_add]
    congr 1
    funext r
    unfold relaxed
    rw [hc, Matrix.mulVec_add, Matrix.mulVec_smul, hMp]
    simp only [Pi.add_apply, Pi.smul_apply, smul_eq_mul]
    ring
  rw [hcomp]
  simpa using ((hasDerivAt_id (0 : ℝ)).smul_const (S.invM *ᵥ fun r => (1 - S.s r w) * (S.M *ᵥ h) r)).const_add
    (S.invM *ᵥ fun i => S.EQ i w)

/-- The layer: populations whose moments `μ r` are multiplied by `a r` in each step. -/
def lam {X : Type} (B : Matrix (Fin n) (Fin n) ℝ) (a μ : Fin n → X → ℝ) (k : Nat) (x : X) (j : Fin n) : ℝ :=
  ∑ r, B j r * (a r x ^ k * μ r x)

/-- The sum of the absolute values of the entries. -/
def mass (B : Matrix (Fin n) (Fin n) ℝ) : ℝ := ∑ j, ∑ r, |B j r|

theorem mass_nonneg (B : Matrix (Fin n) (Fin n) ℝ) : 0 ≤ mass B :=
  Finset.sum_nonneg fun _ _ => Finset.sum_nonneg fun _ _ => abs_nonneg _

theorem mul_le_mass (B : Matrix (Fin n) (Fin n) ℝ) (v : Fin n → ℝ) {c : ℝ} (h : ∀ r, |v r| ≤ c) (j : Fin n) :
    |∑ r, B j r * v r| ≤ mass B * c := by
  refine (Finset.abs_sum_le_sum_abs _ _).trans ?_
  have h1 : ∑ r, |B j r * v r| ≤ ∑ r, |B j r| * c := Finset.sum_le_sum fun r _ => by
    rw [abs_mul]
    exact mul_le_mul_of_nonneg_left (h r) (abs_nonneg _)
  refine h1.trans ?_
  rw [← Finset.sum_mul]
  by_cases hn : 0 ≤ c
  · refine mul_le_mul_of_nonneg_right ?_ hn
    exact Finset.single_le_sum (f := fun j => ∑ r, |B j r|) (fun _ _ => Finset.sum_nonneg fun _ _ => abs_nonneg _) (Finset.mem_univ j)
  · exact absurd ((abs_nonneg _).trans (h j)) hn

theorem lam_le {X : Type} (B : Matrix (Fin n) (Fin n) ℝ) (a μ : Fin n → X → ℝ) {θ c : ℝ} {x : X}
    (ha : ∀ r, |a r x| ≤ θ) (hμ : ∀ r, |μ r x| ≤ c) (k : Nat) (j : Fin n) : |lam B a μ k x j| ≤ mass B * (θ ^ k * c) := by
  refine mul_le_mass B _ (fun r => ?_) j
  rw [abs_mul, abs_pow]
  exact mul_le_mul (pow_le_pow_left₀ (abs_nonneg _) (ha r) k) (hμ r) (abs_nonneg _) (pow_nonneg ((abs_nonneg _).trans (ha r)) k)

theorem pow_diff_le {θ a b : ℝ} (h0 : 0 < θ) (ha : |a| ≤ θ) (hb : |b| ≤ θ) (k : Nat) :
    |a ^ k - b ^ k| ≤ k * θ ^ k / θ * |a - b| := by
  refine (abs_pow_sub_pow_le a b k).trans ?_
  cases k with
  | zero => simp
  | succ k =>
    have h1 : max |a| |b| ^ (k + 1 - 1) ≤ θ ^ (k + 1) / θ := by
      rw [Nat.add_sub_cancel, pow_succ, mul_div_assoc, div_self h0.ne', mul_one]
      exact pow_le_pow_left₀ (le_max_of_le_left (abs_nonneg _)) (max_le ha hb) k
    calc |a - b| * ((k + 1 : ℕ) : ℝ) * max |a| |b| ^ (k + 1 - 1) ≤ |a - b| * ((k + 1 : ℕ) : ℝ) * (θ ^ (k + 1) / θ) :=
        mul_le_mul_of_nonneg_left h1 (by positivity)
      _ = _ := by ring

theorem lam_shift {X : Type} (B : Matrix (Fin n) (Fin n) ℝ) (a μ : Fin n → X → ℝ) {θ c δ : ℝ} (h0 : 0 < θ) {x x' : X}
    (ha : ∀ r, |a r x| ≤ θ) (ha' : ∀ r, |a r x'| ≤ θ) (hμ : ∀ r, |μ r x'| ≤ c) (hda : ∀ r, |a r x' - a r x| ≤ δ)
    (hdμ : ∀ r, |μ r x' - μ r x| ≤ δ) (k : Nat) (j : Fin n) :
    |lam B a μ k x' j - lam B a μ k x j| ≤ mass B * ((c / θ + 1) * ((1 + k) * θ ^ k) * δ) := by
  unfold lam
  rw [← Finset.sum_sub_distrib]
  simp only [← mul_sub]
  refine mul_le_mass B _ (fun r => ?_) j
  have hδ : 0 ≤ δ := (abs_nonneg _).trans (hda r)
  have hc : 0 ≤ c := (abs_nonneg _).trans (hμ r)
  have e : a r x' ^ k * μ r x' - a r x ^ k * μ r x = (a r x' ^ k - a r x ^ k) * μ r x' + a r x ^ k * (μ r x' - μ r x) := by ring
  rw [e]
  refine (abs_add_le _ _).trans ?_
  rw [abs_mul, abs_mul, abs_pow]
  have h1 : |a r x' ^ k - a r x ^ k| * |μ r x'| ≤ k * θ ^ k / θ * δ * c :=
    mul_le_mul ((pow_diff_le h0 (ha' r) (ha r) k).trans (mul_le_mul_of_nonneg_left (hda r) (by positivity))) (hμ r)
      (abs_nonneg _) (by positivity)
  have h2 : |a r x| ^ k * |μ r x' - μ r x| ≤ θ ^ k * δ :=
    mul_le_mul (pow_le_pow_left₀ (abs_nonneg _) (ha r) k) (hdμ r) (abs_nonneg _) (by positivity)
  have h3 : k * θ ^ k / θ * δ * c = c / θ * (k * θ ^ k) * δ := by ring
  have h4 : 0 ≤ c / θ := by positivity
  have h5 : (0 : ℝ) ≤ θ ^ k * δ := by positivity
  have h6 : (0 : ℝ) ≤ k * θ ^ k * δ := by positivity
  have h7 : (c / θ + 1) * ((1 + k) * θ ^ k) * δ = c / θ * (k * θ ^ k) * δ + θ ^ k * δ + (c / θ) * (θ ^ k * δ) + k * θ ^ k * δ := by
    ring
  rw [h7]
  have h8 := mul_nonneg h4 h5
  linarith

/-- The bounds `ε + (1 + l) θ ^ l` of the steps have a bounded sum. -/
theorem layer_sum {θ : ℝ} (h0 : 0 < θ) (h1 : θ < 1) : ∃ H, ∀ k : Nat, ∑ l ∈ Finset.range k, (1 + l) * θ ^ l ≤ H := by
  have hn : ‖θ‖ < 1 := by rwa [Real.norm_eq_abs, abs_of_pos h0]
  have s1 : Summable fun l : ℕ => (1 + l : ℝ) * θ ^ l := by
    have a0 := summable_pow_mul_geometric_of_norm_lt_one 0 hn
    have a1 := summable_pow_mul_geometric_of_norm_lt_one 1 hn
    refine (a0.add a1).congr fun l => ?_
    simp only [pow_zero, pow_one]
    ring
  exact ⟨_, fun k => s1.sum_le_tsum _ fun l _ => by positivity⟩

/-- A strict bound on a compact set, for finitely many functions. -/
theorem strict_bound {X : Type} [TopologicalSpace X] {K : Set X} (hK : IsCompact K) (a : Fin n → X → ℝ)
    (hc : ∀ r, ContinuousOn (a r) K) (h : ∀ r, ∀ x ∈ K, |a r x| < 1) :
    ∃ θ, 0 < θ ∧ θ < 1 ∧ ∀ x ∈ K, ∀ r, |a r x| ≤ θ := by
  have h1 : ∀ r, ∃ δ, 0 < δ ∧ ∀ x ∈ K, δ ≤ 1 - |a r x| := fun r =>
    hK.exists_forall_le' (continuousOn_const.sub (hc r).abs) fun x hx => sub_pos.2 (h r x hx)
  choose δ hδ hδl using h1
  have hpos : 0 < 1 + ∑ r, 1 / δ r := by
    have : 0 ≤ ∑ r, 1 / δ r := Finset.sum_nonneg fun r _ => (one_div_pos.2 (hδ r)).le
    linarith
  refine ⟨max (1 / 2) (1 - 1 / (1 + ∑ r, 1 / δ r)), by positivity, max_lt (by norm_num) ?_, fun x hx r => le_max_of_le_right ?_⟩
  · have := one_div_pos.2 hpos
    linarith
  · have h2 : 1 / (1 + ∑ r, 1 / δ r) ≤ δ r := by
      rw [one_div_le hpos (hδ r)]
      have := Finset.single_le_sum (f := fun r => 1 / δ r) (fun r _ => (one_div_pos.2 (hδ r)).le) (Finset.mem_univ r)
      beta_reduce at this
      linarith
    have := hδl r x hx
    linarith

/-- A smooth function which vanishes for `ε = 0`, up to the order two. -/
theorem second_bounds {X : Type} [NormedAddCommGroup X] [NormedSpace ℝ X] (g : Fin n → ℝ × X → ℝ)
    (hg : ∀ r, ContDiff ℝ ∞ (g r)) (h : ∀ r q, g r (0, q) = 0) {K : Set X} (hK : IsCompact K) :
    ∃ ε₀ > 0, ∃ C ≥ 0, ∀ ε, 0 ≤ ε → ε ≤ ε₀ → ∀ q ∈ K, ∀ r, |g r (ε, q) - ε * dir (1, 0) (g r) (0, q)| ≤ C * ε ^ 2 := by
  have hd : ∀ r, ContDiff ℝ ∞ fun q : X => dir (1, 0) (g r) (0, q) := by
    intro r
    have h1 : ContDiff ℝ ∞ (dir (1, 0) (g r)) := ((hg r).fderiv_right (m := ∞) (by simp)).clm_apply contDiff_const
    exact h1.comp (contDiff_const.prodMk contDiff_id)
  have hprod : ∀ r, ContDiff ℝ ∞ fun p : ℝ × X => p.1 * dir (1, 0) (g r) (0, p.2) := fun r =>
    contDiff_fst.mul ((hd r).comp contDiff_snd)
  obtain ⟨ε₀, h0, C, hC⟩ := flat_bounds (k := 2) (Q := Set.univ)
    (fun r p => g r p - p.1 * dir (1, 0) (g r) (0, p.2)) (fun r => sm_of_contDiff ((hg r).sub (hprod r)))
    (fun r => ⟨fun q _ => by beta_reduce; rw [h]; simp, fun q _ => by
      have d1 : HasFDerivAt (g r) (fderiv ℝ (g r) (0, q)) (0, q) := ((hg r).differentiable (by simp) _).hasFDerivAt
      have d2 : HasFDerivAt (fun p : ℝ × X => p.1 * dir (1, 0) (g r) (0, p.2)) _ (0, q) :=
        hasFDerivAt_fst.mul (((hd r).comp contDiff_snd).differentiable (by simp) (0, q)).hasFDerivAt
      have d3 : HasFDerivAt (fun p : ℝ × X => g r p - p.1 * dir (1, 0) (g r) (0, p.2)) _ (0, q) := d1.sub d2
      show fderiv ℝ (fun p : ℝ × X => g r p - p.1 * dir (1, 0) (g r) (0, p.2)) (0, q) (1, 0) = 0
      rw [d3.fderiv]
      simp [dir], trivial⟩) hK (Set.subset_univ _)
  refine ⟨ε₀, h0, |C|, abs_nonneg C, fun ε h1 h2 q hq r => ?_⟩
  exact (hC ε h1 h2 q hq r).trans (mul_le_mul_of_nonneg_right (le_abs_self C) (by positivity))

/-- Lipschitz in time, on a compact set. -/
theorem time_bounds {X : Type} [NormedAddCommGroup X] [NormedSpace ℝ X] (g : Fin n → ℝ × X → ℝ)
    (hg : ∀ r, ContDiff ℝ ∞ (g r)) {K : Set X} (hK : IsCompact K) (T : ℝ) :
    ∃ C ≥ 0, ∀ t, 0 ≤ t → t ≤ T → ∀ q ∈ K, ∀ r, |g r (t, q) - g r (0, q)| ≤ C * t := by
  have hd : ∀ r, ContDiff ℝ ∞ fun p : ℝ × X => g r p - g r (0, p.2) := fun r =>
    (hg r).sub ((hg r).comp (contDiff_const.prodMk contDiff_snd))
  obtain ⟨e, he, C, hC0, hC⟩ := first_bounds _ hd (fun r q => by simp) hK
  have hb : ∀ r, ∃ D, ∀ p ∈ Set.Icc (0 : ℝ) T ×ˢ K, ‖g r p - g r (0, p.2)‖ ≤ D := fun r =>
    (isCompact_Icc.prod hK).exists_bound_of_continuousOn (hd r).continuous.continuousOn
  choose D hD using hb
  have hD0 : 0 ≤ ∑ r, |D r| := Finset.sum_nonneg fun r _ => abs_nonneg _
  refine ⟨C + (∑ r, |D r|) / e, by positivity, fun t h0 h1 q hq r => ?_⟩
  have h3 : 0 ≤ (∑ r, |D r|) / e * t := by positivity
  by_cases h : t ≤ e
  · have := hC t h0 h q hq r
    beta_reduce at this
    rw [add_mul]
    linarith
  · have h2 : |g r (t, q) - g r (0, q)| ≤ |D r| := (hD r (t, q) ⟨⟨h0, h1⟩, hq⟩).trans (le_abs_self _)
    have h4 : |D r| ≤ ∑ r, |D r| := Finset.single_le_sum (f := fun r => |D r|) (fun r _ => abs_nonneg _) (Finset.mem_univ r)
    have h5 : ∑ r, |D r| ≤ (∑ r, |D r|) / e * t := by
      rw [div_mul_eq_mul_div, le_div_iff₀ he]
      exact mul_le_mul_of_nonneg_left (not_le.1 h).le hD0
    have h6 : 0 ≤ C * t := by positivity
    rw [add_mul]
    linarith

/-- The residual of one step with the layer. -/
theorem layer_residual {E : Type} [NormedAddCommGroup E] [NormedSpace ℝ E] {g g' F lt l ln φg φg' : E} (J : E →L[ℝ] E)
    {ε q c₁ c₂ c₃ c₄ σ CJ : ℝ} (h0 : 0 < ε) (hσ : 0 ≤ σ) (hCJ : 0 ≤ CJ) (h1 : ‖φg' - F‖ ≤ c₁ * ε ^ 3)
    (h2 : ‖φg - φg' - J (g - g')‖ ≤ σ * ε * ‖g - g'‖) (hg : g - g' = ε • lt) (h3 : ‖lt‖ ≤ c₂ * q)
    (h4 : ‖lt - l‖ ≤ c₃ * ε * q) (hJ : ‖J‖ ≤ CJ) (h5 : ‖J l - ln‖ ≤ c₄ * ε * q) :
    ‖φg - (F + ε • ln)‖ ≤ c₁ * ε ^ 3 + (σ * c₂ + CJ * c₃ + c₄) * (ε ^ 2 * q) := by
  have e : φg - (F + ε • ln) = (φg' - F) + ((φg - φg' - J (g - g')) + (ε • J (lt - l) + ε • (J l - ln))) := by
    rw [hg, map_smul, map_sub]
    module
  rw [e]
  have n2 : ‖φg - φg' - J (g - g')‖ ≤ σ * c₂ * (ε ^ 2 * q) := by
    refine h2.trans ?_
    rw [hg, norm_smul, Real.norm_eq_abs, abs_of_pos h0]
    have := mul_le_mul_of_nonneg_left h3 (by positivity : 0 ≤ σ * ε * ε)
    linarith
  have n3 : ‖ε • J (lt - l)‖ ≤ CJ * c₃ * (ε ^ 2 * q) := by
    rw [norm_smul, Real.norm_eq_abs, abs_of_pos h0]
    have a1 : ‖J (lt - l)‖ ≤ CJ * (c₃ * ε * q) :=
      (J.le_opNorm _).trans (mul_le_mul hJ h4 (norm_nonneg _) hCJ)
    have := mul_le_mul_of_nonneg_left a1 h0.le
    linarith
  have n4 : ‖ε • (J l - ln)‖ ≤ c₄ * (ε ^ 2 * q) := by
    rw [norm_smul, Real.norm_eq_abs, abs_of_pos h0]
    have := mul_le_mul_of_nonneg_left h5 h0.le
    linarith
  refine (norm_add_le _ _).trans ?_
  have a2 := norm_add_le (φg - φg' - J (g - g')) (ε • J (lt - l) + ε • (J l - ln))
  have a3 := norm_add_le (ε • J (lt - l)) (ε • (J l - ln))
  have a4 : (σ * c₂ + CJ * c₃ + c₄) * (ε ^ 2 * q) = σ * c₂ * (ε ^ 2 * q) + CJ * c₃ * (ε ^ 2 * q) + c₄ * (ε ^ 2 * q) := by ring
  linarith

/-- The moments of the layer at the first step. -/
theorem layer_start (S : Kernel ℝ (nc + m) nc d) (hinv : S.invM * S.M = 1)
    (hEQ : ∀ j w, S.EQ (S.consm j) w = w j) (L : Fin dim → ℝ) (W : ℝ → (Fin dim → ℝ) → Fin nc → ℝ)
    (f : ℝ → (Fin dim → ℝ) → Fin (nc + m) → ℝ)
    (hE : ∀ i, ContDiff ℝ ∞ fun p : ℝ × (Fin dim → ℝ) => S.EQ i (W p.1 p.2))
    (hf : ∀ j, ContDiff ℝ ∞ fun p : ℝ × (Fin dim → ℝ) => f p.1 p.2 j) (hWp : ∀ ε, HasPeriods L (W ε))
    (hfp : ∀ ε, HasPeriods L (f ε)) (hfW : ∀ ε x b, (S.M *ᵥ f ε x) (S.consm b) = W ε x b)
    (hf0 : ∀ x, f 0 x = S.invM *ᵥ fun i => S.EQ i (W 0 x)) :
    ∃ μ : Fin (nc + m) → (Fin dim → ℝ) → ℝ, (∀ r, ContDiff ℝ ∞ (μ r)) ∧ (∀ r, HasPeriods L (μ r)) ∧
      (∀ b x, μ (S.consm b) x = 0) ∧ ∃ ε₀ > 0, ∃ C ≥ 0, ∀ ε, 0 ≤ ε → ε ≤ ε₀ → ∀ x ∈ Set.Icc 0 L, ∀ j,
        |(S.invM *ᵥ fun i => S.EQ i (W ε x)) j - (f ε x j + ε * ∑ r, S.invM j r * μ r x)| ≤ C * ε ^ 2 := by
  have hinv2 : S.M * S.invM = 1 := mul_eq_one_comm.1 hinv
  set g : Fin (nc + m) → ℝ × (Fin dim → ℝ) → ℝ := fun j p =>
    (S.invM *ᵥ fun i => S.EQ i (W p.1 p.2)) j - f p.1 p.2 j with hg
  have hgs : ∀ j, ContDiff ℝ ∞ (g j) := by
    intro j
    refine ContDiff.sub ?_ (hf j)
    simp only [Matrix.mulVec, dotProduct]
    exact ContDiff.sum fun i _ => contDiff_const.mul (hE i)
  have hds : ∀ j, ContDiff ℝ ∞ fun x : Fin dim → ℝ => dir (1, 0) (g j) (0, x) := by
    intro j
    have h1 : ContDiff ℝ ∞ (dir (1, 0) (g j)) := ((hgs j).fderiv_right (m := ∞) (by simp)).clm_apply contDiff_const
    exact h1.comp (contDiff_const.prodMk contDiff_id)
  have hdp : ∀ j, HasPeriods L fun x : Fin dim → ℝ => dir (1, 0) (g j) (0, x) := by
    intro j k x
    have h1 : (fun p : ℝ × (Fin dim → ℝ) => g j (p + (0, fun i => k i * L i))) = g j := by
      funext p
      have e1 : p.2 + (fun i => k i * L i) = fun i => p.2 i + k i * L i := rfl
      simp only [hg, Prod.fst_add, Prod.snd_add, add_zero, e1, hWp p.1 k p.2, hfp p.1 k p.2]
    have h2 := fderiv_comp_add_right (𝕜 := ℝ) (f := g j) (x := ((0 : ℝ), x)) (0, fun i => k i * L i)
    rw [h1] at h2
    have e2 : (((0 : ℝ), x) + (0, fun i => k i * L i) : ℝ × (Fin dim → ℝ)) = (0, fun i => x i + k i * L i) := by
      rw [Prod.mk_add_mk, add_zero]
      rfl
    rw [e2] at h2
    simp only [dir]
    rw [h2]
  refine ⟨fun r x => ∑ j, S.M r j * dir (1, 0) (g j) (0, x), fun r => ContDiff.sum fun j _ => contDiff_const.mul (hds j),
    fun r k x => Finset.sum_congr rfl fun j _ => by
      have := hdp j k x
      beta_reduce at this
      rw [this], fun b x => ?_, ?_⟩
  · beta_reduce
    have hz : (fun p : ℝ × (Fin dim → ℝ) => ∑ j, S.M (S.consm b) j * g j p) = fun _ => 0 := by
      funext p
      have e1 : ∑ j, S.M (S.consm b) j * g j p = (S.M *ᵥ (S.invM *ᵥ fun i => S.EQ i (W p.1 p.2))) (S.consm b) -
          (S.M *ᵥ f p.1 p.2) (S.consm b) := by
        simp only [hg, mul_sub, Finset.sum_sub_distrib]
        rfl
      rw [e1, Matrix.mulVec_mulVec, hinv2, Matrix.one_mulVec, hEQ, hfW, sub_self]
    have hd : HasFDerivAt (fun p : ℝ × (Fin dim → ℝ) => ∑ j, S.M (S.consm b) j * g j p)
        (∑ j, S.M (S.consm b) j • fderiv ℝ (g j) (0, x)) (0, x) :=
      HasFDerivAt.fun_sum fun j _ => ((hgs j).differentiable (by simp) _).hasFDerivAt.const_mul _
    rw [hz] at hd
    have h3 := (hasFDerivAt_const (0 : ℝ) ((0 : ℝ), x)).unique hd
    have h4 := congrArg (fun l : ℝ × (Fin dim → ℝ) →L[ℝ] ℝ => l (1, 0)) h3
    simp only [_root_.zero_apply, _root_.sum_apply, _root_.smul_apply, smul_eq_mul] at h4
    exact h4.symm
  · obtain ⟨e, he, C, hC0, hC⟩ := second_bounds g hgs (fun j x => by
      simp only [hg]
      rw [hf0, sub_self]) (isCompact_Icc (a := (0 : Fin dim → ℝ)) (b := L))
    refine ⟨e, he, C, hC0, fun ε h0 h1 x hx j => ?_⟩
    have h2 := hC ε h0 h1 x hx j
    have h3 : ∑ r, S.invM j r * ∑ i, S.M r i * dir (1, 0) (g i) (0, x) = dir (1, 0) (g j) (0, x) := by
      have : (S.invM *ᵥ (S.M *ᵥ fun i => dir (1, 0) (g i) (0, x))) j = dir (1, 0) (g j) (0, x) := by
        rw [Matrix.mulVec_mulVec, hinv, Matrix.one_mulVec]
      exact this
    beta_reduce
    rw [h3, ← sub_sub]
    exact h2

/-- The populations of the scheme with the layer: the arrays `lay f la lam ε l`. -/
def withLayer (f : ℝ → ℝ → (Fin dim → ℝ) → Fin n → ℝ) (lay : Nat → (Fin dim → ℝ) → Fin n → ℝ) (la ε : ℝ) (l : Nat) :
    Arr ℝ n dim := fun y j => f ε (l * ε) (fun i => la * ε * y i) j + ε * lay l (fun i => la * ε * y i) j

set_option maxHeartbeats 1600000 in
/-- The initial layer: the populations `f` of `C67_truncation` with a geometrically decreasing correction of order `ε`
agree up to `ε ^ 2` with the equilibrium at the time `0`, and the residuals have a sum of order `ε ^ 2`. -/
theorem layer (S : Kernel ℝ (nc + m) nc d) (alg : Algo) (hfront : ∀ j, (S.consm j : Nat) = j)
    (hEQ : ∀ j w, S.EQ (S.consm j) w = w j) (hS : ∀ i, S.source i = none) (hrel : S.relVel = none)
    (hinv : S.invM * S.M = 1) (Ω : Set (Fin nc → ℝ)) (ho : IsOpen Ω)
    (heq : ∀ i : Fin m, ContDiffOn ℝ ∞ (S.EQ (Fin.natAdd nc i)) Ω)
    (hs : ∀ i : Fin m, ContDiffOn ℝ ∞ (S.s (Fin.natAdd nc i)) Ω)
    (hs0 : ∀ (i : Fin m) (w), w ∈ Ω → S.s (Fin.natAdd nc i) w ≠ 0)
    (vel : Fin (nc + m) → Cell dim) (la : ℝ) (hla : 0 < la) (L : Fin dim → ℝ)
    (W : ℝ → ℝ → (Fin dim → ℝ) → Fin nc → ℝ) (hW : SmoothIn W) (hΩ : ∀ ε t x, W ε t x ∈ Ω)
    (hper : ∀ ε t, HasPeriods L (W ε t)) (Θ : Set ℝ) (hΘ : IsOpen Θ) (hsol : SolvesPrinted S vel la Θ W)
    (hlay : ∀ (i : Fin m) x, |1 - S.s (Fin.natAdd nc i) (W 0 0 x)| < 1) (T : ℝ) (hT : Set.Icc 0 T ⊆ Θ) :
    ∃ (f : ℝ → ℝ → (Fin dim → ℝ) → Fin (nc + m) → ℝ) (lay : Nat → (Fin dim → ℝ) → Fin (nc + m) → ℝ), SmoothIn f ∧
      (∀ ε t x b, (S.M *ᵥ f ε t x) (S.consm b) = W ε t x b) ∧ (∀ t x, f 0 t x = S.invM *ᵥ fun i => S.EQ i (W 0 t x)) ∧
      (∀ l x b, (S.M *ᵥ lay l x) (S.consm b) = 0) ∧ ∃ θ, 0 < θ ∧ θ < 1 ∧ ∃ ε₀ > 0, ∃ C ≥ 0, ∀ ε, 0 < ε → ε ≤ ε₀ →
        ∀ N : Fin dim → Nat, (∀ i, N i * (la * ε) = L i) →
          (∀ y ∈ box N, ∀ j, |(S.invM *ᵥ fun i => S.EQ i (W ε 0 fun i => la * ε * y i)) j -
            withLayer f lay la ε 0 y j| ≤ C * ε ^ 2) ∧
          ∀ l : Nat, l * ε ≤ T → ∀ y ∈ box N, ∀ j,
            |withLayer f lay la ε l y j - f 0 (l * ε) (fun i => la * ε * y i) j| ≤ C * ε ∧
            |periodic N (withLayer f lay la ε l) (fun i => y i - vel j i) j - f 0 (l * ε) (fun i => la * ε * y i) j| ≤ C * ε ∧
            |lbmStep N vel (collide S alg) (fun _ H => H) (l * ε) (withLayer f lay la ε l) y j -
              withLayer f lay la ε (l + 1) y j| ≤ C * (ε ^ 2 * (ε + (1 + l) * θ ^ l)) := by
  obtain ⟨f, hf, hfp, hfW, hf0, hstep⟩ := C67_truncation S alg hfront hEQ hS hrel hinv Ω ho heq hs hs0 vel la hla L W hW
    hΩ hper Θ hΘ hsol
  obtain ⟨e1, he1, C1, hC1⟩ := hstep 0 T hT
  have hinv2 : S.M * S.invM = 1 := mul_eq_one_comm.1 hinv
  have hcons : ∀ j, S.consm j = Fin.castAdd m j := fun j => Fin.ext (hfront j)
  have hf00 : ∀ t x, f 0 t x = S.invM *ᵥ fun i => S.EQ i (W 0 t x) := by
    intro t x
    have : (fun i => S.EQ i (W 0 t x)) = S.M *ᵥ f 0 t x := funext fun i => (hf0 t x i).symm
    rw [this, Matrix.mulVec_mulVec, hinv, Matrix.one_mulVec]
  have hWs : ∀ c, ContDiff ℝ ∞ fun p : ℝ × TX dim => W p.1 p.2.1 p.2.2 c := contDiff_pi.1 hW
  have hEs : ∀ i, ContDiff ℝ ∞ fun p : ℝ × TX dim => S.EQ i (W p.1 p.2.1 p.2.2) := by
    intro i
    refine Fin.addCases (fun c => ?_) (fun i => ?_) i
    · simp only [← hcons c, hEQ]
      exact hWs c
    · exact contDiff_iff_contDiffAt.2 fun p =>
        ((heq i).contDiffAt (ho.mem_nhds (hΩ _ _ _))).comp p hW.contDiffAt
  have hss : ∀ i : Fin m, ContDiff ℝ ∞ fun p : ℝ × TX dim => S.s (Fin.natAdd nc i) (W p.1 p.2.1 p.2.2) := fun i =>
    contDiff_iff_contDiffAt.2 fun p => ((hs i).contDiffAt (ho.mem_nhds (hΩ _ _ _))).comp p hW.contDiffAt
  have hfj : ∀ j, ContDiff ℝ ∞ fun p : ℝ × TX dim => f p.1 p.2.1 p.2.2 j := contDiff_pi.1 hf
  have hopen : IsOpen {g : Fin (nc + m) → ℝ | (fun j => (S.M *ᵥ g) (S.consm j)) ∈ Ω} := by
    refine ho.preimage (continuous_pi fun j => ?_)
    simp only [Matrix.mulVec, dotProduct]
    fun_prop
  have hKx : IsCompact (Set.Icc (0 : Fin dim → ℝ) L) := isCompact_Icc
  have hK : IsCompact (Set.Icc (0 : ℝ) T ×ˢ Set.Icc (0 : Fin dim → ℝ) L) := isCompact_Icc.prod isCompact_Icc
  -- the moments of the layer
  obtain ⟨μ, hμs, hμp, hμ0, e2, he2, C2, hC20, hC2⟩ := layer_start S hinv hEQ L (fun ε => W ε 0) (fun ε => f ε 0)
    (fun i => (hEs i).comp (f := fun p : ℝ × (Fin dim → ℝ) => (p.1, (0 : ℝ), p.2))
      (g := fun p : ℝ × TX dim => S.EQ i (W p.1 p.2.1 p.2.2)) (by fun_prop))
    (fun j => (hfj j).comp (f := fun p : ℝ × (Fin dim → ℝ) => (p.1, (0 : ℝ), p.2))
      (g := fun p : ℝ × TX dim => f p.1 p.2.1 p.2.2 j) (by fun_prop)) (fun ε => hper ε 0) (fun ε => hfp ε 0)
    (fun ε x b => hfW ε 0 x b) (fun x => hf00 0 x)
  set a : Fin (nc + m) → (Fin dim → ℝ) → ℝ := fun r x =>
    Fin.append (fun _ : Fin nc => (0 : ℝ)) (fun i => 1 - S.s (Fin.natAdd nc i) (W 0 0 x)) r with ha
  have hal : ∀ c x, a (Fin.castAdd m c) x = 0 := fun c x => by simp only [ha, Fin.append_left]
  have har : ∀ i x, a (Fin.natAdd nc i) x = 1 - S.s (Fin.natAdd nc i) (W 0 0 x) := fun i x => by simp only [ha, Fin.append_right]
  have has : ∀ r, ContDiff ℝ ∞ (a r) := by
    intro r
    refine Fin.addCases (fun c => ?_) (fun i => ?_) r
    · rw [show a (Fin.castAdd m c) = fun _ => (0 : ℝ) from funext (hal c)]
      exact contDiff_const
    · rw [show a (Fin.natAdd nc i) = fun x => 1 - S.s (Fin.natAdd nc i) (W 0 0 x) from funext (har i)]
      exact contDiff_const.sub ((hss i).comp (f := fun x : Fin dim → ℝ => ((0 : ℝ), (0 : ℝ), x))
        (g := fun p : ℝ × TX dim => S.s (Fin.natAdd nc i) (W p.1 p.2.1 p.2.2)) (by fun_prop))
  have hap : ∀ r, HasPeriods L (a r) := by
    intro r k x
    simp only [ha, hper 0 0 k x]
  have ha1 : ∀ r x, |a r x| < 1 := by
    intro r x
    refine Fin.addCases (fun c => ?_) (fun i => ?_) r
    · rw [hal]; simp
    · rw [har]; exact hlay i x
  clear_value a
  -- the constants
  obtain ⟨θ, hθ0, hθ1, hθ⟩ := strict_bound hKx a (fun r => (has r).continuous.continuousOn) fun r x _ => ha1 r x
  have hμb : ∀ r, ∃ D, ∀ x ∈ Set.Icc (0 : Fin dim → ℝ) L, ‖μ r x‖ ≤ D := fun r =>
    hKx.exists_bound_of_continuousOn (hμs r).continuous.continuousOn
  choose Dμ hDμ using hμb
  set cμ := ∑ r, |Dμ r| with hcμ
  have hcμ0 : 0 ≤ cμ := Finset.sum_nonneg fun r _ => abs_nonneg _
  have hμc : ∀ x ∈ Set.Icc (0 : Fin dim → ℝ) L, ∀ r, |μ r x| ≤ cμ := fun x hx r =>
    (hDμ r x hx).trans ((le_abs_self _).trans (Finset.single_le_sum (f := fun r => |Dμ r|) (fun r _ => abs_nonneg _)
      (Finset.mem_univ r)))
  clear_value cμ
  have hshs : ∀ (g : (Fin dim → ℝ) → ℝ) (j : Fin (nc + m)), ContDiff ℝ ∞ g →
      ContDiff ℝ ∞ fun p : ℝ × (Fin dim → ℝ) => g (fun l => p.2 l - la * p.1 * vel j l) - g p.2 := fun g j hg =>
    (hg.comp (f := fun p : ℝ × (Fin dim → ℝ) => fun l => p.2 l - la * p.1 * vel j l) (by fun_prop)).sub (hg.comp contDiff_snd)
  obtain ⟨e3, he3, C3, hC30, hC3⟩ := first_bounds (ι := Fin (nc + m) × Fin (nc + m)) (X := Fin dim → ℝ)
    (fun r p => a r.1 (fun l => p.2 l - la * p.1 * vel r.2 l) - a r.1 p.2) (fun r => hshs _ _ (has r.1)) (fun r q => by simp) hKx
  obtain ⟨e4, he4, C4, hC40, hC4⟩ := first_bounds (ι := Fin (nc + m) × Fin (nc + m)) (X := Fin dim → ℝ)
    (fun r p => μ r.1 (fun l => p.2 l - la * p.1 * vel r.2 l) - μ r.1 p.2) (fun r => hshs _ _ (hμs r.1)) (fun r q => by simp) hKx
  obtain ⟨C5, hC50, hC5⟩ := time_bounds (n := m) (X := Fin dim → ℝ) (fun i p => S.s (Fin.natAdd nc i) (W 0 p.1 p.2))
    (fun i => (hss i).comp (f := fun p : ℝ × (Fin dim → ℝ) => ((0 : ℝ), p.1, p.2))
        (g := fun p : ℝ × TX dim => S.s (Fin.natAdd nc i) (W p.1 p.2.1 p.2.2)) (by fun_prop)) hKx T
  obtain ⟨e6, he6, C6, hC60, hC6⟩ := first_bounds (ι := Fin (nc + m)) (X := TX dim)
    (fun j p => f p.1 p.2.1 (fun l => p.2.2 l - la * p.1 * vel j l) j - f 0 p.2.1 p.2.2 j)
    (fun j => ((hfj j).comp (g := fun p : ℝ × TX dim => f p.1 p.2.1 p.2.2 j)
      (f := fun p : ℝ × TX dim => (p.1, p.2.1, fun l => p.2.2 l - la * p.1 * vel j l)) (by fun_prop)).sub
      ((hfj j).comp (g := fun p : ℝ × TX dim => f p.1 p.2.1 p.2.2 j)
        (f := fun p : ℝ × TX dim => ((0 : ℝ), p.2.1, p.2.2)) (by fun_prop))) (fun j q => by simp) hK
  obtain ⟨e7, he7, C7, hC70, hC7⟩ := first_bounds (ι := Fin (nc + m)) (X := TX dim)
    (fun j p => f p.1 p.2.1 p.2.2 j - f 0 p.2.1 p.2.2 j)
    (fun j => (hfj j).sub
      ((hfj j).comp (g := fun p : ℝ × TX dim => f p.1 p.2.1 p.2.2 j)
        (f := fun p : ℝ × TX dim => ((0 : ℝ), p.2.1, p.2.2)) (by fun_prop))) (fun j q => by simp) hK
  have hf0c : Continuous fun q : TX dim => f 0 q.1 q.2 :=
    hf.continuous.comp (f := fun q : TX dim => ((0 : ℝ), q.1, q.2)) (by fun_prop)
  have himg : (fun q : TX dim => f 0 q.1 q.2) '' (Set.Icc (0 : ℝ) T ×ˢ Set.Icc (0 : Fin dim → ℝ) L) ⊆
      {g : Fin (nc + m) → ℝ | (fun j => (S.M *ᵥ g) (S.consm j)) ∈ Ω} := by
    rintro _ ⟨q, _, rfl⟩
    rw [Set.mem_ofPred_eq]
    simp only [hfW]
    exact hΩ 0 q.1 q.2
  have hsm := collide_smooth S alg hfront hEQ hS hrel Ω heq hs
  obtain ⟨r, hr, B, hB, hlin⟩ := near_linear hopen (hK.image hf0c) himg (collide S alg) hsm
  obtain ⟨CJ, hCJ⟩ := (hK.image hf0c).exists_bound_of_continuousOn
    ((hsm.fderiv_of_isOpen hopen (m := ∞) (by simp)).continuousOn.mono himg)
  have hm0 := mass_nonneg S.invM
  set mB := mass S.invM with hmB
  clear_value mB
  set c2 := mB * cμ with hc2
  have hc20 : 0 ≤ c2 := by positivity
  set c3 := mB * ((cμ / θ + 1) * (C3 + C4)) with hc3
  set c4 := mB * (C5 * cμ) with hc4
  set ρ := C6 + C7 + c2 with hρ
  have hρ0 : 0 ≤ ρ := by positivity
  set Cr := |C1| + (B * ρ * c2 + |CJ| * c3 + c4) with hCr
  have hc30 : 0 ≤ c3 := by positivity
  have hc40 : 0 ≤ c4 := by positivity
  have hCr0 : 0 ≤ Cr := by positivity
  refine ⟨f, lam S.invM a μ, hf, hfW, hf00, fun l x b => ?_, θ, hθ0, hθ1,
    min (min (min e1 e2) (min e3 e4)) (min (min e6 e7) (r / (ρ + 1))), ?_, C2 + ρ + Cr, by positivity,
    fun ε h0 h1 N hN => ?_⟩
  · have : lam S.invM a μ l x = S.invM *ᵥ fun r => a r x ^ l * μ r x := rfl
    rw [this, Matrix.mulVec_mulVec, hinv2, Matrix.one_mulVec]
    beta_reduce
    rw [hμ0, mul_zero]
  · have : 0 < r / (ρ + 1) := by positivity
    simp only [lt_min_iff]
    exact ⟨⟨⟨he1, he2⟩, he3, he4⟩, ⟨he6, he7⟩, this⟩
  simp only [le_min_iff] at h1
  obtain ⟨⟨⟨h11, h12⟩, h13, h14⟩, ⟨h16, h17⟩, h1r⟩ := h1
  have hρr : ρ * ε ≤ r := by
    rw [le_div_iff₀ (by positivity)] at h1r
    nlinarith
  have hle : ∀ u v : ℝ, 0 ≤ v → u ≤ C2 + ρ + Cr → u * v ≤ (C2 + ρ + Cr) * v := fun u v hv hu => mul_le_mul_of_nonneg_right hu hv
  refine ⟨fun y hy j => ?_, fun l hl y hy => ?_⟩
  · have h2 := hC2 ε h0.le h12 _ (cell_mem hla h0 hN hy) j
    have e0 : withLayer f (lam S.invM a μ) la ε 0 y j = f ε 0 (fun i => la * ε * y i) j +
        ε * ∑ r, S.invM j r * μ r fun i => la * ε * y i := by
      unfold withLayer lam
      simp
    rw [e0]
    exact h2.trans (hle _ _ (by positivity) (by linarith))
  have hl0 : (0 : ℝ) ≤ l * ε := by positivity
  set x : Fin dim → ℝ := fun i => la * ε * y i with hx
  have hxK : x ∈ Set.Icc (0 : Fin dim → ℝ) L := cell_mem hla h0 hN hy
  have hqK : ((l * ε, x) : TX dim) ∈ Set.Icc (0 : ℝ) T ×ˢ Set.Icc (0 : Fin dim → ℝ) L := ⟨⟨hl0, hl⟩, hxK⟩
  have hθl : 0 ≤ θ ^ l := by positivity
  have hθl1 : θ ^ l ≤ 1 := pow_le_one₀ hθ0.le hθ1.le
  set q := (1 + l) * θ ^ l with hq
  have hq0 : 0 ≤ q := by positivity
  have hθq : θ ^ l ≤ q := by
    rw [hq, add_mul, one_mul]
    have : 0 ≤ (l : ℝ) * θ ^ l := by positivity
    linarith
  -- the shifted point
  have hxs : ∀ j, (fun i => la * ε * (((y i - vel j i) % (N i : ℤ) : ℤ) : ℝ)) ∈ Set.Icc (0 : Fin dim → ℝ) L := fun j =>
    cell_mem hla h0 hN (mod_mem_box (box_pos hy) fun i => y i - vel j i)
  have has' : ∀ j r, |a r fun i => x i - la * ε * vel j i| ≤ θ := fun j r => by
    rw [← shift_back hN (a r) (hap r) y (vel j)]
    exact hθ _ (hxs j) r
  have hμs' : ∀ j r, |μ r fun i => x i - la * ε * vel j i| ≤ cμ := fun j r => by
    rw [← shift_back hN (μ r) (hμp r) y (vel j)]
    exact hμc _ (hxs j) r
  have hlamp : ∀ l, HasPeriods L (lam S.invM a μ l) := by
    intro l k x
    funext j
    unfold lam
    simp only [hap _ k x, hμp _ k x]
  set lt : Fin (nc + m) → ℝ := fun j => lam S.invM a μ l (fun i => x i - la * ε * vel j i) j with hlt
  set g' : Fin (nc + m) → ℝ := fun j => f ε (l * ε) (fun i => x i - la * ε * vel j i) j with hg'
  set g : Fin (nc + m) → ℝ := fun j => periodic N (withLayer f (lam S.invM a μ) la ε l) (fun i => y i - vel j i) j with hg
  have hgg' : g = g' + ε • lt := by
    funext j
    have e1 := congrFun (shift_back hN (f ε (l * ε)) (hfp ε (l * ε)) y (vel j)) j
    have e2 := congrFun (shift_back hN (lam S.invM a μ l) (hlamp l) y (vel j)) j
    simp only [hg, hg', hlt, Pi.add_apply, Pi.smul_apply, smul_eq_mul]
    rw [← e1, ← e2]
    rfl
  have hltb : ∀ j, |lt j| ≤ mB * (θ ^ l * cμ) := fun j => by
    rw [hmB]
    exact lam_le S.invM a μ (has' j) (hμs' j) l j
  have hlxb : ∀ j, |lam S.invM a μ l x j| ≤ mB * (θ ^ l * cμ) := fun j => by
    rw [hmB]
    exact lam_le S.invM a μ (hθ x hxK) (hμc x hxK) l j
  have hc2l : mB * (θ ^ l * cμ) ≤ c2 := by
    have : 0 ≤ mB * cμ := hc20
    rw [hc2]
    nlinarith
  have hg'n : ‖g' - f 0 (l * ε) x‖ ≤ C6 * ε := by
    rw [pi_norm_le_iff_of_nonneg (by positivity)]
    exact fun j => hC6 ε h0.le h16 _ hqK j
  have hltn : ‖lt‖ ≤ c2 * θ ^ l := by
    rw [pi_norm_le_iff_of_nonneg (by positivity)]
    intro j
    refine (hltb j).trans (le_of_eq ?_)
    rw [hc2]
    ring
  have hgn : ‖g - f 0 (l * ε) x‖ ≤ ρ * ε := by
    have : g - f 0 (l * ε) x = (g' - f 0 (l * ε) x) + ε • lt := by rw [hgg']; abel
    rw [this]
    refine (norm_add_le _ _).trans ?_
    rw [norm_smul, Real.norm_eq_abs, abs_of_pos h0]
    have a1 : ‖lt‖ ≤ c2 := hltn.trans (mul_le_of_le_one_right hc20 hθl1)
    have a2 := mul_le_mul_of_nonneg_left a1 h0.le
    have a3 : ρ * ε = C6 * ε + C7 * ε + ε * c2 := by rw [hρ]; ring
    have a4 : 0 ≤ C7 * ε := by positivity
    linarith
  have hres : ‖(fun j => collide S alg g j) - ((fun j => f ε (l * ε + ε) x j) + ε • fun j => lam S.invM a μ (l + 1) x j)‖ ≤
      |C1| * ε ^ 3 + (B * ρ * c2 + |CJ| * c3 + c4) * (ε ^ 2 * q) := by
    refine layer_residual (g := g) (g' := g') (lt := lt) (l := lam S.invM a μ l x) (φg := collide S alg g)
      (φg' := collide S alg g') (fderiv ℝ (collide S alg) (f 0 (l * ε) x)) h0 (by positivity) (abs_nonneg CJ) ?_ ?_ ?_ ?_ ?_
      ((hCJ _ ⟨_, hqK, rfl⟩).trans (le_abs_self CJ)) ?_
    · rw [pi_norm_le_iff_of_nonneg (by positivity)]
      intro j
      have h2 := hC1 ε h0 h11 N hN (l * ε) hl0 hl y hy j
      have e1 : lbmStep N vel (collide S alg) (fun _ H => H) (l * ε) (fun z => f ε (l * ε) fun l => la * ε * z l) y j =
          collide S alg g' j := by
        change collide S alg (fun j => periodic N (fun z => f ε (l * ε) fun l => la * ε * z l) (fun i => y i - vel j i) j) j = _
        congr 2
        funext j
        exact congrFun (shift_back hN (f ε (l * ε)) (hfp ε (l * ε)) y (vel j)) j
      rw [e1] at h2
      exact h2.trans (mul_le_mul_of_nonneg_right (le_abs_self C1) (by positivity))
    · refine (hlin _ ⟨_, hqK, rfl⟩ (ρ * ε) hρr g g' hgn (hg'n.trans ?_)).trans (le_of_eq (by ring))
      refine mul_le_mul_of_nonneg_right ?_ h0.le
      rw [hρ]
      linarith
    · rw [hgg']
      abel
    · exact hltn.trans (mul_le_mul_of_nonneg_left hθq hc20)
    · rw [pi_norm_le_iff_of_nonneg (by positivity)]
      intro j
      have h2 := lam_shift S.invM a μ (δ := (C3 + C4) * ε) hθ0 (hθ x hxK) (has' j) (hμs' j)
        (fun r => (hC3 ε h0.le h13 x hxK (r, j)).trans (mul_le_mul_of_nonneg_right (by linarith) h0.le))
        (fun r => (hC4 ε h0.le h14 x hxK (r, j)).trans (mul_le_mul_of_nonneg_right (by linarith) h0.le)) l j
      refine h2.trans (le_of_eq ?_)
      rw [hc3, hq, hmB]
      ring
    · have hMl : S.M *ᵥ lam S.invM a μ l x = fun r => a r x ^ l * μ r x := by
        have : lam S.invM a μ l x = S.invM *ᵥ fun r => a r x ^ l * μ r x := rfl
        rw [this, Matrix.mulVec_mulVec, hinv2, Matrix.one_mulVec]
      have h2 := collide_deriv S alg hfront hEQ hS hrel hinv2 Ω ho heq hs (W 0 (l * ε) x) (hΩ _ _ _) (lam S.invM a μ l x)
        (fun b => by rw [hMl]; beta_reduce; rw [hμ0, mul_zero])
      rw [← hf00] at h2
      rw [h2, hMl, pi_norm_le_iff_of_nonneg (by positivity)]
      intro j
      have e1 : ((S.invM *ᵥ fun r => (1 - S.s r (W 0 (l * ε) x)) * (a r x ^ l * μ r x)) -
          fun j => lam S.invM a μ (l + 1) x j) j =
          ∑ r, S.invM j r * ((1 - S.s r (W 0 (l * ε) x) - a r x) * (a r x ^ l * μ r x)) := by
        rw [Pi.sub_apply]
        unfold lam
        simp only [Matrix.mulVec, dotProduct]
        rw [← Finset.sum_sub_distrib]
        refine Finset.sum_congr rfl fun r _ => ?_
        ring
      rw [e1, Real.norm_eq_abs]
      refine (mul_le_mass S.invM _ (c := C5 * (l * ε) * (θ ^ l * cμ)) (fun r => ?_) j).trans ?_
      · have hnn : 0 ≤ C5 * (l * ε) * (θ ^ l * cμ) := by positivity
        refine Fin.addCases (fun c => ?_) (fun i => ?_) r
        · rw [← hcons c, hμ0, mul_zero, mul_zero, abs_zero]
          exact hnn
        · rw [har, abs_mul]
          refine mul_le_mul ?_ ?_ (abs_nonneg _) (by positivity)
          · have h3 := hC5 (l * ε) hl0 hl x hxK i
            beta_reduce at h3
            rw [show (1 : ℝ) - S.s (Fin.natAdd nc i) (W 0 (l * ε) x) - (1 - S.s (Fin.natAdd nc i) (W 0 0 x)) =
              -(S.s (Fin.natAdd nc i) (W 0 (l * ε) x) - S.s (Fin.natAdd nc i) (W 0 0 x)) by ring, abs_neg]
            exact h3
          · rw [abs_mul, abs_pow, ← har]
            exact mul_le_mul (pow_le_pow_left₀ (abs_nonneg _) (hθ x hxK _) l) (hμc x hxK _) (abs_nonneg _) hθl
      · have h3 : (l : ℝ) * θ ^ l ≤ q := by
          rw [hq]
          exact mul_le_mul_of_nonneg_right (by linarith) hθl
        rw [← hmB]
        calc mB * (C5 * (l * ε) * (θ ^ l * cμ)) = mB * (C5 * cμ) * ε * (l * θ ^ l) := by ring
          _ ≤ mB * (C5 * cμ) * ε * q := mul_le_mul_of_nonneg_left h3 (by positivity)
  intro j
  refine ⟨?_, ?_, ?_⟩
  · have h2 := hC7 ε h0.le h17 _ hqK j
    have h3 := (hlxb j).trans hc2l
    have e3 : withLayer f (lam S.invM a μ) la ε l y j - f 0 (l * ε) x j =
        (f ε (l * ε) x j - f 0 (l * ε) x j) + ε * lam S.invM a μ l x j := by
      unfold withLayer
      ring
    rw [e3]
    refine (abs_add_le _ _).trans ?_
    rw [abs_mul, abs_of_pos h0]
    have a2 := mul_le_mul_of_nonneg_left h3 h0.le
    have a3 : ρ * ε = C6 * ε + C7 * ε + ε * c2 := by rw [hρ]; ring
    have a4 : 0 ≤ C6 * ε := by positivity
    refine le_trans ?_ (hle ρ ε h0.le (by linarith))
    beta_reduce at h2
    linarith
  · have h2 := (norm_le_pi_norm (g - f 0 (l * ε) x) j).trans hgn
    exact h2.trans (hle ρ ε h0.le (by linarith))
  · have h2 := (norm_le_pi_norm _ j).trans hres
    have e3 : (((l + 1 : Nat) : ℝ)) * ε = l * ε + ε := by push_cast; ring
    have e4 : lbmStep N vel (collide S alg) (fun _ H => H) (l * ε) (withLayer f (lam S.invM a μ) la ε l) y j -
        withLayer f (lam S.invM a μ) la ε (l + 1) y j =
        ((fun j => collide S alg g j) - ((fun j => f ε (l * ε + ε) x j) + ε • fun j => lam S.invM a μ (l + 1) x j)) j := by
      unfold withLayer
      rw [e3]
      rfl
    rw [e4]
    refine h2.trans ?_
    have a1 : 0 ≤ ε ^ 2 * q := by positivity
    have a2 : 0 ≤ ε ^ 3 := by positivity
    have a3 : |C1| * ε ^ 3 ≤ Cr * ε ^ 3 := mul_le_mul_of_nonneg_right (by rw [hCr]; linarith [show 0 ≤ B * ρ * c2 + |CJ| * c3 + c4 by positivity]) a2
    have a4 : (B * ρ * c2 + |CJ| * c3 + c4) * (ε ^ 2 * q) ≤ Cr * (ε ^ 2 * q) :=
      mul_le_mul_of_nonneg_right (by rw [hCr]; linarith [abs_nonneg C1]) a1
    have a5 : Cr * (ε ^ 2 * (ε + q)) = Cr * ε ^ 3 + Cr * (ε ^ 2 * q) := by ring
    refine le_trans ?_ (hle Cr (ε ^ 2 * (ε + q)) (by positivity) (by linarith))
    rw [a5]
    linarith

end Pylbm.Stability
