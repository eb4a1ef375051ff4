import Verif.Stability.Truncation
import Verif.Sim.Mass
import Mathlib.Topology.MetricSpace.Thickening
import Mathlib.Analysis.Normed.Module.FiniteDimension
/-!
# C67: quadratic forms and the linearised collision

Helper lemmas for `C67_stability_structure`.
-/
set_option linter.unusedSectionVars false
namespace Pylbm.Stability
open Matrix Sim Scheme Halo SchemeSpec HaloSpec Mpi
open scoped ContDiff

variable {n dim : Nat}

/-- The quadratic form of a matrix. -/
def form (A : Matrix (Fin n) (Fin n) ℝ) (v : Fin n → ℝ) : ℝ := ∑ i, ∑ j, A i j * (v i * v j)

/-! ## One form -/

theorem form_smul (A : Matrix (Fin n) (Fin n) ℝ) (c : ℝ) (v : Fin n → ℝ) : form A (c • v) = c ^ 2 * form A v := by
  simp only [form, Finset.mul_sum, Pi.smul_apply, smul_eq_mul]
  exact Finset.sum_congr rfl fun i _ => Finset.sum_congr rfl fun j _ => by ring

/-- Young's inequality. -/
theorem form_add_le (A : Matrix (Fin n) (Fin n) ℝ) (h : ∀ v, 0 ≤ form A v) {η : ℝ} (hη : 0 < η) (a b : Fin n → ℝ) :
    form A (fun j => a j + b j) ≤ (1 + η) * form A a + (1 + 1 / η) * form A b := by
  have h1 := h fun j => η * a j - b j
  have e : form A (fun j => a j + b j) * η = ((1 + η) * form A a + (1 + 1 / η) * form A b) * η -
      form A (fun j => η * a j - b j) := by
    have : (1 + 1 / η) * form A b * η = (η + 1) * form A b := by field_simp
    rw [add_mul, this]
    simp only [form, Finset.mul_sum, Finset.sum_mul]
    rw [← Finset.sum_add_distrib, ← Finset.sum_sub_distrib]
    refine Finset.sum_congr rfl fun i _ => ?_
    rw [← Finset.sum_add_distrib, ← Finset.sum_sub_distrib]
    refine Finset.sum_congr rfl fun j _ => ?_
    ring
  have h2 : form A (fun j => a j + b j) * η ≤ ((1 + η) * form A a + (1 + 1 / η) * form A b) * η := by
    rw [e]
    linarith
  exact le_of_mul_le_mul_right h2 hη

/-- Two forms whose entries are near. -/
theorem form_near (A B : Matrix (Fin n) (Fin n) ℝ) {δ : ℝ} (h : ∀ i j, |A i j - B i j| ≤ δ) (v : Fin n → ℝ) :
    form A v ≤ form B v + n * n * (δ * ‖v‖ ^ 2) := by
  have h1 : form A v - form B v ≤ ∑ _i : Fin n, ∑ _j : Fin n, δ * ‖v‖ ^ 2 := by
    simp only [form]
    rw [← Finset.sum_sub_distrib]
    refine Finset.sum_le_sum fun i _ => ?_
    rw [← Finset.sum_sub_distrib]
    refine Finset.sum_le_sum fun j _ => ?_
    rw [← sub_mul]
    refine (le_abs_self _).trans ?_
    rw [abs_mul, abs_mul]
    have hi : |v i| ≤ ‖v‖ := norm_le_pi_norm v i
    have hj : |v j| ≤ ‖v‖ := norm_le_pi_norm v j
    rw [sq]
    exact mul_le_mul (h i j) (mul_le_mul hi hj (abs_nonneg _) (norm_nonneg _)) (by positivity) ((abs_nonneg _).trans (h i j))
  simp only [Finset.sum_const, Finset.card_univ, Fintype.card_fin, nsmul_eq_mul] at h1
  linarith

theorem form_continuous {X : Type} [TopologicalSpace X] {s : Set X} {P : X → Matrix (Fin n) (Fin n) ℝ}
    (hP : ∀ i j, ContinuousOn (fun q => P q i j) s) (t : Set (Fin n → ℝ)) :
    ContinuousOn (fun z : X × (Fin n → ℝ) => form (P z.1) z.2) (s ×ˢ t) := by
  unfold form
  refine continuousOn_finsetSum _ fun i _ => continuousOn_finsetSum _ fun j _ => ?_
  refine ((hP i j).comp continuousOn_fst fun z hz => hz.1).mul ?_
  exact (((continuous_apply i).comp continuous_snd).mul ((continuous_apply j).comp continuous_snd)).continuousOn

/-- A positive form which depends continuously on a point of a compact set is equivalent to the square of the norm. -/
theorem form_bounds {X : Type} [TopologicalSpace X] {s : Set X} (hs : IsCompact s) {P : X → Matrix (Fin n) (Fin n) ℝ}
    (hP : ∀ i j, ContinuousOn (fun q => P q i j) s) (hpos : ∀ q ∈ s, ∀ v, v ≠ 0 → 0 < form (P q) v) :
    ∃ c > 0, ∃ C > 0, ∀ q ∈ s, ∀ v, c * ‖v‖ ^ 2 ≤ form (P q) v ∧ form (P q) v ≤ C * ‖v‖ ^ 2 := by
  have hK : IsCompact (s ×ˢ Metric.sphere (0 : Fin n → ℝ) 1) := hs.prod (isCompact_sphere _ _)
  have hc := form_continuous hP (Metric.sphere (0 : Fin n → ℝ) 1)
  have hne : ∀ v ∈ Metric.sphere (0 : Fin n → ℝ) 1, v ≠ 0 := by
    intro v hv h0
    rw [mem_sphere_zero_iff_norm, h0, norm_zero] at hv
    exact zero_ne_one hv
  obtain ⟨c, hc0, hcl⟩ := hK.exists_forall_le' hc (a := 0) fun z hz => hpos _ hz.1 _ (hne _ hz.2)
  obtain ⟨C, hC⟩ := hK.bddAbove_image hc
  refine ⟨c, hc0, |C| + 1, by positivity, fun q hq v => ?_⟩
  by_cases hv : v = 0
  · subst hv
    simp [form]
  have hn : 0 < ‖v‖ := norm_pos_iff.2 hv
  have hz : (q, ‖v‖⁻¹ • v) ∈ s ×ˢ Metric.sphere (0 : Fin n → ℝ) 1 := by
    refine ⟨hq, ?_⟩
    rw [mem_sphere_zero_iff_norm, norm_smul, norm_inv, norm_norm, inv_mul_cancel₀ hn.ne']
  have e : form (P q) v = form (P q) (‖v‖⁻¹ • v) * ‖v‖ ^ 2 := by
    rw [form_smul]
    field_simp
  have h1 := hcl _ hz
  have h2 : form (P q) (‖v‖⁻¹ • v) ≤ C := hC ⟨_, hz, rfl⟩
  rw [e]
  constructor
  · exact mul_le_mul_of_nonneg_right h1 (by positivity)
  · exact mul_le_mul_of_nonneg_right (h2.trans ((le_abs_self C).trans (by linarith))) (by positivity)

/-! ## The transport -/

/-- A cell of the torus shifted by a velocity. -/
theorem shift_periodic {α : Type} {la ε : ℝ} {L : Fin dim → ℝ} {N : Fin dim → Nat} (hN : ∀ i, N i * (la * ε) = L i)
    (g : (Fin dim → ℝ) → α) (hg : HasPeriods L g) (y v : Cell dim) :
    g (fun l => la * ε * (((y l - v l) % (N l : ℤ) : ℤ) : ℝ) + la * ε * v l) = g fun l => la * ε * y l := by
  rw [← hg (fun l => -((y l - v l) / (N l : ℤ))) fun l => la * ε * y l]
  congr 1
  funext l
  rw [← hN l, Int.emod_def]
  push_cast
  ring

/-- The transport changes the sum of the forms as little as the matrices change from one cell to the neighbours. -/
theorem form_transport {la ε : ℝ} {L : Fin dim → ℝ} {N : Fin dim → Nat} (hN : ∀ i, N i * (la * ε) = L i)
    (vel : Fin n → Cell dim) (P : (Fin dim → ℝ) → Matrix (Fin n) (Fin n) ℝ) (hP : HasPeriods L P)
    (hblock : ∀ x i j, vel i ≠ vel j → P x i j = 0) {δ : ℝ}
    (hδ : ∀ z ∈ box N, ∀ i j, |P (fun l => la * ε * z l + la * ε * vel j l) i j - P (fun l => la * ε * z l) i j| ≤ δ)
    (e : Arr ℝ n dim) :
    ∑ y ∈ box N, form (P fun l => la * ε * y l) (fun j => periodic N e (fun i => y i - vel j i) j) ≤
      ∑ y ∈ box N, (form (P fun l => la * ε * y l) (e y) + n * n * (δ * ‖e y‖ ^ 2)) := by
  have h1 : ∑ y ∈ box N, form (P fun l => la * ε * y l) (fun j => periodic N e (fun i => y i - vel j i) j) =
      ∑ z ∈ box N, form (fun i j => P (fun l => la * ε * z l + la * ε * vel j l) i j) (e z) := by
    simp only [form]
    rw [Finset.sum_comm, Finset.sum_comm (s := box N)]
    refine Finset.sum_congr rfl fun i _ => ?_
    rw [Finset.sum_comm, Finset.sum_comm (s := box N)]
    refine Finset.sum_congr rfl fun j _ => ?_
    by_cases hv : vel i = vel j
    · rw [← sum_torus N (vel j) fun z => P (fun l => la * ε * z l + la * ε * vel j l) i j * (e z i * e z j)]
      refine Finset.sum_congr rfl fun y _ => ?_
      have h2 := congrFun (congrFun (shift_periodic hN P hP y (vel j)) i) j
      have h3 : (fun l => (y l - vel i l) % (N l : ℤ)) = fun l => (y l - vel j l) % (N l : ℤ) := by rw [hv]
      change P (fun l => la * ε * y l) i j * (e (fun l => (y l - vel i l) % (N l : ℤ)) i *
        e (fun l => (y l - vel j l) % (N l : ℤ)) j) = _
      rw [h3]
      exact congrArg (· * _) h2.symm
    · simp only [hblock _ i j hv, zero_mul]
  rw [h1]
  exact Finset.sum_le_sum fun z hz => form_near _ _ (hδ z hz) _

/-! ## The derivative of the collision -/

/-- Near a compact set a smooth map is given by its derivative, up to a small Lipschitz remainder. -/
theorem near_linear {E F : Type} [NormedAddCommGroup E] [NormedSpace ℝ E] [FiniteDimensional ℝ E] [NormedAddCommGroup F]
    [NormedSpace ℝ F] {U K : Set E} (hU : IsOpen U) (hK : IsCompact K) (hKU : K ⊆ U) (φ : E → F) (hφ : ContDiffOn ℝ ∞ φ U) :
    ∃ r > 0, ∃ B ≥ 0, ∀ p ∈ K, ∀ ρ ≤ r, ∀ a b, ‖a - p‖ ≤ ρ → ‖b - p‖ ≤ ρ →
      ‖φ a - φ b - fderiv ℝ φ p (a - b)‖ ≤ B * ρ * ‖a - b‖ := by
  have : ProperSpace E := FiniteDimensional.proper_real E
  obtain ⟨r, hr, hrU⟩ := hK.exists_cthickening_subset_open hU hKU
  have hcomp : IsCompact (Metric.cthickening r K) := hK.cthickening
  have hd1 : ContDiffOn ℝ ∞ (fderiv ℝ φ) U := hφ.fderiv_of_isOpen hU (by simp)
  have hd2 : ContDiffOn ℝ ∞ (fderiv ℝ (fderiv ℝ φ)) U := hd1.fderiv_of_isOpen hU (by simp)
  obtain ⟨B, hB'⟩ := hcomp.bddAbove_image
    ((continuous_norm (E := E →L[ℝ] E →L[ℝ] F)).comp_continuousOn (hd2.continuousOn.mono hrU))
  have hB : ∀ x ∈ Metric.cthickening r K, ‖fderiv ℝ (fderiv ℝ φ) x‖ ≤ B := fun x hx => hB' ⟨x, hx, rfl⟩
  refine ⟨r, hr, |B|, abs_nonneg B, fun p hp ρ hρ a b ha hb => ?_⟩
  have hsub : ∀ z ∈ Metric.closedBall p ρ, z ∈ Metric.cthickening r K := fun z hz =>
    Metric.mem_cthickening_of_dist_le z p r K hp ((Metric.mem_closedBall.1 hz).trans hρ)
  have hρ0 : 0 ≤ ρ := (norm_nonneg _).trans ha
  have hat : ∀ z ∈ Metric.closedBall p ρ, ContDiffAt ℝ ∞ φ z := fun z hz => hφ.contDiffAt (hU.mem_nhds (hrU (hsub z hz)))
  have hat' : ∀ z ∈ Metric.closedBall p ρ, ContDiffAt ℝ ∞ (fderiv ℝ φ) z := fun z hz =>
    hd1.contDiffAt (hU.mem_nhds (hrU (hsub z hz)))
  have hpp : p ∈ Metric.closedBall p ρ := Metric.mem_closedBall_self hρ0
  have h1 : ∀ z ∈ Metric.closedBall p ρ, ‖fderiv ℝ φ z - fderiv ℝ φ p‖ ≤ |B| * ρ := by
    intro z hz
    refine ((convex_closedBall p ρ).norm_image_sub_le_of_norm_fderiv_le (C := |B|)
      (fun x hx => (hat' x hx).differentiableAt (by simp)) (fun x hx => (hB x (hsub x hx)).trans (le_abs_self B)) hpp hz).trans ?_
    exact mul_le_mul_of_nonneg_left (by rw [← dist_eq_norm]; exact Metric.mem_closedBall.1 hz) (abs_nonneg B)
  exact (convex_closedBall p ρ).norm_image_sub_le_of_norm_fderiv_le' (fun x hx => (hat x hx).differentiableAt (by simp)) h1
    (by rwa [Metric.mem_closedBall, dist_eq_norm]) (by rwa [Metric.mem_closedBall, dist_eq_norm])

/-- Bounds for a finite family of functions which vanish for `ε = 0`. -/
theorem first_bounds {ι X : Type} [Fintype ι] [NormedAddCommGroup X] [NormedSpace ℝ X] (g : ι → ℝ × X → ℝ)
    (hg : ∀ r, ContDiff ℝ ∞ (g r)) (h : ∀ r q, g r (0, q) = 0) {K : Set X} (hK : IsCompact K) :
    ∃ ε₀ > 0, ∃ C ≥ 0, ∀ ε, 0 ≤ ε → ε ≤ ε₀ → ∀ q ∈ K, ∀ r, |g r (ε, q)| ≤ C * ε := by
  obtain ⟨ε₀, h0, C, hC⟩ := flat_bounds (k := 1) (Q := Set.univ) (fun r => g ((Fintype.equivFin ι).symm r))
    (fun r => sm_of_contDiff (hg _)) (fun r => ⟨fun q _ => h _ q, trivial⟩) hK (Set.subset_univ _)
  refine ⟨ε₀, h0, |C|, abs_nonneg C, fun ε h1 h2 q hq r => ?_⟩
  have := hC ε h1 h2 q hq (Fintype.equivFin ι r)
  simp only [Equiv.symm_apply_apply, pow_one] at this
  exact this.trans (mul_le_mul_of_nonneg_right (le_abs_self C) h1)

end Pylbm.Stability
