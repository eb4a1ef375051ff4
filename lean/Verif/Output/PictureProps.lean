import Mathlib.Tactic.FieldSimp
import Mathlib.Tactic.LinearCombination
import Verif.Output.Picture
import Verif.Geometry.Labels
/-!
# C96: the pictures show the elements, the fluid, the links and the numbers of the velocities
-/

namespace Pylbm.Picture
open PictureSpec GeometrySpec Geometry Domain DomainSpec

/-! ### The patches -/

theorem plotEllipse_region (pos radius : ℝ × ℝ) (t : ℝ) :
    (plotEllipse pos radius t).region = {y | ∃ a b, a ^ 2 + b ^ 2 ≤ 1 ∧
      y = (pos.1 + Real.cos t * (radius.1 * a) - Real.sin t * (radius.2 * b),
        pos.2 + Real.sin t * (radius.1 * a) + Real.cos t * (radius.2 * b))} := by
  have e : t * 180 / Real.pi * Real.pi / 180 = t := by
    have := Real.pi_ne_zero
    field_simp
  have e1 : 2 * radius.1 / 2 = radius.1 := by ring
  have e2 : 2 * radius.2 / 2 = radius.2 := by ring
  unfold plotEllipse Patch.region
  simp only [e, e1, e2]

theorem plotEllipse_disc (pos : ℝ × ℝ) {r : ℝ} (hr : 0 < r) (t : ℝ) :
    (plotEllipse pos (r, r) t).region = disc pos r := by
  rw [plotEllipse_region]
  ext y
  simp only [Set.mem_ofPred_eq, disc]
  have hcs := Real.sin_sq_add_cos_sq t
  constructor
  · rintro ⟨a, b, hab, rfl⟩
    have : (pos.1 + Real.cos t * (r * a) - Real.sin t * (r * b) - pos.1) ^ 2 +
        (pos.2 + Real.sin t * (r * a) + Real.cos t * (r * b) - pos.2) ^ 2 =
        r ^ 2 * (a ^ 2 + b ^ 2) * (Real.sin t ^ 2 + Real.cos t ^ 2) := by ring
    rw [this, hcs, mul_one]
    nlinarith [sq_nonneg r]
  · intro h
    refine ⟨(Real.cos t * (y.1 - pos.1) + Real.sin t * (y.2 - pos.2)) / r,
      (-Real.sin t * (y.1 - pos.1) + Real.cos t * (y.2 - pos.2)) / r, ?_, ?_⟩
    · rw [div_pow, div_pow, ← add_div, div_le_one (by positivity)]
      have : (Real.cos t * (y.1 - pos.1) + Real.sin t * (y.2 - pos.2)) ^ 2 +
          (-Real.sin t * (y.1 - pos.1) + Real.cos t * (y.2 - pos.2)) ^ 2 =
          ((y.1 - pos.1) ^ 2 + (y.2 - pos.2) ^ 2) * (Real.sin t ^ 2 + Real.cos t ^ 2) := by ring
      rw [this, hcs, mul_one]
      exact h
    · rw [mul_div_cancel₀ _ hr.ne', mul_div_cancel₀ _ hr.ne']
      ext
      · simp only
        linear_combination (-(y.1 - pos.1)) * hcs
      · simp only
        linear_combination (-(y.2 - pos.2)) * hcs

theorem norm2_sq (v : ℝ × ℝ) : norm2 v ^ 2 = v.1 ^ 2 + v.2 ^ 2 := Real.sq_sqrt (by positivity)

theorem norm2_pos {v : ℝ × ℝ} (h : v.1 ^ 2 + v.2 ^ 2 ≠ 0) : 0 < norm2 v :=
  Real.sqrt_pos.2 (lt_of_le_of_ne (by positivity) (Ne.symm h))

/-- The angle is that of the axis, up to its sense. -/
theorem theta_dir (v : ℝ × ℝ) (h : v.1 ^ 2 + v.2 ^ 2 ≠ 0) :
    ∃ σ : ℝ, σ ^ 2 = 1 ∧ norm2 v * Real.cos (theta v) = σ * v.1 ∧ norm2 v * Real.sin (theta v) = σ * v.2 := by
  unfold theta
  split_ifs with h0
  · have e : (1 / 2 * Real.pi) = Real.pi / 2 := by ring
    rw [e, Real.cos_pi_div_two, Real.sin_pi_div_two]
    have hn : norm2 v = |v.2| := by unfold norm2; rw [h0]; simp [Real.sqrt_sq_eq_abs]
    rw [hn, h0]
    rcases le_total 0 v.2 with hv | hv
    · exact ⟨1, by ring, by ring, by rw [abs_of_nonneg hv]; ring⟩
    · exact ⟨-1, by ring, by ring, by rw [abs_of_nonpos hv]; ring⟩
  · rw [Real.cos_arctan, Real.sin_arctan]
    have h1 : (1 + (v.2 / v.1) ^ 2) = (v.1 ^ 2 + v.2 ^ 2) / v.1 ^ 2 := by field_simp
    have hs : Real.sqrt (1 + (v.2 / v.1) ^ 2) = norm2 v / |v.1| := by
      rw [h1, Real.sqrt_div (by positivity), Real.sqrt_sq_eq_abs]; rfl
    have hp := norm2_pos h
    have ha : |v.1| ≠ 0 := abs_ne_zero.2 h0
    rw [hs]
    have k1 : norm2 v * (1 / (norm2 v / |v.1|)) = |v.1| := by field_simp
    have k2 : norm2 v * (v.2 / v.1 / (norm2 v / |v.1|)) = |v.1| / v.1 * v.2 := by field_simp
    rw [k1, k2]
    rcases le_total 0 v.1 with hv | hv
    · refine ⟨1, by ring, by rw [abs_of_nonneg hv]; ring, ?_⟩
      rw [abs_of_nonneg hv, div_self h0]
    · refine ⟨-1, by ring, by rw [abs_of_nonpos hv]; ring, ?_⟩
      rw [abs_of_nonpos hv, neg_div, div_self h0]

/-- A vector orthogonal to `v` is a multiple of the quarter turn of `v`. -/
theorem orthogonal_multiple {v w : ℝ × ℝ} (h : v.1 ^ 2 + v.2 ^ 2 ≠ 0) (ho : v.1 * w.1 + v.2 * w.2 = 0) :
    ∃ μ : ℝ, w = (-(μ * v.2), μ * v.1) := by
  refine ⟨(v.1 * w.2 - v.2 * w.1) / (v.1 ^ 2 + v.2 ^ 2), ?_⟩
  ext
  · simp only
    field_simp
    linear_combination v.1 * ho
  · simp only
    field_simp
    linear_combination v.2 * ho

theorem ellipsePatch_long (e : Ellipse) (he : e.v1.1 * e.v2.2 - e.v1.2 * e.v2.1 ≠ 0)
    (ho : e.v1.1 * e.v2.1 + e.v1.2 * e.v2.2 = 0) (hlt : norm2 e.v2 < norm2 e.v1) :
    (ellipsePatch e).region = ellipse e.center e.v1 e.v2 := by
  have h1 : e.v1.1 ^ 2 + e.v1.2 ^ 2 ≠ 0 := by
    intro h
    have ha : e.v1.1 = 0 := by nlinarith [sq_nonneg e.v1.1, sq_nonneg e.v1.2]
    have hb : e.v1.2 = 0 := by nlinarith [sq_nonneg e.v1.1, sq_nonneg e.v1.2]
    apply he; rw [ha, hb]; ring
  have hp := norm2_pos h1
  obtain ⟨σ, hσ, hc, hs⟩ := theta_dir e.v1 h1
  obtain ⟨μ, hμ⟩ := orthogonal_multiple h1 ho
  -- the second radius
  have hr : norm2 e.v2 = |μ| * norm2 e.v1 := by
    have : norm2 e.v2 ^ 2 = (|μ| * norm2 e.v1) ^ 2 := by
      rw [mul_pow, sq_abs, norm2_sq, norm2_sq, hμ]; ring
    exact (pow_left_inj₀ (Real.sqrt_nonneg _) (by positivity) two_ne_zero).1 this
  obtain ⟨τ, hτ, hτμ⟩ : ∃ τ : ℝ, τ ^ 2 = 1 ∧ |μ| = τ * μ := by
    rcases le_total 0 μ with h | h
    · exact ⟨1, by ring, by rw [abs_of_nonneg h]; ring⟩
    · exact ⟨-1, by ring, by rw [abs_of_nonpos h]; ring⟩
  rw [ellipsePatch, if_pos hlt, plotEllipse_region]
  have ev1 : e.v2.1 = -(μ * e.v1.2) := by rw [hμ]
  have ev2 : e.v2.2 = μ * e.v1.1 := by rw [hμ]
  ext y
  simp only [Set.mem_ofPred_eq, ellipse, comb2]
  constructor
  · rintro ⟨a, b, hab, rfl⟩
    refine ⟨σ * a, σ * τ * b, ?_, ?_⟩
    · have : (σ * a) ^ 2 + (σ * τ * b) ^ 2 = σ ^ 2 * a ^ 2 + σ ^ 2 * τ ^ 2 * b ^ 2 := by ring
      rw [this, hσ, hτ]; linarith
    · rw [hr, hτμ]
      ext
      · simp only
        rw [ev1]
        linear_combination a * hc - τ * μ * b * hs
      · simp only
        rw [ev2]
        linear_combination a * hs + τ * μ * b * hc
  · rintro ⟨a, b, hab, rfl⟩
    refine ⟨σ * a, σ * τ * b, ?_, ?_⟩
    · have : (σ * a) ^ 2 + (σ * τ * b) ^ 2 = σ ^ 2 * a ^ 2 + σ ^ 2 * τ ^ 2 * b ^ 2 := by ring
      rw [this, hσ, hτ]; linarith
    · rw [hr, hτμ]
      ext
      · simp only
        rw [ev1]
        have h3 : σ * σ * a * e.v1.1 - τ * τ * (σ * σ) * μ * b * e.v1.2 = a * e.v1.1 - μ * b * e.v1.2 := by
          rw [← sq, ← sq, hσ, hτ]; ring
        linear_combination (-(σ * a)) * hc + τ * τ * σ * μ * b * hs - h3
      · simp only
        rw [ev2]
        have h3 : σ * σ * a * e.v1.2 + τ * τ * (σ * σ) * μ * b * e.v1.1 = a * e.v1.2 + μ * b * e.v1.1 := by
          rw [← sq, ← sq, hσ, hτ]; ring
        linear_combination (-(σ * a)) * hs - τ * τ * σ * μ * b * hc - h3

theorem ellipsePatch_short (e : Ellipse) (he : e.v1.1 * e.v2.2 - e.v1.2 * e.v2.1 ≠ 0)
    (hle : norm2 e.v1 ≤ norm2 e.v2) : (ellipsePatch e).region = disc e.center (norm2 e.v2) := by
  have h2 : e.v2.1 ^ 2 + e.v2.2 ^ 2 ≠ 0 := by
    intro h
    have ha : e.v2.1 = 0 := by nlinarith [sq_nonneg e.v2.1, sq_nonneg e.v2.2]
    have hb : e.v2.2 = 0 := by nlinarith [sq_nonneg e.v2.1, sq_nonneg e.v2.2]
    apply he; rw [ha, hb]; ring
  rw [ellipsePatch, if_neg (not_lt.2 hle), plotEllipse_disc _ (norm2_pos h2)]

theorem sign_ne_zero {x : ℝ} (h : x ≠ 0) : x.sign ≠ 0 := by
  rw [Ne, Real.sign_eq_zero_iff]; exact h

theorem triangle_region (q : Quad ℝ) (hq : q.v1.1 * q.v2.2 - q.v1.2 * q.v2.1 ≠ 0) :
    (trianglePatch q).region = triangle q.point q.v1 q.v2 := by
  ext y
  have ho : orient q.point (q.point.1 + q.v1.1, q.point.2 + q.v1.2) (q.point.1 + q.v2.1, q.point.2 + q.v2.2) ≠ 0 := by
    have : orient q.point (q.point.1 + q.v1.1, q.point.2 + q.v1.2) (q.point.1 + q.v2.1, q.point.2 + q.v2.2) =
        q.v1.1 * q.v2.2 - q.v1.2 * q.v2.1 := by unfold orient; ring
    rw [this]; exact hq
  have hs := sign_ne_zero ho
  have key : y ∈ corner3 q.point (q.point.1 + q.v1.1, q.point.2 + q.v1.2) (q.point.1 + q.v2.1, q.point.2 + q.v2.2) ↔
      y ∈ triangle q.point q.v1 q.v2 := by
    simp only [corner3, triangle, comb2, Set.mem_ofPred_eq, add_sub_cancel_left]
  rw [← key]
  simp only [trianglePatch, Patch.region, winding, Set.mem_ofPred_eq, add_zero]
  split_ifs with h
  · exact ⟨fun _ => h, fun _ => hs⟩
  · simp [h]

theorem parallelogram_region (q : Quad ℝ) (hq : q.v1.1 * q.v2.2 - q.v1.2 * q.v2.1 ≠ 0) :
    (parallelogramPatch q).region = parallelogram q.point q.v1 q.v2 := by
  set A := q.point with hA
  set B : ℝ × ℝ := (A.1 + q.v1.1, A.2 + q.v1.2) with hB
  set C : ℝ × ℝ := (B.1 + q.v2.1, B.2 + q.v2.2) with hC
  set D : ℝ × ℝ := (A.1 + q.v2.1, A.2 + q.v2.2) with hD
  have o1 : orient A B C = q.v1.1 * q.v2.2 - q.v1.2 * q.v2.1 := by unfold orient; rw [hC, hB]; ring
  have o2 : orient A C D = q.v1.1 * q.v2.2 - q.v1.2 * q.v2.1 := by unfold orient; rw [hD, hC, hB]; ring
  have hs := sign_ne_zero hq
  have key : ∀ y, y ∈ parallelogram A q.v1 q.v2 ↔ y ∈ corner3 A B C ∨ y ∈ corner3 A C D := by
    intro y
    simp only [corner3, parallelogram, comb2, Set.mem_ofPred_eq]
    constructor
    · rintro ⟨a, b, ⟨a0, a1⟩, ⟨b0, b1⟩, rfl⟩
      rcases le_total b a with h | h
      · left
        refine ⟨a - b, b, by linarith, b0, by linarith, ?_⟩
        rw [hC, hB]; ext <;> simp only <;> ring
      · right
        refine ⟨a, b - a, a0, by linarith, by linarith, ?_⟩
        rw [hD, hC, hB]; ext <;> simp only <;> ring
    · rintro (⟨s, t, s0, t0, st, rfl⟩ | ⟨s, t, s0, t0, st, rfl⟩)
      · refine ⟨s + t, t, ⟨by linarith, st⟩, ⟨t0, by linarith⟩, ?_⟩
        rw [hC, hB]; ext <;> simp only <;> ring
      · refine ⟨s, s + t, ⟨s0, by linarith⟩, ⟨by linarith, st⟩, ?_⟩
        rw [hD, hC, hB]; ext <;> simp only <;> ring
  ext y
  rw [key]
  have hw : y ∈ (parallelogramPatch q).region ↔ winding y A [B, C, D] ≠ 0 := by rfl
  rw [hw]
  simp only [winding, o1, o2, add_zero]
  by_cases h1 : y ∈ corner3 A B C <;> by_cases h2 : y ∈ corner3 A C D <;> simp [h1, h2, hs]

/-- The box is drawn as a parallelogram. -/
theorem box_region {lo hi : ℝ × ℝ} (h1 : lo.1 < hi.1) (h2 : lo.2 < hi.2) :
    (Patch.polygon [(lo.1, lo.2), (lo.1, hi.2), (hi.1, hi.2), (hi.1, lo.2)]).region = {y | InBox (lo, hi) y} := by
  have hp := parallelogram_region ⟨lo, (0, hi.2 - lo.2), (hi.1 - lo.1, 0)⟩ (by
    simp only; intro h; have : (hi.2 - lo.2) * (hi.1 - lo.1) = 0 := by linarith
    rcases mul_eq_zero.1 this with h | h <;> linarith)
  have e : parallelogramPatch ⟨lo, (0, hi.2 - lo.2), (hi.1 - lo.1, 0)⟩ =
      Patch.polygon [(lo.1, lo.2), (lo.1, hi.2), (hi.1, hi.2), (hi.1, lo.2)] := by
    simp [parallelogramPatch]
  rw [← e, hp]
  ext y
  simp only [parallelogram, comb2, InBox, Set.mem_ofPred_eq]
  constructor
  · rintro ⟨a, b, ⟨a0, a1⟩, ⟨b0, b1⟩, rfl⟩
    refine ⟨?_, ?_, ?_, ?_⟩ <;> simp only <;> nlinarith
  · rintro ⟨k1, k2, k3, k4⟩
    have p1 : 0 < hi.1 - lo.1 := by linarith
    have p2 : 0 < hi.2 - lo.2 := by linarith
    refine ⟨(y.2 - lo.2) / (hi.2 - lo.2), (y.1 - lo.1) / (hi.1 - lo.1), ⟨?_, ?_⟩, ⟨?_, ?_⟩, ?_⟩
    · exact div_nonneg (by linarith) p2.le
    · rw [div_le_one p2]; linarith
    · exact div_nonneg (by linarith) p1.le
    · rw [div_le_one p1]; linarith
    · ext
      · simp only; field_simp; ring
      · simp only; field_simp; ring

/-- The shapes which are drawn as they are: all of them, but the ellipses whose second axis is longer than the first. -/
def Faithful : Shape → Prop
  | .ellipse e _ => e.v2.1 ^ 2 + e.v2.2 ^ 2 ≤ e.v1.1 ^ 2 + e.v1.2 ^ 2
  | _ => True

/-- **C96, shapes.**  The patch which `visualize` draws covers exactly the points of the shape. -/
theorem C96_shapes (s : Shape) (hs : s.Valid) (hf : Faithful s) : (shapePatch s).region = s.points := by
  cases s with
  | triangle q l0 l1 l2 => exact triangle_region q hs
  | parallelogram q l0 l1 l2 l3 => exact parallelogram_region q hs
  | circle c l => exact plotEllipse_disc _ hs 0
  | ellipse e l =>
    have hn : norm2 e.v2 ≤ norm2 e.v1 := Real.sqrt_le_sqrt hf
    rcases lt_or_eq_of_le hn with h | h
    · exact ellipsePatch_long e hs.1 hs.2 h
    · change (ellipsePatch e).region = _
      rw [ellipsePatch_short e hs.1 h.ge]
      -- a circle
      have h2 : e.v2.1 ^ 2 + e.v2.2 ^ 2 = e.v1.1 ^ 2 + e.v1.2 ^ 2 := by rw [← norm2_sq, ← norm2_sq, h]
      have hp : 0 < e.v1.1 ^ 2 + e.v1.2 ^ 2 := by
        refine lt_of_le_of_ne (by positivity) (Ne.symm ?_)
        intro h
        have ha : e.v1.1 = 0 := by nlinarith [sq_nonneg e.v1.1, sq_nonneg e.v1.2]
        have hb : e.v1.2 = 0 := by nlinarith [sq_nonneg e.v1.1, sq_nonneg e.v1.2]
        apply hs.1; rw [ha, hb]; ring
      ext y
      simp only [disc, ellipse, Shape.points, comb2, Set.mem_ofPred_eq, norm2_sq]
      constructor
      · intro hy
        refine ⟨((y.1 - e.center.1) * e.v1.1 + (y.2 - e.center.2) * e.v1.2) / (e.v1.1 ^ 2 + e.v1.2 ^ 2),
          ((y.1 - e.center.1) * e.v2.1 + (y.2 - e.center.2) * e.v2.2) / (e.v1.1 ^ 2 + e.v1.2 ^ 2), ?_, ?_⟩
        · obtain ⟨μ, hμ⟩ := orthogonal_multiple hp.ne' hs.2
          have hμ2 : μ ^ 2 = 1 := by
            rw [hμ] at h2
            simp only at h2
            have : (μ ^ 2 - 1) * (e.v1.1 ^ 2 + e.v1.2 ^ 2) = 0 := by linarith
            rcases mul_eq_zero.1 this with h | h
            · linarith
            · exact absurd h hp.ne'
          rw [div_pow, div_pow, ← add_div, div_le_one (by positivity)]
          have : ((y.1 - e.center.1) * e.v1.1 + (y.2 - e.center.2) * e.v1.2) ^ 2 +
              ((y.1 - e.center.1) * e.v2.1 + (y.2 - e.center.2) * e.v2.2) ^ 2 =
              ((y.1 - e.center.1) ^ 2 + (y.2 - e.center.2) ^ 2) * (e.v1.1 ^ 2 + e.v1.2 ^ 2) := by
            rw [hμ]
            simp only
            linear_combination ((y.1 - e.center.1) * e.v1.2 - (y.2 - e.center.2) * e.v1.1) ^ 2 * hμ2
          rw [this, sq (e.v1.1 ^ 2 + e.v1.2 ^ 2)]
          exact mul_le_mul_of_nonneg_right (by rw [← h2]; exact hy) hp.le
        · obtain ⟨μ, hμ⟩ := orthogonal_multiple hp.ne' hs.2
          have hμ2 : μ ^ 2 = 1 := by
            rw [hμ] at h2
            simp only at h2
            have : (μ ^ 2 - 1) * (e.v1.1 ^ 2 + e.v1.2 ^ 2) = 0 := by linarith
            rcases mul_eq_zero.1 this with h | h
            · linarith
            · exact absurd h hp.ne'
          have hne := hp.ne'
          rw [hμ]
          ext
          · simp only
            field_simp
            linear_combination e.v1.2 * ((y.2 - e.center.2) * e.v1.1 - (y.1 - e.center.1) * e.v1.2) * hμ2
          · simp only
            field_simp
            linear_combination e.v1.1 * ((y.1 - e.center.1) * e.v1.2 - (y.2 - e.center.2) * e.v1.1) * hμ2
      · rintro ⟨a, b, hab, rfl⟩
        have : (e.center.1 + a * e.v1.1 + b * e.v2.1 - e.center.1) ^ 2 +
            (e.center.2 + a * e.v1.2 + b * e.v2.2 - e.center.2) ^ 2 =
            (a ^ 2 + b ^ 2) * (e.v2.1 ^ 2 + e.v2.2 ^ 2) := by
          linear_combination (-(a ^ 2)) * h2 + 2 * a * b * hs.2
        rw [this]
        have : 0 ≤ e.v2.1 ^ 2 + e.v2.2 ^ 2 := by positivity
        nlinarith

/-- A triangle, and an ellipse whose main axis comes first. -/
example : (Shape.triangle ⟨(0, 0), (1, 0), (0, 1)⟩ 0 1 2).Valid ∧ Faithful (.triangle ⟨(0, 0), (1, 0), (0, 1)⟩ 0 1 2) ∧
    (Shape.ellipse ⟨(1, 1), (3, 3), (-1, 1)⟩ 0).Valid ∧ Faithful (.ellipse ⟨(1, 1), (3, 3), (-1, 1)⟩ 0) := by
  simp [Shape.Valid, Faithful]
  norm_num

/-- **C96, ellipses.**  An ellipse whose second axis is the longer one is drawn as the disc of radius `|v2|`: the
picture covers points which are not in the ellipse. -/
theorem C96_ellipse_negation (e : Ellipse) (l : Int) (he : (Shape.ellipse e l).Valid)
    (hlt : e.v1.1 ^ 2 + e.v1.2 ^ 2 < e.v2.1 ^ 2 + e.v2.2 ^ 2) :
    (shapePatch (.ellipse e l)).region = disc e.center (norm2 e.v2) ∧
    ∃ y ∈ (shapePatch (.ellipse e l)).region, y ∉ (Shape.ellipse e l).points := by
  have hr : (shapePatch (.ellipse e l)).region = disc e.center (norm2 e.v2) :=
    ellipsePatch_short e he.1 (Real.sqrt_le_sqrt hlt.le)
  refine ⟨hr, ?_⟩
  have hp : 0 < e.v1.1 ^ 2 + e.v1.2 ^ 2 := by
    refine lt_of_le_of_ne (by positivity) (Ne.symm ?_)
    intro h
    have ha : e.v1.1 = 0 := by nlinarith [sq_nonneg e.v1.1, sq_nonneg e.v1.2]
    have hb : e.v1.2 = 0 := by nlinarith [sq_nonneg e.v1.1, sq_nonneg e.v1.2]
    apply he.1; rw [ha, hb]; ring
  have hn1 : 0 < norm2 e.v1 := norm2_pos hp.ne'
  have hlt' : norm2 e.v1 < norm2 e.v2 := Real.sqrt_lt_sqrt hp.le hlt
  refine ⟨(e.center.1 + norm2 e.v2 / norm2 e.v1 * e.v1.1, e.center.2 + norm2 e.v2 / norm2 e.v1 * e.v1.2), ?_, ?_⟩
  · rw [hr]
    simp only [disc, Set.mem_ofPred_eq]
    have : (e.center.1 + norm2 e.v2 / norm2 e.v1 * e.v1.1 - e.center.1) ^ 2 +
        (e.center.2 + norm2 e.v2 / norm2 e.v1 * e.v1.2 - e.center.2) ^ 2 =
        (norm2 e.v2) ^ 2 * ((e.v1.1 ^ 2 + e.v1.2 ^ 2) / norm2 e.v1 ^ 2) := by field_simp; ring
    rw [this, norm2_sq e.v1, div_self hp.ne', mul_one]
  · simp only [Shape.points, ellipse, comb2, Set.mem_ofPred_eq, not_exists, not_and, Prod.mk.injEq]
    intro a b hab e1 e2
    have ha : a = norm2 e.v2 / norm2 e.v1 := by
      have : (a - norm2 e.v2 / norm2 e.v1) * (e.v1.1 * e.v2.2 - e.v1.2 * e.v2.1) = 0 := by
        linear_combination e.v2.1 * e2 - e.v2.2 * e1
      rcases mul_eq_zero.1 this with h | h
      · linarith
      · exact absurd h he.1
    have : 1 < a := by rw [ha, one_lt_div hn1]; exact hlt'
    nlinarith [sq_nonneg b]

example : (Shape.ellipse ⟨(0, 0), (1, 0), (0, 2)⟩ 0).Valid ∧ (1 : ℝ) ^ 2 + 0 ^ 2 < 0 ^ 2 + 2 ^ 2 := by
  simp [Shape.Valid]

/-! ### The colours -/

/-- The last shape which contains the point is solid. -/
def InSolid (shapes : List (Shape × Bool)) (y : ℝ × ℝ) : Prop :=
  ∃ pre s post, shapes = pre ++ (s, false) :: post ∧ y ∈ s.points ∧ ∀ p ∈ post, y ∉ p.1.points

/-- **C96, colours of the plane.**  In the pictures of a geometry and of a domain, with any opacity of the fluid, a
point of the box is white exactly when the last shape which contains it is solid; without transparency the other points
have the colour of the fluid. -/
theorem C96_white {lo hi : ℝ × ℝ} (h1 : lo.1 < hi.1) (h2 : lo.2 < hi.2) {f alpha : ℝ} (hf : f < 1) (ha : 0 < alpha)
    (ha1 : alpha ≤ 1) (shapes : List (Shape × Bool)) (hs : ∀ s ∈ shapes, s.1.Valid ∧ Faithful s.1) (y : ℝ × ℝ)
    (hy : InBox (lo, hi) y) :
    (paint (planeCanvas lo hi f alpha shapes) 1 y = 1 ↔ InSolid shapes y) ∧
    paint (planeCanvas lo hi f alpha shapes) 1 y ≤ 1 ∧
    (alpha = 1 → ¬ InSolid shapes y → paint (planeCanvas lo hi f alpha shapes) 1 y = f) := by
  classical
  have hb : y ∈ (Patch.polygon [(lo.1, lo.2), (lo.1, hi.2), (hi.1, hi.2), (hi.1, lo.2)]).region := by
    rw [box_region h1 h2]; exact hy
  unfold paint planeCanvas
  rw [List.foldl_cons, if_pos hb]
  simp only
  induction shapes using List.reverseRecOn with
  | nil =>
    simp only [List.map_nil, List.foldl_nil]
    refine ⟨⟨fun h => ?_, ?_⟩, ?_, ?_⟩
    · nlinarith
    · rintro ⟨pre, s, post, h, -⟩; simp at h
    · nlinarith
    · rintro rfl -; ring
  | append_singleton l s ih =>
    obtain ⟨i1, i2, i3⟩ := ih fun s' h' => hs s' (by simp [h'])
    have hreg := C96_shapes s.1 (hs s (by simp)).1 (hs s (by simp)).2
    rw [List.map_append, List.foldl_append]
    simp only [List.map_cons, List.map_nil, List.foldl_cons, List.foldl_nil, hreg]
    by_cases hi : y ∈ s.1.points
    · rw [if_pos hi]
      have hsol : InSolid (l ++ [s]) y ↔ s.2 = false := by
        constructor
        · rintro ⟨pre, s', post, h, h', h''⟩
          rcases List.eq_nil_or_concat post with rfl | ⟨post', p, rfl⟩
          · have := List.append_inj_right' h (by simp)
            simp only [List.cons.injEq, and_true] at this
            rw [this]
          · have e : l ++ [s] = (pre ++ (s', false) :: post') ++ [p] := by rw [h]; simp
            have := List.append_inj_right' e (by simp)
            simp only [List.cons.injEq, and_true] at this
            exact absurd hi (this ▸ h'' p (by simp))
        · intro h
          exact ⟨l, s.1, [], by rw [← h], hi, by simp⟩
      rw [hsol]
      cases hb : s.2
      · simp
      · simp only [if_true, Bool.true_eq_false, iff_false, not_false_iff, true_implies]
        set v := List.foldl (fun v l => if y ∈ l.patch.region then l.alpha * l.colour + (1 - l.alpha) * v else v)
          (alpha * f + (1 - alpha) * 1) (l.map fun s => (⟨shapePatch s.1, if s.2 then f else 1,
            if s.2 then alpha else 1⟩ : Layer)) with hv
        refine ⟨fun h => ?_, ?_, ?_⟩
        · nlinarith
        · nlinarith
        · rintro rfl; ring
    · rw [if_neg hi]
      have hsol : InSolid (l ++ [s]) y ↔ InSolid l y := by
        constructor
        · rintro ⟨pre, s', post, h, h', h''⟩
          rcases List.eq_nil_or_concat post with rfl | ⟨post', p, rfl⟩
          · have := List.append_inj_right' h (by simp)
            simp only [List.cons.injEq, and_true] at this
            rw [this] at hi
            exact absurd h' hi
          · have e : l ++ [s] = (pre ++ (s', false) :: post') ++ [p] := by rw [h]; simp
            have := List.append_inj_left' e (by simp)
            exact ⟨pre, s', post', this, h', fun p' hp' => h'' p' (by simp [hp'])⟩
        · rintro ⟨pre, s', post, h, h', h''⟩
          refine ⟨pre, s', post ++ [s], by rw [h]; simp, h', ?_⟩
          intro p hp
          rcases List.mem_append.1 hp with hp | hp
          · exact h'' p hp
          · rw [List.mem_singleton.1 hp]; exact hi
      rw [hsol]
      exact ⟨i1, i2, i3⟩

/-- A solid disc with a fluid hole in the square `[0, 4] × [0, 4]`: white in the ring, grey in the hole. -/
example : (∀ s ∈ [(Shape.circle ⟨(2, 2), 2⟩ 0, false), (Shape.circle ⟨(2, 2), 1⟩ 0, true)], s.1.Valid ∧ Faithful s.1) ∧
    InBox ((0, 0), (4, 4)) ((2, 7 / 2) : ℝ × ℝ) ∧
    InSolid [(Shape.circle ⟨(2, 2), 2⟩ 0, false), (Shape.circle ⟨(2, 2), 1⟩ 0, true)] (2, 7 / 2) ∧
    ¬ InSolid [(Shape.circle ⟨(2, 2), 2⟩ 0, false), (Shape.circle ⟨(2, 2), 1⟩ 0, true)] (2, 2) := by
  refine ⟨?_, ?_, ⟨[], _, _, rfl, ?_, ?_⟩, ?_⟩
  · intro s hs
    simp only [List.mem_cons, List.not_mem_nil, or_false] at hs
    rcases hs with rfl | rfl <;> simp [Shape.Valid, Faithful]
  · norm_num [InBox]
  · norm_num [Shape.points, disc]
  · norm_num [Shape.points, disc]
  · rintro ⟨pre, s, post, h, -, h2⟩
    rcases pre with _ | ⟨p, _ | ⟨q, pre⟩⟩
    · simp only [List.nil_append, List.cons.injEq] at h
      have := h2 (Shape.circle ⟨(2, 2), 1⟩ 0, true) (by rw [← h.2]; simp)
      norm_num [Shape.points, disc] at this
    · simp at h
    · simp at h

/-- **C96, picture and cells.**  In the picture of a domain the centre of a cell is white exactly when the cell is solid:
the picture and the simulation agree. -/
theorem C96_cells {nv : Nat} (g : Grid ℝ 2 nv) (hg : g.WF) (hN : ∀ j, g.r1 j ≤ g.N j) (shapes : List (Shape × Bool))
    (hs : ∀ s ∈ shapes, s.1.Valid ∧ Faithful s.1) (st : State ℝ 2 nv)
    (h : build g (shapes.map fun s => s.1.elem s.2) = some st) (c : Cell 2) (hc : g.Interior c)
    {f alpha : ℝ} (hf : f < 1) (ha : 0 < alpha) (ha1 : alpha ≤ 1) :
    paint (planeCanvas (g.lo 0, g.lo 1) (g.lo 0 + g.dx * g.N 0, g.lo 1 + g.dx * g.N 1) f alpha shapes) 1
      (g.cellCentre c 0, g.cellCentre c 1) = 1 ↔ st.ioo c = -1 := by
  have hdx := hg.dx
  have hb : ∀ j, g.lo j ≤ g.cellCentre c j ∧ g.cellCentre c j ≤ g.lo j + g.dx * g.N j ∧ 0 < (g.N j : ℝ) := by
    intro j
    have := hc j
    have hr := hg.region j
    have hn := hN j
    unfold Grid.n at this
    have e1 : (0 : Int) ≤ (g.r0 j : Int) + c j - g.h j := by omega
    have e2 : (g.r0 j : Int) + c j - g.h j + 1 ≤ g.N j := by omega
    have e1' : (0 : ℝ) ≤ (((g.r0 j : Int) + c j - g.h j : Int) : ℝ) := by exact_mod_cast e1
    have e2' : (((g.r0 j : Int) + c j - g.h j : Int) : ℝ) + 1 ≤ g.N j := by exact_mod_cast e2
    unfold Grid.cellCentre centre
    refine ⟨?_, ?_, by linarith⟩
    · have : 0 ≤ g.dx * ((((g.r0 j : Int) + c j - g.h j : Int) : ℝ) + 1 / 2) := by positivity
      linarith
    · have := mul_le_mul_of_nonneg_left (show (((g.r0 j : Int) + c j - g.h j : Int) : ℝ) + 1 / 2 ≤ g.N j by linarith) hdx.le
      linarith
  rw [(C96_white (lo := (g.lo 0, g.lo 1)) (hi := (g.lo 0 + g.dx * g.N 0, g.lo 1 + g.dx * g.N 1))
    (by have := mul_pos hdx (hb 0).2.2; simp only; linarith) (by have := mul_pos hdx (hb 1).2.2; simp only; linarith)
    hf ha ha1 shapes hs _ ⟨(hb 0).1, (hb 0).2.1, (hb 1).1, (hb 1).2.1⟩).1]
  exact (C21_plane g hg shapes (fun s h' => (hs s h').1) st h c hc).symm

/-- The square of 4 × 4 cells with a solid disc. -/
example : squareGrid.WF ∧ (∀ j, squareGrid.r1 j ≤ squareGrid.N j) ∧ squareGrid.Interior ![1, 2] ∧
    ∃ st, build squareGrid ([(Shape.circle ⟨(3 / 2, 3 / 2), 3 / 4⟩ 3, false)].map fun s => s.1.elem s.2) = some st := by
  refine ⟨⟨one_pos, fun _ => by simp [squareGrid], ?_⟩, fun _ => by simp [squareGrid], ?_, ?_⟩
  · have : ∀ (k : Fin 5) (j : Fin 2), |(![![0, 0], ![1, 0], ![0, 1], ![-1, 0], ![0, -1]] : Fin 5 → Fin 2 → Int) k j| ≤ 1 := by
      decide
    intro k j
    simpa [squareGrid] using this k j
  · intro j
    simp only [Grid.n, squareGrid]
    revert j
    decide
  · obtain ⟨st, h, -⟩ := squareGrid_link
    exact ⟨st, h⟩

/-! ### The links -/

/-- **C96, markers.**  The round markers are the centres of the fluid cells of the box, the square ones the centres of
the other cells, solid ones and cells of the halo. -/
theorem C96_markers {dim nv : Nat} (g : Grid ℝ dim nv) (hg : g.WF) (elems : List (Elem ℝ dim))
    (he : ∀ e ∈ elems, e.Sound) (st : State ℝ dim nv) (h : build g elems = some st) (x : Fin dim → ℝ) :
    (x ∈ inOrOutPoints g st 999 ↔
      ∃ c, g.Interior c ∧ material (regions elems) (g.cellCentre c) = true ∧ x = g.cellCentre c) ∧
    (x ∈ inOrOutPoints g st (-1) ↔ ∃ c : Cell dim, (∀ j, 0 ≤ c j ∧ c j < g.total j) ∧
      ¬ (g.Interior c ∧ material (regions elems) (g.cellCentre c) = true) ∧ x = g.cellCentre c) := by
  have hp : ∀ c : Cell dim, (∀ j, 0 ≤ c j ∧ c j < g.total j) → g.point c = g.cellCentre c :=
    fun c hc => funext fun j => coord_eq hg j (hc j).1 (hc j).2
  have hi := C21_fluid_map g hg elems he st h
  simp only [inOrOutPoints, Set.mem_ofPred_eq]
  constructor
  · constructor
    · rintro ⟨c, hc, hv, rfl⟩
      rw [hi c] at hv
      by_cases hq : g.Interior c ∧ material (regions elems) (g.cellCentre c) = true
      · exact ⟨c, hq.1, hq.2, hp c hc⟩
      · rw [if_neg hq] at hv; omega
    · rintro ⟨c, hc, hm, rfl⟩
      have hr : ∀ j, 0 ≤ c j ∧ c j < g.total j := fun j => Grid.interior_range hc j
      exact ⟨c, hr, by rw [hi c, if_pos ⟨hc, hm⟩], (hp c hr).symm⟩
  · constructor
    · rintro ⟨c, hc, hv, rfl⟩
      rw [hi c] at hv
      by_cases hq : g.Interior c ∧ material (regions elems) (g.cellCentre c) = true
      · rw [if_pos hq] at hv; omega
      · exact ⟨c, hc, hq, hp c hc⟩
    · rintro ⟨c, hc, hm, rfl⟩
      exact ⟨c, hc, by rw [hi c, if_neg hm], (hp c hc).symm⟩

/-- **C96, links of the plane.**  Each segment drawn by `view_distance` starts at the centre of a fluid cell and ends on
a wall: on a face of the box, or on the boundary of one of the shapes; the label of the wall is one of those asked for,
and `view_normal` draws at this point a segment of one space step (when the label is given, only the walls with this
label are shown). -/
theorem C96_links {nv : Nat} (g : Grid ℝ 2 nv) (hg : g.WF) (shapes : List (Shape × Bool))
    (hs : ∀ s ∈ shapes, s.1.Valid) (st : State ℝ 2 nv)
    (h : build g (shapes.map fun s => s.1.elem s.2) = some st) (label : Option (List Int)) (k : Fin nv)
    (s : (Fin 2 → ℝ) × (Fin 2 → ℝ)) (hsg : s ∈ distanceSegments g st label k) :
    ∃ c, g.Interior c ∧ st.ioo c = 999 ∧ st.ioo (g.target k c) = -1 ∧ s.1 = g.cellCentre c ∧
      (∃ t, 0 < t ∧ t ≤ 1 ∧ ∀ j, s.2 j = g.cellCentre c j + t * (g.dx * (g.vel k j : ℝ))) ∧
      (∃ n : Fin 2 → ℝ, (s.2, fun j => s.2 j + g.dx * n j) ∈ normalSegments g st label k ∧ n 0 ^ 2 + n 1 ^ 2 = 1 ∧
        0 ≤ n 0 * (g.vel k 0 : ℝ) + n 1 * (g.vel k 1 : ℝ)) ∧
      ∃ l, (∀ ls, label = some ls → l ∈ ls) ∧
        ((∃ f, g.Active f ∧ l = g.label f.ax f.upper ∧
          s.2 f.ax = g.lo f.ax + g.dx * if f.upper then (g.r1 f.ax : ℝ) else (g.r0 f.ax : ℝ)) ∨
        ∃ w ∈ shapes, ∃ τ, w.1.WallAt (s.2 0, s.2 1) l τ) := by
  obtain ⟨c, ⟨hr, hd, hl⟩, rfl⟩ := hsg
  have hsnd : ∀ e ∈ shapes.map fun s => s.1.elem s.2, e.Sound := by
    intro e he
    obtain ⟨s, hs', rfl⟩ := List.mem_map.1 he
    exact Shape.elem_sound s.1 (hs s hs') s.2
  have hne : (st.link k c).dist ≠ 999 := by intro hh; rw [hh] at hd; norm_num at hd
  have hfl := C21_fluid_map g hg _ hsnd st h c
  have hc : g.Interior c := by
    by_contra hc
    rw [if_neg (fun hh => hc hh.1)] at hfl
    obtain ⟨s0, s1, h0, h1, rfl⟩ := build_some h
    have hinv := linkInv_fold hg _ hsnd s0 s1 h0 h1
    obtain ⟨c1, c2, -⟩ := C22_clean s1 hinv.pos
    rw [c1] at hfl
    rw [c2 k c hfl] at hne
    exact hne rfl
  obtain ⟨e1, e2, e3, e4, -⟩ := (C23_flagged_links g hg _ hsnd st h c hc k).1 hne
  have hp : g.point c = g.cellCentre c := point_eq hg hc
  have hx := C65_plane g hg shapes hs st h c k hne
  simp only at hx
  have hdx := hg.dx
  refine ⟨c, hc, e1, e2, hp, ⟨(st.link k c).dist, e3, e4, ?_⟩, ⟨(st.link k c).normal, ⟨c, ⟨hr, hd, hl⟩, rfl⟩, ?_⟩,
    (st.link k c).flag, hl, ?_⟩
  · intro j
    simp only [hp]; ring
  · rcases hx with ⟨f, hf, -, hn⟩ | ⟨w, -, -, -, τ, -, n1, -, n2⟩
    · obtain ⟨ax, up⟩ := f
      obtain ⟨-, ⟨t0, t1, t2⟩, -⟩ := hf
      rw [hn]
      simp only [outward]
      have hin := hc ax
      have sgn : 0 ≤ (if up = true then (1 : ℝ) else -1) * (g.vel k ax : ℝ) := by
        unfold facePos Grid.inner at t2
        simp only at t2
        cases up
        · simp only [Bool.false_eq_true, if_false] at t2 ⊢
          have q : (0 : ℝ) ≤ ((c ax - g.h ax : Int) : ℝ) := by exact_mod_cast (by omega : (0 : Int) ≤ c ax - g.h ax)
          have : (st.link k c).dist * (g.vel k ax : ℝ) < 0 := by linarith
          have := neg_of_mul_neg_right this t0.le
          linarith
        · simp only [if_true] at t2 ⊢
          have q : ((c ax - g.h ax : Int) : ℝ) + 1 ≤ (g.n ax : ℝ) := by
            exact_mod_cast (by omega : (c ax - g.h ax : Int) + 1 ≤ g.n ax)
          have : 0 < (st.link k c).dist * (g.vel k ax : ℝ) := by linarith
          have := pos_of_mul_pos_right this t0.le
          linarith
      fin_cases ax
      · cases up <;> simpa using sgn
      · cases up <;> simpa using sgn
    · refine ⟨n1, ?_⟩
      have : (st.link k c).normal 0 * (g.dx * (g.vel k 0 : ℝ)) + (st.link k c).normal 1 * (g.dx * (g.vel k 1 : ℝ)) =
        g.dx * ((st.link k c).normal 0 * (g.vel k 0 : ℝ) + (st.link k c).normal 1 * (g.vel k 1 : ℝ)) := by ring
      rw [this] at n2
      exact nonneg_of_mul_nonneg_right n2 hdx
  · rcases hx with ⟨f, hf, hlab, -⟩ | ⟨w, hw, -, -, τ, hwall, -⟩
    · left
      refine ⟨f, hf.1, hlab, ?_⟩
      obtain ⟨-, ⟨t0, t1, t2⟩, -⟩ := hf
      simp only [hp]
      unfold Grid.cellCentre centre
      have hrg := hg.region f.ax
      unfold facePos Grid.inner Grid.n at t2
      rw [Nat.cast_sub hrg] at t2
      push_cast at t2 ⊢
      by_cases hu : f.upper = true
      · rw [if_pos hu] at t2 ⊢
        linear_combination g.dx * t2
      · rw [if_neg hu] at t2 ⊢
        linear_combination g.dx * t2
    · right
      refine ⟨w, hw, τ, ?_⟩
      simp only [hp]
      convert hwall using 2 <;> ring

/-- A segment drawn in the square with a solid disc. -/
example : ∃ st, build squareGrid ([(Shape.circle ⟨(3 / 2, 3 / 2), 3 / 4⟩ 3, false)].map fun s => s.1.elem s.2) = some st ∧
    (distanceSegments squareGrid st none 1).Nonempty := by
  obtain ⟨st, h, hl⟩ := squareGrid_link
  refine ⟨st, h, _, ![1, 2], ⟨?_, ?_, by simp⟩, rfl⟩
  · simp only [Grid.total, Grid.n, squareGrid]
    decide
  · have hwf : squareGrid.WF := by
      refine ⟨one_pos, fun _ => by simp [squareGrid], ?_⟩
      have : ∀ (k : Fin 5) (j : Fin 2), |(![![0, 0], ![1, 0], ![0, 1], ![-1, 0], ![0, -1]] : Fin 5 → Fin 2 → Int) k j| ≤ 1 := by
        decide
      intro k j
      simpa [squareGrid] using this k j
    refine ((C23_flagged_links squareGrid hwf _ ?_ st h ![1, 2] ?_ 1).1 hl).2.2.2.1
    · intro e he
      obtain ⟨s, hs', rfl⟩ := List.mem_map.1 he
      rw [List.mem_singleton] at hs'
      subst hs'
      refine Shape.elem_sound _ ?_ _
      show (0 : ℝ) < 3 / 4
      norm_num
    · intro j
      simp only [Grid.n, squareGrid]
      revert j
      decide

/-- **C96, links.**  Conversely every link with a distance is drawn, in any dimension and for any elements, and only
those whose label is asked for. -/
theorem C96_links_drawn {dim nv : Nat} (g : Grid ℝ dim nv) (hg : g.WF) (elems : List (Elem ℝ dim))
    (he : ∀ e ∈ elems, e.Sound) (st : State ℝ dim nv) (h : build g elems = some st) (label : Option (List Int))
    (k : Fin nv) (c : Cell dim) (hc : g.Interior c) :
    c ∈ shownLinks g st label k ↔
      (st.link k c).dist ≠ 999 ∧ ∀ l, label = some l → (st.link k c).flag ∈ l := by
  have := (C23_flagged_links g hg elems he st h c hc k).1
  constructor
  · rintro ⟨-, hd, hl⟩
    exact ⟨by intro hh; rw [hh] at hd; norm_num at hd, hl⟩
  · rintro ⟨hd, hl⟩
    exact ⟨fun j => Grid.interior_range hc j, (this hd).2.2.2.1, hl⟩

/-! ### The stencil -/

theorem mapM_range_get {α β : Type} (l : List α) (f : α → β) :
    (List.range l.length).mapM (fun i => l[i]?.map f) = some (l.map f) := by
  rw [ListAux.mapM_eq_some_iff]
  refine ⟨by simp, fun i hi => ?_⟩
  simp only [List.length_range] at hi
  simp [hi]

/-- **C96, stencil.**  Without argument `visualize` shows one view per scheme; at the position of each velocity of the
scheme its number is written. -/
theorem C96_stencil (dim : Nat) (schemes : List (List Nat)) (h0 : schemes ≠ []) (h1 : [] ∉ schemes)
    (hv : Sten.ValidNums dim schemes) (s : Sten.Stencil) (hs : Sten.build dim schemes = some s) :
    ∃ views, stencilViews s none false = some views ∧ views.length = schemes.length ∧
      ∀ (i : Nat) (l : List Nat), schemes[i]? = some l → ∃ view, views[i]? = some view ∧ view.length = l.length ∧
        ∀ (j n : Nat), l[j]? = some n → ∃ v, Velocity.ofNum dim n = some v ∧ view[j]? = some (v.comps, n) := by
  rw [Sten.build_eq dim schemes h0 h1 hv] at hs
  cases hs
  refine ⟨schemes.map fun l => l.map fun n => ((Sten.mkV dim n).vel.comps, n), ?_, by simp, ?_⟩
  · simp only [stencilViews, Bool.false_eq_true, if_false, Option.getD_none, mapM_range_get, Option.bind_eq_bind,
      Option.bind_some]
    rw [ListAux.mapM_eq_some_iff]
    refine ⟨by simp, fun i hi => ?_⟩
    simp only [List.length_zipIdx, List.length_map] at hi
    simp only [List.getElem_zipIdx, List.getElem_map, Nat.zero_add, List.getElem?_map, List.getElem?_eq_getElem hi,
      Option.map_some, List.map_map, Function.comp_def, Sten.mkV_num, List.map_id', Option.some.injEq]
    rw [List.zip_map_left]
    simp [List.zip_eq_zipWith]
  · intro i l hl
    refine ⟨l.map fun n => ((Sten.mkV dim n).vel.comps, n), by simp [hl], by simp, ?_⟩
    intro j n hn
    obtain ⟨v, hv'⟩ := Option.isSome_iff_exists.1 (hv l (List.mem_of_getElem? hl) n (List.mem_of_getElem? hn))
    exact ⟨v, hv', by simp [hn, Sten.mkV, hv']⟩

/-- Two schemes of the line. -/
example : ∃ s, Sten.build 1 [[0, 1, 2], [1, 2]] = some s ∧
    stencilViews s none false = some [[([0], 0), ([1], 1), ([-1], 2)], [([1], 1), ([-1], 2)]] ∧
    stencilViews s (some [1]) false = some [[([1], 0), ([-1], 1)]] := by
  refine ⟨_, rfl, ?_, ?_⟩ <;> decide +kernel

/-- **C96, choice of a scheme.**  With `k` the numbers of the first scheme are written at the velocities of the scheme
`k`; with `unique_velocities` they are written at the first velocities of the whole stencil. -/
theorem C96_stencil_choice_negation (dim : Nat) (first : List Nat) (others : List (List Nat))
    (h1 : [] ∉ first :: others) (hv : Sten.ValidNums dim (first :: others)) (s : Sten.Stencil)
    (hs : Sten.build dim (first :: others) = some s) :
    (∀ (k : Nat) (l : List Nat), (first :: others)[k]? = some l →
      stencilViews s (some [k]) false = some [List.zip (l.map fun n => (Sten.mkV dim n).vel.comps) first]) ∧
    stencilViews s none true =
      some [List.zip (s.unum.map fun n => (Sten.mkV dim n).vel.comps) first] := by
  rw [Sten.build_eq dim _ (by simp) h1 hv] at hs
  cases hs
  constructor
  · intro k l hl
    have hl' : (List.map (fun x => List.map (Sten.mkV dim) x) (first :: others))[k]? = some (l.map (Sten.mkV dim)) := by
      rw [List.getElem?_map, hl]; rfl
    simp only [stencilViews, Bool.false_eq_true, if_false, Option.getD_some, List.mapM_cons, List.mapM_nil, hl']
    simp [Function.comp_def]
  · simp [stencilViews, Sten.Stencil.unum, Function.comp_def]

/-! ### Three dimensions -/

/-- **C96, labels in space.**  The picture of a geometry with a solid element of labels `labels` is drawn exactly when
these labels are between -10 and 9 (whereas the labels of the box are taken modulo 10). -/
theorem C96_labels_iff (labels : List Int) :
    (solidColours labels).isSome ↔ ∀ l ∈ labels, -10 ≤ l ∧ l < 10 := by
  induction labels with
  | nil => simp [solidColours]
  | cons a t ih =>
    unfold solidColours at ih ⊢
    rw [List.mapM_cons, List.forall_mem_cons, ← ih]
    by_cases h1 : 0 ≤ a ∧ a < 10
    · rw [if_pos h1]
      cases (t.mapM fun l : Int => if 0 ≤ l ∧ l < 10 then some l.toNat else if -10 ≤ l ∧ l < 0 then
        some (l + 10).toNat else none) <;> simp <;> omega
    · rw [if_neg h1]
      by_cases h2 : -10 ≤ a ∧ a < 0
      · rw [if_pos h2]
        cases (t.mapM fun l : Int => if 0 ≤ l ∧ l < 10 then some l.toNat else if -10 ≤ l ∧ l < 0 then
          some (l + 10).toNat else none) <;> simp <;> omega
      · rw [if_neg h2]
        simp
        omega

example : solidColours [0, -1, 9] = some [0, 9, 9] ∧ solidColours [3, 10] = none := by decide

/-- **C96, box in space.**  The face of the axis `k` on a side of the box is drawn where it is, with the colour of its
label. -/
theorem C96_box_faces (pmin pmax : Fin 3 → ℝ) (k : Fin 3) (side : Bool) :
    (boxFace pmin pmax k side).2 = 2 * k.val + (if side then 1 else 0) ∧
    ∀ y : Fin 3 → ℝ, y ∈ (boxFace pmin pmax k side).1 ↔
      y k = (if side then pmax k else pmin k) ∧ ∀ j, j ≠ k → y j = pmin j ∨ y j = pmax j := by
  refine ⟨rfl, fun y => ?_⟩
  fin_cases k <;> cases side <;>
    simp [boxFace, Fin.forall_fin_succ, funext_iff]
  all_goals tauto

theorem vertex3_eq (p a b c : V3) (u v : ℝ) :
    vertex3 p a b c u v = comb3 p a b c (Real.cos u * Real.sin v) (Real.sin u * Real.sin v) (Real.cos v) := by
  unfold vertex3 comb3
  ext <;> simp <;> ring

/-- **C96, spheres and ellipsoids.**  All the vertices drawn for an ellipsoid are on its surface, and the parameters
between `0` and `2π` and between `0` and `π` reach all the points of the surface. -/
theorem C96_ellipsoid (e : Ellipsoid) :
    ellipsoidVertices e ⊆ ellipsoidSurface e.center e.v1 e.v2 e.v3 ∧
    ∀ y ∈ ellipsoidSurface e.center e.v1 e.v2 e.v3, ∃ u v, 0 ≤ u ∧ u ≤ 2 * Real.pi ∧ 0 ≤ v ∧ v ≤ Real.pi ∧
      y = vertex3 e.center e.v1 e.v2 e.v3 u v := by
  constructor
  · rintro y ⟨i, j, rfl⟩
    rw [vertex3_eq]
    refine ⟨_, _, _, ?_, rfl⟩
    nlinarith [Real.sin_sq_add_cos_sq (2 * Real.pi * i / 99), Real.sin_sq_add_cos_sq (Real.pi * j / 99)]
  · rintro y ⟨a, b, d, h, rfl⟩
    have hd : -1 ≤ d ∧ d ≤ 1 := by constructor <;> nlinarith [sq_nonneg a, sq_nonneg b]
    have hsq : Real.sin (Real.arccos d) ^ 2 = a ^ 2 + b ^ 2 := by
      rw [Real.sin_arccos, Real.sq_sqrt (by nlinarith)]; linarith
    by_cases hz : Real.sin (Real.arccos d) = 0
    · refine ⟨0, Real.arccos d, le_rfl, by positivity, Real.arccos_nonneg d, Real.arccos_le_pi d, ?_⟩
      rw [hz] at hsq
      have ha : a = 0 := by nlinarith [sq_nonneg a, sq_nonneg b]
      have hb : b = 0 := by nlinarith [sq_nonneg a, sq_nonneg b]
      rw [vertex3_eq, Real.cos_arccos hd.1 hd.2, hz, ha, hb]
      simp
    · have hs0 : 0 < Real.sin (Real.arccos d) := lt_of_le_of_ne
        (Real.sin_nonneg_of_nonneg_of_le_pi (Real.arccos_nonneg d) (Real.arccos_le_pi d)) (Ne.symm hz)
      set r := Real.sin (Real.arccos d) with hr
      set w : Complex := ⟨a / r, b / r⟩ with hw
      have hn : ‖w‖ = 1 := by
        rw [← sq_eq_sq₀ (norm_nonneg _) (by norm_num), Complex.sq_norm, Complex.normSq_apply]
        simp only [hw]
        field_simp
        linarith
      have hw0 : w ≠ 0 := by intro hh; rw [hh] at hn; simp at hn
      have hc := Complex.cos_arg hw0
      have hsn := Complex.sin_arg w
      rw [hn, div_one] at hc hsn
      refine ⟨if 0 ≤ w.arg then w.arg else w.arg + 2 * Real.pi, Real.arccos d, ?_, ?_, Real.arccos_nonneg d,
        Real.arccos_le_pi d, ?_⟩
      · have := Complex.neg_pi_lt_arg w
        split_ifs with hh
        · exact hh
        · have := Real.pi_pos; linarith
      · have := Complex.arg_le_pi w
        have := Real.pi_pos
        split_ifs with hh <;> linarith
      · have e1 : Real.cos (if 0 ≤ w.arg then w.arg else w.arg + 2 * Real.pi) = a / r := by
          split_ifs
          · rw [hc]
          · rw [Real.cos_add_two_pi, hc]
        have e2 : Real.sin (if 0 ≤ w.arg then w.arg else w.arg + 2 * Real.pi) = b / r := by
          split_ifs
          · rw [hsn]
          · rw [Real.sin_add_two_pi, hsn]
        rw [vertex3_eq, e1, e2, ← hr, Real.cos_arccos hd.1 hd.2, div_mul_cancel₀ _ hz, div_mul_cancel₀ _ hz]

/-- **C96, spheres.** -/
theorem C96_sphere (s : Sphere) (y : V3) (hy : y ∈ sphereVertices s) :
    (y.1 - s.center.1) ^ 2 + (y.2.1 - s.center.2.1) ^ 2 + (y.2.2 - s.center.2.2) ^ 2 = s.radius ^ 2 := by
  obtain ⟨i, j, rfl⟩ := hy
  have h1 := Real.sin_sq_add_cos_sq (2 * Real.pi * i / 99)
  have h2 := Real.sin_sq_add_cos_sq (Real.pi * j / 99)
  unfold vertex3
  simp only
  linear_combination s.radius ^ 2 * (Real.sin (Real.pi * j / 99) ^ 2 * h1 + h2)

/-- **C96, colours of the faces of the box.**  Every label has one of the ten colours, two labels have the same one
exactly when they differ by a multiple of 10, and the labels from 0 to 9 have the colour of the solids with this
label. -/
theorem C96_face_colours (l l' : Int) : faceColour l < 10 ∧ (faceColour l = faceColour l' ↔ (10 : Int) ∣ l - l') ∧
    (0 ≤ l → l < 10 → solidColours [l] = some [faceColour l]) := by
  unfold faceColour
  refine ⟨by omega, by omega, fun h1 h2 => ?_⟩
  have : (l % 10).toNat = l.toNat := by omega
  simp [solidColours, h1, h2, this]

/-- A box with the labels 3 and 13. -/
example : faceColour 3 = faceColour 13 ∧ faceColour 3 ≠ faceColour 4 ∧ solidColours [3] = some [3] := by decide

/-- **C96, cylinders.**  The vertices drawn for a circular or elliptic cylinder are on its surface, and the side is
drawn from the bottom to the top. -/
theorem C96_cylinder (c : Cyl ℝ) :
    sideVertices c ⊆ cylinderSurface c.center c.v1 c.v2 c.w (disc (0, 0) 1) (circle (0, 0) 1) ∧
    (∀ i : Fin 100, ∀ z : ℝ, z = -1 ∨ z = 1 →
      comb3 c.center c.v1 c.v2 c.w (Real.cos (2 * Real.pi * i / 99)) (Real.sin (2 * Real.pi * i / 99)) z ∈
        sideVertices c) ∧
    ∀ b ∈ baseVertices c roundBase,
      b.1 ⊆ cylinderSurface c.center c.v1 c.v2 c.w (disc (0, 0) 1) (circle (0, 0) 1) := by
  have hp : ∀ x y z, cylPoint c.center c.v1 c.v2 c.w x y z = comb3 c.center c.v1 c.v2 c.w x y z := by
    intro x y z
    unfold cylPoint comb3
    ext <;> simp <;> ring
  refine ⟨?_, fun i z hz => ⟨_, ⟨i, rfl⟩, z, hz, (hp _ _ _).symm⟩, ?_⟩
  · rintro y ⟨p, ⟨i, rfl⟩, z, hz, rfl⟩
    refine ⟨_, _, z, Or.inl ⟨?_, ?_⟩, hp _ _ _⟩
    · simp only [circle, Set.mem_ofPred_eq]
      nlinarith [Real.sin_sq_add_cos_sq (2 * Real.pi * i / 99)]
    · rcases hz with rfl | rfl <;> norm_num
  · intro b hb
    simp only [baseVertices, List.mem_cons, List.not_mem_nil, or_false] at hb
    have key : ∀ z : ℝ, (z = -1 ∨ z = 1) → ∀ p ∈ roundBase, ∀ i : Fin 10,
        cylPoint c.center c.v1 c.v2 c.w (p.1 * Real.sin (Real.pi * i / 9)) (p.2 * Real.sin (Real.pi * i / 9)) z ∈
          cylinderSurface c.center c.v1 c.v2 c.w (disc (0, 0) 1) (circle (0, 0) 1) := by
      rintro z hz p ⟨k, rfl⟩ i
      refine ⟨_, _, z, Or.inr ⟨?_, hz⟩, hp _ _ _⟩
      simp only [disc, Set.mem_ofPred_eq, sub_zero]
      have h1 := Real.sin_sq_add_cos_sq (2 * Real.pi * k / 99)
      have h2 := Real.sin_sq_le_one (Real.pi * i / 9)
      nlinarith
    rcases hb with rfl | rfl
    · rintro y ⟨p, hp', i, rfl⟩
      exact key 1 (Or.inr rfl) p hp' i
    · rintro y ⟨p, hp', i, rfl⟩
      exact key (-1) (Or.inl rfl) p hp' i

/-- **C96, tops of the cylinders.**  Whatever the labels, the top of a round cylinder is drawn, at its centre, with the
colour of the label of the bottom, and never with the one of its own label when this is another one. -/
theorem C96_top_negation (c : Cyl ℝ) (hl : c.lbot ≠ c.ltop) :
    let y : V3 := (c.center.1 + c.w.1, c.center.2.1 + c.w.2.1, c.center.2.2 + c.w.2.2)
    (∃ b ∈ baseVertices c roundBase, y ∈ b.1 ∧ b.2 = c.lbot) ∧ ¬ ∃ b ∈ baseVertices c roundBase, y ∈ b.1 ∧ b.2 = c.ltop := by
  intro y
  constructor
  · refine ⟨_, List.mem_cons_self, ⟨_, ⟨0, rfl⟩, 0, ?_⟩, rfl⟩
    simp [cylPoint, y]
  · rintro ⟨b, hb, -, h⟩
    simp only [baseVertices, List.mem_cons, List.not_mem_nil, or_false] at hb
    rcases hb with rfl | rfl <;> exact hl h

/-- A cylinder with labels 1 for the bottom and 2 for the top. -/
example : ∃ c : Cyl ℝ, c.lbot = 1 ∧ c.ltop = 2 ∧ c.lbot ≠ c.ltop :=
  ⟨cylinderCircle (0, 0, 0) (1, 0, 0) (0, 1, 0) (0, 0, 1) 0 1 2, rfl, rfl, by
    show (1 : Int) ≠ 2; decide⟩

end Pylbm.Picture
