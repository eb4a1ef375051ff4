import Verif.Geometry.Polygon
import Mathlib.Topology.Order.IntermediateValue
import Mathlib.Topology.Instances.Real.Lemmas
/-!
# Circles, ellipses, spheres, ellipsoids: properties C24, C27, C28, C29
-/
namespace Pylbm.Geometry
open GeometrySpec

/-! ### The second order equation -/

/-- The parameters in `(0, m]` which are roots. -/
def rootsIn (a b c m : ℝ) : Set ℝ := {t | 0 < t ∧ t ≤ m ∧ a * t ^ 2 + b * t + c = 0}

theorem quadAlpha_spec {a b c m : ℝ} (ha : 0 < a) (hc : c ≠ 0) (hm : m < 10 ^ 16) :
    IsDistance (quadAlpha a b c (some m)) (rootsIn a b c m) := by
  unfold quadAlpha
  simp only [ne_eq, ha.ne', not_false_eq_true, true_and, ge_iff_le, gt_iff_lt, leDmax]
  have htgv : (tgv : ℝ) = 10 ^ 16 := rfl
  by_cases hd : 0 ≤ b ^ 2 - 4 * a * c
  · simp only [hd, if_true]
    set s := Real.sqrt (b ^ 2 - 4 * a * c) with hs
    have hs0 : 0 ≤ s := Real.sqrt_nonneg _
    have hsq : s ^ 2 = b ^ 2 - 4 * a * c := Real.sq_sqrt hd
    set r1 := (-b - s) / (2 * a) with hr1
    set r2 := (-b + s) / (2 * a) with hr2
    have h12 : r1 ≤ r2 := by
      rw [hr1, hr2]; exact div_le_div_of_nonneg_right (by linarith) (by linarith)
    have hsum : a * (r1 + r2) = -b := by rw [hr1, hr2]; field_simp; ring
    have hprod : a * (r1 * r2) = c := by
      have h1 : (2 * a) * r1 = -b - s := by rw [hr1]; field_simp
      have h2 : (2 * a) * r2 = -b + s := by rw [hr2]; field_simp
      have h3 : (2 * a) * (2 * a) * (r1 * r2) = (-b - s) * (-b + s) := by rw [← h1, ← h2]; ring
      have h4 : (-b - s) * (-b + s) = 4 * a * c := by linear_combination -hsq
      have h5 : (4 * a) * (a * (r1 * r2)) = (4 * a) * c := by rw [← h4, ← h3]; ring
      exact mul_left_cancel₀ (by positivity) h5
    have hroot : ∀ t, a * t ^ 2 + b * t + c = 0 ↔ t = r1 ∨ t = r2 := by
      intro t
      have : a * t ^ 2 + b * t + c = a * ((t - r1) * (t - r2)) := by
        rw [← hprod]; linear_combination (t) * hsum
      rw [this]
      constructor
      · intro h
        rcases mul_eq_zero.1 (mul_eq_zero.1 h |>.resolve_left ha.ne') with h | h
        · left; linarith
        · right; linarith
      · rintro (rfl | rfl) <;> simp
    have hr1n : r1 ≠ 0 := by rintro h; rw [h] at hprod; apply hc; rw [← hprod]; ring
    have hr2n : r2 ≠ 0 := by rintro h; rw [h] at hprod; apply hc; rw [← hprod]; ring
    clear_value r1 r2
    by_cases h1 : r1 < 0
    · rw [if_pos h1]
      by_cases h2 : r2 < 0
      · rw [if_pos h2, min_self, if_pos rfl]
        right
        refine ⟨?_, by norm_num⟩
        ext t
        simp only [rootsIn, Set.mem_ofPred_eq, Set.mem_empty_iff_false, iff_false, hroot]
        rintro ⟨t0, _, rfl | rfl⟩ <;> linarith
      · rw [if_neg h2]
        have h2' : 0 < r2 := lt_of_le_of_ne (not_lt.1 h2) (Ne.symm hr2n)
        by_cases hb : r2 ≤ m
        · have hlt : r2 < (tgv : ℝ) := by rw [htgv]; linarith
          rw [min_eq_right hlt.le, if_neg hlt.ne, if_pos ⟨h2', hb⟩]
          left
          refine ⟨⟨h2', hb, (hroot r2).2 (Or.inr rfl)⟩, ?_⟩
          rintro t ⟨t0, _, ht⟩
          rcases (hroot t).1 ht with rfl | rfl
          · linarith
          · exact le_rfl
        · right
          refine ⟨?_, ?_⟩
          · ext t
            simp only [rootsIn, Set.mem_ofPred_eq, Set.mem_empty_iff_false, iff_false, hroot]
            rintro ⟨t0, tm, rfl | rfl⟩
            · linarith
            · exact hb tm
          · rcases le_total (tgv : ℝ) r2 with hle | hle
            · rw [min_eq_left hle, if_pos rfl]; norm_num
            · rw [min_eq_right hle]
              by_cases he : r2 = (tgv : ℝ)
              · rw [if_pos he]; norm_num
              · rw [if_neg he, if_neg (fun h => hb h.2)]
    · have h1' : 0 < r1 := lt_of_le_of_ne (not_lt.1 h1) (Ne.symm hr1n)
      have h2 : ¬ r2 < 0 := by linarith
      rw [if_neg h1, if_neg h2, min_eq_left h12]
      by_cases hb : r1 ≤ m
      · have hlt : r1 < (tgv : ℝ) := by rw [htgv]; linarith
        rw [if_neg hlt.ne, if_pos ⟨h1', hb⟩]
        left
        refine ⟨⟨h1', hb, (hroot r1).2 (Or.inl rfl)⟩, ?_⟩
        rintro t ⟨t0, _, ht⟩
        rcases (hroot t).1 ht with rfl | rfl
        · exact le_rfl
        · exact h12
      · right
        refine ⟨?_, ?_⟩
        · ext t
          simp only [rootsIn, Set.mem_ofPred_eq, Set.mem_empty_iff_false, iff_false, hroot]
          rintro ⟨t0, tm, rfl | rfl⟩
          · exact hb tm
          · exact hb (h12.trans tm)
        · by_cases he : r1 = (tgv : ℝ)
          · rw [if_pos he]; norm_num
          · rw [if_neg he, if_neg (fun h => hb h.2)]
  · right
    simp only [hd, if_false]
    refine ⟨?_, ?_⟩
    · ext t
      simp only [rootsIn, Set.mem_ofPred_eq, Set.mem_empty_iff_false, iff_false]
      rintro ⟨_, _, ht⟩
      have : b ^ 2 - 4 * a * c = (2 * a * t + b) ^ 2 := by linear_combination (-4 * a) * ht
      exact hd (this ▸ sq_nonneg _)
    · have h9 : ¬ ((-1 : ℝ) = tgv) := by norm_num [tgv]
      rw [if_neg h9]
      norm_num

/-- Without direction the result is `-1`. -/
theorem quadAlpha_zero (b c : ℝ) (dmax : Option ℝ) : quadAlpha 0 b c dmax = -1 := by
  unfold quadAlpha
  have htg : ¬ (tgv : ℝ) < 0 := by norm_num [tgv]
  have htg2 : ¬ (-1 : ℝ) = tgv := by norm_num [tgv]
  simp only [ne_eq, not_true_eq_false, false_and, if_false, htg, min_self]
  by_cases hd : b ^ 2 - 4 * 0 * c ≥ 0
  · rw [if_pos hd]; norm_num
  · rw [if_neg hd, if_neg htg2]; norm_num

/-- From a point of the curve the result is always `-1`. -/
theorem quadAlpha_on_curve {a b : ℝ} (ha : 0 < a) (dmax : Option ℝ) :
    quadAlpha a b 0 dmax = -1 := by
  unfold quadAlpha
  have hd : b ^ 2 - 4 * a * 0 = b ^ 2 := by ring
  have htgv : (0 : ℝ) < tgv := by norm_num [tgv]
  simp only [ne_eq, ha.ne', not_false_eq_true, true_and, ge_iff_le, gt_iff_lt, hd, sq_nonneg,
    if_true, Real.sqrt_sq_eq_abs]
  rcases le_total 0 b with hb | hb
  · rw [abs_of_nonneg hb]
    have e2 : (-b + b) / (2 * a) = 0 := by simp
    have e1 : (-b - b) / (2 * a) ≤ 0 := div_nonpos_of_nonpos_of_nonneg (by linarith) (by linarith)
    rw [e2]
    simp only [lt_self_iff_false, if_false]
    have h3 : min (if (-b - b) / (2 * a) < 0 then tgv else (-b - b) / (2 * a)) 0 ≤ (0 : ℝ) :=
      min_le_right _ _
    rw [if_neg (ne_of_lt (lt_of_le_of_lt h3 htgv)), if_neg (fun h => absurd h.1 (not_lt.2 h3))]
  · rw [abs_of_nonpos hb]
    have e1 : (-b - -b) / (2 * a) = 0 := by simp
    rw [e1]
    simp only [lt_self_iff_false, if_false]
    have h3 : min (0 : ℝ) (if (-b + -b) / (2 * a) < 0 then tgv else (-b + -b) / (2 * a)) ≤ (0 : ℝ) :=
      min_le_left _ _
    rw [if_neg (ne_of_lt (lt_of_le_of_lt h3 htgv)), if_neg (fun h => absurd h.1 (not_lt.2 h3))]

/-- A change of sign gives a root. -/
theorem root_of_sign {a b c : ℝ} (h : (0 < c ∧ a + b + c ≤ 0) ∨ (c < 0 ∧ 0 ≤ a + b + c)) :
    (rootsIn a b c 1).Nonempty := by
  have hcont : ContinuousOn (fun t : ℝ => a * t ^ 2 + b * t + c) (Set.Icc 0 1) := by fun_prop
  rcases h with ⟨h0, h1⟩ | ⟨h0, h1⟩
  · obtain ⟨t, ht, hr⟩ := intermediate_value_Icc' (zero_le_one) hcont
      (show (0 : ℝ) ∈ Set.Icc _ _ from ⟨by norm_num; linarith, by norm_num; linarith⟩)
    refine ⟨t, lt_of_le_of_ne ht.1 ?_, ht.2, hr⟩
    rintro rfl
    norm_num at hr; linarith
  · obtain ⟨t, ht, hr⟩ := intermediate_value_Icc (zero_le_one) hcont
      (show (0 : ℝ) ∈ Set.Icc _ _ from ⟨by norm_num; linarith, by norm_num; linarith⟩)
    refine ⟨t, lt_of_le_of_ne ht.1 ?_, ht.2, hr⟩
    rintro rfl
    norm_num at hr; linarith

/-! ### Ellipses -/

theorem Ellipse.exists_comb {e : Ellipse} (he : e.tv ≠ 0) (X Y : ℝ) :
    ∃ a b, X = a * e.v1.1 + b * e.v2.1 ∧ Y = a * e.v1.2 + b * e.v2.2 := by
  unfold Ellipse.tv at he
  refine ⟨(X * e.v2.2 - Y * e.v2.1) / (e.v1.1 * e.v2.2 - e.v1.2 * e.v2.1),
    (Y * e.v1.1 - X * e.v1.2) / (e.v1.1 * e.v2.2 - e.v1.2 * e.v2.1), ?_, ?_⟩
  · rw [div_mul_eq_mul_div, div_mul_eq_mul_div, ← add_div, eq_div_iff he]; ring
  · rw [div_mul_eq_mul_div, div_mul_eq_mul_div, ← add_div, eq_div_iff he]; ring

theorem Ellipse.form_comb (e : Ellipse) (a b : ℝ) :
    e.form (a * e.v1.1 + b * e.v2.1) (a * e.v1.2 + b * e.v2.2) = e.tv ^ 2 * (a ^ 2 + b ^ 2) := by
  unfold Ellipse.form Ellipse.tv; ring

theorem Ellipse.form_pos {e : Ellipse} (he : e.tv ≠ 0) {X Y : ℝ} (h : ¬ (X = 0 ∧ Y = 0)) :
    0 < e.form X Y := by
  obtain ⟨a, b, rfl, rfl⟩ := Ellipse.exists_comb he X Y
  rw [Ellipse.form_comb]
  have : 0 < a ^ 2 + b ^ 2 := by
    by_contra hn
    have ha : a = 0 := by nlinarith [sq_nonneg a, sq_nonneg b]
    have hb : b = 0 := by nlinarith [sq_nonneg a, sq_nonneg b]
    exact h (by rw [ha, hb]; simp)
  positivity

theorem Ellipse.mem_iff {e : Ellipse} (he : e.tv ≠ 0) (y : ℝ × ℝ) :
    (y ∈ ellipse e.center e.v1 e.v2 ↔ e.form (y.1 - e.center.1) (y.2 - e.center.2) ≤ e.tv ^ 2) ∧
    (y ∈ ellipseCurve e.center e.v1 e.v2 ↔
      e.form (y.1 - e.center.1) (y.2 - e.center.2) = e.tv ^ 2) := by
  have hpos : 0 < e.tv ^ 2 := by positivity
  obtain ⟨a, b, hX, hY⟩ := Ellipse.exists_comb he (y.1 - e.center.1) (y.2 - e.center.2)
  have hy : y = comb2 e.center e.v1 e.v2 a b := by
    unfold comb2; exact Prod.ext (by simp only; linarith) (by simp only; linarith)
  have key : ∀ a' b', y = comb2 e.center e.v1 e.v2 a' b' →
      e.form (y.1 - e.center.1) (y.2 - e.center.2) = e.tv ^ 2 * (a' ^ 2 + b' ^ 2) := by
    rintro a' b' rfl
    rw [← Ellipse.form_comb]
    unfold comb2
    congr 1 <;> ring
  constructor
  · constructor
    · rintro ⟨a', b', h, hy'⟩
      rw [key a' b' hy']; nlinarith
    · intro h
      rw [key a b hy] at h
      exact ⟨a, b, by nlinarith, hy⟩
  · constructor
    · rintro ⟨a', b', h, hy'⟩
      rw [key a' b' hy', h, mul_one]
    · intro h
      rw [key a b hy] at h
      exact ⟨a, b, mul_left_cancel₀ hpos.ne' (by rw [h, mul_one]), hy⟩

/-- C28 (ellipse): `point_inside` is membership in the ellipse, boundary included. -/
theorem C28_ellipse_inside (e : Ellipse) (he : e.v1.1 * e.v2.2 - e.v1.2 * e.v2.1 ≠ 0) (y : ℝ × ℝ) :
    e.inside y = true ↔ y ∈ ellipse e.center e.v1 e.v2 := by
  unfold Ellipse.inside
  rw [decide_eq_true_eq, (Ellipse.mem_iff (e := e) he y).1]

/-- C28 (circle): `point_inside` is membership in the disc, boundary included. -/
theorem C28_circle_inside (c : Circle) (y : ℝ × ℝ) :
    c.inside y = true ↔ y ∈ disc c.center c.radius := by
  unfold Circle.inside disc; rw [decide_eq_true_eq]; rfl

/-- Coefficients of the second order equation of an ellipse. -/
theorem Ellipse.along_form (e : Ellipse) (x v : ℝ × ℝ) (m : ℝ) : ∃ a b c,
    e.alpha x v (some m) = quadAlpha a b c (some m) ∧
    a = e.form v.1 v.2 ∧
    (∀ t, e.form ((along x v t).1 - e.center.1) ((along x v t).2 - e.center.2) - e.tv ^ 2 =
      a * t ^ 2 + b * t + c) := by
  refine ⟨_, _, _, rfl, rfl, fun t => ?_⟩
  unfold along Ellipse.form Ellipse.tv
  ring

theorem Ellipse.hits_eq {e : Ellipse} (he : e.tv ≠ 0) (x v : ℝ × ℝ) (m a b c : ℝ)
    (h : ∀ t, e.form ((along x v t).1 - e.center.1) ((along x v t).2 - e.center.2) - e.tv ^ 2 =
      a * t ^ 2 + b * t + c) :
    hits x v m (ellipseCurve e.center e.v1 e.v2) = rootsIn a b c m := by
  ext t
  unfold hits rootsIn
  simp only [Set.mem_ofPred_eq]
  rw [(Ellipse.mem_iff he _).2, ← h t, sub_eq_zero]

theorem along_zero (x v : ℝ × ℝ) : along x v 0 = x := by simp [along]
theorem along_one (x v : ℝ × ℝ) : along x v 1 = (x.1 + v.1, x.2 + v.2) := by simp [along]

/-- C27 (ellipse, from a point which is not on the curve): the distance is the smallest parameter in
`(0, dmax]` at which the ray meets the curve, `-1` when there is none. -/
theorem C27_ellipse_partial (e : Ellipse) (he : e.v1.1 * e.v2.2 - e.v1.2 * e.v2.1 ≠ 0)
    (x v : ℝ × ℝ) (m : ℝ) (hm : m < 10 ^ 16) (hx : x ∉ ellipseCurve e.center e.v1 e.v2) :
    IsDistance (e.alpha x v (some m)) (hits x v m (ellipseCurve e.center e.v1 e.v2)) := by
  have he' : e.tv ≠ 0 := he
  obtain ⟨a, b, c, h1, h2, h3⟩ := e.along_form x v m
  rw [h1, Ellipse.hits_eq he' x v m a b c h3]
  have hc : c ≠ 0 := by
    intro hc
    have h4 := h3 0
    rw [along_zero, hc] at h4
    exact hx (((Ellipse.mem_iff he' x).2).2 (by linarith))
  by_cases hv : v.1 = 0 ∧ v.2 = 0
  · have ha : a = 0 := by rw [h2, hv.1, hv.2]; unfold Ellipse.form; ring
    have hb : b = 0 := by
      have h4 := h3 0
      have h5 := h3 1
      have : along x v 0 = along x v 1 := by simp [along, hv.1, hv.2]
      rw [← this, ha] at h5
      rw [ha] at h4
      linarith
    right
    rw [ha, hb]
    refine ⟨?_, ?_⟩
    · ext t
      simp only [rootsIn, Set.mem_ofPred_eq, Set.mem_empty_iff_false, iff_false]
      rintro ⟨_, _, h⟩
      exact hc (by linarith)
    · unfold quadAlpha
      simp
  · exact quadAlpha_spec (h2 ▸ Ellipse.form_pos he' hv) hc hm

/-- C27 (ellipse, from a point of the curve): the distance is `-1` whatever the ray meets. -/
theorem C27_ellipse_on_curve (e : Ellipse) (he : e.v1.1 * e.v2.2 - e.v1.2 * e.v2.1 ≠ 0)
    (x v : ℝ × ℝ) (hv : v ≠ 0) (m : ℝ) (hx : x ∈ ellipseCurve e.center e.v1 e.v2) :
    e.alpha x v (some m) = -1 := by
  have he' : e.tv ≠ 0 := he
  obtain ⟨a, b, c, h1, h2, h3⟩ := e.along_form x v m
  have hc : c = 0 := by
    have h4 := h3 0
    rw [along_zero, ((Ellipse.mem_iff he' x).2).1 hx] at h4
    linarith
  rw [h1, hc]
  exact quadAlpha_on_curve
    (h2 ▸ Ellipse.form_pos he' (fun h => hv (Prod.ext h.1 h.2))) _

/-- C27 does not hold from a point of the curve: the ray from `(-1, 0)` in the direction `(3, 0)`
leaves the unit disc at 2/3, the distance is `-1`. -/
theorem C27_ellipse_negation : ∃ (e : Ellipse) (x v : ℝ × ℝ),
    e.v1.1 * e.v2.2 - e.v1.2 * e.v2.1 ≠ 0 ∧
    ¬ IsDistance (e.alpha x v (some 1)) (hits x v 1 (ellipseCurve e.center e.v1 e.v2)) := by
  refine ⟨⟨(0, 0), (1, 0), (0, 1)⟩, (-1, 0), (3, 0), by norm_num, ?_⟩
  rw [C27_ellipse_on_curve _ (by norm_num) _ _ (by simp) 1
    ⟨-1, 0, by norm_num, by norm_num [comb2]⟩]
  rintro (h | ⟨h, _⟩)
  · have := h.1.1
    norm_num at this
  · have : (2 / 3 : ℝ) ∈ hits ((-1, 0) : ℝ × ℝ) (3, 0) 1 (ellipseCurve (0, 0) (1, 0) (0, 1)) :=
      ⟨by norm_num, by norm_num, 1, 0, by norm_num, by norm_num [along, comb2]⟩
    have h' : (2 / 3 : ℝ) ∈ (∅ : Set ℝ) := h ▸ this
    exact h'

/-- C24 (ellipse): a link which enters the ellipse, or leaves it from a point which is not on the
curve, is seen, at a point of the curve. -/
theorem C24_ellipse_links (e : Ellipse) (he : e.v1.1 * e.v2.2 - e.v1.2 * e.v2.1 ≠ 0)
    (x v : ℝ × ℝ) (hx : x ∉ ellipseCurve e.center e.v1 e.v2)
    (h : e.inside x ≠ e.inside (x.1 + v.1, x.2 + v.2)) :
    0 < e.alpha x v (some 1) ∧ e.alpha x v (some 1) ≤ 1 ∧
      along x v (e.alpha x v (some 1)) ∈ ellipseCurve e.center e.v1 e.v2 := by
  have he' : e.tv ≠ 0 := he
  refine seen_of_hit (C27_ellipse_partial e he x v 1 (by norm_num) hx) ?_
  obtain ⟨a, b, c, h1, h2, h3⟩ := e.along_form x v 1
  rw [Ellipse.hits_eq he' x v 1 a b c h3]
  apply root_of_sign
  have h4 := h3 0
  have h5 := h3 1
  rw [along_zero] at h4
  rw [along_one] at h5
  have hne : e.form (x.1 - e.center.1) (x.2 - e.center.2) ≠ e.tv ^ 2 := fun hh =>
    hx (((Ellipse.mem_iff he' x).2).2 hh)
  unfold Ellipse.inside at h
  norm_num at h4 h5
  by_cases hi : e.form (x.1 - e.center.1) (x.2 - e.center.2) ≤ e.tv ^ 2
  · have ho : ¬ e.form (x.1 + v.1 - e.center.1) (x.2 + v.2 - e.center.2) ≤ e.tv ^ 2 := by
      intro ho; apply h; simp [hi, ho]
    right
    have := lt_of_le_of_ne hi hne
    push Not at ho
    constructor <;> linarith
  · have ho : e.form (x.1 + v.1 - e.center.1) (x.2 + v.2 - e.center.2) ≤ e.tv ^ 2 := by
      by_contra ho; apply h; simp [hi, ho]
    left
    push Not at hi
    constructor <;> linarith

/-- C24 (ellipse): a link which enters the ellipse is seen. -/
theorem C24_ellipse_enter (e : Ellipse) (he : e.v1.1 * e.v2.2 - e.v1.2 * e.v2.1 ≠ 0)
    (x v : ℝ × ℝ) (hout : e.inside x = false) (hin : e.inside (x.1 + v.1, x.2 + v.2) = true) :
    0 < e.alpha x v (some 1) ∧ e.alpha x v (some 1) ≤ 1 ∧
      along x v (e.alpha x v (some 1)) ∈ ellipseCurve e.center e.v1 e.v2 := by
  refine C24_ellipse_links e he x v (fun hx => ?_) (by rw [hout, hin]; simp)
  obtain ⟨a, b, hab, hy⟩ := hx
  have := (C28_ellipse_inside e he x).2 ⟨a, b, hab.le, hy⟩
  rw [hout] at this; exact absurd this (by simp)

/-- A slanted ellipse and a link entering it. -/
example : ∃ e : Ellipse, e.v1.1 * e.v2.2 - e.v1.2 * e.v2.1 ≠ 0 ∧ e.inside (3, 0) = false ∧
    e.inside (3 + -2, 0 + 1) = true := by
  refine ⟨⟨(0, 0), (2, 2), (-1, 1)⟩, by norm_num, ?_, ?_⟩
  · unfold Ellipse.inside; rw [decide_eq_false_iff_not]; norm_num [Ellipse.form, Ellipse.tv]
  · unfold Ellipse.inside; rw [decide_eq_true_eq]; norm_num [Ellipse.form, Ellipse.tv]

/-! ### Circles -/

theorem Circle.curve_eq {c : Circle} (hc : c.radius ≠ 0) :
    ellipseCurve c.ellipse.center c.ellipse.v1 c.ellipse.v2 = circle c.center c.radius := by
  have he : c.ellipse.tv ≠ 0 := by
    unfold Circle.ellipse Ellipse.tv; simpa using hc
  ext y
  rw [(Ellipse.mem_iff he y).2]
  unfold circle Ellipse.form Ellipse.tv Circle.ellipse
  simp only [Set.mem_ofPred_eq]
  have hp : c.radius ^ 2 ≠ 0 := by positivity
  constructor
  · intro h
    apply mul_left_cancel₀ hp
    linear_combination h
  · intro h
    linear_combination c.radius ^ 2 * h

/-- C27 (circle, from a point which is not on it). -/
theorem C27_circle_partial (c : Circle) (hc : c.radius ≠ 0) (x v : ℝ × ℝ) (m : ℝ)
    (hm : m < 10 ^ 16) (hx : x ∉ circle c.center c.radius) :
    IsDistance (c.ellipse.alpha x v (some m)) (hits x v m (circle c.center c.radius)) := by
  rw [← Circle.curve_eq hc] at hx ⊢
  exact C27_ellipse_partial c.ellipse (by unfold Circle.ellipse; simpa using hc) x v m hm hx

/-- C24 (circle): a link which enters the disc, or leaves it from a point which is not on the
circle, is seen, at a point of the circle. -/
theorem C24_circle_links (c : Circle) (hc : c.radius ≠ 0) (x v : ℝ × ℝ)
    (hx : x ∉ circle c.center c.radius) (h : c.inside x ≠ c.inside (x.1 + v.1, x.2 + v.2)) :
    0 < c.ellipse.alpha x v (some 1) ∧ c.ellipse.alpha x v (some 1) ≤ 1 ∧
      along x v (c.ellipse.alpha x v (some 1)) ∈ circle c.center c.radius := by
  have hin : ∀ y, c.ellipse.inside y = c.inside y := by
    intro y
    unfold Circle.inside Ellipse.inside
    apply decide_eq_decide.2
    unfold Ellipse.form Ellipse.tv Circle.ellipse
    have hp : 0 < c.radius ^ 2 := by positivity
    constructor
    · intro h; apply le_of_mul_le_mul_left _ hp; linarith
    · intro h
      have := mul_le_mul_of_nonneg_left h hp.le
      linarith
  rw [← Circle.curve_eq hc] at hx ⊢
  exact C24_ellipse_links c.ellipse (by unfold Circle.ellipse; simpa using hc) x v hx
    (by rw [hin, hin]; exact h)

/-- C24 (circle): a link which enters the disc is seen. -/
theorem C24_circle_enter (c : Circle) (hc : c.radius ≠ 0) (x v : ℝ × ℝ)
    (hout : c.inside x = false) (hin : c.inside (x.1 + v.1, x.2 + v.2) = true) :
    0 < c.ellipse.alpha x v (some 1) ∧ c.ellipse.alpha x v (some 1) ≤ 1 ∧
      along x v (c.ellipse.alpha x v (some 1)) ∈ circle c.center c.radius := by
  refine C24_circle_links c hc x v (fun hx => ?_) (by rw [hout, hin]; simp)
  have := (C28_circle_inside c x).2 (le_of_eq hx)
  rw [hout] at this; exact absurd this (by simp)

/-- C29 (circle). -/
theorem C29_circle_bounds (c : Circle) (hr : 0 ≤ c.radius) (y : ℝ × ℝ) (h : c.inside y = true) :
    InBox c.bounds y := by
  unfold Circle.inside at h
  rw [decide_eq_true_eq] at h
  have h1 := abs_le.1 (abs_le_of_sq_le_sq (a := y.1 - c.center.1) (b := c.radius)
    (by nlinarith [sq_nonneg (y.2 - c.center.2)]) hr)
  have h2 := abs_le.1 (abs_le_of_sq_le_sq (a := y.2 - c.center.2) (b := c.radius)
    (by nlinarith [sq_nonneg (y.1 - c.center.1)]) hr)
  unfold InBox Circle.bounds
  simp only
  refine ⟨?_, ?_, ?_, ?_⟩ <;> linarith [h1.1, h1.2, h2.1, h2.2]

example : (⟨(1, 2), 3⟩ : Circle).inside (2, 4) = true := by
  unfold Circle.inside; rw [decide_eq_true_eq]; norm_num

/-! ### Bounds of the ellipse -/

/-- Squared length of a vector of the ellipse. -/
theorem Ellipse.sq_le {e : Ellipse} (he : e.tv ≠ 0) (y : ℝ × ℝ) (h : e.inside y = true) (r2 : ℝ)
    (h1 : e.v1.1 ^ 2 + e.v1.2 ^ 2 ≤ r2) (h2 : e.v2.1 ^ 2 + e.v2.2 ^ 2 ≤ r2) :
    (y.1 - e.center.1) ^ 2 + (y.2 - e.center.2) ^ 2 ≤ r2 + |e.v1.1 * e.v2.1 + e.v1.2 * e.v2.2| := by
  obtain ⟨a, b, hab, rfl⟩ := (C28_ellipse_inside e he y).1 h
  unfold comb2
  simp only
  have h3 : 2 * a * b * (e.v1.1 * e.v2.1 + e.v1.2 * e.v2.2) ≤
      |e.v1.1 * e.v2.1 + e.v1.2 * e.v2.2| := by
    have h4 : |2 * a * b| ≤ 1 := by
      rw [abs_le]; constructor <;> nlinarith [sq_nonneg (a + b), sq_nonneg (a - b)]
    calc 2 * a * b * (e.v1.1 * e.v2.1 + e.v1.2 * e.v2.2)
        ≤ |2 * a * b * (e.v1.1 * e.v2.1 + e.v1.2 * e.v2.2)| := le_abs_self _
      _ = |2 * a * b| * |e.v1.1 * e.v2.1 + e.v1.2 * e.v2.2| := abs_mul _ _
      _ ≤ 1 * |e.v1.1 * e.v2.1 + e.v1.2 * e.v2.2| :=
          mul_le_mul_of_nonneg_right h4 (abs_nonneg _)
      _ = _ := one_mul _
  have hr : 0 ≤ r2 := le_trans (by positivity) h1
  have h5 : a ^ 2 * (e.v1.1 ^ 2 + e.v1.2 ^ 2) ≤ a ^ 2 * r2 :=
    mul_le_mul_of_nonneg_left h1 (sq_nonneg _)
  have h6 : b ^ 2 * (e.v2.1 ^ 2 + e.v2.2 ^ 2) ≤ b ^ 2 * r2 :=
    mul_le_mul_of_nonneg_left h2 (sq_nonneg _)
  have h7 : (a ^ 2 + b ^ 2) * r2 ≤ 1 * r2 := mul_le_mul_of_nonneg_right hab hr
  nlinarith

/-- C29 (ellipse with orthogonal axes). -/
theorem C29_ellipse_bounds_partial (e : Ellipse) (he : e.v1.1 * e.v2.2 - e.v1.2 * e.v2.1 ≠ 0)
    (horth : e.v1.1 * e.v2.1 + e.v1.2 * e.v2.2 = 0) (y : ℝ × ℝ) (h : e.inside y = true) :
    InBox e.bounds y := by
  set r := max (Real.sqrt (e.v1.1 ^ 2 + e.v1.2 ^ 2)) (Real.sqrt (e.v2.1 ^ 2 + e.v2.2 ^ 2)) with hr
  have hr0 : 0 ≤ r := le_trans (Real.sqrt_nonneg _) (le_max_left _ _)
  have key := Ellipse.sq_le (e := e) he y h (r ^ 2)
    ((Real.sqrt_le_left hr0).1 (le_max_left _ _)) ((Real.sqrt_le_left hr0).1 (le_max_right _ _))
  rw [horth, abs_zero, add_zero] at key
  have h1 := abs_le.1 (abs_le_of_sq_le_sq (a := y.1 - e.center.1) (b := r)
    (by nlinarith [sq_nonneg (y.2 - e.center.2)]) hr0)
  have h2 := abs_le.1 (abs_le_of_sq_le_sq (a := y.2 - e.center.2) (b := r)
    (by nlinarith [sq_nonneg (y.1 - e.center.1)]) hr0)
  unfold InBox Ellipse.bounds
  simp only [← hr]
  refine ⟨?_, ?_, ?_, ?_⟩ <;> linarith [h1.1, h1.2, h2.1, h2.2]

/-- C29 (ellipse accepted by the constructor, `|v1·v2| ≤ 1e-14`, ellipse.py 84): the square of the
distance to the centre exceeds the square of the half width of the box by at most `1e-14`. -/
theorem C29_ellipse_bounds_tolerance_partial (e : Ellipse)
    (he : e.v1.1 * e.v2.2 - e.v1.2 * e.v2.1 ≠ 0)
    (hacc : |e.v1.1 * e.v2.1 + e.v1.2 * e.v2.2| ≤ 1 / 10 ^ 14) (y : ℝ × ℝ) (h : e.inside y = true) :
    ∃ r, e.bounds = ((e.center.1 - r, e.center.2 - r), (e.center.1 + r, e.center.2 + r)) ∧
      (y.1 - e.center.1) ^ 2 ≤ r ^ 2 + 1 / 10 ^ 14 ∧ (y.2 - e.center.2) ^ 2 ≤ r ^ 2 + 1 / 10 ^ 14 := by
  refine ⟨_, rfl, ?_⟩
  set r := max (Real.sqrt (e.v1.1 ^ 2 + e.v1.2 ^ 2)) (Real.sqrt (e.v2.1 ^ 2 + e.v2.2 ^ 2)) with hr
  have hr0 : 0 ≤ r := le_trans (Real.sqrt_nonneg _) (le_max_left _ _)
  have key := Ellipse.sq_le (e := e) he y h (r ^ 2)
    ((Real.sqrt_le_left hr0).1 (le_max_left _ _)) ((Real.sqrt_le_left hr0).1 (le_max_right _ _))
  constructor <;> nlinarith [sq_nonneg (y.2 - e.center.2), sq_nonneg (y.1 - e.center.1)]

/-- C29 does not hold for all accepted ellipses: with axes which are orthogonal up to the tolerance
only, a point of the ellipse is outside of the box. -/
theorem C29_ellipse_bounds_negation : ∃ (e : Ellipse) (y : ℝ × ℝ),
    e.v1.1 * e.v2.2 - e.v1.2 * e.v2.1 ≠ 0 ∧ |e.v1.1 * e.v2.1 + e.v1.2 * e.v2.2| ≤ 1 / 10 ^ 14 ∧
    e.inside y = true ∧ ¬ InBox e.bounds y := by
  set t : ℝ := 1 / 10 ^ 15 with ht
  set A : ℝ := 2 * t / (1 + t ^ 2) with hA
  set B : ℝ := (1 - t ^ 2) / (1 + t ^ 2) with hB
  have hAB : A ^ 2 + B ^ 2 = 1 := by
    rw [hA, hB]; field_simp; ring
  have hB0 : B ≠ 0 := by rw [hB, ht]; norm_num
  refine ⟨⟨(0, 0), (1, 0), (A, B)⟩, comb2 (0, 0) (1, 0) (A, B) B A, by simpa using hB0, ?_, ?_, ?_⟩
  · simp only [one_mul, zero_mul, add_zero]
    rw [hA, ht, abs_of_nonneg (by positivity)]; norm_num
  · rw [C28_ellipse_inside _ (by simpa using hB0)]
    exact ⟨B, A, by rw [add_comm]; exact hAB.le, rfl⟩
  · intro h
    have h2 := h.2.1
    unfold Ellipse.bounds comb2 at h2
    simp only [hAB] at h2
    have : B + A * A ≤ 1 := by
      have e1 : Real.sqrt ((1 : ℝ) ^ 2 + 0 ^ 2) = 1 := by norm_num
      rw [e1, Real.sqrt_one, max_self] at h2
      linarith
    rw [hA, hB, ht] at this
    norm_num at this

example : ∃ e : Ellipse, e.v1.1 * e.v2.2 - e.v1.2 * e.v2.1 ≠ 0 ∧
    e.v1.1 * e.v2.1 + e.v1.2 * e.v2.2 = 0 ∧ e.inside (1, 1) = true := by
  refine ⟨⟨(0, 0), (2, 2), (-1, 1)⟩, by norm_num, by norm_num, ?_⟩
  unfold Ellipse.inside; rw [decide_eq_true_eq]; norm_num [Ellipse.form, Ellipse.tv]

/-! ### Ellipsoids -/

/-- The quadratic form of the ellipsoid. -/
def Ellipsoid.form (e : Ellipsoid) (X Y Z : ℝ) : ℝ :=
  let k := e.coeffs
  k.cxx * X ^ 2 + k.cyy * Y ^ 2 + k.czz * Z ^ 2 + k.cxy * X * Y + k.cyz * Y * Z + k.czx * Z * X

/-- Determinant of the three axes. -/
def Ellipsoid.det (e : Ellipsoid) : ℝ := inner3 e.v1 (cross e.v2 e.v3)

theorem Ellipsoid.form_comb (e : Ellipsoid) (a b c : ℝ) :
    e.form (a * e.v1.1 + b * e.v2.1 + c * e.v3.1) (a * e.v1.2.1 + b * e.v2.2.1 + c * e.v3.2.1)
      (a * e.v1.2.2 + b * e.v2.2.2 + c * e.v3.2.2) = e.det ^ 2 * (a ^ 2 + b ^ 2 + c ^ 2) := by
  unfold Ellipsoid.form Ellipsoid.coeffs Ellipsoid.det inner3 cross; ring

theorem Ellipsoid.exists_comb {e : Ellipsoid} (he : e.det ≠ 0) (X Y Z : ℝ) :
    ∃ a b c, X = a * e.v1.1 + b * e.v2.1 + c * e.v3.1 ∧
      Y = a * e.v1.2.1 + b * e.v2.2.1 + c * e.v3.2.1 ∧
      Z = a * e.v1.2.2 + b * e.v2.2.2 + c * e.v3.2.2 := by
  refine ⟨inner3 (X, Y, Z) (cross e.v2 e.v3) / e.det, inner3 (X, Y, Z) (cross e.v3 e.v1) / e.det,
    inner3 (X, Y, Z) (cross e.v1 e.v2) / e.det, ?_, ?_, ?_⟩
  all_goals
    rw [div_mul_eq_mul_div, div_mul_eq_mul_div, div_mul_eq_mul_div, ← add_div, ← add_div,
      eq_div_iff he]
    unfold Ellipsoid.det inner3 cross; ring

theorem Ellipsoid.form_pos {e : Ellipsoid} (he : e.det ≠ 0) {X Y Z : ℝ}
    (h : ¬ (X = 0 ∧ Y = 0 ∧ Z = 0)) : 0 < e.form X Y Z := by
  obtain ⟨a, b, c, rfl, rfl, rfl⟩ := Ellipsoid.exists_comb he X Y Z
  rw [Ellipsoid.form_comb]
  have : 0 < a ^ 2 + b ^ 2 + c ^ 2 := by
    by_contra hn
    have ha : a = 0 := by nlinarith [sq_nonneg a, sq_nonneg b, sq_nonneg c]
    have hb : b = 0 := by nlinarith [sq_nonneg a, sq_nonneg b, sq_nonneg c]
    have hc : c = 0 := by nlinarith [sq_nonneg a, sq_nonneg b, sq_nonneg c]
    exact h (by rw [ha, hb, hc]; simp)
  positivity

theorem Ellipsoid.mem_iff {e : Ellipsoid} (he : e.det ≠ 0) (y : V3) :
    (y ∈ ellipsoid e.center e.v1 e.v2 e.v3 ↔
      e.form (y.1 - e.center.1) (y.2.1 - e.center.2.1) (y.2.2 - e.center.2.2) ≤ e.d) ∧
    (y ∈ ellipsoidSurface e.center e.v1 e.v2 e.v3 ↔
      e.form (y.1 - e.center.1) (y.2.1 - e.center.2.1) (y.2.2 - e.center.2.2) = e.d) := by
  have hd : e.d = e.det ^ 2 := rfl
  have hpos : 0 < e.det ^ 2 := by positivity
  obtain ⟨a, b, c, hX, hY, hZ⟩ := Ellipsoid.exists_comb he (y.1 - e.center.1)
    (y.2.1 - e.center.2.1) (y.2.2 - e.center.2.2)
  have hy : y = comb3 e.center e.v1 e.v2 e.v3 a b c := by
    unfold comb3
    exact Prod.ext (by simp only; linarith)
      (Prod.ext (by simp only; linarith) (by simp only; linarith))
  have key : ∀ a' b' c', y = comb3 e.center e.v1 e.v2 e.v3 a' b' c' →
      e.form (y.1 - e.center.1) (y.2.1 - e.center.2.1) (y.2.2 - e.center.2.2) =
        e.det ^ 2 * (a' ^ 2 + b' ^ 2 + c' ^ 2) := by
    rintro a' b' c' rfl
    rw [← Ellipsoid.form_comb]
    unfold comb3
    congr 1 <;> ring
  rw [hd]
  constructor
  · constructor
    · rintro ⟨a', b', c', h, hy'⟩
      rw [key a' b' c' hy']; nlinarith
    · intro h
      rw [key a b c hy] at h
      exact ⟨a, b, c, by nlinarith, hy⟩
  · constructor
    · rintro ⟨a', b', c', h, hy'⟩
      rw [key a' b' c' hy', h, mul_one]
    · intro h
      rw [key a b c hy] at h
      exact ⟨a, b, c, mul_left_cancel₀ hpos.ne' (by rw [h, mul_one]), hy⟩

/-- The triple product, written out. -/
def triple (u v w : ℝ × ℝ × ℝ) : ℝ :=
  u.1 * (v.2.1 * w.2.2 - v.2.2 * w.2.1) + u.2.1 * (v.2.2 * w.1 - v.1 * w.2.2) +
    u.2.2 * (v.1 * w.2.1 - v.2.1 * w.1)

/-- C28 (ellipsoid): `point_inside` is membership in the ellipsoid, boundary included. -/
theorem C28_ellipsoid_inside (e : Ellipsoid) (he : triple e.v1 e.v2 e.v3 ≠ 0) (y : V3) :
    e.inside y = true ↔ y ∈ ellipsoid e.center e.v1 e.v2 e.v3 := by
  unfold Ellipsoid.inside
  rw [decide_eq_true_eq, (Ellipsoid.mem_iff (e := e) he y).1]
  rfl

/-- C28 (sphere): `point_inside` is membership in the ball, boundary included. -/
theorem C28_sphere_inside (s : Sphere) (y : V3) :
    s.inside y = true ↔ y ∈ ball s.center s.radius := by
  unfold Sphere.inside ball; rw [decide_eq_true_eq]; rfl

theorem Ellipsoid.along_form (e : Ellipsoid) (x v : V3) (m : ℝ) : ∃ a b c,
    e.alpha x v (some m) = quadAlpha a b c (some m) ∧
    a = e.form v.1 v.2.1 v.2.2 ∧
    (∀ t, e.form ((along3 x v t).1 - e.center.1) ((along3 x v t).2.1 - e.center.2.1)
      ((along3 x v t).2.2 - e.center.2.2) - e.d = a * t ^ 2 + b * t + c) := by
  refine ⟨_, _, _, rfl, rfl, fun t => ?_⟩
  unfold along3 Ellipsoid.form
  simp only
  ring

theorem Ellipsoid.hits_eq {e : Ellipsoid} (he : e.det ≠ 0) (x v : V3) (m a b c : ℝ)
    (h : ∀ t, e.form ((along3 x v t).1 - e.center.1) ((along3 x v t).2.1 - e.center.2.1)
      ((along3 x v t).2.2 - e.center.2.2) - e.d = a * t ^ 2 + b * t + c) :
    hits3 x v m (ellipsoidSurface e.center e.v1 e.v2 e.v3) = rootsIn a b c m := by
  ext t
  unfold hits3 rootsIn
  simp only [Set.mem_ofPred_eq]
  rw [(Ellipsoid.mem_iff he _).2, ← h t, sub_eq_zero]

theorem along3_zero (x v : V3) : along3 x v 0 = x := by simp [along3]
theorem along3_one (x v : V3) : along3 x v 1 = (x.1 + v.1, x.2.1 + v.2.1, x.2.2 + v.2.2) := by
  simp [along3]

theorem seen_of_hit3 {a m : ℝ} {x v : V3} {S : Set V3} (h : IsDistance a (hits3 x v m S))
    (hne : (hits3 x v m S).Nonempty) : 0 < a ∧ a ≤ m ∧ along3 x v a ∈ S := by
  rcases h with h | ⟨h, _⟩
  · exact h.1
  · rw [h] at hne; exact absurd hne Set.not_nonempty_empty

/-- C27 (ellipsoid, from a point which is not on the surface). -/
theorem C27_ellipsoid_partial (e : Ellipsoid) (he : triple e.v1 e.v2 e.v3 ≠ 0)
    (x v : V3) (hv : v ≠ 0) (m : ℝ) (hm : m < 10 ^ 16)
    (hx : x ∉ ellipsoidSurface e.center e.v1 e.v2 e.v3) :
    IsDistance (e.alpha x v (some m)) (hits3 x v m (ellipsoidSurface e.center e.v1 e.v2 e.v3)) := by
  have he' : e.det ≠ 0 := he
  obtain ⟨a, b, c, h1, h2, h3⟩ := e.along_form x v m
  rw [h1, Ellipsoid.hits_eq he' x v m a b c h3]
  have hc : c ≠ 0 := by
    intro hc
    have h4 := h3 0
    rw [along3_zero, hc] at h4
    exact hx (((Ellipsoid.mem_iff he' x).2).2 (by linarith))
  exact quadAlpha_spec (h2 ▸ Ellipsoid.form_pos he'
    (fun h => hv (Prod.ext h.1 (Prod.ext h.2.1 h.2.2)))) hc hm

/-- C27 (ellipsoid, from a point of the surface): the distance is `-1` whatever the ray meets. -/
theorem C27_ellipsoid_on_surface (e : Ellipsoid) (he : triple e.v1 e.v2 e.v3 ≠ 0)
    (x v : V3) (hv : v ≠ 0) (m : ℝ) (hx : x ∈ ellipsoidSurface e.center e.v1 e.v2 e.v3) :
    e.alpha x v (some m) = -1 := by
  have he' : e.det ≠ 0 := he
  obtain ⟨a, b, c, h1, h2, h3⟩ := e.along_form x v m
  have hc : c = 0 := by
    have h4 := h3 0
    rw [along3_zero, ((Ellipsoid.mem_iff he' x).2).1 hx] at h4
    linarith
  rw [h1, hc]
  exact quadAlpha_on_curve (h2 ▸ Ellipsoid.form_pos he'
    (fun h => hv (Prod.ext h.1 (Prod.ext h.2.1 h.2.2)))) _

/-- C24 (ellipsoid): a link which enters the ellipsoid, or leaves it from a point which is not on
the surface, is seen, at a point of the surface. -/
theorem C24_ellipsoid_links (e : Ellipsoid) (he : triple e.v1 e.v2 e.v3 ≠ 0)
    (x v : V3) (hx : x ∉ ellipsoidSurface e.center e.v1 e.v2 e.v3)
    (h : e.inside x ≠ e.inside (x.1 + v.1, x.2.1 + v.2.1, x.2.2 + v.2.2)) :
    0 < e.alpha x v (some 1) ∧ e.alpha x v (some 1) ≤ 1 ∧
      along3 x v (e.alpha x v (some 1)) ∈ ellipsoidSurface e.center e.v1 e.v2 e.v3 := by
  have he' : e.det ≠ 0 := he
  have hv : v ≠ 0 := by
    rintro rfl
    apply h
    congr 1
    simp
  refine seen_of_hit3 (C27_ellipsoid_partial e he x v hv 1 (by norm_num) hx) ?_
  obtain ⟨a, b, c, h1, h2, h3⟩ := e.along_form x v 1
  rw [Ellipsoid.hits_eq he' x v 1 a b c h3]
  apply root_of_sign
  have h4 := h3 0
  have h5 := h3 1
  rw [along3_zero] at h4
  rw [along3_one] at h5
  have hne : e.form (x.1 - e.center.1) (x.2.1 - e.center.2.1) (x.2.2 - e.center.2.2) ≠ e.d :=
    fun hh => hx (((Ellipsoid.mem_iff he' x).2).2 hh)
  have hins : ∀ y : V3, e.inside y =
      decide (e.form (y.1 - e.center.1) (y.2.1 - e.center.2.1) (y.2.2 - e.center.2.2) ≤ e.d) :=
    fun y => rfl
  rw [hins, hins] at h
  norm_num at h4 h5
  simp only at h
  by_cases hi : e.form (x.1 - e.center.1) (x.2.1 - e.center.2.1) (x.2.2 - e.center.2.2) ≤ e.d
  · have ho : ¬ e.form (x.1 + v.1 - e.center.1) (x.2.1 + v.2.1 - e.center.2.1)
        (x.2.2 + v.2.2 - e.center.2.2) ≤ e.d := by
      intro ho; apply h; simp [hi, ho]
    right
    have := lt_of_le_of_ne hi hne
    push Not at ho
    constructor <;> linarith
  · have ho : e.form (x.1 + v.1 - e.center.1) (x.2.1 + v.2.1 - e.center.2.1)
        (x.2.2 + v.2.2 - e.center.2.2) ≤ e.d := by
      by_contra ho; apply h; simp [hi, ho]
    left
    push Not at hi
    constructor <;> linarith

/-- C24 (ellipsoid): a link which enters the ellipsoid is seen. -/
theorem C24_ellipsoid_enter (e : Ellipsoid) (he : triple e.v1 e.v2 e.v3 ≠ 0) (x v : V3)
    (hout : e.inside x = false)
    (hin : e.inside (x.1 + v.1, x.2.1 + v.2.1, x.2.2 + v.2.2) = true) :
    0 < e.alpha x v (some 1) ∧ e.alpha x v (some 1) ≤ 1 ∧
      along3 x v (e.alpha x v (some 1)) ∈ ellipsoidSurface e.center e.v1 e.v2 e.v3 := by
  refine C24_ellipsoid_links e he x v (fun hx => ?_) (by rw [hout, hin]; simp)
  obtain ⟨a, b, c, hab, hy⟩ := hx
  have := (C28_ellipsoid_inside e he x).2 ⟨a, b, c, hab.le, hy⟩
  rw [hout] at this; exact absurd this (by simp)

/-- C29 (ellipsoid with orthogonal axes). -/
theorem C29_ellipsoid_bounds_partial (e : Ellipsoid) (he : triple e.v1 e.v2 e.v3 ≠ 0)
    (h12 : inner3 e.v1 e.v2 = 0) (h23 : inner3 e.v2 e.v3 = 0) (h31 : inner3 e.v3 e.v1 = 0)
    (y : V3) (h : e.inside y = true) : InBox3 e.bounds y := by
  set r := max (max (Real.sqrt (inner3 e.v1 e.v1)) (Real.sqrt (inner3 e.v2 e.v2)))
    (Real.sqrt (inner3 e.v3 e.v3)) with hr
  have hr0 : 0 ≤ r := le_trans (Real.sqrt_nonneg _) (le_max_right _ _)
  have k1 : inner3 e.v1 e.v1 ≤ r ^ 2 :=
    (Real.sqrt_le_left hr0).1 ((le_max_left _ _).trans (le_max_left _ _))
  have k2 : inner3 e.v2 e.v2 ≤ r ^ 2 :=
    (Real.sqrt_le_left hr0).1 ((le_max_right _ _).trans (le_max_left _ _))
  have k3 : inner3 e.v3 e.v3 ≤ r ^ 2 := (Real.sqrt_le_left hr0).1 (le_max_right _ _)
  obtain ⟨a, b, c, habc, rfl⟩ := (C28_ellipsoid_inside e he y).1 h
  have key : (a * e.v1.1 + b * e.v2.1 + c * e.v3.1) ^ 2 +
      (a * e.v1.2.1 + b * e.v2.2.1 + c * e.v3.2.1) ^ 2 +
      (a * e.v1.2.2 + b * e.v2.2.2 + c * e.v3.2.2) ^ 2 ≤ r ^ 2 := by
    have e1 : (a * e.v1.1 + b * e.v2.1 + c * e.v3.1) ^ 2 +
      (a * e.v1.2.1 + b * e.v2.2.1 + c * e.v3.2.1) ^ 2 +
      (a * e.v1.2.2 + b * e.v2.2.2 + c * e.v3.2.2) ^ 2 =
      a ^ 2 * inner3 e.v1 e.v1 + b ^ 2 * inner3 e.v2 e.v2 + c ^ 2 * inner3 e.v3 e.v3 := by
      unfold inner3 at *
      linear_combination 2 * a * b * h12 + 2 * b * c * h23 + 2 * c * a * h31
    rw [e1]
    have m1 := mul_le_mul_of_nonneg_left k1 (sq_nonneg a)
    have m2 := mul_le_mul_of_nonneg_left k2 (sq_nonneg b)
    have m3 := mul_le_mul_of_nonneg_left k3 (sq_nonneg c)
    have m4 := mul_le_mul_of_nonneg_right habc (sq_nonneg r)
    nlinarith
  have h1 := abs_le.1 (abs_le_of_sq_le_sq (a := a * e.v1.1 + b * e.v2.1 + c * e.v3.1) (b := r)
    (by nlinarith [sq_nonneg (a * e.v1.2.1 + b * e.v2.2.1 + c * e.v3.2.1),
      sq_nonneg (a * e.v1.2.2 + b * e.v2.2.2 + c * e.v3.2.2)]) hr0)
  have h2 := abs_le.1 (abs_le_of_sq_le_sq (a := a * e.v1.2.1 + b * e.v2.2.1 + c * e.v3.2.1) (b := r)
    (by nlinarith [sq_nonneg (a * e.v1.1 + b * e.v2.1 + c * e.v3.1),
      sq_nonneg (a * e.v1.2.2 + b * e.v2.2.2 + c * e.v3.2.2)]) hr0)
  have h3 := abs_le.1 (abs_le_of_sq_le_sq (a := a * e.v1.2.2 + b * e.v2.2.2 + c * e.v3.2.2) (b := r)
    (by nlinarith [sq_nonneg (a * e.v1.1 + b * e.v2.1 + c * e.v3.1),
      sq_nonneg (a * e.v1.2.1 + b * e.v2.2.1 + c * e.v3.2.1)]) hr0)
  unfold InBox3 Ellipsoid.bounds comb3
  simp only [← hr]
  refine ⟨?_, ?_, ?_, ?_, ?_, ?_⟩ <;> linarith [h1.1, h1.2, h2.1, h2.2, h3.1, h3.2]

example : ∃ e : Ellipsoid, triple e.v1 e.v2 e.v3 ≠ 0 ∧ inner3 e.v1 e.v2 = 0 ∧
    inner3 e.v2 e.v3 = 0 ∧ inner3 e.v3 e.v1 = 0 ∧ e.inside (0, 0, 4) = false ∧
    e.inside (0 + 1, 0 + 1, 4 + -2) = true := by
  refine ⟨⟨(0, 0, 0), (2, 2, 0), (-1, 1, 0), (0, 0, 3)⟩, by norm_num [triple], by norm_num [inner3],
    by norm_num [inner3], by norm_num [inner3], ?_, ?_⟩
  · unfold Ellipsoid.inside; rw [decide_eq_false_iff_not]
    norm_num [Ellipsoid.coeffs, Ellipsoid.d, cross, inner3]
  · unfold Ellipsoid.inside; rw [decide_eq_true_eq]
    norm_num [Ellipsoid.coeffs, Ellipsoid.d, cross, inner3]

/-! ### Spheres -/

theorem Sphere.det_ne {s : Sphere} (hs : s.radius ≠ 0) :
    triple s.ellipsoid.v1 s.ellipsoid.v2 s.ellipsoid.v3 ≠ 0 := by
  unfold Sphere.ellipsoid triple
  simp only [mul_one, mul_zero, sub_zero, add_zero, zero_mul]
  exact mul_ne_zero hs (mul_ne_zero hs hs)

theorem Sphere.form_eq (s : Sphere) (X Y Z : ℝ) :
    s.ellipsoid.form X Y Z = s.radius ^ 4 * (X ^ 2 + Y ^ 2 + Z ^ 2) ∧
    s.ellipsoid.d = s.radius ^ 4 * s.radius ^ 2 := by
  unfold Sphere.ellipsoid Ellipsoid.form Ellipsoid.coeffs Ellipsoid.d inner3 cross
  simp only
  constructor <;> ring

theorem Sphere.surface_eq {s : Sphere} (hs : s.radius ≠ 0) :
    ellipsoidSurface s.ellipsoid.center s.ellipsoid.v1 s.ellipsoid.v2 s.ellipsoid.v3 =
      sphere s.center s.radius := by
  have hp : s.radius ^ 4 ≠ 0 := by positivity
  ext y
  rw [(Ellipsoid.mem_iff (e := s.ellipsoid) (Sphere.det_ne hs) y).2, (s.form_eq _ _ _).1,
    (s.form_eq 0 0 0).2]
  unfold sphere
  simp only [Set.mem_ofPred_eq]
  exact ⟨fun h => mul_left_cancel₀ hp h, fun h => by
    have : s.ellipsoid.center = s.center := rfl
    rw [this, h]⟩

theorem Sphere.inside_eq {s : Sphere} (hs : s.radius ≠ 0) (y : V3) :
    s.ellipsoid.inside y = s.inside y := by
  have hp : 0 < s.radius ^ 4 := by positivity
  have h1 : s.ellipsoid.inside y = decide (s.ellipsoid.form (y.1 - s.center.1)
    (y.2.1 - s.center.2.1) (y.2.2 - s.center.2.2) ≤ s.ellipsoid.d) := rfl
  rw [h1, (s.form_eq _ _ _).1, (s.form_eq 0 0 0).2]
  unfold Sphere.inside
  apply decide_eq_decide.2
  exact mul_le_mul_iff_right₀ hp

/-- C27 (sphere, from a point which is not on it). -/
theorem C27_sphere_partial (s : Sphere) (hs : s.radius ≠ 0) (x v : V3) (hv : v ≠ 0) (m : ℝ)
    (hm : m < 10 ^ 16) (hx : x ∉ sphere s.center s.radius) :
    IsDistance (s.ellipsoid.alpha x v (some m)) (hits3 x v m (sphere s.center s.radius)) := by
  rw [← Sphere.surface_eq hs] at hx ⊢
  exact C27_ellipsoid_partial s.ellipsoid (Sphere.det_ne hs) x v hv m hm hx

/-- C24 (sphere): a link which enters the ball, or leaves it from a point which is not on the
sphere, is seen, at a point of the sphere. -/
theorem C24_sphere_links (s : Sphere) (hs : s.radius ≠ 0) (x v : V3)
    (hx : x ∉ sphere s.center s.radius)
    (h : s.inside x ≠ s.inside (x.1 + v.1, x.2.1 + v.2.1, x.2.2 + v.2.2)) :
    0 < s.ellipsoid.alpha x v (some 1) ∧ s.ellipsoid.alpha x v (some 1) ≤ 1 ∧
      along3 x v (s.ellipsoid.alpha x v (some 1)) ∈ sphere s.center s.radius := by
  rw [← Sphere.surface_eq hs] at hx ⊢
  exact C24_ellipsoid_links s.ellipsoid (Sphere.det_ne hs) x v hx
    (by rw [Sphere.inside_eq hs, Sphere.inside_eq hs]; exact h)

/-- C24 (sphere): a link which enters the ball is seen. -/
theorem C24_sphere_enter (s : Sphere) (hs : s.radius ≠ 0) (x v : V3) (hout : s.inside x = false)
    (hin : s.inside (x.1 + v.1, x.2.1 + v.2.1, x.2.2 + v.2.2) = true) :
    0 < s.ellipsoid.alpha x v (some 1) ∧ s.ellipsoid.alpha x v (some 1) ≤ 1 ∧
      along3 x v (s.ellipsoid.alpha x v (some 1)) ∈ sphere s.center s.radius := by
  refine C24_sphere_links s hs x v (fun hx => ?_) (by rw [hout, hin]; simp)
  have := (C28_sphere_inside s x).2 (le_of_eq hx)
  rw [hout] at this; exact absurd this (by simp)

/-- C29 (sphere). -/
theorem C29_sphere_bounds (s : Sphere) (hr : 0 ≤ s.radius) (y : V3) (h : s.inside y = true) :
    InBox3 s.bounds y := by
  unfold Sphere.inside at h
  rw [decide_eq_true_eq] at h
  have h1 := abs_le.1 (abs_le_of_sq_le_sq (a := y.1 - s.center.1) (b := s.radius)
    (by nlinarith [sq_nonneg (y.2.1 - s.center.2.1), sq_nonneg (y.2.2 - s.center.2.2)]) hr)
  have h2 := abs_le.1 (abs_le_of_sq_le_sq (a := y.2.1 - s.center.2.1) (b := s.radius)
    (by nlinarith [sq_nonneg (y.1 - s.center.1), sq_nonneg (y.2.2 - s.center.2.2)]) hr)
  have h3 := abs_le.1 (abs_le_of_sq_le_sq (a := y.2.2 - s.center.2.2) (b := s.radius)
    (by nlinarith [sq_nonneg (y.1 - s.center.1), sq_nonneg (y.2.1 - s.center.2.1)]) hr)
  unfold InBox3 Sphere.bounds
  simp only
  refine ⟨?_, ?_, ?_, ?_, ?_, ?_⟩ <;> linarith [h1.1, h1.2, h2.1, h2.2, h3.1, h3.2]

example : (⟨(1, 2, 0), 3⟩ : Sphere).inside (2, 4, 1) = true ∧
    (⟨(1, 2, 0), 3⟩ : Sphere).inside (4, 4, 1) = false := by
  constructor
  · unfold Sphere.inside; rw [decide_eq_true_eq]; norm_num
  · unfold Sphere.inside; rw [decide_eq_false_iff_not]; norm_num

end Pylbm.Geometry
