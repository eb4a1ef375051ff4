import Verif.Geometry.Labels
/-!
# The sections of `CylinderCircle` and `CylinderEllipse` (C28)

`BaseCircle.__init__` (base.py 158-162) makes the second vector orthogonal to the first one, but only the base keeps that
vector, and never uses it: the frame of the cylinder is filled before with the vectors of the user (cylinder.py 45-49, 334-342).
-/
set_option linter.unusedSectionVars false
namespace Pylbm.Geometry
open GeometrySpec

/-- The disc of centre `c` in the plane spanned by `v1` and `v2`, of radius `|v1|`. -/
def InDisc (c v1 v2 y : ℝ × ℝ × ℝ) : Prop :=
  ∃ a b, y = comb3 c v1 v2 (0, 0, 0) a b 0 ∧
    inner3 (comb3 (0, 0, 0) v1 v2 (0, 0, 0) a b 0) (comb3 (0, 0, 0) v1 v2 (0, 0, 0) a b 0) ≤ inner3 v1 v1

/-- The ellipse of centre `c` and half axes `v1` and `v2`. -/
def InEllipse (c v1 v2 y : ℝ × ℝ × ℝ) : Prop :=
  ∃ a b, y = comb3 c v1 v2 (0, 0, 0) a b 0 ∧
    (inner3 (comb3 (0, 0, 0) v1 v2 (0, 0, 0) a b 0) v1 / inner3 v1 v1) ^ 2 +
      (inner3 (comb3 (0, 0, 0) v1 v2 (0, 0, 0) a b 0) v2 / inner3 v2 v2) ^ 2 ≤ 1

/-- The section of the round cylinders by the plane of `v1` and `v2`. -/
theorem section_iff (center v1 v2 w : ℝ × ℝ × ℝ) (lside lbot ltop : Int) (hc : inner3 v1 (cross v2 w) ≠ 0) (a b : ℝ) :
    (cylinderCircle center v1 v2 w lside lbot ltop).inside (comb3 center v1 v2 (0, 0, 0) a b 0) = true ↔
      a ^ 2 + b ^ 2 ≤ 1 := by
  have e : comb3 center v1 v2 (0, 0, 0) a b 0 = comb3 center v1 v2 w a b 0 := by
    unfold comb3; simp only; ext <;> simp
  rw [C28_cylinder_disc_inside _ lside rfl hc, e]
  constructor
  · rintro ⟨a', b', d', h1, -, h3⟩
    have h := Cyl.coords_comb (cylinderCircle center v1 v2 w lside lbot ltop) hc (comb3 center v1 v2 w a b 0)
    have h4 := ((h a b 0).2 rfl).symm.trans ((h a' b' d').2 h3)
    simp only [Prod.mk.injEq] at h4
    rw [h4.1, h4.2.1]; exact h1
  · intro h
    exact ⟨a, b, 0, h, by norm_num, rfl⟩

theorem comb_cancel {center v1 v2 w : ℝ × ℝ × ℝ} (hc : inner3 v1 (cross v2 w) ≠ 0) {a b a' b' : ℝ}
    (h : comb3 center v1 v2 (0, 0, 0) a b 0 = comb3 center v1 v2 (0, 0, 0) a' b' 0) : a = a' ∧ b = b' := by
  have e : ∀ a b, comb3 center v1 v2 (0, 0, 0) a b 0 = comb3 center v1 v2 w a b 0 := by
    intro a b; unfold comb3; simp only; ext <;> simp
  rw [e, e] at h
  have h' := Cyl.coords_comb (⟨center, v1, v2, w, baseDisc 0, 0, 0⟩ : Cyl ℝ) hc (comb3 center v1 v2 w a b 0)
  have h4 := ((h' a b 0).2 rfl).symm.trans ((h' a' b' 0).2 h)
  simp only [Prod.mk.injEq] at h4
  exact ⟨h4.1, h4.2.1⟩

/-- **C28, `CylinderCircle`.** With two vectors of the same norm, the section by their plane is the disc if and only if they are
orthogonal: the vector which `BaseCircle` makes orthogonal is not used. -/
theorem C28_round_iff (center v1 v2 w : ℝ × ℝ × ℝ) (lside lbot ltop : Int) (hc : inner3 v1 (cross v2 w) ≠ 0)
    (hn : inner3 v1 v1 = inner3 v2 v2) :
    (∀ a b, (cylinderCircle center v1 v2 w lside lbot ltop).inside (comb3 center v1 v2 (0, 0, 0) a b 0) = true ↔
      InDisc center v1 v2 (comb3 center v1 v2 (0, 0, 0) a b 0)) ↔ inner3 v1 v2 = 0 := by
  have hq : ∀ a b, inner3 (comb3 (0, 0, 0) v1 v2 (0, 0, 0) a b 0) (comb3 (0, 0, 0) v1 v2 (0, 0, 0) a b 0) =
      (a ^ 2 + b ^ 2) * inner3 v1 v1 + 2 * (a * b) * inner3 v1 v2 := by
    intro a b
    have : inner3 (comb3 (0, 0, 0) v1 v2 (0, 0, 0) a b 0) (comb3 (0, 0, 0) v1 v2 (0, 0, 0) a b 0) =
      a ^ 2 * inner3 v1 v1 + b ^ 2 * inner3 v2 v2 + 2 * (a * b) * inner3 v1 v2 := by
      unfold comb3 inner3; simp only; ring
    rw [this, ← hn]; ring
  have hd : ∀ a b, InDisc center v1 v2 (comb3 center v1 v2 (0, 0, 0) a b 0) ↔
      (a ^ 2 + b ^ 2) * inner3 v1 v1 + 2 * (a * b) * inner3 v1 v2 ≤ inner3 v1 v1 := by
    intro a b
    constructor
    · rintro ⟨a', b', h1, h2⟩
      obtain ⟨rfl, rfl⟩ := comb_cancel hc h1
      rwa [hq] at h2
    · intro h
      exact ⟨a, b, rfl, by rw [hq]; exact h⟩
  have hpos : 0 < inner3 v1 v1 := by
    refine lt_of_le_of_ne (by unfold inner3; nlinarith [mul_self_nonneg v1.1, mul_self_nonneg v1.2.1, mul_self_nonneg v1.2.2])
      fun h => hc ?_
    unfold inner3 at h
    have h1 : v1.1 = 0 := by nlinarith [mul_self_nonneg v1.1, mul_self_nonneg v1.2.1, mul_self_nonneg v1.2.2]
    have h2 : v1.2.1 = 0 := by nlinarith [mul_self_nonneg v1.1, mul_self_nonneg v1.2.1, mul_self_nonneg v1.2.2]
    have h3 : v1.2.2 = 0 := by nlinarith [mul_self_nonneg v1.1, mul_self_nonneg v1.2.1, mul_self_nonneg v1.2.2]
    unfold inner3; rw [h1, h2, h3]; ring
  constructor
  · intro h
    by_contra hp
    -- a point of the diagonal just inside
    have hs : (Real.sqrt 2 / 2) ^ 2 = 1 / 2 := by
      rw [div_pow, Real.sq_sqrt (by norm_num)]; norm_num
    set t := Real.sqrt 2 / 2 with ht
    rcases lt_or_gt_of_ne hp with hp | hp
    · have h1 := (hd t (-t)).1 ((h t (-t)).1 ((section_iff center v1 v2 w lside lbot ltop hc _ _).2 (by
        rw [neg_sq, hs]; norm_num)))
      have e : t * -t = -(1 / 2) := by rw [← hs]; ring
      rw [neg_sq, hs, e] at h1
      linarith
    · have h1 := (hd t t).1 ((h t t).1 ((section_iff center v1 v2 w lside lbot ltop hc _ _).2 (by
        rw [hs]; norm_num)))
      have e : t * t = 1 / 2 := by rw [← hs]; ring
      rw [hs, e] at h1
      linarith
  · intro hp a b
    rw [section_iff center v1 v2 w lside lbot ltop hc, hd, hp]
    constructor
    · intro h; nlinarith
    · intro h
      by_contra hlt
      push Not at hlt
      nlinarith

/-- **C28, `CylinderEllipse`.** The section is the ellipse with the half axes `v1` and `v2` if and only if they are orthogonal
(base.py 273-281 writes a message and goes on). -/
theorem C28_ellipse_iff (center v1 v2 w : ℝ × ℝ × ℝ) (lside lbot ltop : Int) (hc : inner3 v1 (cross v2 w) ≠ 0)
    (h1 : inner3 v1 v1 ≠ 0) (h2 : inner3 v2 v2 ≠ 0) :
    (∀ a b, (cylinderCircle center v1 v2 w lside lbot ltop).inside (comb3 center v1 v2 (0, 0, 0) a b 0) = true ↔
      InEllipse center v1 v2 (comb3 center v1 v2 (0, 0, 0) a b 0)) ↔ inner3 v1 v2 = 0 := by
  have hq : ∀ a b, inner3 (comb3 (0, 0, 0) v1 v2 (0, 0, 0) a b 0) v1 = a * inner3 v1 v1 + b * inner3 v1 v2 ∧
      inner3 (comb3 (0, 0, 0) v1 v2 (0, 0, 0) a b 0) v2 = a * inner3 v1 v2 + b * inner3 v2 v2 := by
    intro a b
    constructor <;> (unfold comb3 inner3; simp only; ring)
  have hd : ∀ a b, InEllipse center v1 v2 (comb3 center v1 v2 (0, 0, 0) a b 0) ↔
      ((a * inner3 v1 v1 + b * inner3 v1 v2) / inner3 v1 v1) ^ 2 +
        ((a * inner3 v1 v2 + b * inner3 v2 v2) / inner3 v2 v2) ^ 2 ≤ 1 := by
    intro a b
    constructor
    · rintro ⟨a', b', e1, e2⟩
      obtain ⟨rfl, rfl⟩ := comb_cancel hc e1
      rwa [(hq _ _).1, (hq _ _).2] at e2
    · intro h
      exact ⟨a, b, rfl, by rw [(hq _ _).1, (hq _ _).2]; exact h⟩
  constructor
  · intro h
    have h3 := (hd 1 0).1 ((h 1 0).1 ((section_iff center v1 v2 w lside lbot ltop hc _ _).2 (by norm_num)))
    rw [zero_mul, add_zero, zero_mul, add_zero, one_mul, one_mul, div_self h1, one_pow] at h3
    have h4 : (inner3 v1 v2 / inner3 v2 v2) ^ 2 = 0 := le_antisymm (by linarith) (sq_nonneg _)
    have h5 := pow_eq_zero_iff (two_ne_zero) |>.1 h4
    exact (div_eq_zero_iff.1 h5).resolve_right h2
  · intro hp a b
    rw [section_iff center v1 v2 w lside lbot ltop hc, hd, hp, mul_zero, mul_zero, add_zero, zero_add,
      mul_div_cancel_right₀ _ h1, mul_div_cancel_right₀ _ h2]

/-- A case for C28: `v1 = (5, 0, 0)`, `v2 = (3, 4, 0)` have the same norm and are not orthogonal. -/
example : ¬ ∀ a b, (cylinderCircle (0, 0, 0) (5, 0, 0) (3, 4, 0) (0, 0, 1) 0 0 0).inside
    (comb3 (0, 0, 0) (5, 0, 0) (3, 4, 0) (0, 0, 0) a b 0) = true ↔
      InDisc (0, 0, 0) (5, 0, 0) (3, 4, 0) (comb3 (0, 0, 0) (5, 0, 0) (3, 4, 0) (0, 0, 0) a b 0) := by
  rw [C28_round_iff _ _ _ _ _ _ _ (by norm_num [inner3, cross]) (by norm_num [inner3])]
  norm_num [inner3]

/-- And the canonical cylinder of the documentation is round. -/
example (a b : ℝ) : (cylinderCircle (0, 0, 1 / 2) (1, 0, 0) (0, 1, 0) (0, 0, 1) 0 0 0).inside
    (comb3 (0, 0, 1 / 2) (1, 0, 0) (0, 1, 0) (0, 0, 0) a b 0) = true ↔
      InDisc (0, 0, 1 / 2) (1, 0, 0) (0, 1, 0) (comb3 (0, 0, 1 / 2) (1, 0, 0) (0, 1, 0) (0, 0, 0) a b 0) :=
  (C28_round_iff _ _ _ _ _ _ _ (by norm_num [inner3, cross]) (by norm_num [inner3])).2 (by norm_num [inner3]) a b

end Pylbm.Geometry
