import Verif.Domain.Units
import Verif.Domain.MirrorLibrary
import Verif.Domain.Space
/-!
# The elements of the library in other coordinates (C89)
-/
set_option linter.unusedSectionVars false
namespace Pylbm.Domain
open Round Storage DomainSpec Geometry GeometrySpec

/-! ## Specification: the parameters which a user writes -/

section
variable {R : Type} [CommRing R]

/-- A vector of the plane in the new unit. -/
def scV (a : R) (v : R × R) : R × R := (a * v.1, a * v.2)

/-- A point of the plane in the new coordinates. -/
def trP (a : R) (b : Fin 2 → R) (x : R × R) : R × R := (a * x.1 + b 0, a * x.2 + b 1)

/-- A vector of the space in the new unit. -/
def scV3 (a : R) (v : R × R × R) : R × R × R := (a * v.1, a * v.2.1, a * v.2.2)

/-- A point of the space in the new coordinates. -/
def trP3 (a : R) (b : Fin 3 → R) (x : R × R × R) : R × R × R := (a * x.1 + b 0, a * x.2.1 + b 1, a * x.2.2 + b 2)

end

/-- The same shape in the new coordinates. -/
def Shape.inCoords (a : ℝ) (b : Fin 2 → ℝ) : Shape → Shape
  | .triangle q l0 l1 l2 => .triangle ⟨trP a b q.point, scV a q.v1, scV a q.v2⟩ l0 l1 l2
  | .parallelogram q l0 l1 l2 l3 => .parallelogram ⟨trP a b q.point, scV a q.v1, scV a q.v2⟩ l0 l1 l2 l3
  | .circle c l => .circle ⟨trP a b c.center, a * c.radius⟩ l
  | .ellipse e l => .ellipse ⟨trP a b e.center, scV a e.v1, scV a e.v2⟩ l

/-- The same cylinder in the new coordinates. -/
def Cyl.inCoords {K : Type} [Field K] (a : K) (b : Fin 3 → K) (c : Cyl K) : Cyl K :=
  { c with center := trP3 a b c.center, v1 := scV3 a c.v1, v2 := scV3 a c.v2, w := scV3 a c.w }

/-! ## Lemmas -/

section
variable {K : Type} [Field K] [LinearOrder K] [IsStrictOrderedRing K]

theorem ratio_scale {r : K} (hr : r ≠ 0) (n d : K) : (r * n) * (1 / (r * d)) = n * (1 / d) := by
  rw [mul_one_div, mul_one_div, mul_div_mul_left _ _ hr]

theorem intersection_scale {a : K} (ha : 0 < a) (p1 v1 p2 v2 : V2 K) :
    intersectionTwoLines (scV a p1) (scV a v1) (scV a p2) (scV a v2) = intersectionTwoLines p1 v1 p2 v2 := by
  have ha2 : a * a ≠ 0 := mul_ne_zero ha.ne' ha.ne'
  unfold intersectionTwoLines scV
  simp only
  have hd : a * v1.2 * (a * v2.1) - a * v1.1 * (a * v2.2) = a * a * (v1.2 * v2.1 - v1.1 * v2.2) := by ring
  rw [hd]
  by_cases h : v1.2 * v2.1 - v1.1 * v2.2 = 0
  · simp [h]
  · rw [if_pos (mul_ne_zero ha2 h), if_pos h]
    congr 2
    · refine Eq.trans ?_ (ratio_scale ha2 _ _); ring
    · refine Eq.trans ?_ (ratio_scale ha2 _ _); ring

theorem lines_scale {a : K} (ha : 0 < a) (nf : V2 K → V2 K → V2 K) (hnf : ∀ v vt, nf (scV a v) (scV a vt) = nf v vt)
    (x v : V2 K) (edges : List (Edge K)) (dmax : Option K) :
    distanceLines (nf (scV a v)) (0, 0) (scV a x) (scV a v)
        (edges.map fun e => ⟨scV a e.p, scV a e.vt, e.label⟩) dmax =
      distanceLines (nf v) (0, 0) x v edges dmax := by
  have key : ∀ (edges : List (Edge K)) (h : Hit K (V2 K)),
      (edges.map fun e => (⟨scV a e.p, scV a e.vt, e.label⟩ : Edge K)).foldl
          (lineStep (nf (scV a v)) (scV a x) (scV a v) dmax) h = edges.foldl (lineStep (nf v) x v dmax) h := by
    intro edges
    induction edges with
    | nil => intro h; rfl
    | cons e l ih =>
      intro h
      rw [List.map_cons, List.foldl_cons, List.foldl_cons, ← ih]
      congr 1
      unfold lineStep
      simp only [intersection_scale ha, hnf]
  unfold distanceLines
  rw [key]

theorem trP_sub (a : K) (b : Fin 2 → K) (x p : K × K) :
    ((trP a b x).1 - (trP a b p).1, (trP a b x).2 - (trP a b p).2) = scV a (x.1 - p.1, x.2 - p.2) := by
  unfold trP scV
  simp only
  congr 1 <;> ring

theorem bary_scale {a : K} (ha : 0 < a) (b : Fin 2 → K) (q : Quad K) (x : K × K) :
    Quad.bary ⟨trP a b q.point, scV a q.v1, scV a q.v2⟩ (trP a b x) = q.bary x := by
  have hs := trP_sub a b x q.point
  have hs1 := congrArg Prod.fst hs
  have hs2 := congrArg Prod.snd hs
  simp only at hs1 hs2
  have ha2 : a * a ≠ 0 := mul_ne_zero ha.ne' ha.ne'
  unfold Quad.bary
  simp only
  rw [hs1, hs2]
  unfold scV
  simp only
  rw [show a * q.v1.1 * (a * q.v2.2) - a * q.v1.2 * (a * q.v2.1) = a * a * (q.v1.1 * q.v2.2 - q.v1.2 * q.v2.1) by ring]
  congr 1
  · refine Eq.trans ?_ (ratio_scale ha2 _ _); ring
  · refine Eq.trans ?_ (ratio_scale ha2 _ _); ring

theorem min_affine {a : K} (ha : 0 < a) (b x y : K) : min (a * x + b) (a * y + b) = a * min x y + b := by
  rw [mul_min_of_nonneg _ _ ha.le, min_add_add_right]

theorem max_affine {a : K} (ha : 0 < a) (b x y : K) : max (a * x + b) (a * y + b) = a * max x y + b := by
  rw [mul_max_of_nonneg _ _ ha.le, max_add_add_right]

theorem mn_affine {a : K} (ha : 0 < a) (b p u v : K) :
    min (min (min (a * p + b) (a * p + b + a * u)) (a * p + b + a * u + a * v)) (a * p + b + a * v) =
      a * min (min (min p (p + u)) (p + u + v)) (p + v) + b := by
  rw [show a * p + b + a * u + a * v = a * (p + u + v) + b by ring, show a * p + b + a * u = a * (p + u) + b by ring,
    show a * p + b + a * v = a * (p + v) + b by ring, min_affine ha, min_affine ha, min_affine ha]

theorem mx_affine {a : K} (ha : 0 < a) (b p u v : K) :
    max (max (max (a * p + b) (a * p + b + a * u)) (a * p + b + a * u + a * v)) (a * p + b + a * v) =
      a * max (max (max p (p + u)) (p + u + v)) (p + v) + b := by
  rw [show a * p + b + a * u + a * v = a * (p + u + v) + b by ring, show a * p + b + a * u = a * (p + u) + b by ring,
    show a * p + b + a * v = a * (p + v) + b by ring, max_affine ha, max_affine ha, max_affine ha]

theorem quad_bounds_scale {a : K} (ha : 0 < a) (b : Fin 2 → K) (q : Quad K) :
    Quad.bounds ⟨trP a b q.point, scV a q.v1, scV a q.v2⟩ = (trP a b q.bounds.1, trP a b q.bounds.2) := by
  unfold Quad.bounds trP scV
  simp only [mn_affine ha, mx_affine ha]

/-- A planar element whose test, bounds and distances are the same in the new coordinates. -/
theorem planar_scale (a : K) (b : Fin 2 → K) (fluid : Bool) (B B' : (K × K) × (K × K))
    (inside inside' : K × K → Bool) (hit hit' : K × K → K × K → Hit K (K × K))
    (h0 : B' = (trP a b B.1, trP a b B.2)) (h1 : ∀ x, inside' (trP a b x) = inside x)
    (h2 : ∀ x v, hit' (trP a b x) (scV a v) = hit x v) :
    (planar fluid B inside hit).SameNormals a b (planar fluid B' inside' hit') where
  isFluid := rfl
  bl := by subst h0; funext j; fin_cases j <;> rfl
  ur := by subst h0; funext j; fin_cases j <;> rfl
  inside := fun x => h1 (x 0, x 1)
  alpha := fun x v => (congrArg Hit.alpha (h2 (x 0, x 1) (v 0, v 1)) :)
  border := fun x v => (congrArg Hit.border (h2 (x 0, x 1) (v 0, v 1)) :)
  normvect := fun x v => by
    have := congrArg Hit.normal (h2 (x 0, x 1) (v 0, v 1))
    funext j
    fin_cases j
    · exact congrArg Prod.fst this
    · exact congrArg Prod.snd this

/-- The same in the space, apart from the normals. -/
theorem spatial_scale (a : K) (b : Fin 3 → K) (fluid : Bool) (B B' : (K × K × K) × (K × K × K))
    (inside inside' : K × K × K → Bool) (hit hit' : K × K × K → K × K × K → Hit K (K × K × K))
    (h0 : B' = (trP3 a b B.1, trP3 a b B.2)) (h1 : ∀ x, inside' (trP3 a b x) = inside x)
    (h2 : ∀ x v, (hit' (trP3 a b x) (scV3 a v)).alpha = (hit x v).alpha ∧
      (hit' (trP3 a b x) (scV3 a v)).border = (hit x v).border) :
    (spatial fluid B inside hit).InCoords a b (spatial fluid B' inside' hit') where
  isFluid := rfl
  bl := by subst h0; funext j; fin_cases j <;> rfl
  ur := by subst h0; funext j; fin_cases j <;> rfl
  inside := fun x => h1 (x 0, x 1, x 2)
  alpha := fun x v => (h2 (x 0, x 1, x 2) (v 0, v 1, v 2)).1
  border := fun x v => (h2 (x 0, x 1, x 2) (v 0, v 1, v 2)).2

/-! Cylinders -/

theorem frame_scale {a : K} (ha : 0 < a) (b : Fin 3 → K) (c : Cyl K) (y : K × K × K) :
    (Cyl.inCoords a b c).frame (scV3 a y) = c.frame y := by
  have ha3 : a * a * a ≠ 0 := mul_ne_zero (mul_ne_zero ha.ne' ha.ne') ha.ne'
  have hd : (Cyl.inCoords a b c).det = a * a * a * c.det := by
    unfold Cyl.det Cyl.inCoords scV3 inner3 cross; simp only; ring
  unfold Cyl.frame
  rw [hd]
  have e1 : inner3 (cross (Cyl.inCoords a b c).v2 (Cyl.inCoords a b c).w) (scV3 a y) =
      a * a * a * inner3 (cross c.v2 c.w) y := by
    unfold Cyl.inCoords scV3 inner3 cross; simp only; ring
  have e2 : inner3 (cross (Cyl.inCoords a b c).w (Cyl.inCoords a b c).v1) (scV3 a y) =
      a * a * a * inner3 (cross c.w c.v1) y := by
    unfold Cyl.inCoords scV3 inner3 cross; simp only; ring
  have e3 : inner3 (cross (Cyl.inCoords a b c).v1 (Cyl.inCoords a b c).v2) (scV3 a y) =
      a * a * a * inner3 (cross c.v1 c.v2) y := by
    unfold Cyl.inCoords scV3 inner3 cross; simp only; ring
  rw [e1, e2, e3, mul_div_mul_left _ _ ha3, mul_div_mul_left _ _ ha3, mul_div_mul_left _ _ ha3]

theorem coords_scale {a : K} (ha : 0 < a) (b : Fin 3 → K) (c : Cyl K) (x : K × K × K) :
    (Cyl.inCoords a b c).coords (trP3 a b x) = c.coords x := by
  unfold Cyl.coords
  rw [← frame_scale ha b c]
  congr 1
  unfold trP3 Cyl.inCoords scV3 trP3
  simp only
  refine Prod.ext ?_ (Prod.ext ?_ ?_) <;> simp only <;> ring

theorem cyl_inside_scale {a : K} (ha : 0 < a) (b : Fin 3 → K) (c : Cyl K) (x : K × K × K) :
    (Cyl.inCoords a b c).inside (trP3 a b x) = c.inside x := by
  unfold Cyl.inside
  rw [coords_scale ha]
  rfl

theorem cyl_distance_scale {a : K} (ha : 0 < a) (b : Fin 3 → K) (c : Cyl K) (x v : K × K × K) (m : K) :
    (Cyl.inCoords a b c).distance (trP3 a b x) (scV3 a v) m =
      ⟨(c.distance x v m).alpha, (c.distance x v m).border, scV3 a (c.distance x v m).normal⟩ := by
  unfold Cyl.distance
  rw [coords_scale ha, frame_scale ha]
  have hp : ∀ y vc num, (Cyl.inCoords a b c).plane y vc num m = c.plane y vc num m := fun _ _ _ => rfl
  have hb : (Cyl.inCoords a b c).base = c.base := rfl
  have ht : (Cyl.inCoords a b c).ltop = c.ltop := rfl
  have hl : (Cyl.inCoords a b c).lbot = c.lbot := rfl
  simp only [hp, hb, ht, hl]
  congr 1
  unfold Cyl.inCoords scV3
  simp only
  refine Prod.ext ?_ (Prod.ext ?_ ?_) <;> simp only <;> ring

theorem cyl_bounds_scale {a : K} (ha : 0 < a) (b : Fin 3 → K) (c : Cyl K) (B : (K × K × K) × (K × K × K)) :
    (Cyl.inCoords a b c).bounds (trP3 a b B.1, trP3 a b B.2) = (trP3 a b (c.bounds B).1, trP3 a b (c.bounds B).2) := by
  unfold Cyl.bounds Cyl.inCoords scV3 trP3
  simp only [abs_mul, abs_of_pos ha]
  refine Prod.ext (Prod.ext ?_ (Prod.ext ?_ ?_)) (Prod.ext ?_ (Prod.ext ?_ ?_)) <;> simp only <;> ring

theorem corner_scale {a : K} (ha : 0 < a) (b : Fin 3 → K) (c : Cyl K) :
    (Cyl.inCoords a b c).cornerBounds = (trP3 a b c.cornerBounds.1, trP3 a b c.cornerBounds.2) := by
  unfold Cyl.cornerBounds Cyl.inCoords trP3 scV3
  simp only [mn_affine ha, mx_affine ha]

end

theorem edgeNormal_scale {a : ℝ} (ha : 0 < a) (v vt : V2 ℝ) : edgeNormal (scV a v) (scV a vt) = edgeNormal v vt := by
  unfold edgeNormal scV
  simp only
  have h1 : (a * v.1 * (a * vt.2) < a * v.2 * (a * vt.1)) = (v.1 * vt.2 < v.2 * vt.1) := by
    rw [show a * v.1 * (a * vt.2) = a * a * (v.1 * vt.2) by ring, show a * v.2 * (a * vt.1) = a * a * (v.2 * vt.1) by ring,
      mul_lt_mul_iff_right₀ (mul_pos ha ha)]
  have h2 : Real.sqrt ((a * vt.1) ^ 2 + (a * vt.2) ^ 2) = a * Real.sqrt (vt.1 ^ 2 + vt.2 ^ 2) := by
    rw [show (a * vt.1) ^ 2 + (a * vt.2) ^ 2 = a ^ 2 * (vt.1 ^ 2 + vt.2 ^ 2) by ring, Real.sqrt_mul (sq_nonneg a),
      Real.sqrt_sq ha.le]
  simp only [h1, h2]
  congr 1
  · rw [mul_left_comm, mul_div_mul_left _ _ ha.ne']
  · rw [mul_left_comm, mul_div_mul_left _ _ ha.ne']

theorem quadAlpha_scale {r : ℝ} (hr : 0 < r) (a b c : ℝ) (dmax : Option ℝ) :
    quadAlpha (r * a) (r * b) (r * c) dmax = quadAlpha a b c dmax := by
  have hd : (r * b) ^ 2 - 4 * (r * a) * (r * c) = r ^ 2 * (b ^ 2 - 4 * a * c) := by ring
  have h1 : (r ^ 2 * (b ^ 2 - 4 * a * c) ≥ 0) = (b ^ 2 - 4 * a * c ≥ 0) := by
    rw [ge_iff_le, ge_iff_le, eq_iff_iff]
    exact mul_nonneg_iff_of_pos_left (by positivity)
  have h2 : Real.sqrt (r ^ 2 * (b ^ 2 - 4 * a * c)) = r * Real.sqrt (b ^ 2 - 4 * a * c) := by
    rw [Real.sqrt_mul (sq_nonneg r), Real.sqrt_sq hr.le]
  have h3 : (r * a ≠ 0) = (a ≠ 0) := by simp [hr.ne']
  have h4 : ∀ s, (-(r * b) - r * s) / (2 * (r * a)) = (-b - s) / (2 * a) := fun s => by
    rw [show -(r * b) - r * s = r * (-b - s) by ring, show 2 * (r * a) = r * (2 * a) by ring, mul_div_mul_left _ _ hr.ne']
  have h5 : ∀ s, (-(r * b) + r * s) / (2 * (r * a)) = (-b + s) / (2 * a) := fun s => by
    rw [show -(r * b) + r * s = r * (-b + s) by ring, show 2 * (r * a) = r * (2 * a) by ring, mul_div_mul_left _ _ hr.ne']
  unfold quadAlpha
  simp only [hd, h1, h2, h3, h4, h5]

theorem sqrt_scale {a : ℝ} (ha : 0 < a) (x : ℝ) : Real.sqrt (a ^ 2 * x) = a * Real.sqrt x := by
  rw [Real.sqrt_mul (sq_nonneg a), Real.sqrt_sq ha.le]

/-- The ellipse in the new coordinates. -/
def scEllipse (a : ℝ) (b : Fin 2 → ℝ) (e : Ellipse) : Ellipse := ⟨trP a b e.center, scV a e.v1, scV a e.v2⟩

theorem ellipse_alpha_scale {a : ℝ} (ha : 0 < a) (b : Fin 2 → ℝ) (e : Ellipse) (x v : V2 ℝ) :
    (scEllipse a b e).inside (trP a b x) = e.inside x ∧
    (scEllipse a b e).alpha (trP a b x) (scV a v) (some 1) = e.alpha x v (some 1) := by
  have hs := trP_sub a b x e.center
  have hs1 := congrArg Prod.fst hs
  have hs2 := congrArg Prod.snd hs
  simp only at hs1 hs2
  have h4 : 0 < a ^ 4 := by positivity
  constructor
  · unfold Ellipse.inside Ellipse.form Ellipse.tv scEllipse
    simp only
    rw [hs1, hs2]
    unfold scV
    congr 1
    simp only [eq_iff_iff]
    constructor <;> intro h
    · refine le_of_mul_le_mul_left ?_ h4
      linarith
    · have := mul_le_mul_of_nonneg_left h h4.le
      linarith
  · unfold Ellipse.alpha scEllipse
    simp only
    rw [hs1, hs2]
    refine Eq.trans ?_ (quadAlpha_scale h4 _ _ _ _)
    unfold scV
    congr 1 <;> ring

theorem against_scale {r a : ℝ} (hr : 0 < r) (ha : 0 < a) (n v : V2 ℝ) : against (scV r n) (scV a v) = against n v := by
  unfold against scV
  simp only
  have h1 : (r * n.1 * (a * v.1) + r * n.2 * (a * v.2) > 0) = (n.1 * v.1 + n.2 * v.2 > 0) := by
    rw [show r * n.1 * (a * v.1) + r * n.2 * (a * v.2) = r * a * (n.1 * v.1 + n.2 * v.2) by ring, eq_iff_iff]
    exact mul_pos_iff_of_pos_left (mul_pos hr ha)
  simp only [h1]
  by_cases h : n.1 * v.1 + n.2 * v.2 > 0
  · simp only [h, if_true]
    rw [show (-(r * n.1)) ^ 2 + (-(r * n.2)) ^ 2 = r ^ 2 * ((-n.1) ^ 2 + (-n.2) ^ 2) by ring, sqrt_scale hr,
      ← mul_neg, ← mul_neg, mul_div_mul_left _ _ hr.ne', mul_div_mul_left _ _ hr.ne']
  · simp only [h, if_false]
    rw [show (r * n.1) ^ 2 + (r * n.2) ^ 2 = r ^ 2 * (n.1 ^ 2 + n.2 ^ 2) by ring, sqrt_scale hr,
      mul_div_mul_left _ _ hr.ne', mul_div_mul_left _ _ hr.ne']

theorem ellipseHit_scale {a : ℝ} (ha : 0 < a) (b : Fin 2 → ℝ) (e : Ellipse) (l : Int) (x v : V2 ℝ) :
    ellipseHit (scEllipse a b e) l (trP a b x) (scV a v) = ellipseHit e l x v := by
  have hn : ∀ t, (scEllipse a b e).normal (trP a b x) (scV a v) t = e.normal x v t := by
    intro t
    have hg : gradE (scEllipse a b e) (trP a b x) (scV a v) t = scV (a ^ 3) (gradE e x v t) := by
      have hs := trP_sub a b x e.center
      have hs1 := congrArg Prod.fst hs
      have hs2 := congrArg Prod.snd hs
      simp only at hs1 hs2
      unfold gradE scEllipse
      simp only
      rw [hs1, hs2]
      unfold scV
      simp only
      congr 1 <;> ring
    have h1 : (scEllipse a b e).normal (trP a b x) (scV a v) t =
        against (gradE (scEllipse a b e) (trP a b x) (scV a v) t) (scV a v) := rfl
    have h2 : e.normal x v t = against (gradE e x v t) v := rfl
    rw [h1, h2, hg, against_scale (by positivity) ha]
  unfold ellipseHit
  simp only [(ellipse_alpha_scale ha b e x v).2, hn]

theorem circle_scale (a : ℝ) (b : Fin 2 → ℝ) (c : Circle) :
    Circle.ellipse ⟨trP a b c.center, a * c.radius⟩ = scEllipse a b c.ellipse := by
  unfold Circle.ellipse scEllipse scV
  simp only [mul_one, mul_zero]

theorem ellipse_bounds_scale {a : ℝ} (ha : 0 < a) (b : Fin 2 → ℝ) (e : Ellipse) :
    (scEllipse a b e).bounds = (trP a b e.bounds.1, trP a b e.bounds.2) := by
  unfold Ellipse.bounds scEllipse scV trP
  simp only
  rw [show (a * e.v1.1) ^ 2 + (a * e.v1.2) ^ 2 = a ^ 2 * (e.v1.1 ^ 2 + e.v1.2 ^ 2) by ring,
    show (a * e.v2.1) ^ 2 + (a * e.v2.2) ^ 2 = a ^ 2 * (e.v2.1 ^ 2 + e.v2.2 ^ 2) by ring, sqrt_scale ha, sqrt_scale ha,
    ← mul_max_of_nonneg _ _ ha.le]
  refine Prod.ext (Prod.ext ?_ ?_) (Prod.ext ?_ ?_) <;> simp only <;> ring

/-! Ellipsoids -/

/-- The ellipsoid in the new coordinates. -/
def scEllipsoid (a : ℝ) (b : Fin 3 → ℝ) (e : Ellipsoid) : Ellipsoid :=
  ⟨trP3 a b e.center, scV3 a e.v1, scV3 a e.v2, scV3 a e.v3⟩

theorem coeffs_scale (a : ℝ) (b : Fin 3 → ℝ) (e : Ellipsoid) :
    (scEllipsoid a b e).coeffs = ⟨a ^ 4 * e.coeffs.cxx, a ^ 4 * e.coeffs.cyy, a ^ 4 * e.coeffs.czz, a ^ 4 * e.coeffs.cxy,
      a ^ 4 * e.coeffs.cyz, a ^ 4 * e.coeffs.czx⟩ := by
  unfold Ellipsoid.coeffs scEllipsoid scV3 cross
  simp only
  congr 1 <;> ring

theorem d_scale (a : ℝ) (b : Fin 3 → ℝ) (e : Ellipsoid) : (scEllipsoid a b e).d = a ^ 6 * e.d := by
  unfold Ellipsoid.d scEllipsoid scV3 cross inner3
  simp only
  ring

theorem trP3_sub (a : ℝ) (b : Fin 3 → ℝ) (x : V3) (e : Ellipsoid) :
    (trP3 a b x).1 - (scEllipsoid a b e).center.1 = a * (x.1 - e.center.1) ∧
    (trP3 a b x).2.1 - (scEllipsoid a b e).center.2.1 = a * (x.2.1 - e.center.2.1) ∧
    (trP3 a b x).2.2 - (scEllipsoid a b e).center.2.2 = a * (x.2.2 - e.center.2.2) := by
  unfold trP3 scEllipsoid trP3
  simp only
  refine ⟨?_, ?_, ?_⟩ <;> ring

theorem ellipsoid_inside_scale {a : ℝ} (ha : 0 < a) (b : Fin 3 → ℝ) (e : Ellipsoid) (x : V3) :
    (scEllipsoid a b e).inside (trP3 a b x) = e.inside x := by
  obtain ⟨h1, h2, h3⟩ := trP3_sub a b x e
  have h6 : 0 < a ^ 6 := by positivity
  unfold Ellipsoid.inside
  simp only [h1, h2, h3, coeffs_scale, d_scale]
  congr 1
  simp only [eq_iff_iff]
  constructor <;> intro h
  · refine le_of_mul_le_mul_left ?_ h6
    linarith
  · have := mul_le_mul_of_nonneg_left h h6.le
    linarith

theorem ellipsoid_alpha_scale {a : ℝ} (ha : 0 < a) (b : Fin 3 → ℝ) (e : Ellipsoid) (x v : V3) :
    (scEllipsoid a b e).alpha (trP3 a b x) (scV3 a v) (some 1) = e.alpha x v (some 1) := by
  obtain ⟨h1, h2, h3⟩ := trP3_sub a b x e
  have h6 : 0 < a ^ 6 := by positivity
  unfold Ellipsoid.alpha
  simp only [h1, h2, h3, coeffs_scale, d_scale, scV3]
  refine Eq.trans ?_ (quadAlpha_scale h6 _ _ _ _)
  congr 1 <;> ring

/-- The unit vector of the direction of `n` against `v`. -/
noncomputable def against3 (n v : V3) : V3 :=
  let s : ℝ := if n.1 * v.1 + n.2.1 * v.2.1 + n.2.2 * v.2.2 > 0 then -1 else 1
  let nn := Real.sqrt ((s * n.1) ^ 2 + (s * n.2.1) ^ 2 + (s * n.2.2) ^ 2)
  (s * n.1 / nn, s * n.2.1 / nn, s * n.2.2 / nn)

theorem against3_scale {r a : ℝ} (hr : 0 < r) (ha : 0 < a) (n v : V3) :
    against3 (scV3 r n) (scV3 a v) = against3 n v := by
  unfold against3 scV3
  simp only
  have h1 : (r * n.1 * (a * v.1) + r * n.2.1 * (a * v.2.1) + r * n.2.2 * (a * v.2.2) > 0) =
      (n.1 * v.1 + n.2.1 * v.2.1 + n.2.2 * v.2.2 > 0) := by
    rw [show r * n.1 * (a * v.1) + r * n.2.1 * (a * v.2.1) + r * n.2.2 * (a * v.2.2) =
      r * a * (n.1 * v.1 + n.2.1 * v.2.1 + n.2.2 * v.2.2) by ring, eq_iff_iff]
    exact mul_pos_iff_of_pos_left (mul_pos hr ha)
  simp only [h1]
  generalize (if n.1 * v.1 + n.2.1 * v.2.1 + n.2.2 * v.2.2 > 0 then (-1 : ℝ) else 1) = s
  rw [show (s * (r * n.1)) ^ 2 + (s * (r * n.2.1)) ^ 2 + (s * (r * n.2.2)) ^ 2 =
    r ^ 2 * ((s * n.1) ^ 2 + (s * n.2.1) ^ 2 + (s * n.2.2) ^ 2) by ring, sqrt_scale hr]
  refine Prod.ext ?_ (Prod.ext ?_ ?_) <;> simp only <;> rw [mul_left_comm, mul_div_mul_left _ _ hr.ne']

/-- The gradient at the point of the ellipsoid. -/
def gradS (e : Ellipsoid) (x v : V3) (t : ℝ) : V3 :=
  let k := e.coeffs
  let Xe := x.1 - e.center.1 + t * v.1
  let Ye := x.2.1 - e.center.2.1 + t * v.2.1
  let Ze := x.2.2 - e.center.2.2 + t * v.2.2
  (2 * k.cxx * Xe + k.cxy * Ye + k.czx * Ze, 2 * k.cyy * Ye + k.cxy * Xe + k.cyz * Ze,
    2 * k.czz * Ze + k.czx * Xe + k.cyz * Ye)

theorem ellipsoidHit_scale {a : ℝ} (ha : 0 < a) (b : Fin 3 → ℝ) (e : Ellipsoid) (l : Int) (x v : V3) :
    ellipsoidHit (scEllipsoid a b e) l (trP3 a b x) (scV3 a v) = ellipsoidHit e l x v := by
  have hn : ∀ t, (scEllipsoid a b e).normal (trP3 a b x) (scV3 a v) t = e.normal x v t := by
    intro t
    have hg : gradS (scEllipsoid a b e) (trP3 a b x) (scV3 a v) t = scV3 (a ^ 5) (gradS e x v t) := by
      obtain ⟨h1, h2, h3⟩ := trP3_sub a b x e
      unfold gradS
      simp only [h1, h2, h3, coeffs_scale]
      unfold scV3
      simp only
      refine Prod.ext ?_ (Prod.ext ?_ ?_) <;> simp only <;> ring
    have h1 : (scEllipsoid a b e).normal (trP3 a b x) (scV3 a v) t =
        against3 (gradS (scEllipsoid a b e) (trP3 a b x) (scV3 a v) t) (scV3 a v) := rfl
    have h2 : e.normal x v t = against3 (gradS e x v t) v := rfl
    rw [h1, h2, hg, against3_scale (by positivity) ha]
  unfold ellipsoidHit
  simp only [ellipsoid_alpha_scale ha b e x v, hn]

theorem sphere_scale (a : ℝ) (b : Fin 3 → ℝ) (s : Sphere) :
    Sphere.ellipsoid ⟨trP3 a b s.center, a * s.radius⟩ = scEllipsoid a b s.ellipsoid := by
  unfold Sphere.ellipsoid scEllipsoid scV3
  simp only [mul_one, mul_zero]

theorem inner3_scale (a : ℝ) (v : V3) : inner3 (scV3 a v) (scV3 a v) = a ^ 2 * inner3 v v := by
  unfold inner3 scV3; simp only; ring

theorem ellipsoid_bounds_scale {a : ℝ} (ha : 0 < a) (b : Fin 3 → ℝ) (e : Ellipsoid) :
    (scEllipsoid a b e).bounds = (trP3 a b e.bounds.1, trP3 a b e.bounds.2) := by
  unfold Ellipsoid.bounds scEllipsoid
  simp only [inner3_scale, sqrt_scale ha, ← mul_max_of_nonneg _ _ ha.le]
  unfold trP3
  refine Prod.ext (Prod.ext ?_ (Prod.ext ?_ ?_)) (Prod.ext ?_ (Prod.ext ?_ ?_)) <;> simp only <;> ring

theorem ellipseBounds_scale {a : ℝ} (ha : 0 < a) (b : Fin 3 → ℝ) (c : Cyl ℝ) :
    (Cyl.inCoords a b c).ellipseBounds = (trP3 a b c.ellipseBounds.1, trP3 a b c.ellipseBounds.2) := by
  unfold Cyl.ellipseBounds Cyl.inCoords
  simp only [inner3_scale, sqrt_scale ha, ← mul_max_of_nonneg _ _ ha.le]
  unfold trP3
  refine Prod.ext (Prod.ext ?_ (Prod.ext ?_ ?_)) (Prod.ext ?_ (Prod.ext ?_ ?_)) <;> simp only <;> ring

/-! ## Properties -/

/-- **C89, shapes of the plane.** A triangle, parallelogram, circle or ellipse with its parameters written in the new
coordinates has the same points, bounds, distances, labels and normals. -/
theorem C89_shapes (a : ℝ) (ha : 0 < a) (b : Fin 2 → ℝ) (s : Shape) (fluid : Bool) :
    (s.elem fluid).SameNormals a b ((s.inCoords a b).elem fluid) := by
  have hquad : ∀ (q : Quad ℝ) (edges : List (Edge ℝ)) (x v : V2 ℝ),
      Quad.distance (edgeNormal (scV a v)) (0, 0) ⟨trP a b q.point, scV a q.v1, scV a q.v2⟩
        (edges.map fun e => ⟨scV a e.p, scV a e.vt, e.label⟩) (trP a b x) (scV a v) (some 1) =
      q.distance (edgeNormal v) (0, 0) edges x v (some 1) := by
    intro q edges x v
    unfold Quad.distance
    simp only
    rw [trP_sub]
    exact lines_scale ha edgeNormal (edgeNormal_scale ha) _ v edges (some 1)
  have z : scV a ((0 : ℝ), (0 : ℝ)) = (0, 0) := by unfold scV; simp
  cases s with
  | triangle q l0 l1 l2 =>
    simp only [Shape.elem, Shape.inCoords, triangleElem]
    refine planar_scale a b fluid _ _ _ _ _ _ (quad_bounds_scale ha b q) (fun x => ?_) fun x v => ?_
    · unfold triangleInside
      rw [bary_scale ha]
    · have := hquad q (triangleEdges q l0 l1 l2) x v
      rw [← this]
      congr 1
      have hs : scV a (q.v2.1 - q.v1.1, q.v2.2 - q.v1.2) =
          ((scV a q.v2).1 - (scV a q.v1).1, (scV a q.v2).2 - (scV a q.v1).2) := by
        unfold scV
        simp only
        congr 1 <;> ring
      simp only [triangleEdges, List.map_cons, List.map_nil, z, hs]
  | parallelogram q l0 l1 l2 l3 =>
    simp only [Shape.elem, Shape.inCoords, parallelogramElem]
    refine planar_scale a b fluid _ _ _ _ _ _ (quad_bounds_scale ha b q) (fun x => ?_) fun x v => ?_
    · unfold parallelogramInside
      rw [bary_scale ha]
    · rw [← hquad q (parallelogramEdges q l0 l1 l2 l3) x v]
      congr 1
      simp only [parallelogramEdges, List.map_cons, List.map_nil, z]
  | circle c l =>
    simp only [Shape.elem, Shape.inCoords, circleElem]
    refine planar_scale a b fluid _ _ _ _ _ _ ?_ (fun x => ?_) fun x v => ?_
    · unfold Circle.bounds trP
      refine Prod.ext (Prod.ext ?_ ?_) (Prod.ext ?_ ?_) <;> simp only <;> ring
    · have hs := trP_sub a b x c.center
      have hs1 := congrArg Prod.fst hs
      have hs2 := congrArg Prod.snd hs
      simp only at hs1 hs2
      unfold Circle.inside
      simp only
      rw [hs1, hs2]
      unfold scV
      congr 1
      simp only [eq_iff_iff]
      have h2 : 0 < a ^ 2 := by positivity
      constructor <;> intro h
      · refine le_of_mul_le_mul_left ?_ h2
        linarith
      · have := mul_le_mul_of_nonneg_left h h2.le
        linarith
    · rw [circle_scale]
      exact ellipseHit_scale ha b _ l x v
  | ellipse e l =>
    simp only [Shape.elem, Shape.inCoords, ellipseElem]
    exact planar_scale a b fluid _ _ _ _ _ _ (ellipse_bounds_scale ha b e)
      (fun x => (ellipse_alpha_scale ha b e x x).1) fun x v => ellipseHit_scale ha b e l x v

/-- **C89, domains of the plane.** A list of shapes, each added or removed, gives the same arrays (fluid map, distances,
labels and normals) in all units of length and for all origins. -/
theorem C89_plane {nv : Nat} (g : Grid ℝ 2 nv) (hg : g.WF) (ht : ∀ j, 0 < g.total j) (a : ℝ) (ha : 0 < a)
    (b : Fin 2 → ℝ) (shapes : List (Shape × Bool)) :
    build (g.inCoords a b) (shapes.map fun s => (s.1.inCoords a b).elem s.2) =
      build g (shapes.map fun s => s.1.elem s.2) := by
  refine C89_normals g hg ht a ha b _ _ ?_
  induction shapes with
  | nil => exact List.Forall₂.nil
  | cons s l ih => exact List.Forall₂.cons (C89_shapes a ha b s.1 s.2) ih

/-- A box of 10 × 8 cells of side 1/10, on one process. -/
noncomputable def metreGrid : Grid ℝ 2 9 where
  lo := ![0, 0]
  dx := 1 / 10
  N := ![10, 8]
  r0 := ![0, 0]
  r1 := ![10, 8]
  h := fun _ => 1
  vel := ![![0, 0], ![1, 0], ![0, 1], ![-1, 0], ![0, -1], ![1, 1], ![-1, 1], ![-1, -1], ![1, -1]]
  userLabel := fun _ _ => 0

/-- The same problem in millimetres, with a disc removed from the box: nothing changes. -/
example : build (metreGrid.inCoords 1000 ![0, 0])
      [(Shape.circle ⟨(1000 * (1 / 2) + 0, 1000 * (2 / 5) + 0), 1000 * (1 / 5)⟩ 1).elem false] =
    build metreGrid [(Shape.circle ⟨(1 / 2, 2 / 5), 1 / 5⟩ 1).elem false] := by
  have hg : metreGrid.WF := by
    refine ⟨by norm_num [metreGrid], fun j => ?_, fun k j => ?_⟩
    · fin_cases j <;> simp [metreGrid]
    · fin_cases k <;> fin_cases j <;> simp [metreGrid]
  have ht : ∀ j, 0 < metreGrid.total j := by
    intro j
    fin_cases j <;> simp [Grid.total, metreGrid]
  simpa [trP, Shape.inCoords] using C89_plane metreGrid hg ht 1000 (by norm_num) ![0, 0]
    [(Shape.circle ⟨(1 / 2, 2 / 5), 1 / 5⟩ 1, false)]

/-- **C89, ellipsoids and spheres.** -/
theorem C89_ellipsoids (a : ℝ) (ha : 0 < a) (b : Fin 3 → ℝ) (fluid : Bool) (l : Int) :
    (∀ e : Ellipsoid, (ellipsoidElem e l fluid).SameNormals a b
      (ellipsoidElem ⟨trP3 a b e.center, scV3 a e.v1, scV3 a e.v2, scV3 a e.v3⟩ l fluid)) ∧
    ∀ s : Sphere, (sphereElem s l fluid).SameNormals a b (sphereElem ⟨trP3 a b s.center, a * s.radius⟩ l fluid) := by
  have key : ∀ (e : Ellipsoid) B B' I I', B' = (trP3 a b B.1, trP3 a b B.2) → (∀ x, I' (trP3 a b x) = I x) →
      (spatial fluid B I (ellipsoidHit e l)).SameNormals a b
        (spatial fluid B' I' (ellipsoidHit (scEllipsoid a b e) l)) := by
    intro e B B' I I' h0 h1
    refine ⟨spatial_scale a b fluid _ _ _ _ _ _ h0 h1 fun x v => ?_, fun x v => ?_⟩
    · rw [ellipsoidHit_scale ha]
      exact ⟨rfl, rfl⟩
    · have := congrArg Hit.normal (ellipsoidHit_scale ha b e l (x 0, x 1, x 2) (v 0, v 1, v 2))
      funext j
      fin_cases j
      · exact congrArg (fun n : V3 => n.1) this
      · exact congrArg (fun n : V3 => n.2.1) this
      · exact congrArg (fun n : V3 => n.2.2) this
  refine ⟨fun e => key e _ _ _ _ (ellipsoid_bounds_scale ha b e) (ellipsoid_inside_scale ha b e), fun s => ?_⟩
  unfold sphereElem
  rw [sphere_scale]
  refine key s.ellipsoid _ _ _ _ ?_ fun x => ?_
  · unfold Sphere.bounds trP3
    refine Prod.ext (Prod.ext ?_ (Prod.ext ?_ ?_)) (Prod.ext ?_ (Prod.ext ?_ ?_)) <;> simp only <;> ring
  · unfold Sphere.inside trP3
    simp only
    congr 1
    simp only [eq_iff_iff]
    have h2 : 0 < a ^ 2 := by positivity
    constructor <;> intro h
    · refine le_of_mul_le_mul_left ?_ h2
      linarith
    · have := mul_le_mul_of_nonneg_left h h2.le
      linarith

/-- **C89, cylinders** (round, triangular and parallelepipeds): same points, bounds, distances and labels. -/
theorem C89_cylinders (a : ℝ) (ha : 0 < a) (b : Fin 3 → ℝ) (c : Cyl ℝ) (fluid : Bool) :
    (cylinderElem c c.cornerBounds fluid).InCoords a b
      (cylinderElem (Cyl.inCoords a b c) (Cyl.inCoords a b c).cornerBounds fluid) ∧
    (cylinderElem c c.ellipseBounds fluid).InCoords a b
      (cylinderElem (Cyl.inCoords a b c) (Cyl.inCoords a b c).ellipseBounds fluid) := by
  have key : ∀ B, (cylinderElem c B fluid).InCoords a b
      (cylinderElem (Cyl.inCoords a b c) (trP3 a b B.1, trP3 a b B.2) fluid) := by
    intro B
    refine spatial_scale a b fluid _ _ _ _ _ _ (cyl_bounds_scale ha b c B) (cyl_inside_scale ha b c) fun x v => ?_
    rw [cyl_distance_scale ha]
    exact ⟨rfl, rfl⟩
  constructor
  · rw [corner_scale ha]; exact key _
  · rw [ellipseBounds_scale ha]; exact key _

/-- **C89 is false for the normals of the cylinders**: they are multiplied by the factor of the change of unit, for all
cylinders and all links (cylinder.py 211-216 does not normalise them). -/
theorem C89_cylinder_normals_negation (a : ℝ) (ha : 0 < a) (b : Fin 3 → ℝ) (c : Cyl ℝ) (B B' : V3 × V3) (fluid : Bool)
    (x v : Fin 3 → ℝ) :
    (cylinderElem (Cyl.inCoords a b c) B' fluid).normvect (newCoords a b x) (fun j => a * v j) =
      fun j => a * (cylinderElem c B fluid).normvect x v j := by
  have := congrArg Hit.normal (cyl_distance_scale ha b c (x 0, x 1, x 2) (v 0, v 1, v 2) 1)
  funext j
  fin_cases j
  · exact congrArg (fun n : V3 => n.1) this
  · exact congrArg (fun n : V3 => n.2.1) this
  · exact congrArg (fun n : V3 => n.2.2) this

/-- A cylinder of radius one along the third axis in centimetres: the normal on its bottom has length 100. -/
example (B B' : V3 × V3) (x v : Fin 3 → ℝ) (c : Cyl ℝ) (h : (cylinderElem c B true).normvect x v = ![0, 0, -1]) :
    (cylinderElem (Cyl.inCoords 100 ![0, 0, 0] c) B' true).normvect (newCoords 100 ![0, 0, 0] x)
      (fun j => 100 * v j) 2 = -100 := by
  rw [C89_cylinder_normals_negation 100 (by norm_num) ![0, 0, 0] c B B' true, h]
  show (100 : ℝ) * -1 = -100
  norm_num

/-- `Ellipse.__init__` keeps the axes, ellipse.py 84-88. -/
noncomputable def axesAccepted (v1 v2 : V2 ℝ) : Bool := decide (|v1.1 * v2.1 + v1.2 * v2.2| ≤ 1 / 10 ^ 14)

/-- **C89 is false for the test of the axes of an ellipse**: axes which are not exactly orthogonal are accepted in some
unit of length and refused in another one (the scalar product is compared with `1e-14`). -/
theorem C89_axes_negation (v1 v2 : V2 ℝ) (h : v1.1 * v2.1 + v1.2 * v2.2 ≠ 0) :
    (∃ a, 0 < a ∧ axesAccepted (scV a v1) (scV a v2) = true) ∧
    ∃ a, 0 < a ∧ axesAccepted (scV a v1) (scV a v2) = false := by
  have hp := abs_pos.2 h
  have key : ∀ a, |(scV a v1).1 * (scV a v2).1 + (scV a v1).2 * (scV a v2).2| =
      a ^ 2 * |v1.1 * v2.1 + v1.2 * v2.2| := by
    intro a
    unfold scV
    rw [show a * v1.1 * (a * v2.1) + a * v1.2 * (a * v2.2) = a ^ 2 * (v1.1 * v2.1 + v1.2 * v2.2) by ring, abs_mul,
      abs_of_nonneg (sq_nonneg a)]
  set D := |v1.1 * v2.1 + v1.2 * v2.2| with hD
  refine ⟨⟨Real.sqrt (1 / 10 ^ 14 / D), Real.sqrt_pos.2 (by positivity), ?_⟩,
    ⟨Real.sqrt (1 / D), Real.sqrt_pos.2 (by positivity), ?_⟩⟩
  · unfold axesAccepted
    rw [key, Real.sq_sqrt (by positivity), div_mul_cancel₀ _ hp.ne']
    simp
  · unfold axesAccepted
    rw [key, Real.sq_sqrt (by positivity), div_mul_cancel₀ _ hp.ne']
    norm_num

/-- The axes of slope `3/10⁸` are accepted for a small ellipse only. -/
example : axesAccepted (1 / 10 ^ 4, 3 / 10 ^ 12) (0, 1 / 10 ^ 4) = true ∧
    axesAccepted (scV 1000 (1 / 10 ^ 4, 3 / 10 ^ 12)) (scV 1000 (0, 1 / 10 ^ 4)) = false := by
  constructor <;> norm_num [axesAccepted, scV, abs_of_pos]

end Pylbm.Domain
