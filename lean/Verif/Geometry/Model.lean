import Mathlib.Algebra.Order.Field.Basic
import Mathlib.Analysis.Real.Sqrt
/-!
# Model of `pylbm/elements`: intersections, distances, inside tests, bounds

Numpy arrays are replaced by one point; a field `K` (the reals where a square root is taken)
replaces the floats.
-/

namespace Pylbm.Geometry

section lines
variable {K : Type} [Field K] [LinearOrder K]

/-- A vector or point of the plane. -/
abbrev V2 (K : Type) := K × K

/-- `intersection_two_lines`, elements/utils.py 21-37; `none` for `(None, None)`. -/
def intersectionTwoLines (p1 v1 p2 v2 : V2 K) : Option (K × K) :=
  let det := v1.2 * v2.1 - v1.1 * v2.2
  if det ≠ 0 then
    let invdet := 1 / det
    let c1 := p2.1 - p1.1
    let c2 := p2.2 - p1.2
    some ((-v2.2 * c1 + v2.1 * c2) * invdet, (-v1.2 * c1 + v1.1 * c2) * invdet)
  else none

/-- `tgv`, elements/utils.py 18. -/
def tgv : K := 10 ^ 16

/-- An edge: `p[i]`, `vt[i]`, `label[i]` (the three lists are walked together). -/
structure Edge (K : Type) where
  p : V2 K
  vt : V2 K
  label : Int

/-- The test `tmp1 <= dmax`, elements/utils.py 62-68 and 138-141 (`dmax` may be `None`). -/
def leDmax (dmax : Option K) (t : K) : Prop :=
  match dmax with
  | none => True
  | some m => t ≤ m

instance (dmax : Option K) (t : K) : Decidable (leDmax dmax t) := by
  unfold leDmax; cases dmax <;> infer_instance

/-- Result at one point: `alpha`, `border`, `normal_vect`. -/
structure Hit (K : Type) (N : Type) where
  alpha : K
  border : Int
  normal : N

/-- Loop body of `distance_lines`, elements/utils.py 59-81, at one point.  The computation of the
normal of an edge (lines 72-81) is the parameter `nf`. -/
def lineStep {N : Type} (nf : V2 K → N) (x v : V2 K) (dmax : Option K) (h : Hit K N) (e : Edge K) :
    Hit K N :=
  match intersectionTwoLines x v e.p e.vt with
  | none => h
  | some (t1, t2) =>
    if h.alpha > t1 ∧ (t1 > 0 ∧ leDmax dmax t1) ∧ (t2 ≥ 0 ∧ t2 ≤ 1) then ⟨t1, e.label, nf e.vt⟩
    else h

/-- `distance_lines`, elements/utils.py 40-89, at one point. -/
def distanceLines {N : Type} (nf : V2 K → N) (n0 : N) (x v : V2 K) (edges : List (Edge K))
    (dmax : Option K) : Hit K N :=
  let h := edges.foldl (lineStep nf x v dmax) ⟨tgv, -1, n0⟩
  if h.alpha = tgv then { h with alpha := -1 } else h

/-- Triangle and parallelogram: `point`, `v1`, `v2`. -/
structure Quad (K : Type) where
  point : V2 K
  v1 : V2 K
  v2 : V2 K

/-- Barycentric coordinates, triangle.py 106-109 and parallelogram.py 131-134.  A zero
determinant divides by zero in numpy (warning, inf/nan); here the inverse of zero is zero, and every
theorem asks for a non-zero determinant. -/
def Quad.bary (q : Quad K) (x : V2 K) : K × K :=
  let w : V2 K := (x.1 - q.point.1, x.2 - q.point.2)
  let invdelta := 1 / (q.v1.1 * q.v2.2 - q.v1.2 * q.v2.1)
  ((w.1 * q.v2.2 - w.2 * q.v2.1) * invdelta, (w.2 * q.v1.1 - w.1 * q.v1.2) * invdelta)

/-- `Triangle.point_inside`, triangle.py 103-110. -/
def triangleInside (q : Quad K) (x : V2 K) : Bool :=
  let b := q.bary x
  decide (b.1 ≥ 0) && decide (b.2 ≥ 0) && decide (b.1 + b.2 ≤ 1)

/-- `Parallelogram.point_inside`, parallelogram.py 106-137. -/
def parallelogramInside (q : Quad K) (x : V2 K) : Bool :=
  let b := q.bary x
  decide (b.1 ≥ 0) && decide (b.2 ≥ 0) && (decide (b.1 ≤ 1) && decide (b.2 ≤ 1))

/-- The edges passed to `distance_lines` by `Triangle.distance`, triangle.py 144-145. -/
def triangleEdges (q : Quad K) (l0 l1 l2 : Int) : List (Edge K) :=
  [⟨(0, 0), q.v1, l0⟩, ⟨(0, 0), q.v2, l1⟩, ⟨q.v1, (q.v2.1 - q.v1.1, q.v2.2 - q.v1.2), l2⟩]

/-- The edges passed by `Parallelogram.distance`, parallelogram.py 170-171. -/
def parallelogramEdges (q : Quad K) (l0 l1 l2 l3 : Int) : List (Edge K) :=
  [⟨(0, 0), q.v1, l0⟩, ⟨(0, 0), q.v2, l1⟩, ⟨q.v2, q.v1, l2⟩, ⟨q.v1, q.v2, l3⟩]

/-- `Triangle.distance`, triangle.py 112-149, and `Parallelogram.distance`,
parallelogram.py 139-175: `distance_lines` in the frame of `point`. -/
def Quad.distance {N : Type} (nf : V2 K → N) (n0 : N) (q : Quad K) (edges : List (Edge K))
    (x v : V2 K) (dmax : Option K) : Hit K N :=
  distanceLines nf n0 (x.1 - q.point.1, x.2 - q.point.2) v edges dmax

/-- `get_bounds` of triangle and parallelogram, triangle.py 92-101, parallelogram.py 92-104:
minimum and maximum of four points, on each axis. -/
def Quad.bounds (q : Quad K) : V2 K × V2 K :=
  let mn (a b c : K) := min (min (min a (a + b)) (a + b + c)) (a + c)
  let mx (a b c : K) := max (max (max a (a + b)) (a + b + c)) (a + c)
  ((mn q.point.1 q.v1.1 q.v2.1, mn q.point.2 q.v1.2 q.v2.2),
   (mx q.point.1 q.v1.1 q.v2.1, mx q.point.2 q.v1.2 q.v2.2))

end lines

section normals

/-- Normal of an edge, elements/utils.py 72-81. -/
noncomputable def edgeNormal (v vt : V2 ℝ) : V2 ℝ :=
  let sign : ℝ := if v.1 * vt.2 < v.2 * vt.1 then 1 else -1
  let nv := Real.sqrt (vt.1 ^ 2 + vt.2 ^ 2)
  (sign * vt.2 / nv, -sign * vt.1 / nv)

end normals

section quadrics

/-- The second order equation of `distance_ellipse`, elements/utils.py 117-142, and of
`distance_ellipsoid`, 222-242, from the coefficients `a`, `b`, `c`: the value of `alpha`.  The code
for the ellipsoid has no test `a ≠ 0` (the division by zero is not modelled: `a` is positive for a
non-zero direction and independent axes). -/
noncomputable def quadAlpha (a b c : ℝ) (dmax : Option ℝ) : ℝ :=
  let delta := b ^ 2 - 4 * a * c
  let ind : Prop := delta ≥ 0
  let sq := Real.sqrt delta
  haveI := Classical.propDecidable ind
  let d1 := if a ≠ 0 ∧ ind then (-b - sq) / (2 * a) else tgv
  let d2 := if a ≠ 0 ∧ ind then (-b + sq) / (2 * a) else tgv
  let d1 := if d1 < 0 then tgv else d1
  let d2 := if d2 < 0 then tgv else d2
  let d := if ind then min d1 d2 else -1
  let d := if d = tgv then -1 else d
  if d > 0 ∧ leDmax dmax d then d else -1

/-- Axes of an ellipse and centre. -/
structure Ellipse where
  center : V2 ℝ
  v1 : V2 ℝ
  v2 : V2 ℝ

/-- Left-hand side of the equation of the ellipse at the vector `(X, Y)`, elements/utils.py
110-112 and ellipse.py 126-130. -/
def Ellipse.form (e : Ellipse) (X Y : ℝ) : ℝ :=
  let vx2 := e.v1.1 ^ 2 + e.v2.1 ^ 2
  let vy2 := e.v1.2 ^ 2 + e.v2.2 ^ 2
  let vxy := 2 * (e.v1.1 * e.v1.2 + e.v2.1 * e.v2.2)
  X ^ 2 * vy2 + Y ^ 2 * vx2 - X * Y * vxy

/-- `tv` of ellipse.py 129 (its square is `d` of elements/utils.py 113). -/
def Ellipse.tv (e : Ellipse) : ℝ := e.v1.1 * e.v2.2 - e.v1.2 * e.v2.1

/-- `Ellipse.point_inside`, ellipse.py 99-130. -/
noncomputable def Ellipse.inside (e : Ellipse) (x : V2 ℝ) : Bool :=
  decide (e.form (x.1 - e.center.1) (x.2 - e.center.2) ≤ e.tv ^ 2)

/-- `alpha` of `distance_ellipse`, elements/utils.py 106-142. -/
noncomputable def Ellipse.alpha (e : Ellipse) (x v : V2 ℝ) (dmax : Option ℝ) : ℝ :=
  let X := x.1 - e.center.1
  let Y := x.2 - e.center.2
  let vx2 := e.v1.1 ^ 2 + e.v2.1 ^ 2
  let vy2 := e.v1.2 ^ 2 + e.v2.2 ^ 2
  let vxy := 2 * (e.v1.1 * e.v1.2 + e.v2.1 * e.v2.2)
  let d := (e.v1.1 * e.v2.2 - e.v1.2 * e.v2.1) ^ 2
  let a := v.1 ^ 2 * vy2 + v.2 ^ 2 * vx2 - v.1 * v.2 * vxy
  let b := 2 * X * v.1 * vy2 + 2 * Y * v.2 * vx2 - (X * v.2 + Y * v.1) * vxy
  let c := X ^ 2 * vy2 + Y ^ 2 * vx2 - X * Y * vxy - d
  quadAlpha a b c dmax

/-- Normal vector of `distance_ellipse`, elements/utils.py 151-164, where `alpha > 0`. -/
noncomputable def Ellipse.normal (e : Ellipse) (x v : V2 ℝ) (alpha : ℝ) : V2 ℝ :=
  let vx2 := e.v1.1 ^ 2 + e.v2.1 ^ 2
  let vy2 := e.v1.2 ^ 2 + e.v2.2 ^ 2
  let vxy := 2 * (e.v1.1 * e.v1.2 + e.v2.1 * e.v2.2)
  let Xe := x.1 - e.center.1 + alpha * v.1
  let Ye := x.2 - e.center.2 + alpha * v.2
  let nx := 2 * Xe * vy2 - Ye * vxy
  let ny := 2 * Ye * vx2 - Xe * vxy
  let nx' := if nx * v.1 + ny * v.2 > 0 then -nx else nx
  let ny' := if nx * v.1 + ny * v.2 > 0 then -ny else ny
  let nn := Real.sqrt (nx' ^ 2 + ny' ^ 2)
  (nx' / nn, ny' / nn)

/-- `Ellipse.get_bounds`, ellipse.py 92-97. -/
noncomputable def Ellipse.bounds (e : Ellipse) : V2 ℝ × V2 ℝ :=
  let r := max (Real.sqrt (e.v1.1 ^ 2 + e.v1.2 ^ 2)) (Real.sqrt (e.v2.1 ^ 2 + e.v2.2 ^ 2))
  ((e.center.1 - r, e.center.2 - r), (e.center.1 + r, e.center.2 + r))

/-- A circle: centre and radius. -/
structure Circle where
  center : V2 ℝ
  radius : ℝ

/-- `Circle.point_inside`, circle.py 92-117. -/
noncomputable def Circle.inside (c : Circle) (x : V2 ℝ) : Bool :=
  decide ((x.1 - c.center.1) ^ 2 + (x.2 - c.center.2) ^ 2 ≤ c.radius ^ 2)

/-- The ellipse used by `Circle.distance`, circle.py 149-151. -/
def Circle.ellipse (c : Circle) : Ellipse := ⟨c.center, (c.radius * 1, c.radius * 0), (c.radius * 0, c.radius * 1)⟩

/-- `Circle.get_bounds`, circle.py 86-90. -/
def Circle.bounds (c : Circle) : V2 ℝ × V2 ℝ :=
  ((c.center.1 - c.radius, c.center.2 - c.radius), (c.center.1 + c.radius, c.center.2 + c.radius))

/-- A vector or point of space. -/
abbrev V3 := ℝ × ℝ × ℝ

/-- `np.cross`. -/
def cross {K : Type} [CommRing K] (a b : K × K × K) : K × K × K :=
  (a.2.1 * b.2.2 - a.2.2 * b.2.1, a.2.2 * b.1 - a.1 * b.2.2, a.1 * b.2.1 - a.2.1 * b.1)

/-- `np.inner`. -/
def inner3 {K : Type} [CommRing K] (a b : K × K × K) : K := a.1 * b.1 + a.2.1 * b.2.1 + a.2.2 * b.2.2

/-- Axes of an ellipsoid and centre. -/
structure Ellipsoid where
  center : V3
  v1 : V3
  v2 : V3
  v3 : V3

/-- The coefficients `cxx, cyy, czz, cxy, cyz, czx`, ellipsoid.py 140-151 and elements/utils.py
188-199. -/
structure Coeffs where
  cxx : ℝ
  cyy : ℝ
  czz : ℝ
  cxy : ℝ
  cyz : ℝ
  czx : ℝ

def Ellipsoid.coeffs (e : Ellipsoid) : Coeffs :=
  let v12 := cross e.v1 e.v2
  let v23 := cross e.v2 e.v3
  let v31 := cross e.v3 e.v1
  { cxx := v12.1 ^ 2 + v23.1 ^ 2 + v31.1 ^ 2
    cyy := v12.2.1 ^ 2 + v23.2.1 ^ 2 + v31.2.1 ^ 2
    czz := v12.2.2 ^ 2 + v23.2.2 ^ 2 + v31.2.2 ^ 2
    cxy := 2 * (v12.1 * v12.2.1 + v23.1 * v23.2.1 + v31.1 * v31.2.1)
    cyz := 2 * (v12.2.1 * v12.2.2 + v23.2.1 * v23.2.2 + v31.2.1 * v31.2.2)
    czx := 2 * (v12.2.2 * v12.1 + v23.2.2 * v23.1 + v31.2.2 * v31.1) }

/-- `d` of ellipsoid.py 143 and elements/utils.py 191. -/
def Ellipsoid.d (e : Ellipsoid) : ℝ := inner3 e.v1 (cross e.v2 e.v3) ^ 2

/-- `Ellipsoid.point_inside`, ellipsoid.py 112-160. -/
noncomputable def Ellipsoid.inside (e : Ellipsoid) (x : V3) : Bool :=
  let X := x.1 - e.center.1
  let Y := x.2.1 - e.center.2.1
  let Z := x.2.2 - e.center.2.2
  let k := e.coeffs
  decide (k.cxx * X ^ 2 + k.cyy * Y ^ 2 + k.czz * Z ^ 2 + k.cxy * X * Y + k.cyz * Y * Z +
    k.czx * Z * X ≤ e.d)

/-- `alpha` of `distance_ellipsoid`, elements/utils.py 185-242. -/
noncomputable def Ellipsoid.alpha (e : Ellipsoid) (x v : V3) (dmax : Option ℝ) : ℝ :=
  let X := x.1 - e.center.1
  let Y := x.2.1 - e.center.2.1
  let Z := x.2.2 - e.center.2.2
  let k := e.coeffs
  let a := k.cxx * v.1 ^ 2 + k.cyy * v.2.1 ^ 2 + k.czz * v.2.2 ^ 2 + k.cxy * v.1 * v.2.1 +
    k.cyz * v.2.1 * v.2.2 + k.czx * v.2.2 * v.1
  let b := (2 * k.cxx * v.1 + k.cxy * v.2.1 + k.czx * v.2.2) * X +
    (2 * k.cyy * v.2.1 + k.cyz * v.2.2 + k.cxy * v.1) * Y +
    (2 * k.czz * v.2.2 + k.czx * v.1 + k.cyz * v.2.1) * Z
  let c := k.cxx * X ^ 2 + k.cyy * Y ^ 2 + k.czz * Z ^ 2 + k.cxy * X * Y + k.cyz * Y * Z +
    k.czx * Z * X - e.d
  quadAlpha a b c dmax

/-- Normal vector of `distance_ellipsoid`, elements/utils.py 253-274, where `alpha > 0`. -/
noncomputable def Ellipsoid.normal (e : Ellipsoid) (x v : V3) (alpha : ℝ) : V3 :=
  let k := e.coeffs
  let Xe := x.1 - e.center.1 + alpha * v.1
  let Ye := x.2.1 - e.center.2.1 + alpha * v.2.1
  let Ze := x.2.2 - e.center.2.2 + alpha * v.2.2
  let nx := 2 * k.cxx * Xe + k.cxy * Ye + k.czx * Ze
  let ny := 2 * k.cyy * Ye + k.cxy * Xe + k.cyz * Ze
  let nz := 2 * k.czz * Ze + k.czx * Xe + k.cyz * Ye
  let s : ℝ := if nx * v.1 + ny * v.2.1 + nz * v.2.2 > 0 then -1 else 1
  let nn := Real.sqrt ((s * nx) ^ 2 + (s * ny) ^ 2 + (s * nz) ^ 2)
  (s * nx / nn, s * ny / nn, s * nz / nn)

/-- `Ellipsoid.get_bounds`, ellipsoid.py 102-109. -/
noncomputable def Ellipsoid.bounds (e : Ellipsoid) : V3 × V3 :=
  let r := max (max (Real.sqrt (inner3 e.v1 e.v1)) (Real.sqrt (inner3 e.v2 e.v2)))
    (Real.sqrt (inner3 e.v3 e.v3))
  ((e.center.1 - r, e.center.2.1 - r, e.center.2.2 - r),
   (e.center.1 + r, e.center.2.1 + r, e.center.2.2 + r))

/-- A sphere: centre and radius. -/
structure Sphere where
  center : V3
  radius : ℝ

/-- `Sphere.point_inside`, sphere.py 94-119. -/
noncomputable def Sphere.inside (s : Sphere) (x : V3) : Bool :=
  decide ((x.1 - s.center.1) ^ 2 + (x.2.1 - s.center.2.1) ^ 2 + (x.2.2 - s.center.2.2) ^ 2 ≤
    s.radius ^ 2)

/-- The ellipsoid used by `Sphere.distance`, sphere.py 150-155. -/
def Sphere.ellipsoid (s : Sphere) : Ellipsoid :=
  ⟨s.center, (s.radius * 1, s.radius * 0, s.radius * 0), (s.radius * 0, s.radius * 1, s.radius * 0),
    (s.radius * 0, s.radius * 0, s.radius * 1)⟩

/-- `Sphere.get_bounds`, sphere.py 88-92. -/
def Sphere.bounds (s : Sphere) : V3 × V3 :=
  ((s.center.1 - s.radius, s.center.2.1 - s.radius, s.center.2.2 - s.radius),
   (s.center.1 + s.radius, s.center.2.1 + s.radius, s.center.2.2 + s.radius))

end quadrics

section cylinders
variable {K : Type} [Field K] [LinearOrder K]

/-- What a cylinder uses of its base (`self.base`), in the frame of the cylinder: `point_inside` and
`distance` with the labels of the sides. -/
structure Base (K : Type) where
  inside : V2 K → Bool
  dist : V2 K → V2 K → Option K → Hit K (V2 K)

/-- `BaseTriangle`, base.py 430-431 and 461-464: the triangle of the unit vectors. -/
def baseTriangle (nf : V2 K → V2 K → V2 K) (l0 l1 l2 : Int) : Base K where
  inside := fun x => decide (x.1 ≥ 0) && decide (x.2 ≥ 0) && decide (x.1 + x.2 ≤ 1)
  dist := fun x v dmax => distanceLines (nf v) (0, 0) x v
    [⟨(0, 0), (1, 0), l0⟩, ⟨(0, 0), (0, 1), l1⟩, ⟨(1, 0), (-1, 1), l2⟩] dmax

/-- `BaseParallelogram`, base.py 552-555 and 585-588: the unit square. -/
def baseParallelogram (nf : V2 K → V2 K → V2 K) (l0 l1 l2 l3 : Int) : Base K where
  inside := fun x => decide (x.1 ≥ 0) && decide (x.2 ≥ 0) && (decide (x.1 ≤ 1) && decide (x.2 ≤ 1))
  dist := fun x v dmax => distanceLines (nf v) (0, 0) x v
    [⟨(0, 0), (1, 0), l0⟩, ⟨(0, 0), (0, 1), l1⟩, ⟨(1, 0), (0, 1), l2⟩, ⟨(0, 1), (1, 0), l3⟩] dmax

/-- `BaseCircle` and `BaseEllipse`, base.py 200-201, 231-235, 314-315, 345-349: the unit disc. -/
noncomputable def baseDisc (l0 : Int) : Base ℝ where
  inside := fun x => decide (x.1 ^ 2 + x.2 ^ 2 ≤ 1)
  dist := fun x v dmax =>
    let e : Ellipse := ⟨(0, 0), (1, 0), (0, 1)⟩
    let a := e.alpha x v dmax
    if a > 0 then ⟨a, l0, e.normal x v a⟩ else ⟨a, -1, (0, 0)⟩

/-- A cylinder: centre, the three columns of `A`, base, labels of the bottom and of the top
(`self.label[-2]`, `self.label[-1]`). -/
structure Cyl (K : Type) where
  center : K × K × K
  v1 : K × K × K
  v2 : K × K × K
  w : K × K × K
  base : Base K
  lbot : Int
  ltop : Int

/-- Determinant of `A`. -/
def Cyl.det (c : Cyl K) : K := inner3 c.v1 (cross c.v2 c.w)

/-- Product of `iA` (cylinder.py 45-49; `np.linalg.inv` is the exact inverse, given by the
cofactors; a singular matrix raises in numpy, every theorem asks for a non-zero determinant) and a
vector. -/
def Cyl.frame (c : Cyl K) (y : K × K × K) : K × K × K :=
  (inner3 (cross c.v2 c.w) y / c.det, inner3 (cross c.w c.v1) y / c.det,
    inner3 (cross c.v1 c.v2) y / c.det)

/-- Coordinates of a point in the frame of the cylinder, cylinder.py 89-98 and 136-144. -/
def Cyl.coords (c : Cyl K) (x : K × K × K) : K × K × K :=
  c.frame (x.1 - c.center.1, x.2.1 - c.center.2.1, x.2.2 - c.center.2.2)

/-- `Cylinder.point_inside`, cylinder.py 66-101. -/
def Cyl.inside (c : Cyl K) (x : K × K × K) : Bool :=
  let y := c.coords x
  c.base.inside (y.1, y.2.1) && decide (|y.2.2| ≤ 1)

/-- One of the two planes, cylinder.py 169-189: the parameter, or `1e16`. -/
def Cyl.plane (c : Cyl K) (y vc : K × K × K) (num : K) (m : K) : K :=
  let decal : K := if vc.2.2 = 0 then 1 / 10 ^ 16 else 0
  let a := num / (vc.2.2 + decal)
  if (a < 0 ∨ a > m) ∨ ¬ c.base.inside (y.1 + a * vc.1, y.2.1 + a * vc.2.1) then tgv else a

/-- `Cylinder.distance`, cylinder.py 104-216, at one point and for a number `dmax` (the comparison
with `None` in line 176 raises a `TypeError`). -/
def Cyl.distance (c : Cyl K) (x v : K × K × K) (m : K) : Hit K (K × K × K) :=
  let vc := c.frame v
  let y := c.coords x
  let h := c.base.dist (y.1, y.2.1) (vc.1, vc.2.1) (some m)
  let a0 := if h.alpha < 0 then tgv else h.alpha
  let ind : Prop := a0 > 0 ∧ |y.2.2 + a0 * vc.2.2| > 1
  let a1 := if ind then tgv else a0
  let border1 := if ind then -1 else h.border
  let n1 : V2 K := if ind then (0, 0) else h.normal
  let atop := c.plane y vc (1 - y.2.2) m
  let abot := c.plane y vc (-(1 + y.2.2)) m
  let a := min (min a1 atop) abot
  let border2 := if a = atop then c.ltop else border1
  let n2 : K × K × K := if a = atop then (0, 0, 1) else (n1.1, n1.2, 0)
  let border3 := if a = abot then c.lbot else border2
  let n3 : K × K × K := if a = abot then (0, 0, -1) else n2
  { alpha := if a = tgv then -1 else a
    border := border3
    normal := (c.v1.1 * n3.1 + c.v2.1 * n3.2.1 + c.w.1 * n3.2.2,
      c.v1.2.1 * n3.1 + c.v2.2.1 * n3.2.1 + c.w.2.1 * n3.2.2,
      c.v1.2.2 * n3.1 + c.v2.2.2 * n3.2.1 + c.w.2.2 * n3.2.2) }

/-- `Cylinder.get_bounds`, cylinder.py 51-64, from the bounds of the base. -/
def Cyl.bounds (c : Cyl K) (bb : (K × K × K) × (K × K × K)) : (K × K × K) × (K × K × K) :=
  ((bb.1.1 - 1 / 2 * |c.w.1|, bb.1.2.1 - 1 / 2 * |c.w.2.1|, bb.1.2.2 - 1 / 2 * |c.w.2.2|),
   (bb.2.1 + 1 / 2 * |c.w.1|, bb.2.2.1 + 1 / 2 * |c.w.2.1|, bb.2.2.2 + 1 / 2 * |c.w.2.2|))

/-- Bounds of `BaseTriangle` and `BaseParallelogram`, base.py 392-404 and 514-526. -/
def Cyl.cornerBounds (c : Cyl K) : (K × K × K) × (K × K × K) :=
  let mn (a b c : K) := min (min (min a (a + b)) (a + b + c)) (a + c)
  let mx (a b c : K) := max (max (max a (a + b)) (a + b + c)) (a + c)
  ((mn c.center.1 c.v1.1 c.v2.1, mn c.center.2.1 c.v1.2.1 c.v2.2.1,
    mn c.center.2.2 c.v1.2.2 c.v2.2.2),
   (mx c.center.1 c.v1.1 c.v2.1, mx c.center.2.1 c.v1.2.1 c.v2.2.1,
    mx c.center.2.2 c.v1.2.2 c.v2.2.2))

/-- Bounds of `BaseEllipse`, base.py 283-288. -/
noncomputable def Cyl.ellipseBounds (c : Cyl ℝ) : V3 × V3 :=
  let r := max (Real.sqrt (inner3 c.v1 c.v1)) (Real.sqrt (inner3 c.v2 c.v2))
  ((c.center.1 - r, c.center.2.1 - r, c.center.2.2 - r),
   (c.center.1 + r, c.center.2.1 + r, c.center.2.2 + r))

/-- `Parallelepiped.__init__`, cylinder.py 557-566. -/
def parallelepiped (nf : V2 K → V2 K → V2 K) (point v0 v1 v2 : K × K × K)
    (l0 l1 l2 l3 lbot ltop : Int) : Cyl K :=
  let w : K × K × K := (1 / 2 * v2.1, 1 / 2 * v2.2.1, 1 / 2 * v2.2.2)
  { center := (point.1 + w.1, point.2.1 + w.2.1, point.2.2 + w.2.2)
    v1 := v0
    v2 := v1
    w := w
    base := baseParallelogram nf l0 l1 l2 l3
    lbot := lbot
    ltop := ltop }

end cylinders

end Pylbm.Geometry
