import Mathlib.Analysis.SpecialFunctions.Trigonometric.Arctan
import Mathlib.Analysis.SpecialFunctions.Complex.Arg
import Verif.Output.PictureSpec
import Verif.Domain.WallLinks
import Verif.Stencil.Props
/-!
# C96: the pictures

`visualize` of the elements, of the geometry, of the domain and of the stencil, with the matplotlib viewer.
The parameter `scale` keeps its default value 1.
-/

namespace Pylbm.Picture
open PictureSpec GeometrySpec Geometry Domain DomainSpec

/-- `PlotWidget.ellipse`, viewer/matplotlib_viewer.py 588-600. -/
noncomputable def plotEllipse (pos radius : ℝ × ℝ) (angle : ℝ) : Patch :=
  .ellipse pos (2 * radius.1) (2 * radius.2) (angle * 180 / Real.pi)

/-- `Circle.visualize`, elements/circle.py 163-166. -/
noncomputable def circlePatch (c : Circle) : Patch := plotEllipse c.center (c.radius, c.radius) 0

/-- `np.linalg.norm` of a vector of the plane. -/
noncomputable def norm2 (v : ℝ × ℝ) : ℝ := Real.sqrt (v.1 ^ 2 + v.2 ^ 2)

/-- The angle of the main axis, elements/ellipse.py 181-184. -/
noncomputable def theta (v : ℝ × ℝ) : ℝ := if v.1 = 0 then 1 / 2 * Real.pi else Real.arctan (v.2 / v.1)

/-- `Ellipse.visualize`, elements/ellipse.py 172-192: note the second pair of radii. -/
noncomputable def ellipsePatch (e : Ellipse) : Patch :=
  if norm2 e.v2 < norm2 e.v1 then plotEllipse e.center (norm2 e.v1, norm2 e.v2) (theta e.v1)
  else plotEllipse e.center (norm2 e.v2, norm2 e.v2) (theta e.v2)

/-- `Triangle.visualize`, elements/triangle.py 159-163. -/
def trianglePatch (q : Quad ℝ) : Patch :=
  let A := q.point
  let B : ℝ × ℝ := (A.1 + q.v1.1, A.2 + q.v1.2)
  let D : ℝ × ℝ := (A.1 + q.v2.1, A.2 + q.v2.2)
  .polygon [A, B, D]

/-- `Parallelogram.visualize`, elements/parallelogram.py 186-191. -/
def parallelogramPatch (q : Quad ℝ) : Patch :=
  let A := q.point
  let B : ℝ × ℝ := (A.1 + q.v1.1, A.2 + q.v1.2)
  let C : ℝ × ℝ := (B.1 + q.v2.1, B.2 + q.v2.2)
  let D : ℝ × ℝ := (A.1 + q.v2.1, A.2 + q.v2.2)
  .polygon [A, B, C, D]

/-- `elem.visualize` for the elements of the plane. -/
noncomputable def shapePatch : Shape → Patch
  | .triangle q _ _ _ => trianglePatch q
  | .parallelogram q _ _ _ _ => parallelogramPatch q
  | .circle c _ => circlePatch c
  | .ellipse e _ => ellipsePatch e

/-- The patches drawn by `Geometry.visualize` in two dimensions, geometry.py 236-261: the box with the colour and the
opacity of the fluid, then the elements in their order, white and opaque when they are solid.  `Domain.visualize`,
domain.py 714-729, draws the same patches with `alpha = 1`. -/
noncomputable def planeCanvas (lo hi : ℝ × ℝ) (f alpha : ℝ) (shapes : List (Shape × Bool)) : List Layer :=
  ⟨.polygon [(lo.1, lo.2), (lo.1, hi.2), (hi.1, hi.2), (hi.1, lo.2)], f, alpha⟩ ::
    shapes.map fun s => ⟨shapePatch s.1, if s.2 then f else 1, if s.2 then alpha else 1⟩

section dom
variable {nv : Nat}

/-- `get_inorout_points`, domain.py 751-757: the points of the markers, for the cells of the arrays with halo. -/
def inOrOutPoints {K : Type} [Field K] [LinearOrder K] {dim : Nat} (g : Grid K dim nv) (st : State K dim nv)
    (val : Int) : Set (Fin dim → K) :=
  {x | ∃ c : Cell dim, (∀ j, 0 ≤ c j ∧ c j < g.total j) ∧ st.ioo c = val ∧ x = g.point c}

/-- The links of `get_bounds(label, k)`, domain.py 781-810. -/
def shownLinks {K : Type} [Field K] [LinearOrder K] {dim : Nat} (g : Grid K dim nv) (st : State K dim nv)
    (label : Option (List Int)) (k : Fin nv) : Set (Cell dim) :=
  {c | (∀ j, 0 ≤ c j ∧ c j < g.total j) ∧ (st.link k c).dist ≤ 1 ∧ ∀ l, label = some l → (st.link k c).flag ∈ l}

/-- The segments of `view_distance`, domain.py 812-825. -/
def distanceSegments {K : Type} [Field K] [LinearOrder K] {dim : Nat} (g : Grid K dim nv) (st : State K dim nv)
    (label : Option (List Int)) (k : Fin nv) : Set ((Fin dim → K) × (Fin dim → K)) :=
  {s | ∃ c ∈ shownLinks g st label k,
    s = (g.point c, fun j => g.point c j + g.dx * ((st.link k c).dist * (g.vel k j : K)))}

/-- The segments of `view_normal`, domain.py 836-846. -/
def normalSegments {K : Type} [Field K] [LinearOrder K] {dim : Nat} (g : Grid K dim nv) (st : State K dim nv)
    (label : Option (List Int)) (k : Fin nv) : Set ((Fin dim → K) × (Fin dim → K)) :=
  {s | ∃ c ∈ shownLinks g st label k,
    let p : Fin dim → K := fun j => g.point c j + g.dx * ((st.link k c).dist * (g.vel k j : K))
    s = (p, fun j => p j + g.dx * (st.link k c).normal j)}

end dom

/-- `Stencil.visualize`, stencil.py 903-962: for each view the positions (components of the velocities) and the texts
put there; the texts of the view `i` are `self.num[i]`, whatever is drawn in this view (line 954).  `k` is the list of
the schemes asked for (an integer is a list of one entry, negative numbers are left out), `none` an `IndexError`. -/
def stencilViews (s : Sten.Stencil) (k : Option (List Nat)) (unique : Bool) : Option (List (List (List Int × Nat))) := do
  let pos ← if unique then some [s.uvel.map fun v => v.vel.comps]
    else (k.getD (List.range s.v.length)).mapM fun i => s.v[i]?.map fun l => l.map fun v => v.vel.comps
  pos.zipIdx.mapM fun p => s.v[p.2]?.map fun l => List.zip p.1 (l.map fun v => v.num)

/-- `couleurs[elem.label[k]]`, geometry.py 309-312, for a solid element in three dimensions: the list `couleurs` has ten
entries, a negative index counts from the end, `none` is the `IndexError`. -/
def solidColours (labels : List Int) : Option (List Nat) :=
  labels.mapM fun l => if 0 ≤ l ∧ l < 10 then some l.toNat else if -10 ≤ l ∧ l < 0 then some (l + 10).toNat else none

/-- The colour of a face of the box, geometry.py 291: `couleurs[self.box_label[ct_lab] % 10]`. -/
def faceColour (l : Int) : Nat := (l % 10).toNat

/-- A vertex of `PlotWidget.ellipse_3d`, viewer/matplotlib_viewer.py 623-634, for the parameters `u`, `v`. -/
noncomputable def vertex3 (pos a b c : V3) (u v : ℝ) : V3 :=
  (pos.1 + a.1 * (Real.cos u * Real.sin v) + b.1 * (Real.sin u * Real.sin v) + c.1 * (1 * Real.cos v),
   pos.2.1 + a.2.1 * (Real.cos u * Real.sin v) + b.2.1 * (Real.sin u * Real.sin v) + c.2.1 * (1 * Real.cos v),
   pos.2.2 + a.2.2 * (Real.cos u * Real.sin v) + b.2.2 * (Real.sin u * Real.sin v) + c.2.2 * (1 * Real.cos v))

/-- The vertices drawn for the entries of `np.linspace(0, 2π, 100)` and `np.linspace(0, π, 100)`. -/
noncomputable def vertices3 (pos a b c : V3) : Set V3 :=
  {y | ∃ i j : Fin 100, y = vertex3 pos a b c (2 * Real.pi * i / 99) (Real.pi * j / 99)}

/-- `Sphere.visualize`, elements/sphere.py 167-173. -/
noncomputable def sphereVertices (s : Sphere) : Set V3 :=
  vertices3 s.center (s.radius * 1, s.radius * 0, s.radius * 0) (s.radius * 0, s.radius * 1, s.radius * 0)
    (s.radius * 0, s.radius * 0, s.radius * 1)

/-- `Ellipsoid.visualize`, elements/ellipsoid.py 202-208. -/
noncomputable def ellipsoidVertices (e : Ellipsoid) : Set V3 := vertices3 e.center e.v1 e.v2 e.v3

/-- A point in the frame of a cylinder, elements/cylinder.py 241-258: `c + A (x, y, z)`. -/
def cylPoint (c v1 v2 w : V3) (x y z : ℝ) : V3 :=
  (c.1 + v1.1 * x + v2.1 * y + w.1 * z, c.2.1 + v1.2.1 * x + v2.2.1 * y + w.2.1 * z,
   c.2.2 + v1.2.2 * x + v2.2.2 * y + w.2.2 * z)

/-- The vertices of the top and of the bottom and the label whose colour they take, elements/cylinder.py 259-271, for a
base given by the points `lx_b[-2]`, `ly_b[-2]`: both take `color[-2]`, the colour of the label of the bottom. -/
noncomputable def baseVertices (c : Cyl ℝ) (base : Set (ℝ × ℝ)) : List (Set V3 × Int) :=
  [({y | ∃ p ∈ base, ∃ i : Fin 10, y = cylPoint c.center c.v1 c.v2 c.w (p.1 * Real.sin (Real.pi * i / 9))
      (p.2 * Real.sin (Real.pi * i / 9)) 1}, c.lbot),
   ({y | ∃ p ∈ base, ∃ i : Fin 10, y = cylPoint c.center c.v1 c.v2 c.w (p.1 * Real.sin (Real.pi * i / 9))
      (p.2 * Real.sin (Real.pi * i / 9)) (-1)}, c.lbot)]

/-- The points of `BaseCircle._visualize` and `BaseEllipse._visualize`, elements/base.py 238-242 and 352-356. -/
noncomputable def roundBase : Set (ℝ × ℝ) :=
  {p | ∃ i : Fin 100, p = (Real.cos (2 * Real.pi * i / 99), Real.sin (2 * Real.pi * i / 99))}

/-- The vertices of the side of a round cylinder, elements/cylinder.py 234-258. -/
noncomputable def sideVertices (c : Cyl ℝ) : Set V3 :=
  {y | ∃ p ∈ roundBase, ∃ z, (z = -1 ∨ z = 1) ∧ y = cylPoint c.center c.v1 c.v2 c.w p.1 p.2 z}

/-- A face of the box in three dimensions, geometry.py 275-300: the four vertices and the position in `box_label` of the
label, for the axis `k` and the side. -/
def boxFace (pmin pmax : Fin 3 → ℝ) (k : Fin 3) (side : Bool) : List (Fin 3 → ℝ) × Nat :=
  let x0 := if side then pmax k else pmin k
  let grid : List (ℝ × ℝ) :=
    [(pmin (k + 1), pmin (k + 2)), (pmax (k + 1), pmin (k + 2)), (pmin (k + 1), pmax (k + 2)), (pmax (k + 1), pmax (k + 2))]
  (grid.map fun g =>
    let coord : Fin 3 → ℝ := ![g.1, g.2, x0]
    ![coord (2 - k), coord (3 - k), coord (1 - k)], 2 * k.val + if side then 1 else 0)

end Pylbm.Picture
