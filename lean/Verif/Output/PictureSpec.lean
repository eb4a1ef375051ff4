import Mathlib.Analysis.SpecialFunctions.Trigonometric.Basic
import Mathlib.Data.Real.Sign
/-!
# Specification of the drawings

What the drawing library (matplotlib) shows for the patches used by pylbm: taken from its documentation, nothing here
refers to pylbm.
-/

namespace Pylbm.PictureSpec

/-- `Ellipse(xy, width, height, angle)` (total lengths of the axes, angle in degrees, anti-clockwise) and
`Polygon(pts, closed=True)`, both filled. -/
inductive Patch where
  | ellipse (xy : ℝ × ℝ) (width height angle : ℝ)
  | polygon (pts : List (ℝ × ℝ))

/-- Twice the signed area of a triangle. -/
def orient (a b c : ℝ × ℝ) : ℝ := (b.1 - a.1) * (c.2 - a.2) - (b.2 - a.2) * (c.1 - a.1)

/-- The closed triangle of corners `a`, `b`, `c`. -/
def corner3 (a b c : ℝ × ℝ) : Set (ℝ × ℝ) :=
  {y | ∃ s t, 0 ≤ s ∧ 0 ≤ t ∧ s + t ≤ 1 ∧
    y = (a.1 + s * (b.1 - a.1) + t * (c.1 - a.1), a.2 + s * (b.2 - a.2) + t * (c.2 - a.2))}

open Classical in
/-- How many times the closed path turns around a point: the triangles from the first corner, counted with their
orientation. -/
noncomputable def winding (y a : ℝ × ℝ) : List (ℝ × ℝ) → ℝ
  | b :: c :: l => (if y ∈ corner3 a b c then (orient a b c).sign else 0) + winding y a (c :: l)
  | _ => 0

/-- The points covered by a patch (a polygon is filled where its path turns around the point). -/
def Patch.region : Patch → Set (ℝ × ℝ)
  | .ellipse xy w h ang => {y | ∃ a b, a ^ 2 + b ^ 2 ≤ 1 ∧
      y = (xy.1 + Real.cos (ang * Real.pi / 180) * (w / 2 * a) - Real.sin (ang * Real.pi / 180) * (h / 2 * b),
        xy.2 + Real.sin (ang * Real.pi / 180) * (w / 2 * a) + Real.cos (ang * Real.pi / 180) * (h / 2 * b))}
  | .polygon [] => ∅
  | .polygon (a :: l) => {y | winding y a l ≠ 0}

/-- A patch with its colour (one channel, `1` is white) and its opacity. -/
structure Layer where
  patch : Patch
  colour : ℝ
  alpha : ℝ

open Classical in
/-- The colour seen at a point after the patches have been drawn one after the other on the background `bg`. -/
noncomputable def paint (canvas : List Layer) (bg : ℝ) (y : ℝ × ℝ) : ℝ :=
  canvas.foldl (fun v l => if y ∈ l.patch.region then l.alpha * l.colour + (1 - l.alpha) * v else v) bg

end Pylbm.PictureSpec
