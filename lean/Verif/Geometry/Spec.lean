import Mathlib.Algebra.Order.Field.Basic
import Mathlib.Data.Set.Basic
import Mathlib.Order.Bounds.Basic
/-!
# Specification of the elements of the geometry

Points of the plane are pairs, points of space triples.  Nothing here refers to the model.
-/

namespace Pylbm.GeometrySpec
variable {K : Type} [Field K] [LinearOrder K]

/-- The point `x + t v`. -/
def along (x v : K × K) (t : K) : K × K := (x.1 + t * v.1, x.2 + t * v.2)

/-- The point `x + t v` of space. -/
def along3 (x v : K × K × K) (t : K) : K × K × K :=
  (x.1 + t * v.1, x.2.1 + t * v.2.1, x.2.2 + t * v.2.2)

/-- Two directions are parallel. -/
def Parallel (v w : K × K) : Prop := v.1 * w.2 = v.2 * w.1

/-- The segment from `p` to `p + w`. -/
def segment (p w : K × K) : Set (K × K) := {y | ∃ s, 0 ≤ s ∧ s ≤ 1 ∧ y = along p w s}

/-- The parameters in `(0, m]` at which the ray from `x` in the direction `v` is in `S`. -/
def hits (x v : K × K) (m : K) (S : Set (K × K)) : Set K := {t | 0 < t ∧ t ≤ m ∧ along x v t ∈ S}

/-- The same in space. -/
def hits3 (x v : K × K × K) (m : K) (S : Set (K × K × K)) : Set K :=
  {t | 0 < t ∧ t ≤ m ∧ along3 x v t ∈ S}

/-- `a` is the distance to the set: the smallest parameter of a hit, `-1` when there is none. -/
def IsDistance (a : K) (S : Set K) : Prop := IsLeast S a ∨ (S = ∅ ∧ a = -1)

/-- The point `c + a v1 + b v2`. -/
def comb2 (c v1 v2 : K × K) (a b : K) : K × K :=
  (c.1 + a * v1.1 + b * v2.1, c.2 + a * v1.2 + b * v2.2)

/-- The point `c + a v1 + b v2 + d v3`. -/
def comb3 (c v1 v2 v3 : K × K × K) (a b d : K) : K × K × K :=
  (c.1 + a * v1.1 + b * v2.1 + d * v3.1, c.2.1 + a * v1.2.1 + b * v2.2.1 + d * v3.2.1,
   c.2.2 + a * v1.2.2 + b * v2.2.2 + d * v3.2.2)

/-- The triangle of corners `p`, `p + v1`, `p + v2`. -/
def triangle (p v1 v2 : K × K) : Set (K × K) :=
  {y | ∃ a b, 0 ≤ a ∧ 0 ≤ b ∧ a + b ≤ 1 ∧ y = comb2 p v1 v2 a b}

/-- The sides of this triangle. -/
def triangleSides (p v1 v2 : K × K) : Set (K × K) :=
  {y | ∃ a b, 0 ≤ a ∧ 0 ≤ b ∧ a + b ≤ 1 ∧ (a = 0 ∨ b = 0 ∨ a + b = 1) ∧ y = comb2 p v1 v2 a b}

/-- The parallelogram of corners `p`, `p + v1`, `p + v2`, `p + v1 + v2`. -/
def parallelogram (p v1 v2 : K × K) : Set (K × K) :=
  {y | ∃ a b, (0 ≤ a ∧ a ≤ 1) ∧ (0 ≤ b ∧ b ≤ 1) ∧ y = comb2 p v1 v2 a b}

/-- The sides of this parallelogram. -/
def parallelogramSides (p v1 v2 : K × K) : Set (K × K) :=
  {y | ∃ a b, (0 ≤ a ∧ a ≤ 1) ∧ (0 ≤ b ∧ b ≤ 1) ∧ (a = 0 ∨ a = 1 ∨ b = 0 ∨ b = 1) ∧
    y = comb2 p v1 v2 a b}

/-- The full ellipse of centre `c` and (conjugate) half axes `v1`, `v2`. -/
def ellipse (c v1 v2 : K × K) : Set (K × K) := {y | ∃ a b, a ^ 2 + b ^ 2 ≤ 1 ∧ y = comb2 c v1 v2 a b}

/-- Its boundary. -/
def ellipseCurve (c v1 v2 : K × K) : Set (K × K) :=
  {y | ∃ a b, a ^ 2 + b ^ 2 = 1 ∧ y = comb2 c v1 v2 a b}

/-- The full ellipsoid of centre `c` and (conjugate) half axes `v1`, `v2`, `v3`. -/
def ellipsoid (c v1 v2 v3 : K × K × K) : Set (K × K × K) :=
  {y | ∃ a b d, a ^ 2 + b ^ 2 + d ^ 2 ≤ 1 ∧ y = comb3 c v1 v2 v3 a b d}

/-- Its boundary. -/
def ellipsoidSurface (c v1 v2 v3 : K × K × K) : Set (K × K × K) :=
  {y | ∃ a b d, a ^ 2 + b ^ 2 + d ^ 2 = 1 ∧ y = comb3 c v1 v2 v3 a b d}

/-- The disc of centre `c` and radius `r`. -/
def disc (c : K × K) (r : K) : Set (K × K) := {y | (y.1 - c.1) ^ 2 + (y.2 - c.2) ^ 2 ≤ r ^ 2}

/-- The circle. -/
def circle (c : K × K) (r : K) : Set (K × K) := {y | (y.1 - c.1) ^ 2 + (y.2 - c.2) ^ 2 = r ^ 2}

/-- The ball of centre `c` and radius `r`. -/
def ball (c : K × K × K) (r : K) : Set (K × K × K) :=
  {y | (y.1 - c.1) ^ 2 + (y.2.1 - c.2.1) ^ 2 + (y.2.2 - c.2.2) ^ 2 ≤ r ^ 2}

/-- The sphere. -/
def sphere (c : K × K × K) (r : K) : Set (K × K × K) :=
  {y | (y.1 - c.1) ^ 2 + (y.2.1 - c.2.1) ^ 2 + (y.2.2 - c.2.2) ^ 2 = r ^ 2}

/-- The cylinder of base `B` (in the coordinates along `v1`, `v2`) and half height `w`. -/
def cylinder (c v1 v2 w : K × K × K) (B : Set (K × K)) : Set (K × K × K) :=
  {y | ∃ a b d, (a, b) ∈ B ∧ (-1 ≤ d ∧ d ≤ 1) ∧ y = comb3 c v1 v2 w a b d}

/-- Its surface: the side over the curve `C` of the base, the bottom and the top. -/
def cylinderSurface (c v1 v2 w : K × K × K) (B C : Set (K × K)) : Set (K × K × K) :=
  {y | ∃ a b d, (((a, b) ∈ C ∧ (-1 ≤ d ∧ d ≤ 1)) ∨ ((a, b) ∈ B ∧ (d = -1 ∨ d = 1))) ∧
    y = comb3 c v1 v2 w a b d}

/-- The parallelepiped of corner `p` and edges `v0`, `v1`, `v2`. -/
def box (p v0 v1 v2 : K × K × K) : Set (K × K × K) :=
  {y | ∃ a b d, (0 ≤ a ∧ a ≤ 1) ∧ (0 ≤ b ∧ b ≤ 1) ∧ (0 ≤ d ∧ d ≤ 1) ∧ y = comb3 p v0 v1 v2 a b d}

/-- Membership in a box of the plane. -/
def InBox (b : (K × K) × (K × K)) (y : K × K) : Prop :=
  b.1.1 ≤ y.1 ∧ y.1 ≤ b.2.1 ∧ b.1.2 ≤ y.2 ∧ y.2 ≤ b.2.2

/-- Membership in a box of space. -/
def InBox3 (b : (K × K × K) × (K × K × K)) (y : K × K × K) : Prop :=
  b.1.1 ≤ y.1 ∧ y.1 ≤ b.2.1 ∧ b.1.2.1 ≤ y.2.1 ∧ y.2.1 ≤ b.2.2.1 ∧ b.1.2.2 ≤ y.2.2 ∧
    y.2.2 ≤ b.2.2.2

end Pylbm.GeometrySpec
