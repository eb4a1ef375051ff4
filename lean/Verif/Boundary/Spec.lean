import Mathlib.Algebra.Order.Field.Basic
/-!
# Specification for the boundary conditions (no import of the model)
-/
namespace Pylbm.BoundarySpec
variable {K : Type} [Field K]

/-- Value at `t` of the affine function equal to `y0` at `t0` and `y1` at `t1`. -/
def lerp (t0 y0 t1 y1 t : K) : K := y0 + (y1 - y0) * ((t - t0) / (t1 - t0))

/-- Position of a particle which starts from 0 with unit outward velocity, is reflected by a wall at
`d` and has moved for a unit of time: `d - (1 - d)`. -/
def reflected (d : K) : K := d - (1 - d)

/-- Position from which a particle must start with unit outward velocity in order to be, one unit of
time and one reflection at the wall `d` later, at the position 0. -/
def departure (d : K) : K := d - (1 - d)

end Pylbm.BoundarySpec
