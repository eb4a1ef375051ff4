import Verif.Common.List
import Verif.Velocity.Spec
/-!
# Specification for stencils (no import of the model)

A stencil is described by the list of the components of the velocities of each scheme.
-/

namespace Pylbm.StencilSpec
open VelocitySpec

/-- Every velocity of the scheme has its symmetric in the scheme. -/
def SchemeSymmetric (axis : Option Int) (scheme : List (List Int)) : Prop :=
  ∀ c ∈ scheme, symmetric axis c ∈ scheme

/-- Every scheme is symmetric. -/
def AllSymmetric (axis : Option Int) (schemes : List (List (List Int))) : Prop :=
  ∀ s ∈ schemes, SchemeSymmetric axis s

/-- All the streaming reads `x - v` from owned cells `h ≤ x < h + n` stay in the array of
`n + 2 h` cells. -/
def ReadsInBounds (h : Int) (v : Int) : Prop :=
  ∀ n x : Int, 0 ≤ n → h ≤ x → x < h + n → 0 ≤ x - v ∧ x - v < n + 2 * h

end Pylbm.StencilSpec
