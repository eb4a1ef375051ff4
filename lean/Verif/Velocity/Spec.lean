import Mathlib.Data.List.Lex
import Mathlib.Data.List.Perm.Basic
/-!
# Specification for velocities (no import of the model)
-/

namespace Pylbm.VelocitySpec

/-- `toNum` and `ofNum` are inverse of each other between the values satisfying `P` and the
natural numbers satisfying `Q`, and undefined elsewhere. -/
structure Bijective {V : Type*} (P : V → Prop) (Q : Nat → Prop)
    (toNum : V → Option Int) (ofNum : Nat → Option V) : Prop where
  num_of_coord : ∀ n, Q n → ∃ v, P v ∧ ofNum n = some v ∧ toNum v = some (n : Int)
  coord_of_num : ∀ v, P v → ∃ n : Nat, Q n ∧ toNum v = some (n : Int) ∧ ofNum n = some v
  num_none : ∀ v, ¬ P v → toNum v = none
  coord_none : ∀ n, ¬ Q n → ofNum n = none

/-- `out` lists exactly the distinct rearrangements of `l`, each once, in increasing
lexicographic order. -/
structure Arrangements {α : Type*} [LinearOrder α] (l : List α) (out : List (List α)) : Prop where
  increasing : out.Pairwise (· < ·)
  exact : ∀ c, c ∈ out ↔ c.Perm l

/-- All components are negated but the one of the axis, if an axis is given. -/
def symmetric (axis : Option Int) (c : List Int) : List Int :=
  c.mapIdx fun i x => if axis = some (i : Int) then x else -x

/-- An axis is admissible in dimension `dim`. -/
def ValidAxis (dim : Int) : Option Int → Prop
  | none => True
  | some a => 0 ≤ a ∧ a < dim

end Pylbm.VelocitySpec
