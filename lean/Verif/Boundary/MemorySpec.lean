import Mathlib.Data.List.Forall2
/-!
# Specification for C94 (no import of the model): accesses inside an array
-/
namespace Pylbm.MemorySpec

/-- The index `a` is inside an array of shape `shape`: one component per axis, none of them negative and
each of them less than the size of its axis. -/
def InMemory (shape : List Nat) (a : List Int) : Prop :=
  List.Forall₂ (fun (n : Nat) (x : Int) => 0 ≤ x ∧ x < n) shape a

end Pylbm.MemorySpec
