import Mathlib.Data.List.Sort
/-!
# Specification of the splitting of a grid between processes
-/

namespace Pylbm.MpiSpec

/-- `bounds` cuts `0, …, n-1` in `p` consecutive regions, balanced, the larger ones first. -/
structure BalancedPartition (bounds : List Nat) (n p : Nat) : Prop where
  length : bounds.length = p + 1
  first : bounds[0]? = some 0
  last : bounds[p]? = some n
  sorted : bounds.Pairwise (· ≤ ·)
  unique : ∀ x < n, ∃! i, i < p ∧ ∃ a b, bounds[i]? = some a ∧ bounds[i + 1]? = some b ∧ a ≤ x ∧ x < b
  balanced : ∀ i j a b c d, i ≤ j → bounds[i]? = some a → bounds[i + 1]? = some b →
    bounds[j]? = some c → bounds[j + 1]? = some d → d - c ≤ b - a ∧ b - a ≤ d - c + 1

/-- A cell is in a box given by half-open intervals. -/
def InBox (box : List (Nat × Nat)) (cell : List Nat) : Prop :=
  List.Forall₂ (fun b x => b.1 ≤ x ∧ x < b.2) box cell

/-- Digits in base 3, most significant first, shifted to `{-1, 0, 1}`. -/
def ternary : Nat → Nat → List Int
  | 0, _ => []
  | d + 1, i => ternary d (i / 3) ++ [(i % 3 : Int) - 1]

end Pylbm.MpiSpec
