import Mathlib.Data.List.Forall2
/-!
# Specification of storage and loops
-/

namespace Pylbm.StorageSpec

/-- `sorder` is a permutation of the axes. -/
def IsOrder (sorder : List Nat) : Prop := sorder.Perm (List.range sorder.length)

/-- A cell of a box of half-open ranges. -/
def InRanges (ranges : List (Int × Int)) (x : List Int) : Prop :=
  List.Forall₂ (fun r x => r.1 ≤ x ∧ x < r.2) ranges x

/-- `a` is the array index of the logical position `l`: the logical axis `i` is stored on the
axis `sorder[i]`. -/
def StoredAt (sorder : List Nat) (l a : List Int) : Prop :=
  a.length = l.length ∧ l.length = sorder.length ∧
    ∀ i (_ : i < sorder.length) j, sorder[i]? = some j → a[j]? = l[i]?

/-- Position `x` is at distance at least `w` from the borders of an axis of size `n`. -/
def Interior (shape widths x : List Nat) : Prop :=
  x.length = shape.length ∧ ∀ i n w y : Nat, shape[i]? = some n → widths[i]? = some w →
    x[i]? = some y → w ≤ y ∧ y + w < n

end Pylbm.StorageSpec
