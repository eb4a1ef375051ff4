import Verif.Common.Radix
import Mathlib.Data.List.Sort
import Mathlib.Data.List.Dedup
/-!
# Model of the layout part of `pylbm/storage.py` and of the index lists of `pylbm/symbolic.py`
-/

namespace Pylbm.Storage
open Radix

/-- Loops of the form `out = [0]*n; for i in range(n): out[ind[i]] = l[i]` (storage.py 103-105 for
the shape of the memory array, 221-225 for `swap`). -/
def scatter (ind l : List Nat) : List Nat :=
  (ind.zip l).foldl (fun out p => out.set p.1 p.2) (List.replicate l.length 0)

/-- `tmpshape`, storage.py 102: the logical shape, velocity axis first. -/
def logicalShape (nv : Nat) (regionSize : List Nat) : List Nat := nv :: regionSize

/-- Strides (in elements) of a C-ordered array. -/
def strides : List Nat → List Nat
  | [] => []
  | _ :: ds => ds.prod :: strides ds

/-- Element offset in memory of the element `pos` of `swaparray = np.transpose(array, index)`
(storage.py 118): the stride of the axis `i` of the view is the one of the axis `index[i]` of the
array.  `tmpshape` is the logical shape. -/
def viewOffset (index tmpshape pos : List Nat) : Nat :=
  (List.zipWith (fun x i => x * (strides (scatter index tmpshape)).getD i 0) pos index).sum

/-- Shape of `swaparray`: the axis `i` of the view has the size of the axis `index[i]`. -/
def viewShape (index tmpshape : List Nat) : List Nat :=
  index.map fun i => (scatter index tmpshape).getD i 0

/-- `self.swaparray[pos] = v` (storage.py 137) on the memory. -/
def write {α : Type} (index tmpshape : List Nat) (mem : List α) (pos : List Nat) (v : α) : List α :=
  mem.set (viewOffset index tmpshape pos) v

/-- `self.swaparray[pos]` (storage.py 131) on the memory. -/
def read {α : Type} (index tmpshape : List Nat) (mem : List α) (pos : List Nat) : Option α :=
  mem[viewOffset index tmpshape pos]?

/-- `np.argsort` of a list without repetition (symbolic.py 106). -/
def argsort (l : List Nat) : List Nat :=
  (List.range l.length).insertionSort (fun i j => l.getD i 0 ≤ l.getD j 0)

/-- `set_order` with a non-empty priority, symbolic.py 104-108; out-of-range entries (an
`IndexError`) do not occur when `array` is not shorter than `priority`, they are dropped here. -/
def setOrder {α : Type} (array : List α) (priority : List Nat) : List α :=
  (argsort priority).filterMap (array[·]?)

/-- A SymPy `Idx`: the axis (`ix_`, `iy_`, `iz_`) with its bounds. -/
structure Idx where
  axis : Nat
  lo : Int
  hi : Int
  deriving DecidableEq, Repr

/-- `space_idx`, symbolic.py 247-256 (with a non-empty priority). -/
def spaceIdx (ranges : List (Int × Int)) (priority : List Nat) : List Idx :=
  setOrder (ranges.zipIdx.map fun p => ⟨p.2, p.1.1, p.1.2⟩) priority

/-- `range(lo, hi)`. -/
def pyRange (lo hi : Int) : List Int := (List.range (hi - lo).toNat).map (fun i : Nat => lo + (i : Int))

/-- Values taken by the loop variables, in the order of execution of the nested loops printed by
`_print_For` (generator/printing/cython.py 301-314); the first index is the outermost loop. -/
def iterations : List Idx → List (List Int)
  | [] => [[]]
  | i :: is => (pyRange i.lo i.hi).flatMap fun x => (iterations is).map (x :: ·)

/-- Index lists (in the memory array) accessed for the velocity `k` by a kernel looping on
`space_index` (base.py 191-249, symbolic.py 195-206): `set_order([k, space_index + v], sorder)`. -/
def accesses (sorder : List Nat) (ranges : List (Int × Int)) (k : Nat) (v : List Int) :
    List (List Int) :=
  (iterations (spaceIdx ranges sorder.tail)).map fun vals =>
    setOrder ((k : Int) :: List.zipWith (· + ·) vals v) sorder

/-- `_get_space_idx_full`, base.py 168 (three ranges in every dimension; `sorder[1:]` selects). -/
def fullRanges (n : List Int) : List (Int × Int) := n.map fun m => (0, m)

/-- `_get_space_idx_inner`, base.py 182-189. -/
def innerRanges (vmax n : List Int) : List (Int × Int) :=
  List.zipWith (fun w m => (w, m - w)) vmax n

/-- Normalisation of one bound of a slice of step 1 for an axis of size `n`. -/
def sliceBound (n : Nat) (b : Int) : Nat :=
  if b < 0 then (b + n).toNat else min b.toNat n

/-- Indices selected by `slice(start, stop)` on an axis of size `n`. -/
def slice (n : Nat) (start stop : Int) : List Nat :=
  (List.range (sliceBound n stop - sliceBound n start)).map (· + sliceBound n start)

/-- The cells selected by `_in`, storage.py 147-157: `slice(vmax, -vmax)` on each axis. -/
def inCells : List Nat → List Nat → List (List Nat)
  | n :: ns, w :: ws =>
    (slice n w (-(w : Int))).flatMap fun x => (inCells ns ws).map (x :: ·)
  | _, _ => [[]]

end Pylbm.Storage
