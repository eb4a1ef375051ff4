import Verif.Velocity.Model
import Mathlib.Data.List.Dedup
import Mathlib.Data.List.Sort
/-!
# Model of the class `Stencil` of `pylbm/stencil.py`
-/

namespace Pylbm.Sten
open Velocity

/-- A `Velocity` object built from its number (`Velocity(dim=dim, num=i)`, stencil.py 666). -/
structure V where
  num : Nat
  vel : Vel
  deriving DecidableEq, Repr

/-- `np.union1d`: sorted distinct values of both arrays (used at stencil.py 664). -/
def union1d (a b : List Nat) : List Nat := ((a ++ b).dedup).insertionSort (· ≤ ·)

/-- `np.searchsorted(a, x)` (left insertion point) for a sorted array (stencil.py 674). -/
def searchLeft (a : List Nat) (x : Nat) : Nat := a.countP (· < x)

/-- `np.searchsorted(a, x, side="right")` for a sorted array (stencil.py 827). -/
def searchRight (a : List Nat) (x : Nat) : Nat := a.countP (· ≤ x)

/-- The attributes of `Stencil` filled by the constructor. -/
structure Stencil where
  dim : Nat
  uvel : List V
  v : List (List V)
  nv : List Nat
  nvPtr : List Nat
  num2index : List Nat
  unum2index : List Int

/-- `unum`, stencil.py 771-775. -/
def Stencil.unum (s : Stencil) : List Nat := s.uvel.map V.num

/-- The loop filling `v`, `nv`, `nv_ptr`, stencil.py 669-679; `none` is an `IndexError`.
The accumulator is the last entry of `nv_ptr`. -/
def fill (uvel : List V) : List (List Nat) → Nat → Option (List (List V) × List Nat × List Nat)
  | [], _ => some ([], [], [])
  | velocities :: rest, ptr => do
    let ypos := velocities.map (searchLeft (uvel.map V.num))
    let vk ← ypos.mapM (fun i => uvel[i]?)
    let size := velocities.length
    let (v, nv, p) ← fill uvel rest (ptr + size)
    return (vk :: v, size :: nv, (ptr + size) :: p)

/-- `unum2index`, stencil.py 688-690: an array of `max(unum) + 1` entries `-1000`, then
`unum2index[unum] = arange(unum.size)`. -/
def mkUnum2index (unum : List Nat) : List Int :=
  unum.zipIdx.foldl (fun (t : List Int) (p : Nat × Nat) => t.set p.1 (p.2 : Int))
    (List.replicate ((unum.foldl max 0) + 1) (-1000))

/-- `Stencil.__init__`, stencil.py 643-693, from the dimension and the lists of velocity numbers.
`none` when a velocity number has no coordinates, when there is no scheme or when a scheme is
empty (`np.vectorize` and `np.max` raise on an empty array). -/
def build (dim : Nat) (schemes : List (List Nat)) : Option Stencil :=
  if schemes = [] ∨ [] ∈ schemes then none else do
  let unique := schemes.foldl union1d []
  let uvel ← unique.mapM fun i => (ofNum dim i).map (V.mk i)
  let (v, nv, p) ← fill uvel schemes 0
  return { dim := dim, uvel := uvel, v := v, nv := nv, nvPtr := 0 :: p,
           num2index := v.flatMap (·.map V.num), unum2index := mkUnum2index (uvel.map V.num) }

/-- Loop body of `Stencil.get_symmetric`, stencil.py 826-832, for the velocity of global index `k`;
`none` is the `ValueError` of `list.index` or of `Velocity.get_symmetric`. -/
def Stencil.symIndex (s : Stencil) (axis : Option Int) (k : Nat) (vk : V) : Option Nat := do
  let w ← vk.vel.getSymmetric axis
  let num ← w.num
  let n := searchRight s.nvPtr k - 1
  let a ← s.nvPtr[n]?
  let b ← s.nvPtr[n + 1]?
  let idx ← ((s.num2index.drop a).take (b - a)).findIdx? (fun m : Nat => (m : Int) == num)
  return idx + a

/-- `Stencil.get_symmetric`, stencil.py 817-835. -/
def Stencil.getSymmetric (s : Stencil) (axis : Option Int) : Option (List Nat) :=
  (s.v.flatten.zipIdx).mapM fun p => s.symIndex axis p.2 p.1

/-- Inner loop of `Stencil.is_symmetric` for one scheme, stencil.py 854-866: `contains_sym` is
true when *no* number of the scheme is the one of the symmetric velocity. -/
def schemeSym (v : List V) : Bool :=
  v.foldl (fun isSym vk =>
    let containsSym := v.all fun m =>
      !(some (m.num : Int) == (vk.vel.getSymmetric none).bind Vel.num)
    if containsSym then false else isSym) true

/-- `Stencil.is_symmetric`, stencil.py 849-871: `is_sym` is reset for every scheme and the value
of the last scheme is returned. -/
def Stencil.isSymmetric (s : Stencil) : Bool :=
  s.v.foldl (fun _ v => schemeSym v) true

/-- Component `i` of a velocity, stencil.py 738-769. -/
def comp (i : Nat) : Vel → Option Int
  | .v1 x => [x][i]?
  | .v2 x y => [x, y][i]?
  | .v3 x y z => [x, y, z][i]?

/-- `vmax[i]`, stencil.py 715-719 (maximum of the components, with sign); `none` when the
component does not exist or there is no velocity. -/
def Stencil.vmax (s : Stencil) (i : Nat) : Option Int := do
  let c ← s.uvel.mapM fun v => comp i v.vel
  c.max?

/-- `vmin[i]`, stencil.py 721-725. -/
def Stencil.vmin (s : Stencil) (i : Nat) : Option Int := do
  let c ← s.uvel.mapM fun v => comp i v.vel
  c.min?

/-- `get_all_velocities()` without argument, stencil.py 800-809: the rows of the schemes placed
at `nv_ptr[n]:nv_ptr[n+1]` of an array of `nv_ptr[-1]` rows. -/
def Stencil.allVelocities (s : Stencil) : List V :=
  (s.v.zipIdx).foldl (fun (rows : List V) p =>
      let a := s.nvPtr[p.2]?.getD 0
      rows.take a ++ p.1 ++ rows.drop (a + p.1.length))
    (List.replicate (s.nvPtr.getLast?.getD 0) ⟨0, .v1 0⟩)

end Pylbm.Sten
