import Mathlib.Data.Nat.Factorial.Basic
import Mathlib.Data.Nat.Sqrt
import Mathlib.Order.Defs.LinearOrder
import Mathlib.Data.List.Sort
/-!
# Model of the velocities of `pylbm/stencil.py`

Python integers are `Int`/`Nat`; `abs` is `Int.natAbs`.  Exceptions and "nothing assigned" are `none`.
-/

namespace Pylbm.Velocity

/-- `cmp`, stencil.py 23-27. -/
def cmp (a b : Int) : Int := (if a > b then 1 else 0) - (if a < b then 1 else 0)

/-! ## 1D -/

/-- `Velocity._set_num`, branch `dim == 1`, stencil.py 288-291. -/
def setNum1 (vx : Int) : Int := 2 * (vx.natAbs : Int) - (if vx > 0 then 1 else 0)

/-- `Velocity._set_coord`, branch `dim == 1`, stencil.py 332-335.
The true division `n / 2` followed by the truncation `int(...)` is the division of integers
rounded towards zero of the product (`Int.tdiv`). -/
def setCoord1 (num : Int) : Int :=
  let n := num + 1
  Int.tdiv ((1 - 2 * (n % 2)) * n) 2

/-! ## 2D -/

/-- The entry `_d` of the table `_R2`, stencil.py 177. -/
def d : Int := 1000

/-- The table `_R2`, stencil.py 178-185. -/
def R2 : List (List (List Int)) :=
  [[[5, 6, 4], [d, d, 2], [2, 5, 3]],
   [[3, d, d], [d, -1, d], [1, d, d]],
   [[6, 7, 7], [d, d, 0], [1, 4, 0]]]

/-- Python indexing of a sequence: a negative index counts from the end; out of range is an
`IndexError` (`none`). -/
def pyGet? {α : Type*} (l : List α) (i : Int) : Option α :=
  if 0 ≤ i then l[i.toNat]? else if 0 ≤ l.length + i then l[(l.length + i).toNat]? else none

/-- `Velocity._set_num`, branch `dim == 2`, stencil.py 292-303. -/
def setNum2 (vx vy : Int) : Option Int := do
  let avx : Int := vx.natAbs
  let avy : Int := vy.natAbs
  let T1 := cmp vx 0
  let T2 := cmp vy 0
  let T3 := cmp avx avy
  let p := 2 * max avx avy - 1
  let p := p * p
  let q := 8 * min avx avy * (T3.natAbs : Int)
  let r ← (pyGet? R2 (T1 + 1)).bind fun t => (pyGet? t (T2 + 1)).bind fun t => pyGet? t (T3 + 1)
  return p + q + r

/-- `Velocity._set_coord`, branch `dim == 2`, stencil.py 336-352.  The expression
`int((sqrt(num) + 1) / 2)` is the integer part of a real number, which is
`(⌊sqrt num⌋ + 1) / 2` with the integer division.  `p / 8` is a true division, the
components are truncated by `int(...)` at the end: `int(±(p / 8))` is `Int.tdiv`. -/
def setCoord2 (num : Nat) : Option (Int × Int) := do
  let n : Int := (((Nat.sqrt num + 1) / 2 : Nat) : Int)
  let p : Int := num - (2 * n - 1) ^ 2
  if p < 4 then
    let vx ← pyGet? [n, 0, -n, 0] p
    let vy ← pyGet? [0, n, 0, -n] p
    return (vx, vy)
  else if p < 8 then
    let vx ← pyGet? [n, -n, -n, n] (p - 4)
    let vy ← pyGet? [n, n, -n, -n] (p - 4)
    return (vx, vy)
  else
    let i := n
    let j := Int.tdiv p 8
    let mj := Int.tdiv (-p) 8
    let vx ← pyGet? [i, j, mj, -i, -i, mj, j, i] (p % 8)
    let vy ← pyGet? [j, i, i, j, mj, -i, -i, mj] (p % 8)
    return (vx, vy)

/-! ## Permutations -/

section Perm
variable {α : Type*} [LinearOrder α] [Inhabited α]

/-- The inner search `while 1: i = i - 1; if iterable[i] < iterable[i+1] ...; if i == first ...`
of `permute_in_place`, stencil.py 85-102: the argument is the current `i`; `none` is the exit
through `i == first`. -/
def findI (a : List α) : Nat → Option Nat
  | 0 => if a[0]! < a[1]! then some 0 else none
  | i + 1 => if a[i + 1]! < a[i + 2]! then some (i + 1) else findI a i

/-- The search `while not iterable[i] < iterable[j]: j = j - 1`, stencil.py 90-92.  In the code
`j` could in principle run below zero; it never does since `iterable[i] < iterable[i+1]`. -/
def findJ (a : List α) (i : Nat) : Nat → Nat
  | 0 => 0
  | j + 1 => if a[i]! < a[j + 1]! then j + 1 else findJ a i j

/-- One turn of the outer loop of `permute_in_place`, stencil.py 84-102: the next list to be
yielded, or `none` when the generator returns. -/
def nextPerm (a : List α) : Option (List α) :=
  match findI a (a.length - 2) with
  | none => none
  | some i =>
    let j := findJ a i (a.length - 1)
    let x := a[i]!
    let y := a[j]!
    let b := (a.set i y).set j x
    some (b.take (i + 1) ++ (b.drop (i + 1)).reverse)

/-- The outer loop of `permute_in_place`, stencil.py 84-102, with fuel: the lists yielded and
the state in which the list is left (`none` if the fuel is exhausted). -/
def permLoop : Nat → List α → List (List α) × Option (List α)
  | 0, _ => ([], none)
  | fuel + 1, a =>
    match nextPerm a with
    | none => ([], some a.reverse)
    | some b => let r := permLoop fuel b; (b :: r.1, r.2)

/-- `permute_in_place`, stencil.py 30-102: lists yielded and final state of the list. The fuel
`length !` is proved to be sufficient (`C04_permute_terminates`). -/
def permuteInPlace (l : List α) : List (List α) × Option (List α) :=
  let a := l.mergeSort (· ≤ ·)
  if a.length ≤ 1 then ([a], some a)
  else
    let r := permLoop (Nat.factorial a.length) a
    (a :: r.1, r.2)

end Perm

/-! ## 3D -/

/-- `sign = [1, -1]` and `sign[0:kk+1]`, stencil.py 306, 312-316. -/
def signs (kk : Nat) : List Int := [1, -1].take (kk + 1)

/-- The candidates of the innermost loops for one permutation `kk, ii, jj`,
stencil.py 310-320 (and 359-369). -/
def signed : List Nat → List (Int × Int × Int)
  | [kk, ii, jj] =>
    (signs kk).flatMap fun pmk => (signs ii).flatMap fun pmi => (signs jj).map fun pmj =>
      (pmk * kk, pmi * ii, pmj * jj)
  | _ => []

/-- The sequence of candidate velocities visited by the nested loops of `_set_num` and
`_set_coord` in 3D, stencil.py 307-320 and 356-369; `K = 100` in the code. -/
def enum3 (K : Nat) : List (Int × Int × Int) :=
  (List.range K).flatMap fun k => (List.range (k + 1)).flatMap fun i =>
    (List.range (i + 1)).flatMap fun j => (permuteInPlace [k, i, j]).1.flatMap signed

/-- Number of values of `k` in the nested loops, stencil.py 307, 356. -/
def K3 : Nat := 100

/-- `_set_num`, branch `dim == 3`, stencil.py 304-325: the value of `count` at the first
candidate equal to the velocity; `none` when the loops end without a match (line 326). -/
def setNum3 (v : Int × Int × Int) : Option Nat := (enum3 K3).findIdx? (fun w => w == v)

/-- `_set_coord`, branch `dim == 3`, stencil.py 353-372: the candidate visited when `count`
equals the number; `none` when the loops end before (line 373). -/
def setCoord3 (num : Nat) : Option (Int × Int × Int) := (enum3 K3)[num]?

/-! ## The class `Velocity` -/

/-- The coordinates of a velocity: `vy is None`, `vz is None` are the 1D and 2D cases,
stencil.py 187-205. -/
inductive Vel where
  | v1 (vx : Int)
  | v2 (vx vy : Int)
  | v3 (vx vy vz : Int)
  deriving DecidableEq, Repr

/-- `self.dim`, stencil.py 195-205. -/
def Vel.dim : Vel → Int
  | .v1 _ => 1
  | .v2 _ _ => 2
  | .v3 _ _ _ => 3

/-- `Velocity._set_num`, all branches, stencil.py 285-326. -/
def Vel.num : Vel → Option Int
  | .v1 vx => some (setNum1 vx)
  | .v2 vx vy => setNum2 vx vy
  | .v3 vx vy vz => (setNum3 (vx, vy, vz)).map Int.ofNat

/-- `Velocity._set_coord`, all branches, stencil.py 329-373 (`dim` is 1, 2 or 3). -/
def ofNum (dim : Nat) (num : Nat) : Option Vel :=
  if dim = 1 then some (.v1 (setCoord1 num))
  else if dim = 2 then (setCoord2 num).map fun p => .v2 p.1 p.2
  else if dim = 3 then (setCoord3 num).map fun p => .v3 p.1 p.2.1 p.2.2
  else none

/-- `Velocity.get_symmetric`, stencil.py 241-281; `none` is the `ValueError`. -/
def Vel.getSymmetric (v : Vel) (axis : Option Int) : Option Vel :=
  match axis with
  | some a =>
    if a ≥ v.dim ∨ a < 0 then none
    else
      match v with
      | .v1 vx => if a = 0 then some (.v1 vx) else if a = 1 then some (.v1 (-vx)) else some (.v1 (-vx))
      | .v2 vx vy =>
        if a = 0 then some (.v2 vx (-vy)) else if a = 1 then some (.v2 (-vx) vy)
        else some (.v2 (-vx) (-vy))
      | .v3 vx vy vz =>
        if a = 0 then some (.v3 vx (-vy) (-vz)) else if a = 1 then some (.v3 (-vx) vy (-vz))
        else some (.v3 (-vx) (-vy) vz)
  | none =>
    match v with
    | .v1 vx => some (.v1 (-vx))
    | .v2 vx vy => some (.v2 (-vx) (-vy))
    | .v3 vx vy vz => some (.v3 (-vx) (-vy) (-vz))

end Pylbm.Velocity
