import Verif.Common.Round
import Verif.Storage.Model
import Verif.Mpi.Model
/-!
# Model of `pylbm/domain.py`: coordinates, box, elements

Floats are replaced by a linearly ordered field `K`.
-/

namespace Pylbm.Domain
open Round Storage

section coords
variable {K : Type} [Field K] [LinearOrder K] [FloorRing K]

/-- `np.linspace(a, b, n)`: `n` equally spaced values from `a`; the last one is `b` when there
are at least two. -/
def linspace (a b : K) (n : Nat) : List K :=
  (List.range n).map fun i => if i = 0 then a else if i + 1 = n then b else a + (i : K) * ((b - a) / ((n : K) - 1))

/-- One side of the box in `create_coords`, domain.py 393-414: the number of cells, or `none`
when `sys.exit` is called. -/
def globalSize (L dx : K) : Option Int :=
  let q := L / dx
  if (⌊q⌋ : K) = q then some ⌊q⌋
  else
    let dummy := pyRound q
    let diff : K := dummy - q
    if |diff| < dx then some dummy else none

/-- `coords_halo[k]`, domain.py 421-431, from the lower bound `lo` of the box, the region
`[r0, r1)` owned by the process and the halo width `h`. -/
def coordsHalo (lo dx : K) (r0 r1 h : Nat) : List K :=
  let haloBeg := dx * ((h : K) - 1 / 2)
  linspace (lo + dx * r0 - haloBeg) (lo + dx * r1 + haloBeg) (r1 - r0 + 2 * h)

/-- `l[start:stop]` on a list. -/
def pySlice {α : Type} (l : List α) (start stop : Int) : List α :=
  (l.take (sliceBound l.length stop)).drop (sliceBound l.length start)

/-- `coords[k]`, domain.py 434-440: the end of the slice is `-h` if `h > 0` and `1` otherwise. -/
def coords (lo dx : K) (r0 r1 h : Nat) : List K :=
  pySlice (coordsHalo lo dx r0 r1 h) h (if h > 0 then -(h : Int) else 1)

end coords

section build
variable {K : Type} [Field K] [LinearOrder K] [FloorRing K] {dim nv : Nat}

/-- Index of a cell in the arrays with halo. -/
abbrev Cell (dim : Nat) := Fin dim → Int

/-- The local data of a domain: lower corner of the box (`geom.bounds[k][0]`), space step, global
number of cells, region owned by the process, halo widths (`stencil.vmax`), unique velocities and
labels of the faces of the box given by the user (`false` is the lower face `2 * k`, `true` the
upper face `2 * k + 1`). -/
structure Grid (K : Type) (dim nv : Nat) where
  lo : Fin dim → K
  dx : K
  N : Fin dim → Nat
  r0 : Fin dim → Nat
  r1 : Fin dim → Nat
  h : Fin dim → Nat
  vel : Fin nv → Fin dim → Int
  userLabel : Fin dim → Bool → Int

/-- The labels after domain.py 277-282: `-2` on a face which is an interface between processes. -/
def Grid.label (g : Grid K dim nv) (j : Fin dim) (side : Bool) : Int :=
  if side = false then (if g.r0 j ≠ 0 then -2 else g.userLabel j false)
  else (if g.r1 j ≠ g.N j then -2 else g.userLabel j true)

/-- `shape_in[j]`. -/
def Grid.n (g : Grid K dim nv) (j : Fin dim) : Nat := g.r1 j - g.r0 j

/-- `shape_halo[j]`. -/
def Grid.total (g : Grid K dim nv) (j : Fin dim) : Nat := g.n j + 2 * g.h j

/-- The cells of the views `phys_domain`, domain.py 465. -/
def Grid.Interior (g : Grid K dim nv) (c : Cell dim) : Prop :=
  ∀ j, (g.h j : Int) ≤ c j ∧ c j < g.h j + g.n j

instance (g : Grid K dim nv) (c : Cell dim) : Decidable (g.Interior c) := by
  unfold Grid.Interior; infer_instance

/-- The three values attached to a velocity and a cell: entries of `distance`, `flag`, `normal`. -/
structure Link (K : Type) (dim : Nat) where
  dist : K
  flag : Int
  normal : Fin dim → K

/-- The arrays `in_or_out` and `distance`, `flag`, `normal`. -/
structure State (K : Type) (dim nv : Nat) where
  ioo : Cell dim → Int
  link : Fin nv → Cell dim → Link K dim

/-- `valin`, domain.py 253. -/
def valin : Int := 999
/-- `valout`, domain.py 254. -/
def valout : Int := -1

/-- The arrays before `__add_init` (domain.py 285-293) with the `in_or_out` part of `__add_init`
(domain.py 467-469). -/
def initState (g : Grid K dim nv) : State K dim nv where
  ioo := fun c => if g.Interior c then valin else valout
  link := fun _ _ => ⟨(valin : K), valin, fun _ => 0⟩

/-- Body of the innermost loop of `__add_init`, domain.py 500-507 and 511-518, for the velocity
`k`, the axis `ax` and the position `pos` in the interior view: the cells of this layer whose
distance is larger than `d` get `d`, the label and the normal (components before `ax` set to 0,
component `ax` to `sgn`, the others kept).  In dimension 1 the code assigns without the test of
the distance; the test is always true there because the entry still is 999. -/
def layer (g : Grid K dim nv) (ax : Fin dim) (k : Fin nv) (pos : Nat) (d : K) (lab : Int) (sgn : K)
    (st : State K dim nv) : State K dim nv :=
  { st with
    link := fun k' c =>
      let L := st.link k' c
      if k' = k ∧ g.Interior c ∧ c ax = g.h ax + pos ∧ d < L.dist then
        ⟨d, lab, fun j => if j < ax then 0 else if j = ax then sgn else L.normal j⟩
      else L }

/-- The loop over the layers for one axis and one velocity, domain.py 498-518; `none` is the
`IndexError` of a layer outside of the view. -/
def layers (g : Grid K dim nv) (ax : Fin dim) (k : Fin nv) (st : State K dim nv) :
    Option (State K dim nv) :=
  let v := g.vel k ax
  if v < 0 ∧ g.label ax false ≠ -2 then
    (List.range (-v).toNat).foldlM (fun st i =>
      if i < g.n ax then
        some (layer g ax k i (-((i : K) + 1 / 2) / (v : K)) (g.label ax false) (-1) st)
      else none) st
  else if 0 < v ∧ g.label ax true ≠ -2 then
    (List.range v.toNat).foldlM (fun st i =>
      if i < g.n ax then
        some (layer g ax k (g.n ax - 1 - i) (((i : K) + 1 / 2) / (v : K)) (g.label ax true) 1 st)
      else none) st
  else some st

/-- `__add_init`, domain.py 463-518. -/
def addInit (g : Grid K dim nv) : Option (State K dim nv) :=
  (List.finRange dim).foldlM (fun st ax =>
    (List.finRange nv).foldlM (fun st k => layers g ax k st) st) (initState g)

/-- What `Domain` uses of an element of the geometry: `isfluid`, `get_bounds()`, `point_inside` and
the three results of `distance(x, v, 1.0, True)` at a point. -/
structure Elem (K : Type) (dim : Nat) where
  isFluid : Bool
  bl : Fin dim → K
  ur : Fin dim → K
  inside : (Fin dim → K) → Bool
  alpha : (Fin dim → K) → (Fin dim → K) → K
  border : (Fin dim → K) → (Fin dim → K) → Int
  normvect : (Fin dim → K) → (Fin dim → K) → Fin dim → K

/-- Coordinate of index `i` of `coords_halo[j]`. -/
def Grid.coord (g : Grid K dim nv) (j : Fin dim) (i : Int) : K :=
  (coordsHalo (g.lo j) g.dx (g.r0 j) (g.r1 j) (g.h j))[i.toNat]?.getD 0

/-- The point of the meshgrid at the cell `c`. -/
def Grid.point (g : Grid K dim nv) (c : Cell dim) : Fin dim → K := fun j => g.coord j (c j)

/-- `nmin`, domain.py 534-537. -/
def nmin (g : Grid K dim nv) (e : Elem K dim) (j : Fin dim) : Int :=
  max (g.h j) (trunc ((e.bl j - g.coord j 0) / g.dx) - g.h j)

/-- `nmax`, domain.py 538-539. -/
def nmax (g : Grid K dim nv) (e : Elem K dim) (j : Fin dim) : Int :=
  min (g.h j + g.n j) (trunc ((e.ur j - g.coord j 0) / g.dx) + g.h j + 1)

/-- The cells of the local views `[nmin:nmax]` (Python slice: a negative bound counts from the
end). -/
def InView (g : Grid K dim nv) (e : Elem K dim) (c : Cell dim) : Prop :=
  ∀ j, (sliceBound (g.total j) (nmin g e j) : Int) ≤ c j ∧
    c j < sliceBound (g.total j) (nmax g e j)

instance (g : Grid K dim nv) (e : Elem K dim) (c : Cell dim) : Decidable (InView g e c) := by
  unfold InView; infer_instance

/-- Size of the slice `[nmin + s : nmax + s]` on the axis `j`. -/
def viewSize (g : Grid K dim nv) (e : Elem K dim) (j : Fin dim) (s : Int) : Nat :=
  sliceBound (g.total j) (nmax g e j + s) - sliceBound (g.total j) (nmin g e j + s)

/-- The cell of the slice shifted by the velocity `v` at the same place as `c` in the view. -/
def shifted (g : Grid K dim nv) (e : Elem K dim) (v : Fin dim → Int) (c : Cell dim) : Cell dim :=
  fun j => sliceBound (g.total j) (nmin g e j + v j) +
    (c j - sliceBound (g.total j) (nmin g e j))

/-- Numpy broadcasting of two sizes; `none` is a `ValueError`. -/
def bcast (a b : Nat) : Option Nat :=
  if a = b then some a else if a = 1 then some b else if b = 1 then some a else none

/-- Update of `in_or_out`, domain.py 554-561. -/
def elemIoo (g : Grid K dim nv) (e : Elem K dim) (st : State K dim nv) : State K dim nv :=
  { st with
    ioo := fun c =>
      if InView g e c ∧ e.inside (g.point c) then (if e.isFluid then valin else valout)
      else st.ioo c }

/-- The updates of one link of the view, domain.py 578-620; `out` is the entry of `out_cells`. -/
def elemLink (e : Elem K dim) (ioo : Int) (out : Bool) (x v : Fin dim → K) (L : Link K dim) :
    Link K dim :=
  let indFluid := if e.isFluid then e.inside x else !e.inside x
  let indx := decide (0 < e.alpha x v) && indFluid && out
  let L := if e.isFluid then
      (if !out ∧ ioo = valin then { L with dist := (valin : K), flag := valin } else L)
    else (if e.inside x then { L with dist := (valin : K), flag := valin } else L)
  let sel : Bool := if e.isFluid then decide (L.dist < e.alpha x v) || decide (L.dist = (valin : K))
    else decide (e.alpha x v < L.dist)
  if indx && sel then
    ⟨e.alpha x v, e.border x v, fun j => -e.normvect x v j⟩
  else L

/-- All the links of the view for the velocity `k`. -/
def elemLinks (g : Grid K dim nv) (e : Elem K dim) (k : Fin nv) (masked : Bool)
    (st : State K dim nv) : State K dim nv :=
  { st with
    link := fun k' c =>
      if k' = k ∧ InView g e c then
        elemLink e (st.ioo c)
          (if masked then decide (st.ioo (shifted g e (g.vel k) c) = valout) else true)
          (g.point c) (fun j => g.dx * (g.vel k j : K)) (st.link k c)
      else st.link k' c }

/-- Loop body over the velocities of `__add_elem`, domain.py 563-620.  `none` is a `ValueError`
or `IndexError` of numpy when `out_cells` and the view have incompatible shapes, which happens
when `nmax` and `nmax + v` have different signs.  When the shapes differ but can be broadcast, the
result is empty and nothing is assigned; broadcasting to a non empty result is given `none` (it
does not occur when the halo width bounds the velocities, see `viewSize_cases`). -/
def elemVel (g : Grid K dim nv) (e : Elem K dim) (k : Fin nv) (st : State K dim nv) :
    Option (State K dim nv) :=
  if ∀ j, g.vel k j = 0 then some st
  else if ∀ j, viewSize g e j (g.vel k j) = viewSize g e j 0 then some (elemLinks g e k true st)
  else if e.isFluid then
    if (∀ j, bcast (viewSize g e j (g.vel k j)) (viewSize g e j 0) = some (viewSize g e j 0)) ∧
        ∃ j, viewSize g e j 0 = 0 then some st
    else none
  else if ∃ j, viewSize g e j (g.vel k j) = 0 then some (elemLinks g e k false st)
  else if (∀ j, (bcast (viewSize g e j (g.vel k j)) (viewSize g e j 0)).isSome) ∧
      ∃ j, viewSize g e j 0 = 0 then some st
  else none

/-- `__add_elem`, domain.py 521-620. -/
def addElem (g : Grid K dim nv) (st : State K dim nv) (e : Elem K dim) : Option (State K dim nv) :=
  (List.finRange nv).foldlM (fun st k => elemVel g e k st) (elemIoo g e st)

/-- `clean`, domain.py 622-635. -/
def clean (st : State K dim nv) : State K dim nv :=
  { st with
    link := fun k c =>
      let L := st.link k c
      if 0 < L.dist ∧ st.ioo c = valout then ⟨(valin : K), valin, fun _ => 0⟩ else L }

/-- `Domain.__init__`, domain.py 284-301: box, elements, clean. -/
def build (g : Grid K dim nv) (elems : List (Elem K dim)) : Option (State K dim nv) := do
  let st ← addInit g
  let st ← elems.foldlM (addElem g) st
  return clean st

end build

end Pylbm.Domain
