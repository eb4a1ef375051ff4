import Verif.Domain.Model
import Mathlib.Data.Fintype.Pi
/-!
# Model of `pylbm/boundary.py`
-/

namespace Pylbm.Boundary
open Domain

/-- All the cells of an array of shape `s`, in the row-major order of `np.where`. -/
def cells : (dim : Nat) → (Fin dim → Nat) → List (Cell dim)
  | 0, _ => [Fin.elim0]
  | dim + 1, s => (List.range (s 0)).flatMap fun (i : Nat) =>
      (cells dim (fun j => s j.succ)).map fun c => Fin.cons (i : Int) c

/-- The tables of `Stencil` used by the boundary conditions: `nu` unique velocities `uvel`
(`unique_velocities`), the position `usym` of the symmetric of a unique velocity
(`unum2index[v.get_symmetric().num]`), `ns = nv_ptr[-1]` distribution functions, and for each of them
the position of its velocity among the unique ones (`unum2index[num]`), its scheme, and
`get_symmetric()`.  `Boundary/Bridge.lean` builds it from the model of the constructor of `Stencil`. -/
structure Sten (dim : Nat) where
  nu : Nat
  ns : Nat
  uvel : Fin nu → Cell dim
  usym : Fin nu → Fin nu
  ux : Fin ns → Fin nu
  scheme : Fin ns → Nat
  sym : Fin ns → Fin ns

/-- `get_all_velocities()[k]`, stencil.py 800-809. -/
def Sten.vel {dim : Nat} (s : Sten dim) (k : Fin s.ns) : Cell dim := s.uvel (s.ux k)

/-- The classes of boundary conditions, boundary.py 400-895 (`neumannAxis j` is `NeumannX`,
`NeumannY`, `NeumannZ`). -/
inductive Method (dim : Nat)
  | bounceBack | bouzidiBounceBack | antiBounceBack | bouzidiAntiBounceBack | neumann
  | neumannAxis (j : Fin dim)
  deriving DecidableEq

/-- One column of `istore`, `ilabel`, `distance`: distribution function, outer cell, label,
distance. -/
structure Entry (K : Type) (dim ns : Nat) where
  k : Fin ns
  cell : Cell dim
  label : Int
  dist : K

section init
variable {K : Type} {dim : Nat} (s : Sten dim) (shape : Fin dim → Nat)
  (link : Fin s.nu → Cell dim → Link K dim)

/-- `BoundaryVelocity(domain, label, ksym)`, boundary.py 28-46: the outer cells and the distances. -/
def boundaryVelocity (label : Int) (u : Fin s.nu) : List (Cell dim × K) :=
  let num := s.usym u
  ((cells dim shape).filter fun c => decide ((link num c).flag = label)).map fun c =>
    (fun j => c j + s.uvel num j, (link num c).dist)

/-- The body of the loop over the methods of one label, boundary.py 114-143: `k` runs over the
distribution functions `inumk + nv_ptr[scheme]` of the scheme. -/
def labelEntries (label : Int) (p : Nat × Method dim) : List (Method dim × Entry K dim s.ns) :=
  ((List.finRange s.ns).filter fun k => decide (s.scheme k = p.1)).flatMap fun k =>
    (boundaryVelocity s shape link label (s.ux k)).map fun q => (p.2, ⟨k, q.1, label, q.2⟩)

/-- The loop over the labels, boundary.py 105-143: all the columns in the order in which they are
appended, with their class; `none` is the `KeyError` of `dico_bound[label]`.  `dico` gives the
items of the dictionary `method` of a label. -/
def allEntries (labels : List Int) (dico : Int → Option (List (Nat × Method dim))) :
    Option (List (Method dim × Entry K dim s.ns)) := do
  let l ← (labels.filter fun label => decide (label ≠ -1 ∧ label ≠ -2)).mapM fun label =>
    (dico label).map fun ms => ms.flatMap (labelEntries s shape link label)
  return l.flatten

/-- Keys of an `OrderedDict` filled in the given order. -/
def firsts {α : Type} [DecidableEq α] : List α → List α
  | [] => []
  | a :: l => a :: (firsts l).filter fun b => decide (b ≠ a)

/-- `Boundary.__init__`, boundary.py 78-160: the instances of the methods with their columns. -/
def instances (labels : List Int) (dico : Int → Option (List (Nat × Method dim))) :
    Option (List (Method dim × List (Entry K dim s.ns))) := do
  let all ← allEntries s shape link labels dico
  return (firsts (all.map Prod.fst)).map fun m =>
    (m, (all.filter fun p => decide (p.1 = m)).map Prod.snd)

end init

/-- A column of a method together with the column of `feq` at the same position. -/
structure Item (K : Type) (dim ns : Nat) extends Entry K dim ns where
  feq : Fin ns → K

section update
variable {K : Type} {dim : Nat}

/-- The distribution functions on the cells with halo. -/
abbrev Dist (K : Type) (dim ns : Nat) := Fin ns → Cell dim → K

variable [Field K] [LinearOrder K] (s : Sten dim)

/-- The cell `istore[1:] + n * v[k]`. -/
def inner (n : Int) (e : Entry K dim s.ns) : Cell dim := fun j => e.cell j + n * s.vel e.k j

/-- The weight `s` of the interpolated conditions, boundary.py 519-531. -/
def weight (d : K) : K := if d < 1 / 2 then 2 * d else 1 / 2 / d

/-- `fload0` (`f[iload0]`) of the interpolated conditions, boundary.py 520-529. -/
def load0 (f : Dist K dim s.ns) (e : Entry K dim s.ns) : K := f (s.sym e.k) (inner s 1 e)

/-- `fload1` (`f[iload1]`) of the interpolated conditions, boundary.py 521-530. -/
def load1 (f : Dist K dim s.ns) (e : Entry K dim s.ns) : K :=
  if e.dist < 1 / 2 then f (s.sym e.k) (inner s 2 e) else f e.k (inner s 1 e)

/-- `rhs`, boundary.py 421-427, 561-567, 637-643, 698-704 (not set for the Neumann conditions). -/
def rhs (m : Method dim) (it : Item K dim s.ns) : K :=
  match m with
  | .bounceBack | .bouzidiBounceBack => it.feq it.k - it.feq (s.sym it.k)
  | .antiBounceBack | .bouzidiAntiBounceBack => it.feq it.k + it.feq (s.sym it.k)
  | .neumann | .neumannAxis _ => 0

/-- The right-hand side of the generated assignment, boundary.py 463, 614, 679, 752, 818 with the
`set_iload` of each class; `f` is the array being updated and `fcopy` its copy before the loop
(boundary.py 549). -/
def value (m : Method dim) (f fcopy : Dist K dim s.ns) (it : Item K dim s.ns) : K :=
  match m with
  | .bounceBack => f (s.sym it.k) (inner s 1 it.toEntry) + rhs s m it
  | .bouzidiBounceBack => weight it.dist * load0 s fcopy it.toEntry
      + (1 - weight it.dist) * load1 s fcopy it.toEntry + rhs s m it
  | .antiBounceBack => -f (s.sym it.k) (inner s 1 it.toEntry) + rhs s m it
  | .bouzidiAntiBounceBack => -weight it.dist * load0 s f it.toEntry
      + (1 - weight it.dist) * load1 s f it.toEntry + rhs s m it
  | .neumann => f it.k (inner s 1 it.toEntry)
  | .neumannAxis j => f it.k (fun i => it.cell i + if i = j then s.vel it.k i else 0)

/-- Assignment of one entry of the array. -/
def put {ns : Nat} (f : Dist K dim ns) (k : Fin ns) (c : Cell dim) (x : K) : Dist K dim ns :=
  fun k' c' => if k' = k ∧ c' = c then x else f k' c'

/-- The generated loop executed in order (Cython), boundary.py 463, 608-618, 745-756, 818. -/
def update (m : Method dim) (items : List (Item K dim s.ns)) (f : Dist K dim s.ns) :
    Dist K dim s.ns :=
  items.foldl (fun g it => put g it.k it.cell (value s m g f it)) f

/-- The generated loop executed by NumPy: the whole right-hand side first. -/
def updateVector (m : Method dim) (items : List (Item K dim s.ns)) (f : Dist K dim s.ns) :
    Dist K dim s.ns :=
  items.foldl (fun g it => put g it.k it.cell (value s m f f it)) f

/-- The loop over the methods in `Simulation.boundary_condition`, simulation.py 387-390 (the halo
exchange before it is modelled in `Halo`, `update_feq` in `Boundary/Time.lean`). -/
def boundaryCondition (insts : List (Method dim × List (Item K dim s.ns))) (f : Dist K dim s.ns) :
    Dist K dim s.ns :=
  insts.foldl (fun g p => update s p.1 p.2 g) f

end update

/-- The point at which the user function is evaluated, boundary.py 263-268: coordinate of the outer
cell plus `(1 - distance) * v[k] * dx`. -/
def wallPoint {K : Type} [Field K] [LinearOrder K] [FloorRing K] {dim nv : Nat} (s : Sten dim)
    (g : Grid K dim nv) (e : Entry K dim s.ns) : Fin dim → K :=
  fun i => g.point e.cell i + (1 - e.dist) * (s.vel e.k i : K) * g.dx

/-- `prepare_rhs`, boundary.py 238-298, for one column: `wall label` is `none` when no value is given
for the label (the column of `feq` stays 0) and otherwise the user function followed by `equilibrium`
and `m2f`, as a function of the point.  Simplification: the user function acts point by point. -/
def prepare {K : Type} [Field K] [LinearOrder K] [FloorRing K] {dim nv : Nat} (s : Sten dim)
    (g : Grid K dim nv) (wall : Int → Option ((Fin dim → K) → Fin s.ns → K)) (e : Entry K dim s.ns) :
    Item K dim s.ns :=
  { e with feq := match wall e.label with
      | none => fun _ => 0
      | some ψ => ψ (wallPoint s g e) }

/-- `prepare_rhs` on all the instances. -/
def prepareAll {K : Type} [Field K] [LinearOrder K] [FloorRing K] {dim nv : Nat} (s : Sten dim)
    (g : Grid K dim nv) (wall : Int → Option ((Fin dim → K) → Fin s.ns → K))
    (insts : List (Method dim × List (Entry K dim s.ns))) :
    List (Method dim × List (Item K dim s.ns)) :=
  insts.map fun p => (p.1, p.2.map (prepare s g wall))

end Pylbm.Boundary
