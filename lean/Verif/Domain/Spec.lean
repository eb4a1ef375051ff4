import Mathlib.Algebra.Order.Field.Basic
/-!
# Specification of the discretised domain
-/

namespace Pylbm.DomainSpec
variable {K : Type} [Field K]

/-- Centre of cell `i` (possibly a halo cell: negative or beyond the box) of a grid of step `dx`
starting at `lo`. -/
def centre (lo dx : K) (i : Int) : K := lo + dx * ((i : K) + 1 / 2)

/-- A face of a box: axis and side (`false`: lower, `true`: upper). -/
structure Face (dim : Nat) where
  ax : Fin dim
  upper : Bool

/-- Position of a face in units of cells; the centres of the cells are the integers
`0, …, n - 1`. -/
def facePos {dim : Nat} (n : Fin dim → Nat) (f : Face dim) : K :=
  if f.upper then (n f.ax : K) - 1 / 2 else -(1 / 2)

/-- The segment from the cell `i` to the cell `i + v` goes through the face `f`, from the inside
to the outside, at the fraction `t` of its length. -/
def Crosses [LinearOrder K] {dim : Nat} (n : Fin dim → Nat) (i v : Fin dim → Int) (f : Face dim)
    (t : K) : Prop :=
  0 < t ∧ t ≤ 1 ∧ (i f.ax : K) + t * (v f.ax : K) = facePos n f

/-- `f` is the first face of the set `A` met by the segment, at the fraction `t`; for simultaneous
crossings, the one with the smallest axis. -/
def FirstFace [LinearOrder K] {dim : Nat} (n : Fin dim → Nat) (A : Face dim → Prop)
    (i v : Fin dim → Int) (f : Face dim) (t : K) : Prop :=
  A f ∧ Crosses n i v f t ∧
    ∀ f' t', A f' → Crosses n i v f' t' → t < t' ∨ (t = t' ∧ f.ax ≤ f'.ax)

/-- Outward unit normal of a face. -/
def outward {dim : Nat} (f : Face dim) (j : Fin dim) : K :=
  if j = f.ax then (if f.upper then 1 else -1) else 0

/-- Fluid (`true`) or solid (`false`) at a point: the last region of the list which contains the
point decides; fluid when there is none. -/
def material {P : Type} : List (Bool × (P → Bool)) → P → Bool
  | [], _ => true
  | (isFluid, mem) :: rest, x =>
    if rest.any (fun r => r.2 x) then material rest x
    else if mem x then isFluid else true

end Pylbm.DomainSpec
