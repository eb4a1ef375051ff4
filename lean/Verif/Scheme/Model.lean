import Mathlib.LinearAlgebra.Matrix.NonsingularInverse
import Mathlib.Data.List.FinRange
import Verif.Common.List
/-!
# Model of `pylbm/scheme.py` and of the local kernels of `pylbm/algorithm`

SymPy expressions are modelled by functions: a polynomial of the space variables is a function of the
point, an equilibrium value is a function of the values of the conserved moments (by name, that is by
position in the dictionary `consm`).  SymPy simplifications (`alltogether`) do not change values.
-/

namespace Pylbm.Scheme
open ListAux

/-! ## Global matrices -/

section global
variable {K : Type} [Field K]

/-- `M_[k][i, j] = p[i].subs(...)`, scheme.py 487-492: value of the polynomial `i` of the scheme at the
velocity `j` times `la`. -/
def localM {dim : Nat} {n : Nat} (la : K) (vel : Fin n → Fin dim → Int)
    (P : Fin n → (Fin dim → K) → K) : Matrix (Fin n) (Fin n) K :=
  Matrix.of fun i j => P i fun d => (vel j d : K) * la

/-- `Mu_[k][i, j]`, scheme.py 494-499: the same with the relative velocity `u` subtracted. -/
def localMu {dim : Nat} {n : Nat} (la : K) (vel : Fin n → Fin dim → Int)
    (P : Fin n → (Fin dim → K) → K) (u : Fin dim → K) : Matrix (Fin n) (Fin n) K :=
  Matrix.of fun i j => P i fun d => (vel j d : K) * la - u d

/-- `M_[k].inv()`, scheme.py 501: `none` is SymPy's `NonInvertibleMatrixError`. -/
noncomputable def inv {n : Nat} (A : Matrix (Fin n) (Fin n) K) : Option (Matrix (Fin n) (Fin n) K) :=
  open Classical in if A.det ≠ 0 then some A⁻¹ else none

/-- `Tu_[k] = Mu_[k] * invM_[k]`, scheme.py 502. -/
def localTu {dim : Nat} {n : Nat} (la : K) (vel : Fin n → Fin dim → Int)
    (P : Fin n → (Fin dim → K) → K) (invM : Matrix (Fin n) (Fin n) K) (u : Fin dim → K) :
    Matrix (Fin n) (Fin n) K :=
  localMu la vel P u * invM

/-- The loops filling the global matrices, scheme.py 510-519: for each scheme `k` of sizes `nv`, the entry
`(nv_ptr[k] + i, nv_ptr[k] + j)` is set to the entry `(i, j)` of the block. `A` is the initial matrix
(zeros for `M` and `invM`, identity for `Tu`). -/
def fillBlocks (nv : List Nat) (B : Nat → Nat → Nat → K) (A : Nat → Nat → K) : Nat → Nat → K :=
  let ptr := fun k => (nv.take k).sum
  (List.range nv.length).foldl (fun A k =>
    (List.range (nv[k]?.getD 0)).foldl (fun A i =>
      (List.range (nv[k]?.getD 0)).foldl (fun A j =>
        fun a b => if a = ptr k + i ∧ b = ptr k + j then B k i j else A a b) A) A) A

/-- A matrix of the code, indexed by naturals, as a square matrix of size `nv_ptr[-1]`. -/
def toMatrix (n : Nat) (A : Nat → Nat → K) : Matrix (Fin n) (Fin n) K := Matrix.of fun i j => A i j

end global

/-! ## Conserved moments -/

/-- An entry of `EQ`: a conserved symbol alone, or another expression (a function of the values of the
symbols). -/
inductive EqExpr (K : Type)
  | sym (name : Nat)
  | expr (e : (Nat → K) → K)

/-- Value of an entry of `EQ`. -/
def EqExpr.eval {K : Type} (w : Nat → K) : EqExpr K → K
  | .sym c => w c
  | .expr e => e w

/-- Comparison with a symbol, as in `list.index`. -/
def EqExpr.isSym {K : Type} (c : Nat) : EqExpr K → Bool
  | .sym c' => c' == c
  | .expr _ => false

/-- `nv_ptr[i] + leq.index(c)` for the symbols `c` of one scheme, scheme.py 599-607;
`none` is the `ValueError` of `index`. -/
def schemeConsm {K : Type} (start : Nat) (leq : List (EqExpr K)) (names : List Nat) :
    Option (List (Nat × Nat)) :=
  names.mapM fun c => (leq.findIdx? (EqExpr.isSym c)).map fun i => (c, start + i)

/-- Insertion in an `OrderedDict`: the value of an existing key is replaced in place. -/
def dictSet (d : List (Nat × Nat)) (p : Nat × Nat) : List (Nat × Nat) :=
  if d.any (fun q => q.1 == p.1) then d.map fun q => if q.1 == p.1 then p else q else d ++ [p]

/-- `_get_conserved_moments`, scheme.py 592-607: each scheme comes with its part `leq` of `EQ` and the
list of its conserved symbols (empty when `conserved_moments` is not given). -/
def conservedMoments {K : Type} : Nat → List (List (EqExpr K) × List Nat) →
    List (Nat × Nat) → Option (List (Nat × Nat))
  | _, [], d => some d
  | start, (leq, names) :: rest, d => do
    let l ← schemeConsm start leq names
    conservedMoments (start + leq.length) rest (l.foldl dictSet d)

/-! ## Reordering -/

section permute
variable {K : Type} {n nc d : Nat}

/-- The attributes of a scheme used by the algorithms.  `consm` gives the index of the `j`-th conserved
moment, `EQ`, `s` and `relVel` are functions of the values of the conserved moments. -/
structure Data (K : Type) (n nc d : Nat) where
  M : Matrix (Fin n) (Fin n) K
  invM : Matrix (Fin n) (Fin n) K
  Tu : (Fin d → K) → Matrix (Fin n) (Fin n) K
  Tmu : (Fin d → K) → Matrix (Fin n) (Fin n) K
  EQ : Fin n → (Fin nc → K) → K
  s : Fin n → (Fin nc → K) → K
  consm : Fin nc → Fin n

/-- `A.row_swap(i, j)`. -/
def rowSwap {α : Type} (i j : Fin n) (A : Fin n → α) : Fin n → α :=
  fun a => if a = i then A j else if a = j then A i else A a

/-- `A.col_swap(i, j)`. -/
def colSwap {α : Type} (i j : Fin n) (A : Fin n → Fin n → α) : Fin n → Fin n → α :=
  fun a => rowSwap i j (A a)

/-- One turn of the loop of `_permute_consm_in_front`, scheme.py 230-238. -/
def Data.swap (i j : Fin n) (D : Data K n nc d) : Data K n nc d :=
  { D with
    EQ := rowSwap i j D.EQ
    s := rowSwap i j D.s
    M := Matrix.of (rowSwap i j D.M)
    invM := Matrix.of (colSwap i j D.invM)
    Tu := fun u => Matrix.of (colSwap i j (rowSwap i j (D.Tu u)))
    Tmu := fun u => Matrix.of (colSwap i j (rowSwap i j (D.Tmu u))) }

/-- `_permute_consm_in_front`, scheme.py 225-241.  `h` says that there are at most as many conserved
moments as moments. -/
def Data.permute (h : nc ≤ n) (D : Data K n nc d) : Data K n nc d :=
  { (List.finRange nc).foldl (fun E j => E.swap (Fin.castLE h j) (D.consm j)) D with
    consm := Fin.castLE h }

end permute

/-! ## Local kernels -/

section kernel
variable {K : Type} [Field K] {n nc d : Nat}

/-- What the kernels of an algorithm use, `BaseAlgorithm.__init__`, algorithm/base.py 91-155. `relVel` is
`none` without relative velocity; `source` is `source_eq` as a partial function of the moment (the
last entry for a moment wins, as in `source_term_local`), a function of all the moments at the point;
`dt` is the time step. -/
structure Kernel (K : Type) (n nc d : Nat) extends Data K n nc d where
  relVel : Option ((Fin nc → K) → Fin d → K)
  source : Fin n → Option ((Fin n → K) → K)
  dt : K

/-- Values at one cell: the moments, the new distribution functions, the relative velocity. -/
structure Local (K : Type) (n d : Nat) where
  m : Fin n → K
  fnew : Fin n → K
  u : Fin d → K

/-- The scalar assignments of the generated code.  The printers write a matrix equation as one
assignment per component in increasing order (`_print_Assignment`, generator/printing/cython.py 331-339
and pycode.py 1062-1095). -/
inductive Stmt (n d : Nat)
  /-- `fnew_k = f_k` (`transport_local`, base.py 273-287) -/
  | shift (k : Fin n)
  /-- `m_i = (M g)_i` or `(Mu g)_i` with `g = f` or `g = fnew` (`f2m_local`, base.py 298-333, and
  `restore_conserved_moments`, base.py 255-263) -/
  | mom (fromNew rel : Bool) (i : Fin n)
  /-- `rel_u_i = ...` (`relative_velocity`, base.py 251-253) -/
  | vel (i : Fin d)
  /-- `m_i = (1 - s_i) m_i + s_i eq_i` (`relaxation_local`, base.py 404-427) -/
  | relax (rel : Bool) (i : Fin n)
  /-- `m_i = eq_i` (`equilibrium_local`, base.py 381-392) -/
  | eqm (i : Fin n)
  /-- `m_i = m_i + dt/2 S_i` (`source_term_local`, base.py 439-495; `m_i = m_i` without source) -/
  | src (i : Fin n)
  /-- `fnew_i = (invM m)_i` or `(invMu m)_i` (`m2f_local`, base.py 346-369) -/
  | back (rel : Bool) (i : Fin n)
  deriving DecidableEq

variable (S : Kernel K n nc d)

/-- Values of the conserved moments. -/
def Kernel.cons (m : Fin n → K) : Fin nc → K := fun j => m (S.consm j)

/-- Right-hand side of a moment assignment. -/
def Kernel.dot (A : Matrix (Fin n) (Fin n) K) (i : Fin n) (g : Fin n → K) : K := ∑ j, A i j * g j

/-- One assignment; `f` is the vector of the old distribution functions which reach the cell. -/
def Kernel.exec (f : Fin n → K) (x : Local K n d) : Stmt n d → Local K n d
  | .shift k => { x with fnew := Function.update x.fnew k (f k) }
  | .mom fromNew rel i =>
    let A := if rel then S.Tu x.u * S.M else S.M
    { x with m := Function.update x.m i (Kernel.dot A i (if fromNew then x.fnew else f)) }
  | .vel i =>
    { x with u := match S.relVel with
        | none => x.u
        | some v => Function.update x.u i (v (S.cons x.m) i) }
  | .relax rel i =>
    let w := S.cons x.m
    let eq := if rel then Kernel.dot (S.Tu x.u) i (fun j => S.EQ j w) else S.EQ i w
    { x with m := Function.update x.m i ((1 - S.s i w) * x.m i + S.s i w * eq) }
  | .eqm i => { x with m := Function.update x.m i (S.EQ i (S.cons x.m)) }
  | .src i =>
    match S.source i with
    | none => x
    | some r => { x with m := Function.update x.m i (x.m i + S.dt / 2 * r x.m) }
  | .back rel i =>
    let A := if rel then S.invM * S.Tmu x.u else S.invM
    { x with fnew := Function.update x.fnew i (Kernel.dot A i x.m) }

/-- A sequence of assignments. -/
def Kernel.run (f : Fin n → K) (x : Local K n d) (p : List (Stmt n d)) : Local K n d :=
  p.foldl (S.exec f) x

/-- The components `< len(consm)`. -/
def front (n nc : Nat) : List (Fin n) := (List.finRange n).filter fun i => decide ((i : Nat) < nc)

/-- The components `≥ len(consm)`. -/
def backIdx (n nc : Nat) : List (Fin n) := (List.finRange n).filter fun i => decide (nc ≤ (i : Nat))

/-- `f2m_local`, base.py 298-333. -/
def f2mLocal (n nc d : Nat) (fromNew rel : Bool) : List (Stmt n d) :=
  if rel then
    (front n nc).map (.mom fromNew false) ++ (List.finRange d).map .vel
      ++ (backIdx n nc).map (.mom fromNew true)
  else (List.finRange n).map (.mom fromNew false)

/-- `source_term_local`, base.py 439-495. -/
def sourceLocal (n d : Nat) : List (Stmt n d) := (List.finRange n).map .src

/-- `relaxation_local`, base.py 404-427. -/
def relaxLocal (n d : Nat) (rel : Bool) : List (Stmt n d) := (List.finRange n).map (.relax rel)

/-- `equilibrium_local`, base.py 381-392. -/
def equilibriumLocal (n d : Nat) : List (Stmt n d) := (List.finRange n).map .eqm

/-- `m2f_local`, base.py 346-369. -/
def m2fLocal (n d : Nat) (rel : Bool) : List (Stmt n d) := (List.finRange n).map (.back rel)

/-- `restore_conserved_moments`, base.py 255-263. -/
def restoreLocal (n nc d : Nat) : List (Stmt n d) := (front n nc).map (.mom false true)

/-- `transport_local`, base.py 273-287. -/
def transportLocal (n d : Nat) : List (Stmt n d) := (List.finRange n).map .shift

/-- `BaseAlgorithm.one_time_step_local`, base.py 506-549; without sources `source_term_local` is not
called, which is the same as assignments `m_i = m_i`. -/
def baseStep (n nc d : Nat) (rel : Bool) : List (Stmt n d) :=
  transportLocal n d ++ f2mLocal n nc d true rel ++ sourceLocal n d ++ relaxLocal n d rel
    ++ sourceLocal n d ++ m2fLocal n d rel

/-- `PullAlgorithm.one_time_step_local`, pull.py 11-59. -/
def pullStep (n nc d : Nat) (rel : Bool) : List (Stmt n d) :=
  f2mLocal n nc d false rel ++ sourceLocal n d ++ relaxLocal n d rel
    ++ (if rel then restoreLocal n nc d else []) ++ sourceLocal n d ++ m2fLocal n d rel

end kernel

end Pylbm.Scheme
