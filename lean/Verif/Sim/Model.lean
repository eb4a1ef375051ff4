import Verif.Scheme.Model
import Verif.Halo.Model
import Mathlib.Order.Interval.Finset.Basic
import Mathlib.Data.Int.Interval
/-!
# Model of the generated loops, of the containers and of `pylbm/simulation.py`

The memory holds two distribution arrays (`container.F` and `container.Fnew` are references to them, the
same one with NumPy), the array of the moments and the relative velocity.  An array gives the vector of
all its components at every cell of `Z^dim`; only the cells of the local box with halo exist in the
code, and the reads of the inner loops stay in this box when the halo is as wide as the velocities
(`Pylbm.Sim.C39_accesses`).
-/

namespace Pylbm.Sim
open Scheme Halo

variable {K : Type} [Field K] {n nc d dim : Nat}

/-- Distribution functions or moments at every cell. -/
abbrev Arr (K : Type) (n dim : Nat) := Cell dim → Fin n → K

/-- Address of the moments (or of the relative velocity) used at a cell: an array entry, or a local
variable of the generated function (`none`). -/
abbrev Addr (dim : Nat) := Option (Cell dim)

/-- The memory seen by the generated functions. -/
structure Mem (K : Type) (n d dim : Nat) where
  buf : Fin 2 → Arr K n dim
  m : Addr dim → Fin n → K
  u : Addr dim → Fin d → K

/-- The references passed to a generated function: `f`, `fnew` (`_get_args`, base.py 650-654), and where
the moments and the relative velocity are stored (`m_local` and `local_vars`, base.py 556-576). -/
structure Refs (dim : Nat) where
  f : Fin 2
  fnew : Fin 2
  ma : Cell dim → Addr dim
  ua : Cell dim → Addr dim

/-- The old distribution functions which reach the cell `c`: `f` indexed with `-velocities`
(`_get_indexed_on_velocities`, base.py 294 and 575); without transport `vel = 0`. -/
def pull (vel : Fin n → Cell dim) (a : Arr K n dim) (c : Cell dim) : Fin n → K :=
  fun k => a (fun i => c i - vel k i) k

variable (S : Kernel K n nc d) (vel : Fin n → Cell dim) (R : Refs dim)

/-- Values of the variables at the cell `c`. -/
def view (mem : Mem K n d dim) (c : Cell dim) : Local K n d :=
  ⟨mem.m (R.ma c), mem.buf R.fnew c, mem.u (R.ua c)⟩

/-- One scalar assignment at the cell `c`, in the C code generated by Cython or Loopy: the distribution
functions are read in the memory as it is at this moment. -/
def execAt (mem : Mem K n d dim) (cs : Cell dim × Stmt n d) : Mem K n d dim :=
  let y := S.exec (pull vel (mem.buf R.f) cs.1) (view R mem cs.1) cs.2
  { buf := Function.update mem.buf R.fnew (Function.update (mem.buf R.fnew) cs.1 y.fnew)
    m := Function.update mem.m (R.ma cs.1) y.m
    u := Function.update mem.u (R.ua cs.1) y.u }

/-- One assignment of slices in the NumPy code (`_print_For` and `_print_Indexed`, pycode.py 1062-1095):
all the values are computed before they are written. -/
def vecStep (L : List (Cell dim)) (mem : Mem K n d dim) (s : Stmt n d) : Mem K n d dim :=
  let y := fun c => S.exec (pull vel (mem.buf R.f) c) (view R mem c) s
  { buf := Function.update mem.buf R.fnew fun c => if c ∈ L then (y c).fnew else mem.buf R.fnew c
    m := fun a => match a with
      | none => mem.m none
      | some c => if c ∈ L then (y c).m else mem.m (some c)
    u := fun a => match a with
      | none => mem.u none
      | some c => if c ∈ L then (y c).u else mem.u (some c) }

/-- `For(space_index, body)` of the C code: for each cell of the loops, all the assignments. -/
def cellLoop (L : List (Cell dim)) (p : List (Stmt n d)) (mem : Mem K n d dim) : Mem K n d dim :=
  (L.flatMap fun c => p.map fun s => (c, s)).foldl (execAt S vel R) mem

/-- `For(space_index, body)` of the NumPy code. -/
def vecLoop (L : List (Cell dim)) (p : List (Stmt n d)) (mem : Mem K n d dim) : Mem K n d dim :=
  p.foldl (vecStep S vel R L) mem

/-- The cells `[vmax, n - vmax[` of the inner loops (`_get_space_idx_inner`, base.py 170-189): `size`
interior cells after a halo of width `w`.  The order of the loops depends on `sorder`. -/
def inner (size w : Fin dim → Nat) : Finset (Cell dim) :=
  Fintype.piFinset fun i => Finset.Ico (w i : Int) (w i + size i)

/-- All the cells with the halo (`_get_space_idx_full`, base.py 157-168). -/
def full (size w : Fin dim → Nat) : Finset (Cell dim) :=
  Fintype.piFinset fun i => Finset.Ico (0 : Int) (size i + 2 * w i)

/-- `generator`: the C backends have a separate array `Fnew`, NumPy has `Fnew = F`
(container.py 61-95). -/
inductive Backend
  | numpy
  | c
  deriving DecidableEq

/-- `lbm_algorithm`. -/
inductive Algo
  | base
  | pull
  deriving DecidableEq

/-- `algo_settings`, simulation.py 173-189. -/
structure Settings where
  algo : Algo
  mLocal : Bool
  split : Bool
  checkFluid : Bool

/-- The matrix equations of `f2m_local`, base.py 318-334. -/
def f2mGroups (n nc d : Nat) (fromNew rel : Bool) : List (List (Stmt n d)) :=
  if rel then
    [(front n nc).map (.mom fromNew false)] ++ (List.finRange d).map (fun i => [.vel i])
      ++ [(backIdx n nc).map (.mom fromNew true)]
  else [(List.finRange n).map (.mom fromNew false)]

/-- The list returned by `one_time_step_local`, base.py 531-549 and pull.py 37-59. -/
def groups (n nc d : Nat) (rel : Bool) : Algo → List (List (Stmt n d))
  | .base => [transportLocal n d] ++ f2mGroups n nc d true rel ++ [sourceLocal n d, relaxLocal n d rel,
      sourceLocal n d, m2fLocal n d rel]
  | .pull => f2mGroups n nc d false rel ++ [sourceLocal n d, relaxLocal n d rel] ++
      (if rel then [restoreLocal n nc d] else []) ++ [sourceLocal n d, m2fLocal n d rel]

/-- Where the C code keeps the moments and the relative velocity (base.py 561-573): the moments are a
local vector with `m_local` and without `split`, otherwise an array; the relative velocity is a local
scalar for each component. -/
def cRefs (cfg : Settings) (F Fnew : Fin 2) : Refs dim :=
  ⟨F, Fnew, if cfg.mLocal && !cfg.split then fun _ => none else some, fun _ => none⟩

/-- References of the NumPy code: the moments and the relative velocity are arrays. -/
def npRefs (F Fnew : Fin 2) : Refs dim := ⟨F, Fnew, some, some⟩

/-- `one_time_step`, base.py 551-600, on the cells `L` of the loops; with `check_isfluid` the body is
executed where `in_or_out == valin`. -/
def stepRoutine (b : Backend) (cfg : Settings) (fluid : Cell dim → Bool) (L : List (Cell dim))
    (F Fnew : Fin 2) (mem : Mem K n d dim) : Mem K n d dim :=
  let g := groups n nc d S.relVel.isSome cfg.algo
  let L := if cfg.checkFluid then L.filter fluid else L
  match b with
  | .numpy => vecLoop S vel (npRefs F Fnew) L g.flatten mem
  | .c =>
    if cfg.split then g.foldl (fun mem q => cellLoop S vel (cRefs cfg F Fnew) L q mem) mem
    else cellLoop S vel (cRefs cfg F Fnew) L g.flatten mem

/-- A loop over the given cells, for the functions other than `one_time_step`. -/
def loop (b : Backend) (vel : Fin n → Cell dim) (F Fnew : Fin 2) (L : List (Cell dim))
    (p : List (Stmt n d)) (mem : Mem K n d dim) : Mem K n d dim :=
  match b with
  | .numpy => vecLoop S vel (npRefs F Fnew) L p mem
  | .c => cellLoop S vel (npRefs F Fnew) L p mem

/-- `transport`, base.py 289-296: `fnew = f` shifted, on the inner cells. -/
def transportRoutine (b : Backend) (L : List (Cell dim)) (F Fnew : Fin 2) (mem : Mem K n d dim) :
    Mem K n d dim :=
  loop S b vel F Fnew L (transportLocal n d) mem

/-- `f2m`, base.py 336-344: on all the cells, without relative velocity. -/
def f2mRoutine (b : Backend) (L : List (Cell dim)) (F Fnew : Fin 2) (mem : Mem K n d dim) : Mem K n d dim :=
  loop S b 0 F Fnew L (f2mLocal n nc d false false) mem

/-- `relaxation`, base.py 430-437. -/
def relaxRoutine (b : Backend) (L : List (Cell dim)) (F Fnew : Fin 2) (mem : Mem K n d dim) :
    Mem K n d dim :=
  loop S b 0 F Fnew L (relaxLocal n d false) mem

/-- `equilibrium`, base.py 395-402. -/
def equilibriumRoutine (b : Backend) (L : List (Cell dim)) (F Fnew : Fin 2) (mem : Mem K n d dim) :
    Mem K n d dim :=
  loop S b 0 F Fnew L (equilibriumLocal n d) mem

/-- `source_term`, base.py 497-504 (generated when there are sources). -/
def sourceRoutine (b : Backend) (L : List (Cell dim)) (F Fnew : Fin 2) (mem : Mem K n d dim) :
    Mem K n d dim :=
  loop S b 0 F Fnew L (sourceLocal n d) mem

/-- `m2f`, base.py 371-379: the array written is `f` (not `fnew`). -/
def m2fRoutine (b : Backend) (L : List (Cell dim)) (F : Fin 2) (mem : Mem K n d dim) : Mem K n d dim :=
  loop S b 0 F F L (m2fLocal n d false) mem

/-! ## `Simulation` -/

/-- The attributes of a `Simulation` changed during a run; `dirty` is `_update_m`. -/
structure Simu (K : Type) (n d dim : Nat) where
  mem : Mem K n d dim
  F : Fin 2
  Fnew : Fin 2
  dirty : Bool
  t : K
  nt : Nat

/-- What does not change: backend, settings, loops (`Lin`: inner cells, `Lfull`: all cells, in the order
of the generated loops), time step, and the boundary conditions as a function of the time and of the
array `F` (`boundary_condition`, simulation.py 373-390; modelled in `Verif.Boundary`). -/
structure Setup (K : Type) (n nc d dim : Nat) where
  S : Kernel K n nc d
  vel : Fin n → Cell dim
  backend : Backend
  cfg : Settings
  fluid : Cell dim → Bool
  Lin : List (Cell dim)
  Lfull : List (Cell dim)
  bc : K → Arr K n dim → Arr K n dim

/-- Replace the contents of the array `F`. -/
def Simu.setF (s : Simu K n d dim) (a : Arr K n dim) : Simu K n d dim :=
  { s with mem := { s.mem with buf := Function.update s.mem.buf s.F a } }

/-- The public operations of a simulation. -/
inductive Op (K : Type) (n dim : Nat)
  /-- `one_time_step()` -/
  | step
  /-- reading `m[i]` or `m_halo[i]` -/
  | readM
  /-- reading `F[i]` or `F_halo[i]` -/
  | readF
  /-- `m_halo[i] = value` -/
  | writeM (i : Fin n) (v : Cell dim → K)
  /-- `F_halo[i] = value` -/
  | writeF (i : Fin n) (v : Cell dim → K)
  /-- writing in the array returned by `F[i]` or `F_halo[i]` -/
  | writeView (i : Fin n) (v : Cell dim → K)
  | transport
  | f2m
  | m2f
  | relaxation
  | equilibrium
  | source
  | boundary

variable (P : Setup K n nc d dim)

/-- The getter of `m` and `m_halo` before the value is returned, simulation.py 205-207 and 220-222. -/
def Simu.getM (s : Simu K n d dim) : Simu K n d dim :=
  if s.dirty then
    { s with dirty := false, mem := f2mRoutine P.S P.backend P.Lfull s.F s.Fnew s.mem }
  else s

/-- One public operation. `one_time_step`: simulation.py 409-420 (the initialisation is done). -/
def Simu.apply (s : Simu K n d dim) : Op K n dim → Simu K n d dim
  | .step =>
    let s1 := { s with dirty := true }
    let s2 := s1.setF (P.bc s1.t (s1.mem.buf s1.F))
    let mem := stepRoutine P.S P.vel P.backend P.cfg P.fluid P.Lin s2.F s2.Fnew s2.mem
    { mem := mem, F := s2.Fnew, Fnew := s2.F, dirty := s2.dirty, t := s2.t + P.S.dt, nt := s2.nt + 1 }
  | .readM => s.getM P
  | .readF => s
  | .writeM i v => { s with
      dirty := false
      mem := { s.mem with m := fun a => match a with
        | none => s.mem.m none
        | some c => if c ∈ P.Lfull then Function.update (s.mem.m (some c)) i (v c) else s.mem.m (some c) } }
  | .writeF i v => { s.setF fun c =>
      if c ∈ P.Lfull then Function.update (s.mem.buf s.F c) i (v c) else s.mem.buf s.F c with dirty := true }
  | .writeView i v => s.setF fun c =>
      if c ∈ P.Lfull then Function.update (s.mem.buf s.F c) i (v c) else s.mem.buf s.F c
  | .transport => { s with mem := transportRoutine P.S P.vel P.backend P.Lin s.F s.Fnew s.mem }
  | .f2m => { s with mem := f2mRoutine P.S P.backend P.Lfull s.F s.Fnew s.mem }
  | .m2f => { s with mem := m2fRoutine P.S P.backend P.Lfull s.F s.mem }
  | .relaxation => { s with mem := relaxRoutine P.S P.backend P.Lfull s.F s.Fnew s.mem }
  | .equilibrium => { s with mem := equilibriumRoutine P.S P.backend P.Lfull s.F s.Fnew s.mem }
  | .source => { s with mem := sourceRoutine P.S P.backend P.Lin s.F s.Fnew s.mem }
  | .boundary => s.setF (P.bc s.t (s.mem.buf s.F))

/-- A sequence of operations. -/
def Simu.run (s : Simu K n d dim) (l : List (Op K n dim)) : Simu K n d dim := l.foldl (Simu.apply P) s

/-- A simulation after construction: NumPy has one array for `F` and `Fnew`, `_update_m` is true. -/
def Simu.Start (s : Simu K n d dim) : Prop :=
  (match P.backend with | .numpy => s.F = s.Fnew | .c => s.F ≠ s.Fnew) ∧
    s.dirty = true ∧ s.t = 0 ∧ s.nt = 0

end Pylbm.Sim
