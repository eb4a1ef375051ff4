import Verif.Sim.Global
import Verif.Domain.Coords
/-!
# Model of `Simulation.initialization` and C68

The values of the dictionary `init` are numbers, arrays of the shape of the local array, functions of the coordinates,
or tuples of a function and of its extra arguments.  The functions of the user are applied by the code to the sparse mesh of the
coordinates; the model takes them pointwise, as NumPy functions are.
-/

namespace Pylbm.Sim
open Scheme Halo HaloSpec DomainSpec
open scoped Matrix

variable {K : Type} [Field K] {n nc d dim : Nat}

/-- A key of the dictionary `init`: the symbol of a conserved moment, or an index. -/
inductive InitKey (n nc : Nat)
  | sym (j : Fin nc)
  | idx (i : Fin n)

/-- `Array.__setitem__`, storage.py 130-134: a symbol is looked up in `consm`, which holds the positions of
the conserved moments for `m` as well as for `F` (container.py 52-53). -/
def InitKey.pos (S : Kernel K n nc d) : InitKey n nc → Fin n
  | .sym j => S.consm j
  | .idx i => i

/-- A value of the dictionary `init`. -/
inductive InitVal (K : Type) (dim : Nat)
  | const (v : K)
  /-- an array of the shape of the local array with its halo, such as `F_halo[k]` of another simulation -/
  | arr (a : Cell dim → K)
  | fn (f : (Fin dim → K) → K)
  /-- a tuple `(f,)` (`none`) or `(f, args)` -/
  | tup (f : (Fin dim → K) → List K → K) (args : Option (List K))

/-- The value at a cell with its coordinates, simulation.py 303-313. -/
def InitVal.eval (c : Cell dim) (x : Fin dim → K) : InitVal K dim → K
  | .const v => v
  | .arr a => a c
  | .fn f => f x
  | .tup f args => f x (args.getD [])

/-- `inittype`. -/
inductive InitType
  | moments
  | distributions
  deriving DecidableEq

/-- `coords_halo` at a cell of the local array with halo, through `meshgrid(..., indexing="ij")`,
simulation.py 281-283. -/
def coordAt (xh : Fin dim → List K) (c : Cell dim) : Fin dim → K := fun i => (xh i).getD (c i).toNat 0

/-- The loop over `init_data`, simulation.py 303-313, on the array `a`. -/
def fillInit (S : Kernel K n nc d) (L : List (Cell dim)) (xh : Fin dim → List K)
    (data : List (InitKey n nc × InitVal K dim)) (a : Arr K n dim) : Arr K n dim :=
  data.foldl (fun a kv => fun c =>
    if c ∈ L then Function.update (a c) (kv.1.pos S) (kv.2.eval c (coordAt xh c)) else a c) a

/-- `initialization`, simulation.py 258-320.  `none` for `data` is a dictionary without `init`: only a
warning.  `Fnew.array[:] = F.array[:]` copies the whole array. -/
def Simu.init (P : Setup K n nc d dim) (xh : Fin dim → List K) (ty : InitType)
    (data : Option (List (InitKey n nc × InitVal K dim))) (s : Simu K n d dim) : Simu K n d dim :=
  match data with
  | none => s
  | some data =>
    let s1 : Simu K n d dim := match ty with
      | .moments =>
        let m := fillInit P.S P.Lfull xh data fun c => s.mem.m (some c)
        let s := { s with mem := { s.mem with m := fun a => match a with
          | none => s.mem.m none
          | some c => m c } }
        (s.apply P .equilibrium).apply P .m2f
      | .distributions =>
        (s.setF (fillInit P.S P.Lfull xh data (s.mem.buf s.F))).apply P .f2m
    { s1 with mem := { s1.mem with buf := Function.update s1.mem.buf s1.Fnew (s1.mem.buf s1.F) } }

/-! ## Specification -/

/-- The component which a key of the dictionary names: that of the conserved moment, or the index itself. -/
inductive InitKey.Names (S : Kernel K n nc d) : InitKey n nc → Fin n → Prop
  | sym (j : Fin nc) : InitKey.Names S (.sym j) (S.consm j)
  | idx (i : Fin n) : InitKey.Names S (.idx i) i

/-- The value which an entry gives at the cell `c` of the local array, whose centre is `x`. -/
inductive InitVal.Means (c : Cell dim) (x : Fin dim → K) : InitVal K dim → K → Prop
  | const (v : K) : InitVal.Means c x (.const v) v
  | arr (a : Cell dim → K) : InitVal.Means c x (.arr a) (a c)
  | fn (f : (Fin dim → K) → K) : InitVal.Means c x (.fn f) (f x)
  | alone (f : (Fin dim → K) → List K → K) : InitVal.Means c x (.tup f none) (f x [])
  | args (f : (Fin dim → K) → List K → K) (l : List K) : InitVal.Means c x (.tup f (some l)) (f x l)

/-- The value depends only on the position: not an array. -/
inductive InitVal.Positional : InitVal K dim → Prop
  | const (v : K) : Positional (.const v)
  | fn (f : (Fin dim → K) → K) : Positional (.fn f)
  | tup (f : (Fin dim → K) → List K → K) (args : Option (List K)) : Positional (.tup f args)

/-- No component is named twice. -/
def Clear (S : Kernel K n nc d) (data : List (InitKey n nc × InitVal K dim)) : Prop :=
  data.Pairwise fun a b => ∀ i, a.1.Names S i → ¬ b.1.Names S i

/-- `v` holds the values of the dictionary at the cell `c` with the centre `x`, and the former values `old` for the components
without entry. -/
def Holds (S : Kernel K n nc d) (data : List (InitKey n nc × InitVal K dim)) (c : Cell dim)
    (x : Fin dim → K) (old v : Fin n → K) : Prop :=
  (∀ kv ∈ data, ∀ i, kv.1.Names S i → kv.2.Means c x (v i)) ∧ ∀ i, (∀ kv ∈ data, ¬ kv.1.Names S i) → v i = old i

theorem InitKey.names_iff (S : Kernel K n nc d) (k : InitKey n nc) (i : Fin n) : k.Names S i ↔ k.pos S = i := by
  constructor
  · rintro (_ | _) <;> rfl
  · rintro rfl
    cases k
    · exact .sym _
    · exact .idx _

theorem InitVal.means_iff (c : Cell dim) (x : Fin dim → K) (v : InitVal K dim) (y : K) :
    v.Means c x y ↔ v.eval c x = y := by
  constructor
  · rintro (_ | _ | _ | _ | _) <;> rfl
  · rintro rfl
    rcases v with _ | _ | _ | ⟨_, _ | _⟩
    · exact .const _
    · exact .arr _
    · exact .fn _
    · exact .alone _
    · exact .args _ _

theorem clear_iff (S : Kernel K n nc d) (data : List (InitKey n nc × InitVal K dim)) :
    Clear S data ↔ (data.map fun kv => kv.1.pos S).Nodup := by
  unfold Clear List.Nodup
  rw [List.pairwise_map]
  constructor <;> intro h <;> refine h.imp ?_ <;> intro a b hab
  · intro he
    exact hab _ ((InitKey.names_iff S _ _).2 rfl) ((InitKey.names_iff S _ _).2 he.symm)
  · intro i h1 h2
    rw [InitKey.names_iff] at h1 h2
    exact hab (h1.trans h2.symm)

theorem fillInit_holds (S : Kernel K n nc d) (L : List (Cell dim)) (xh : Fin dim → List K)
    (data : List (InitKey n nc × InitVal K dim)) (hd : Clear S data)
    (a : Arr K n dim) (c : Cell dim) (hc : c ∈ L) :
    Holds S data c (coordAt xh c) (a c) (fillInit S L xh data a c) := by
  induction data generalizing a with
  | nil => exact ⟨by simp, fun i _ => rfl⟩
  | cons kv data ih =>
    have hd' := hd
    unfold Clear at hd'
    rw [List.pairwise_cons] at hd'
    have h := ih hd'.2 fun c => if c ∈ L then Function.update (a c) (kv.1.pos S) (kv.2.eval c (coordAt xh c)) else a c
    simp only [if_pos hc] at h
    change Holds S data _ _ _ (fillInit S L xh (kv :: data) a c) at h
    refine ⟨?_, ?_⟩
    · intro kv' hkv' i hi
      rcases List.mem_cons.1 hkv' with rfl | hkv'
      · rw [h.2 i fun kv'' h'' => hd'.1 kv'' h'' i hi, InitVal.means_iff, ← (InitKey.names_iff S _ _).1 hi,
          Function.update_self]
      · exact h.1 _ hkv' i hi
    · intro i hi
      rw [h.2 i fun kv' h' => hi kv' (by simp [h']), Function.update_of_ne]
      intro he
      exact hi kv (by simp) ((InitKey.names_iff S _ _).2 he.symm)

theorem eqm_spec (S : Kernel K n nc d) (hEQ : ∀ j w, S.EQ (S.consm j) w = w j) (b : Backend)
    (L : List (Cell dim)) (hL : L.Nodup) (F Fnew : Fin 2) (mem : Mem K n d dim) (c : Cell dim) (hc : c ∈ L) :
    (equilibriumRoutine S b L F Fnew mem).m (some c) = fun i => S.EQ i (S.cons (mem.m (some c))) := by
  have hv := loop_view S b (dim := dim) 0 F Fnew L hL (equilibriumLocal n d)
    (Or.inr fun s hs k => by obtain ⟨_, _, rfl⟩ := List.mem_map.1 hs; rfl) mem c
  rw [if_pos hc, run_equilibrium S _ _ fun j => hEQ j _] at hv
  exact congrArg Local.m hv

theorem m2f_spec (S : Kernel K n nc d) (b : Backend) (L : List (Cell dim)) (hL : L.Nodup) (F : Fin 2)
    (mem : Mem K n d dim) (c : Cell dim) (hc : c ∈ L) :
    (m2fRoutine S b L F mem).m (some c) = mem.m (some c) ∧
    (m2fRoutine S b L F mem).buf F c = S.invM *ᵥ mem.m (some c) := by
  have hv := loop_view S b (dim := dim) 0 F F L hL (m2fLocal n d false)
    (Or.inr (reads_m2f false)) mem c
  rw [if_pos hc, run_back] at hv
  exact ⟨congrArg Local.m hv, congrArg Local.fnew hv⟩

/-- **C68, moments.** After the construction with `inittype = "moments"`, on every cell of the array (halo
included): the conserved moments are the values of the dictionary at the coordinates of the cell (the former
values for the missing ones, zero at the construction), all the moments are at equilibrium, `F` and `Fnew`
hold the corresponding distribution functions, and reading `m` returns these moments. The values given for
non-conserved moments have no effect. The simulation is ready to run (`Start`). -/
theorem C68_moments (P : Setup K n nc d dim) (xh : Fin dim → List K) (s : Simu K n d dim) (hs : s.Start P)
    (hLf : P.Lfull.Nodup) (hEQ : ∀ j w, P.S.EQ (P.S.consm j) w = w j) (hM : P.S.M * P.S.invM = 1)
    (data : List (InitKey n nc × InitVal K dim)) (hd : Clear P.S data) :
    let s' := s.init P xh .moments (some data)
    s'.Start P ∧ ∀ c ∈ P.Lfull, ∃ w : Fin nc → K,
      (∀ kv ∈ data, ∀ j, kv.1.Names P.S (P.S.consm j) → kv.2.Means c (coordAt xh c) (w j)) ∧
      (∀ j, (∀ kv ∈ data, ¬ kv.1.Names P.S (P.S.consm j)) → w j = s.mem.m (some c) (P.S.consm j)) ∧
      s'.mem.buf s'.F c = P.S.invM *ᵥ (fun i => P.S.EQ i w) ∧ s'.mem.buf s'.Fnew c = s'.mem.buf s'.F c ∧
      ((s'.apply P .readM).mem.m (some c) = fun i => P.S.EQ i w) ∧
      ∀ j, (s'.apply P .readM).mem.m (some c) (P.S.consm j) = w j := by
  intro s'
  have hst : s'.Start P := by
    obtain ⟨h1, h2, h3, h4⟩ := hs
    exact ⟨h1, h2, h3, h4⟩
  refine ⟨hst, fun c hc => ?_⟩
  have hh := fillInit_holds P.S P.Lfull xh data hd (fun c => s.mem.m (some c)) c hc
  set m0 := fillInit P.S P.Lfull xh data (fun c => s.mem.m (some c)) c with hm0
  have hF : s'.mem.buf s'.F c = P.S.invM *ᵥ (fun i => P.S.EQ i (P.S.cons m0)) := by
    have e : s'.mem.buf s'.F = (m2fRoutine P.S P.backend P.Lfull s.F (equilibriumRoutine P.S P.backend
        P.Lfull s.F s.Fnew { s.mem with m := fun a => match a with
          | none => s.mem.m none
          | some c => fillInit P.S P.Lfull xh data (fun c => s.mem.m (some c)) c })).buf s.F := by
      change Function.update _ s.Fnew _ s.F = _
      by_cases he : s.F = s.Fnew
      · rw [he, Function.update_self]; rfl
      · rw [Function.update_of_ne he]; rfl
    rw [e, (m2f_spec P.S P.backend P.Lfull hLf s.F _ c hc).2,
      eqm_spec P.S hEQ P.backend P.Lfull hLf s.F s.Fnew _ c hc]
  have hFn : s'.mem.buf s'.Fnew c = s'.mem.buf s'.F c := by
    refine congrFun (?_ : s'.mem.buf s'.Fnew = s'.mem.buf s'.F) c
    change (Function.update _ s.Fnew _ : Fin 2 → Arr K n dim) s.Fnew =
      (Function.update _ s.Fnew _ : Fin 2 → Arr K n dim) s.F
    by_cases he : s.F = s.Fnew
    · rw [he]
    · rw [Function.update_self, Function.update_of_ne he]; rfl
  have hm : (s'.apply P .readM).mem.m (some c) = fun i => P.S.EQ i (P.S.cons m0) := by
    have hb : P.backend = .c → s'.F ≠ s'.Fnew := by
      intro hb; have := hst.1; rw [hb] at this; exact this
    change (s'.getM P).mem.m (some c) = _
    rw [Simu.getM, if_pos hst.2.1]
    simp only
    rw [(f2m_spec P.S P.backend P.Lfull hLf s'.F s'.Fnew hb s'.mem).1 c hc, hF, Matrix.mulVec_mulVec, hM,
      Matrix.one_mulVec]
  refine ⟨P.S.cons m0, ?_, ?_, hF, hFn, hm, ?_⟩
  · intro kv hkv j he
    exact hh.1 kv hkv _ he
  · intro j hj
    exact hh.2 _ hj
  · intro j
    rw [hm]
    exact hEQ j _

/-- **C68, distributions.** With `inittype = "distributions"`: `F` and `Fnew` hold the values of the
dictionary (former values, zero, for the missing components), and reading `m` gives their moments. -/
theorem C68_distributions (P : Setup K n nc d dim) (xh : Fin dim → List K) (s : Simu K n d dim)
    (hs : s.Start P) (hLf : P.Lfull.Nodup)
    (data : List (InitKey n nc × InitVal K dim)) (hd : Clear P.S data) :
    let s' := s.init P xh .distributions (some data)
    s'.Start P ∧ ∀ c ∈ P.Lfull, Holds P.S data c (coordAt xh c) (s.mem.buf s.F c) (s'.mem.buf s'.F c) ∧
      s'.mem.buf s'.Fnew c = s'.mem.buf s'.F c ∧
      (s'.apply P .readM).mem.m (some c) = P.S.M *ᵥ (s'.mem.buf s'.F c) := by
  intro s'
  have hst : s'.Start P := by
    obtain ⟨h1, h2, h3, h4⟩ := hs
    exact ⟨h1, h2, h3, h4⟩
  refine ⟨hst, fun c hc => ?_⟩
  have hb : P.backend = .c → s.F ≠ s.Fnew := by
    intro hb; have := hs.1; rw [hb] at this; exact this
  have hF : s'.mem.buf s'.F = fillInit P.S P.Lfull xh data (s.mem.buf s.F) := by
    have e : s'.mem.buf s'.F = (f2mRoutine P.S P.backend P.Lfull s.F s.Fnew
        (s.setF (fillInit P.S P.Lfull xh data (s.mem.buf s.F))).mem).buf s.F := by
      change Function.update _ s.Fnew _ s.F = _
      by_cases he : s.F = s.Fnew
      · rw [he, Function.update_self]; simp [Simu.apply, Simu.setF, he]
      · rw [Function.update_of_ne he]; rfl
    rw [e, (f2m_spec P.S P.backend P.Lfull hLf s.F s.Fnew hb _).2, setF_buf]
  have hFn : s'.mem.buf s'.Fnew c = s'.mem.buf s'.F c := by
    refine congrFun (?_ : s'.mem.buf s'.Fnew = s'.mem.buf s'.F) c
    change (Function.update _ s.Fnew _ : Fin 2 → Arr K n dim) s.Fnew =
      (Function.update _ s.Fnew _ : Fin 2 → Arr K n dim) s.F
    by_cases he : s.F = s.Fnew
    · rw [he]
    · rw [Function.update_self, Function.update_of_ne he]; rfl
  refine ⟨?_, hFn, ?_⟩
  · rw [hF]
    exact fillInit_holds P.S P.Lfull xh data hd _ c hc
  · change (s'.getM P).mem.m (some c) = _
    rw [Simu.getM, if_pos hst.2.1]
    exact (f2m_spec P.S P.backend P.Lfull hLf s'.F s'.Fnew hb s'.mem).1 c hc

/-! ## Any decomposition -/

section parallel
variable [LinearOrder K] [IsStrictOrderedRing K] [FloorRing K]

/-- `coords_halo` of a process, from the lower corner `lo` of the box and the space step. -/
def procCoords (g : Grid dim) (lo : Fin dim → K) (dx : K) (c : Proc g) (i : Fin dim) : List K :=
  Domain.coordsHalo (lo i) dx (first g c i) (first g c i + size g c i) (g.w i)

/-- The coordinates of a cell of the local array are those of the centre of the global cell. -/
theorem coordAt_proc (g : Grid dim) (lo : Fin dim → K) (dx : K) (c : Proc g) (x : Cell dim)
    (hx : InLocal (size g c) g.w x) :
    coordAt (procCoords g lo dx c) x = fun i => centre (lo i) dx (globalPos (first g c) g.w x i) := by
  funext i
  have h := hx i
  have := Domain.coordsHalo_getElem? (lo i) dx (r0 := first g c i) (r1 := first g c i + size g c i)
    (h := g.w i) (i := (x i).toNat) (by omega) (by omega)
  simp only [coordAt, procCoords, List.getD_eq_getElem?_getD, this, Option.getD_some, globalPos]
  congr 1
  omega

/-- **C68, decomposed runs.** For every process grid: if `W` gives the conserved moments of the dictionary
as functions of the position (zero for the missing ones), then after the construction each process holds, on
all its cells and its halo, the equilibrium distribution functions of `W` at the centre of the global
cell. -/
theorem C68_parallel (g : Grid dim) (lo : Fin dim → K) (dx : K) (S : Kernel K n nc d)
    (hEQ : ∀ j w, S.EQ (S.consm j) w = w j) (hM : S.M * S.invM = 1)
    (Q : Proc g → Setup K n nc d dim) (hQ : ∀ c, (Q c).S = S) (hnd : ∀ c, (Q c).Lfull.Nodup)
    (hfull : ∀ c x, x ∈ (Q c).Lfull ↔ InLocal (size g c) g.w x)
    (σ₀ : Proc g → Simu K n d dim) (h0 : ∀ c, (σ₀ c).Start (Q c)) (hz : ∀ c a, (σ₀ c).mem.m a = 0)
    (data : List (InitKey n nc × InitVal K dim)) (hd : Clear S data)
    (W : (Fin dim → K) → Fin nc → K)
    (hW : ∀ c y, ∀ kv ∈ data, ∀ j, kv.1.Names S (S.consm j) → kv.2.Means c y (W y j))
    (hW0 : ∀ y j, (∀ kv ∈ data, ¬ kv.1.Names S (S.consm j)) → W y j = 0)
    (c : Proc g) (x : Cell dim) (hx : InLocal (size g c) g.w x) :
    ((σ₀ c).init (Q c) (procCoords g lo dx c) .moments (some data)).arr x =
      S.invM *ᵥ fun i => S.EQ i (W fun i => centre (lo i) dx (globalPos (first g c) g.w x i)) := by
  have hS := hQ c
  obtain ⟨w, h1, h2, h3, _⟩ := (C68_moments (Q c) (procCoords g lo dx c) (σ₀ c) (h0 c) (hnd c)
    (by rw [hS]; exact hEQ) (by rw [hS]; exact hM) data (by rw [hS]; exact hd)).2 x ((hfull c x).2 hx)
  rw [hS] at h1 h2 h3
  rw [coordAt_proc g lo dx c x hx] at h1
  rw [Simu.arr, h3]
  congr 1
  funext i
  congr 1
  funext j
  by_cases hj : ∃ kv ∈ data, kv.1.Names S (S.consm j)
  · obtain ⟨kv, hkv, he⟩ := hj
    rw [← (InitVal.means_iff _ _ _ _).1 (h1 kv hkv j he), ← (InitVal.means_iff _ _ _ _).1 (hW x _ kv hkv j he)]
  · push Not at hj
    rw [h2 j hj, hW0 _ j hj, hz]
    rfl

/-- The conserved moments of a dictionary exist as functions of the position. -/
theorem exists_profile (S : Kernel K n nc d) (data : List (InitKey n nc × InitVal K dim))
    (hd : Clear S data) (hp : ∀ kv ∈ data, kv.2.Positional) :
    ∃ W : (Fin dim → K) → Fin nc → K, (∀ c y, ∀ kv ∈ data, ∀ j, kv.1.Names S (S.consm j) → kv.2.Means c y (W y j)) ∧
      ∀ y j, (∀ kv ∈ data, ¬ kv.1.Names S (S.consm j)) → W y j = 0 := by
  have := fun y : Fin dim → K => fillInit_holds S [fun _ => 0] (fun i => [y i]) data hd (fun _ => 0) _
    (List.mem_singleton.2 rfl)
  refine ⟨fun y => S.cons (fillInit S [fun _ => 0] (fun i => [y i]) data (fun _ => 0) fun _ => 0), ?_, ?_⟩
  · intro c y kv hkv j he
    have h := (InitVal.means_iff _ _ _ _).1 ((this y).1 kv hkv _ he)
    refine (InitVal.means_iff _ _ _ _).2 (Eq.trans ?_ h)
    have hp' := hp kv hkv
    generalize kv.2 = v at hp' ⊢
    rcases hp' with _ | _ | _ <;> rfl
  · intro y j hj
    exact (this y).2 _ hj

/-- **C68 with C42.** Two complete runs on a periodic domain (construction from the same dictionary without arrays, then
`k` time steps) agree on every cell, for any two process grids, schedules of the messages, backends and
settings. -/
theorem C68_runs_agree (hdim : dim ≤ 3) (lo : Fin dim → K) (dx : K) (g g' : Grid dim) (hN : g.N = g'.N)
    (hlarge : ∀ c i, g.w i ≤ size g c i) (hlarge' : ∀ c i, g'.w i ≤ size g' c i)
    (S : Kernel K n nc d) (hfront : ∀ j, (S.consm j : Nat) < nc)
    (hEQ : ∀ j w, S.EQ (S.consm j) w = w j) (hM : S.M * S.invM = 1) (vel : Fin n → Cell dim) (a : Algo)
    (hv : ∀ j i, |vel j i| ≤ g.w i) (hv' : ∀ j i, |vel j i| ≤ g'.w i)
    (Q : Proc g → Setup K n nc d dim) (hQ : Uniform g S vel a Q) (hQb : ∀ c t A, (Q c).bc t A = A)
    (hnd : ∀ c, (Q c).Lfull.Nodup) (hfull : ∀ c x, x ∈ (Q c).Lfull ↔ InLocal (size g c) g.w x)
    (Q' : Proc g' → Setup K n nc d dim) (hQ' : Uniform g' S vel a Q') (hQb' : ∀ c t A, (Q' c).bc t A = A)
    (hnd' : ∀ c, (Q' c).Lfull.Nodup) (hfull' : ∀ c x, x ∈ (Q' c).Lfull ↔ InLocal (size g' c) g'.w x)
    (σ₀ : Proc g → Simu K n d dim) (h0 : ∀ c, (σ₀ c).Start (Q c)) (hz : ∀ c a, (σ₀ c).mem.m a = 0)
    (σ₀' : Proc g' → Simu K n d dim) (h0' : ∀ c, (σ₀' c).Start (Q' c)) (hz' : ∀ c a, (σ₀' c).mem.m a = 0)
    (data : List (InitKey n nc × InitVal K dim)) (hd : Clear S data) (hp : ∀ kv ∈ data, kv.2.Positional) (k : Nat)
    (σ : Proc g → Simu K n d dim)
    (hr : PRun g Q (fun c => (σ₀ c).init (Q c) (procCoords g lo dx c) .moments (some data)) k σ)
    (σ' : Proc g' → Simu K n d dim)
    (hr' : PRun g' Q' (fun c => (σ₀' c).init (Q' c) (procCoords g' lo dx c) .moments (some data)) k σ')
    (c : Proc g) (x : Cell dim) (hx : Owned (size g c) g.w x)
    (c' : Proc g') (x' : Cell dim) (hx' : Owned (size g' c') g'.w x')
    (he : globalPos (first g c) g.w x = globalPos (first g' c') g'.w x') :
    (σ c).arr x = (σ' c').arr x' ∧ (σ c).t = (σ' c').t ∧ (σ c).nt = (σ' c').nt := by
  obtain ⟨W, hW, hW0⟩ := exists_profile (dim := dim) S data hd hp
  have hloc : ∀ (g : Grid dim) (c : Proc g) (x : Cell dim), Owned (size g c) g.w x → InLocal (size g c) g.w x := by
    intro g c x h i
    have := h i
    constructor <;> omega
  refine C42_periodic hdim g g' hN hlarge hlarge' S hfront vel a hv hv' Q hQ hQb Q' hQ' hQb'
    (fun c => (σ₀ c).init (Q c) (procCoords g lo dx c) .moments (some data)) ?_
    (fun c => (σ₀' c).init (Q' c) (procCoords g' lo dx c) .moments (some data)) ?_
    (fun y => S.invM *ᵥ fun i => S.EQ i (W fun i => centre (lo i) dx (y i))) ?_ ?_
    k σ hr σ' hr' c x hx c' x' hx' he
  · intro c
    have hS := hQ.scheme c
    exact (C68_moments (Q c) _ (σ₀ c) (h0 c) (hnd c) (by rw [hS]; exact hEQ) (by rw [hS]; exact hM) data
      (by rw [hS]; exact hd)).1
  · intro c
    have hS := hQ'.scheme c
    exact (C68_moments (Q' c) _ (σ₀' c) (h0' c) (hnd' c) (by rw [hS]; exact hEQ) (by rw [hS]; exact hM) data
      (by rw [hS]; exact hd)).1
  · intro c x hx
    exact C68_parallel g lo dx S hEQ hM Q hQ.scheme hnd hfull σ₀ h0 hz data hd W hW hW0 c x (hloc g c x hx)
  · intro c x hx
    exact C68_parallel g' lo dx S hEQ hM Q' hQ'.scheme hnd' hfull' σ₀' h0' hz' data hd W hW hW0 c x
      (hloc g' c x hx)

end parallel

/-! ## A run of D1Q2 on two processes -/

/-- `init = {U: lambda x: x + 3, 1: 5}`: the second entry is for the non-conserved moment. -/
def data2 : List (InitKey 2 1 × InitVal ℚ 1) := [(.sym 0, .fn fun x => x 0 + 3), (.idx 1, .const 5)]

theorem ring_full (c : Proc grid7) (x : Cell 1) :
    x ∈ (ring d1q2 ![fun _ => 1, fun _ => -1] .pull grid7 c).Lfull ↔ InLocal (size grid7 c) grid7.w x := by
  simp only [ring, List.mem_map, List.mem_range, InLocal]
  constructor
  · rintro ⟨i, hi, rfl⟩ j
    obtain rfl : j = 0 := Subsingleton.elim _ _
    simp only
    constructor <;> omega
  · intro h
    have := h 0
    refine ⟨(x 0).toNat, by omega, ?_⟩
    funext i
    obtain rfl : i = 0 := Subsingleton.elim _ _
    omega

theorem ring_nodup (c : Proc grid7) : (ring d1q2 ![fun _ => 1, fun _ => -1] .pull grid7 c).Lfull.Nodup := by
  refine List.Nodup.map ?_ List.nodup_range
  intro a b h
  have := congrFun h 0
  simpa using this

/-- The hypotheses of C68 hold for D1Q2 on seven cells and two processes. -/
example : (∀ j w, d1q2.EQ (d1q2.consm j) w = w j) ∧ d1q2.M * d1q2.invM = 1 ∧
    Clear d1q2 data2 ∧ (∀ kv ∈ data2, kv.2.Positional) ∧
    ∀ c : Proc grid7, (startWith 2 0 1 (0 : Arr ℚ 2 1)).Start (ring d1q2 ![fun _ => 1, fun _ => -1] .pull grid7 c) ∧
      (ring d1q2 ![fun _ => 1, fun _ => -1] .pull grid7 c).Lfull.Nodup := by
  refine ⟨?_, ?_, ?_, ?_, fun c => ⟨startWith_start _ _ _ _ c _, ring_nodup c⟩⟩
  · intro j w
    obtain rfl : j = 0 := Subsingleton.elim _ _
    rfl
  · decide +kernel
  · rw [clear_iff]; decide
  · intro kv hkv
    simp only [data2, List.mem_cons, List.not_mem_nil, or_false] at hkv
    rcases hkv with rfl | rfl
    · exact .fn _
    · exact .const _

end Pylbm.Sim
