import Verif.Boundary.Model
import Verif.Sim.Witness
/-!
# C57: values of the boundary conditions during a run

Model of `BoundaryMethod.prepare_rhs` and `update_feq` with the arrays they keep, and of
`Simulation.boundary_condition` inside a run.
-/

set_option linter.unusedSectionVars false

namespace Pylbm.Boundary
open Scheme Sim Domain

variable {K : Type} [Field K] [LinearOrder K] {dim nc d nv : Nat}

/-! ## Model -/

/-- A function given by the user for a label: it gets the time, the point and the values of the arrays
`(f, m)` at this point, and changes them in place.  A stationary function has no argument `t`: the
argument is then ignored.  Simplification: it acts point by point. -/
abbrev UserFun (K : Type) (dim ns : Nat) :=
  K → (Fin dim → K) → (Fin ns → K) × (Fin ns → K) → (Fin ns → K) × (Fin ns → K)

/-- The entries `value` (not `None`) and `time_bc` of a label, boundary.py 110-111. -/
structure WallValue (K : Type) (dim ns : Nat) where
  fn : UserFun K dim ns
  time : Bool

/-- A column of a method with its part of `feq` and of the kept arrays `(f, m)`, boundary.py 219-224. -/
structure Column (K : Type) (dim ns : Nat) extends Item K dim ns where
  fm : (Fin ns → K) × (Fin ns → K)

section model
variable (s : Sten dim) (S : Kernel K s.ns nc d) (pt : Entry K dim s.ns → Fin dim → K)
  (wall : Int → Option (WallValue K dim s.ns))

/-- `func(f, m, t, *args)`, `simulation.equilibrium(m)`, `simulation.m2f(m, f)`, boundary.py 284-290 and
311-313, at one point. -/
def evalWall (fn : UserFun K dim s.ns) (t : K) (x : Fin dim → K)
    (fm : (Fin s.ns → K) × (Fin s.ns → K)) : (Fin s.ns → K) × (Fin s.ns → K) :=
  let r := fn t x fm
  let y := S.run 0 ⟨r.2, r.1, 0⟩ (equilibriumLocal s.ns d)
  let z := S.run 0 y (m2fLocal s.ns d false)
  (z.fnew, z.m)

/-- `prepare_rhs`, boundary.py 238-305: new arrays, time 0. `pt` gives the point of a column
(`wallPoint`). -/
def prepareColumn (e : Entry K dim s.ns) : Column K dim s.ns :=
  match wall e.label with
  | none => { e with feq := fun _ => 0, fm := (fun _ => 0, fun _ => 0) }
  | some v =>
    let r := evalWall s S v.fn 0 (pt e) (fun _ => 0, fun _ => 0)
    { e with feq := r.1, fm := r }

/-- `update_feq`, boundary.py 307-321: only the labels with `time_bc`, on the kept arrays. -/
def updateFeq (t : K) (c : Column K dim s.ns) : Column K dim s.ns :=
  match wall c.label with
  | none => c
  | some v =>
    if v.time then
      let r := evalWall s S v.fn t (pt c.toEntry) c.fm
      { c with feq := r.1, fm := r }
    else c

/-- The loop of `boundary_condition`, simulation.py 387-390: for each method `update_feq`, `set_rhs`,
`update`. -/
def bcCall (t : K) : List (Method dim × List (Column K dim s.ns)) → Dist K dim s.ns →
    List (Method dim × List (Column K dim s.ns)) × Dist K dim s.ns
  | [], f => ([], f)
  | p :: l, f =>
    let cols := p.2.map (updateFeq s S pt wall t)
    let r := bcCall t l (update s p.1 (cols.map Column.toItem) f)
    ((p.1, cols) :: r.1, r.2)

/-- The arrays of a simulation seen by the boundary conditions. -/
def toDist {n : Nat} (a : Arr K n dim) : Dist K dim n := fun k c => a c k

def toArr {n : Nat} (f : Dist K dim n) : Arr K n dim := fun c k => f k c

/-- A simulation together with the columns of its boundary methods; `halo` is `f.update()`. An operation
which calls `boundary_condition` changes both. -/
def applyT (P : Setup K s.ns nc d dim) (halo : Arr K s.ns dim → Arr K s.ns dim)
    (x : Simu K s.ns d dim × List (Method dim × List (Column K dim s.ns))) (o : Op K s.ns dim) :
    Simu K s.ns d dim × List (Method dim × List (Column K dim s.ns)) :=
  let call := fun t a => bcCall s S pt wall t x.2 (toDist (halo a))
  (x.1.apply { P with bc := fun t a => toArr (call t a).2 } o,
    match o with
    | .step | .boundary => (call x.1.t (x.1.mem.buf x.1.F)).1
    | _ => x.2)

/-- A sequence of operations. -/
def runT (P : Setup K s.ns nc d dim) (halo : Arr K s.ns dim → Arr K s.ns dim)
    (x : Simu K s.ns d dim × List (Method dim × List (Column K dim s.ns))) (l : List (Op K s.ns dim)) :
    Simu K s.ns d dim × List (Method dim × List (Column K dim s.ns)) :=
  l.foldl (applyT s S pt wall P halo) x

end model

/-! ## Specification -/

/-- What the user wants on the wall: for a label the conserved moments which are imposed, with their values
as functions of the time and of the point; the other conserved moments are 0. -/
structure Imposed (K : Type) (dim nc : Nat) where
  which : Fin nc → Bool
  val : K → (Fin dim → K) → Fin nc → K

/-- The distribution functions at equilibrium with the imposed values at the time `t`. -/
def Imposed.feq {n : Nat} (I : Imposed K dim nc) (invM : Matrix (Fin n) (Fin n) K)
    (EQ : Fin n → (Fin nc → K) → K) (t : K) (x : Fin dim → K) : Fin n → K :=
  invM.mulVec fun i => EQ i fun j => if I.which j then I.val t x j else 0

/-- The function writes the imposed values in the conserved moments and leaves the other conserved moments
as they are; it may write anything in `f` and in the moments which are not conserved. -/
def Writes {n : Nat} (consm : Fin nc → Fin n) (fn : UserFun K dim n) (I : Imposed K dim nc) : Prop :=
  ∀ t x fm j, (fn t x fm).2 (consm j) = if I.which j then I.val t x j else fm.2 (consm j)

/-! ## Proofs -/

section proofs
variable (s : Sten dim) (S : Kernel K s.ns nc d) (hEQ : ∀ j w, S.EQ (S.consm j) w = w j)
  (pt : Entry K dim s.ns → Fin dim → K) (wall : Int → Option (WallValue K dim s.ns))
  (imp : Int → Imposed K dim nc)
  (hw : ∀ l v, wall l = some v → Writes S.consm v.fn (imp l))

/-- The item of a column wanted at the time `t`. -/
def wanted (e : Entry K dim s.ns) (t : K) : Fin s.ns → K :=
  match wall e.label with
  | none => fun _ => 0
  | some v => (imp e.label).feq S.invM S.EQ (if v.time then t else 0) (pt e)

/-- The kept conserved moments which are not imposed are 0. -/
def Kept (c : Column K dim s.ns) : Prop :=
  ∀ j, (imp c.label).which j = false → c.fm.2 (S.consm j) = 0

include hEQ hw in
theorem evalWall_eq (l : Int) (v : WallValue K dim s.ns) (hv : wall l = some v) (t : K) (x : Fin dim → K)
    (fm : (Fin s.ns → K) × (Fin s.ns → K)) (hk : ∀ j, (imp l).which j = false → fm.2 (S.consm j) = 0) :
    (evalWall s S v.fn t x fm).1 = (imp l).feq S.invM S.EQ t x ∧
    ∀ j, (imp l).which j = false → (evalWall s S v.fn t x fm).2 (S.consm j) = 0 := by
  have hm := hw l v hv t x fm
  unfold evalWall
  simp only
  rw [(C38_equilibrium S hEQ 0 _).1, run_back]
  refine ⟨?_, fun j hj => ?_⟩
  · unfold Imposed.feq
    simp only [Bool.false_eq_true, if_false]
    congr 1
    funext i
    congr 1
    funext j
    simp only [Function.comp_apply]
    rw [hm j]
    cases h : (imp l).which j with
    | true => simp
    | false => simp [hk j h]
  · simp only [hEQ, Function.comp_apply]
    rw [hm j, hj]
    simp [hk j hj]

include hEQ hw in
theorem prepareColumn_spec (e : Entry K dim s.ns) :
    (prepareColumn s S pt wall e).toEntry = e ∧
    (prepareColumn s S pt wall e).feq = wanted s S pt wall imp e 0 ∧
    Kept s S imp (prepareColumn s S pt wall e) := by
  unfold prepareColumn wanted Kept
  cases hv : wall e.label with
  | none => exact ⟨rfl, rfl, fun _ _ => rfl⟩
  | some v =>
    obtain ⟨h1, h2⟩ := evalWall_eq s S hEQ wall imp hw e.label v hv 0 (pt e) (fun _ => 0, fun _ => 0)
      (fun _ _ => rfl)
    refine ⟨rfl, ?_, h2⟩
    simp only [ite_self]
    exact h1

include hEQ hw in
theorem updateFeq_spec (t t' : K) (c : Column K dim s.ns) (hk : Kept s S imp c)
    (hf : c.feq = wanted s S pt wall imp c.toEntry t') :
    (updateFeq s S pt wall t c).toEntry = c.toEntry ∧
    (updateFeq s S pt wall t c).feq = wanted s S pt wall imp c.toEntry t ∧
    Kept s S imp (updateFeq s S pt wall t c) := by
  unfold updateFeq
  cases hv : wall c.label with
  | none =>
    refine ⟨rfl, ?_, hk⟩
    rw [hf]; simp only [wanted, hv]
  | some v =>
    simp only
    cases ht : v.time with
    | false =>
      simp only [Bool.false_eq_true, if_false]
      refine ⟨trivial, ?_, hk⟩
      rw [hf]; simp only [wanted, hv, ht, Bool.false_eq_true, if_false]
    | true =>
      simp only [if_true]
      obtain ⟨h1, h2⟩ := evalWall_eq s S hEQ wall imp hw c.label v hv t (pt c.toEntry) c.fm hk
      refine ⟨trivial, ?_, h2⟩
      simp only [wanted, hv, ht, if_true]
      exact h1

include hEQ hw in
/-- **C57 (one column).** After `prepare_rhs` and any history of calls of `update_feq` at the times `ts`,
a call at the time `t` gives the equilibrium with the values of the user's function at the time `t`, or
those at time 0 when the condition is stationary. -/
theorem C57_refresh (e : Entry K dim s.ns) (ts : List K) (t : K) :
    let c := (ts ++ [t]).foldl (fun c t => updateFeq s S pt wall t c) (prepareColumn s S pt wall e)
    c.toEntry = e ∧ c.feq = match wall e.label with
      | none => fun _ => 0
      | some v => (imp e.label).feq S.invM S.EQ (if v.time then t else 0) (pt e) := by
  have key : ∀ ts : List K, ∃ t', 
      (ts.foldl (fun c t => updateFeq s S pt wall t c) (prepareColumn s S pt wall e)).toEntry = e ∧
      (ts.foldl (fun c t => updateFeq s S pt wall t c) (prepareColumn s S pt wall e)).feq =
        wanted s S pt wall imp e t' ∧
      Kept s S imp (ts.foldl (fun c t => updateFeq s S pt wall t c) (prepareColumn s S pt wall e)) := by
    intro ts
    induction ts using List.reverseRecOn with
    | nil => exact ⟨0, prepareColumn_spec s S hEQ pt wall imp hw e⟩
    | append_singleton ts t ih =>
      obtain ⟨t', h1, h2, h3⟩ := ih
      rw [List.foldl_append]
      simp only [List.foldl_cons, List.foldl_nil]
      obtain ⟨h4, h5, h6⟩ := updateFeq_spec s S hEQ pt wall imp hw t t' _ h3 (by rw [h2, h1])
      exact ⟨t, by rw [h4, h1], by rw [h5, h1], h6⟩
  obtain ⟨t', h1, h2, h3⟩ := key ts
  rw [List.foldl_append]
  simp only [List.foldl_cons, List.foldl_nil]
  obtain ⟨h4, h5, -⟩ := updateFeq_spec s S hEQ pt wall imp hw t t' _ h3 (by rw [h2, h1])
  exact ⟨by rw [h4, h1], by rw [h5, h1]; rfl⟩

/-- The methods with the values wanted at the time `t`. -/
def wantedInsts (I : List (Method dim × List (Entry K dim s.ns))) (t : K) :
    List (Method dim × List (Item K dim s.ns)) :=
  I.map fun p => (p.1, p.2.map fun e => ⟨e, match wall e.label with
    | none => fun _ => 0
    | some v => (imp e.label).feq S.invM S.EQ (if v.time then t else 0) (pt e)⟩)

/-- The setup with the boundary conditions `J t` at the time `t`, after the update of the halo. -/
def withBc (P : Setup K s.ns nc d dim) (halo : Arr K s.ns dim → Arr K s.ns dim)
    (J : K → List (Method dim × List (Item K dim s.ns))) : Setup K s.ns nc d dim :=
  { P with bc := fun t a => toArr (boundaryCondition s (J t) (toDist (halo a))) }

/-- The columns are those of `I` with the values of some past times. -/
def Good (I : List (Method dim × List (Entry K dim s.ns)))
    (J : List (Method dim × List (Column K dim s.ns))) : Prop :=
  J.map (fun p => (p.1, p.2.map fun c => c.toEntry)) = I ∧
    ∀ p ∈ J, ∀ c ∈ p.2, Kept s S imp c ∧ ∃ t', c.feq = wanted s S pt wall imp c.toEntry t'

include hEQ hw in
theorem bcCall_spec (t : K) (J : List (Method dim × List (Column K dim s.ns)))
    (I : List (Method dim × List (Entry K dim s.ns))) (hJ : Good s S pt wall imp I J)
    (f : Dist K dim s.ns) :
    (bcCall s S pt wall t J f).2 = boundaryCondition s (wantedInsts s S pt wall imp I t) f ∧
    Good s S pt wall imp I (bcCall s S pt wall t J f).1 := by
  induction J generalizing I f with
  | nil =>
    obtain ⟨rfl, -⟩ := hJ
    exact ⟨rfl, rfl, by simp [bcCall]⟩
  | cons p J ih =>
    obtain ⟨rfl, hc⟩ := hJ
    have hp := fun c h => hc p (by simp) c h
    obtain ⟨h1, h2, h3⟩ := ih _ ⟨rfl, fun q hq => hc q (by simp [hq])⟩
      (update s p.1 ((p.2.map (updateFeq s S pt wall t)).map Column.toItem) f)
    have hitems : (p.2.map (updateFeq s S pt wall t)).map Column.toItem =
        (p.2.map fun c => c.toEntry).map fun e => ⟨e, match wall e.label with
          | none => fun _ => 0
          | some v => (imp e.label).feq S.invM S.EQ (if v.time then t else 0) (pt e)⟩ := by
      rw [List.map_map, List.map_map]
      apply List.map_congr_left
      intro c hcc
      obtain ⟨hk, t', hf⟩ := hp c hcc
      obtain ⟨h4, h5, -⟩ := updateFeq_spec s S hEQ pt wall imp hw t t' c hk hf
      simp only [Function.comp_apply]
      rw [show (updateFeq s S pt wall t c).toItem =
        ⟨(updateFeq s S pt wall t c).toEntry, (updateFeq s S pt wall t c).feq⟩ from rfl, h4, h5]
      rfl
    refine ⟨?_, ?_, ?_⟩
    · simp only [bcCall, List.map_cons]
      rw [h1, hitems]
      rfl
    · simp only [bcCall, List.map_cons]
      rw [h2]
      congr 2
      rw [List.map_map]
      apply List.map_congr_left
      intro c hcc
      obtain ⟨hk, t', hf⟩ := hp c hcc
      exact (updateFeq_spec s S hEQ pt wall imp hw t t' c hk hf).1
    · intro q hq c hcq
      simp only [bcCall, List.mem_cons] at hq
      rcases hq with rfl | hq
      · obtain ⟨c0, hc0, rfl⟩ := List.mem_map.1 hcq
        obtain ⟨hk, t', hf⟩ := hp c0 hc0
        obtain ⟨h4, h5, h6⟩ := updateFeq_spec s S hEQ pt wall imp hw t t' c0 hk hf
        exact ⟨h6, t, by rw [h4, h5]⟩
      · exact h3 q hq c hcq

include hEQ hw in
/-- **C57 (whole simulation).** For every sequence of public operations, the simulation with the kept
arrays of its boundary methods does what a simulation does whose boundary conditions impose, in every
call of `boundary_condition`, the values of the user's functions at the current time (time 0 for
stationary functions). In particular in every time step the values are those of the time at its
beginning. -/
theorem C57_simulation (P : Setup K s.ns nc d dim) (halo : Arr K s.ns dim → Arr K s.ns dim)
    (I : List (Method dim × List (Entry K dim s.ns))) (x : Simu K s.ns d dim) (l : List (Op K s.ns dim)) :
    (runT s S pt wall P halo (x, I.map fun p => (p.1, p.2.map (prepareColumn s S pt wall))) l).1 =
      x.run (withBc s P halo (wantedInsts s S pt wall imp I)) l := by
  set P' : Setup K s.ns nc d dim := withBc s P halo (wantedInsts s S pt wall imp I) with hP'
  have key : ∀ l, let r := (runT s S pt wall P halo
        (x, I.map fun p => (p.1, p.2.map (prepareColumn s S pt wall))) l)
      r.1 = x.run P' l ∧ Good s S pt wall imp I r.2 := by
    intro l
    induction l using List.reverseRecOn with
    | nil =>
      refine ⟨rfl, ?_, ?_⟩
      · simp only [runT, List.foldl_nil, List.map_map]
        conv_rhs => rw [← List.map_id I]
        apply List.map_congr_left
        intro p _
        simp only [Function.comp_apply, List.map_map, id]
        have : (fun c => c.toEntry) ∘ prepareColumn s S pt wall = id := by
          funext e; exact (prepareColumn_spec s S hEQ pt wall imp hw e).1
        show (p.1, p.2.map ((fun c => c.toEntry) ∘ prepareColumn s S pt wall)) = p
        rw [this, List.map_id]
      · intro p hp c hc
        simp only [runT, List.foldl_nil, List.mem_map] at hp
        obtain ⟨q, -, rfl⟩ := hp
        obtain ⟨e, -, rfl⟩ := List.mem_map.1 hc
        obtain ⟨h1, h2, h3⟩ := prepareColumn_spec s S hEQ pt wall imp hw e
        exact ⟨h3, 0, by rw [h1, h2]⟩
    | append_singleton l o ih =>
      obtain ⟨ih1, ih2⟩ := ih
      have hrun : x.run P' (l ++ [o]) = (x.run P' l).apply P' o := by
        simp [Simu.run, List.foldl_append]
      have hrunT : ∀ y, runT s S pt wall P halo y (l ++ [o]) =
          applyT s S pt wall P halo (runT s S pt wall P halo y l) o := by
        intro y; simp [runT, List.foldl_append]
      simp only [hrun, hrunT]
      set r := runT s S pt wall P halo
        (x, I.map fun p => (p.1, p.2.map (prepareColumn s S pt wall))) l with hr
      have hbc : ∀ t a, toArr (bcCall s S pt wall t r.2 (toDist (halo a))).2 = P'.bc t a := by
        intro t a
        rw [(bcCall_spec s S hEQ pt wall imp hw t r.2 I ih2 _).1]
        rfl
      refine ⟨?_, ?_⟩
      · simp only [applyT, hbc]
        rw [ih1]
        rfl
      · simp only [applyT]
        cases o <;> first
          | exact ih2
          | exact (bcCall_spec s S hEQ pt wall imp hw _ r.2 I ih2 _).2
  exact (key l).1

end proofs

/-! ## Cases -/

/-- A function which writes the density `t + x` and garbage in the other moment. -/
def ramp : UserFun ℚ 1 2 := fun t x fm => (fm.1, ![t + x 0, 7 * fm.2 1 + 1])

/-- It meets the hypothesis of C57 with D1Q2 (one conserved moment, imposed). -/
example : Writes (![0] : Fin 1 → Fin 2) ramp ⟨fun _ => true, fun t x _ => t + x 0⟩ := by
  intro t x fm j
  fin_cases j
  rfl

/-- D1Q2 for the boundary conditions. -/
abbrev sten2 : Sten 1 where
  nu := 2
  ns := 2
  uvel := ![fun _ => 1, fun _ => -1]
  usym := ![1, 0]
  ux := ![0, 1]
  scheme := ![0, 0]
  sym := ![1, 0]

/-- The value imposed at the time 3 after calls at other times. -/
example :
    let wall : Int → Option (WallValue ℚ 1 2) := fun _ => some ⟨ramp, true⟩
    let S : Kernel ℚ sten2.ns 1 0 := d1q2
    ((([1, 2] : List ℚ) ++ [3]).foldl (fun c t => updateFeq sten2 S (fun _ _ => 5) wall t c)
      (prepareColumn sten2 S (fun _ _ => 5) wall ⟨(0 : Fin 2), fun _ => 0, 1, 1⟩)).feq = (![6, 2] : Fin 2 → ℚ) := by
  decide +kernel

/-- A function which writes the density before the time 1 only. -/
def pulse : UserFun ℚ 1 2 := fun t _ fm => (fm.1, if t < 1 then ![4, fm.2 1] else fm.2)

/-- **C57 needs the hypothesis `Writes`**: the moments of the previous call are kept, so that a function
which writes a value at some times only keeps imposing the old value, while on new arrays (as at
initialization) it imposes 0. -/
theorem C57_kept_value_negation :
    ∃ (fn : UserFun ℚ 1 2) (t t' : ℚ),
      let wall : Int → Option (WallValue ℚ 1 2) := fun _ => some ⟨fn, true⟩
      let S : Kernel ℚ sten2.ns 1 0 := d1q2
      let e : Entry ℚ 1 sten2.ns := ⟨(0 : Fin 2), fun _ => 0, 1, 1⟩
      ([t, t'].foldl (fun c t => updateFeq sten2 S (fun _ _ => 5) wall t c)
        (prepareColumn sten2 S (fun _ _ => 5) wall e)).feq ≠
      (evalWall sten2 S fn t' (fun _ => 5) (fun _ => 0, fun _ => 0)).1 := by
  refine ⟨pulse, 0, 1, ?_⟩
  intro wall S e h
  have := congrFun h (0 : Fin 2)
  revert this
  decide +kernel

end Pylbm.Boundary
