import Verif.Boundary.Wall
/-!
# C105: parameters given during a run

The values of the symbols which are not in the dictionary are looked up in `extra_parameters` at every call of a generated
function (algorithm/base.py 660-667); the user may change them between two calls.
-/

set_option linter.unusedSectionVars false

namespace Pylbm.Boundary
open Scheme Sim Domain

variable {K : Type} [Field K] [LinearOrder K] {dim nc d : Nat}

/-! ## Model -/

/-- The same functions called with another value of the argument `dt`. -/
def withDt (dt : K) {n : Nat} (P : Setup K n nc d dim) : Setup K n nc d dim := { P with S := { P.S with dt := dt } }

/-- A simulation with the arrays of its boundary methods, `extra_parameters`, and `dt_` once it has been computed. -/
structure Live (K E : Type) (dim n d : Nat) where
  sim : Simu K n d dim
  cols : List (Method dim × List (Column K dim n))
  env : E
  cache : Option K

/-- What the user does: a change of `extra_parameters`, or a public operation. -/
inductive LiveOp (E K : Type) (n dim : Nat)
  | set (e : E)
  | op (o : Op K n dim)

section model
variable {E : Type} (s : Sten dim) (P : E → Setup K s.ns nc d dim) (pt : Entry K dim s.ns → Fin dim → K)
  (wall : Int → Option (WallValue K dim s.ns)) (halo : Arr K s.ns dim → Arr K s.ns dim)

/-- The operations which call a generated function of the algorithm, hence `_get_args`, which reads `simulation.dt`
(base.py 656-657).  `update_feq` calls such functions for the conditions with `time_bc` only (boundary.py 310-313), and the
functions of the boundary methods have other arguments (boundary.py 354-370). -/
def touches (x : Live K E dim s.ns d) : Op K s.ns dim → Bool
  | .step | .transport | .f2m | .m2f | .relaxation | .equilibrium | .source => true
  | .readM => x.sim.dirty
  | .boundary => x.cols.any fun p => p.2.any fun c => match wall c.label with
    | none => false
    | some v => v.time
  | .readF | .writeM .. | .writeF .. | .writeView .. => false

/-- `Simulation.dt`, simulation.py 191-199: computed with the values of the parameters the first time it is read, then
kept. -/
def Live.dt (x : Live K E dim s.ns d) : K := x.cache.getD (P x.env).S.dt

/-- One operation; `P e` is the simulation where the formulas are evaluated with the values `e` of the parameters. -/
def applyL (x : Live K E dim s.ns d) : LiveOp E K s.ns dim → Live K E dim s.ns d
  | .set e => { x with env := e }
  | .op o =>
    let r := applyT s (P x.env).S pt wall (withDt (x.dt s P) (P x.env)) halo (x.sim, x.cols) o
    ⟨r.1, r.2, x.env, if touches s wall x o then some (x.dt s P) else x.cache⟩

/-- A sequence of operations. -/
def runL (x : Live K E dim s.ns d) (l : List (LiveOp E K s.ns dim)) : Live K E dim s.ns d :=
  l.foldl (applyL s P pt wall halo) x

/-- `_initialize` with the values `e` of the parameters, for the boundary methods (simulation.py 152-160). -/
def startL (I : List (Method dim × List (Entry K dim s.ns))) (e : E) (x : Simu K s.ns d dim) (cache : Option K) :
    Live K E dim s.ns d :=
  ⟨x, I.map fun p => (p.1, p.2.map (prepareColumn s (P e).S pt wall)), e, cache⟩

end model

/-! ## Specification -/

section spec
variable {E : Type} (s : Sten dim) (P : E → Setup K s.ns nc d dim) (pt : Entry K dim s.ns → Fin dim → K)
  (wall : Int → Option (WallValue K dim s.ns)) (imp : Int → Imposed K dim nc) (halo : Arr K s.ns dim → Arr K s.ns dim)

/-- What is expected: each operation is the one of the simulation built with the current values of the parameters, with
its time step and its boundary values. -/
def expected (I : List (Method dim × List (Entry K dim s.ns))) :
    Simu K s.ns d dim → E → List (LiveOp E K s.ns dim) → Simu K s.ns d dim
  | x, _, [] => x
  | x, _, .set e :: l => expected I x e l
  | x, e, .op o :: l =>
    expected I (x.apply (withBc s (P e) halo (wantedInsts s (P e).S pt wall imp I)) o) e l

/-- The number of time steps. -/
def stepsL {n : Nat} (l : List (LiveOp E K n dim)) : Nat :=
  (l.filter fun o => match o with | .op .step => true | _ => false).length

end spec

/-! ## Proofs -/

section proofs
variable {E : Type} (s : Sten dim) (P : E → Setup K s.ns nc d dim) (pt : Entry K dim s.ns → Fin dim → K)
  (wall : Int → Option (WallValue K dim s.ns)) (imp : Int → Imposed K dim nc) (halo : Arr K s.ns dim → Arr K s.ns dim)

/-- A column is up to date: the kept moments are as they should be, and the values of a condition which is not refreshed
are those of the parameters `e`. -/
def UpToDate (S : Kernel K s.ns nc d) (c : Column K dim s.ns) : Prop :=
  Kept s S imp c ∧ (∀ v, wall c.label = some v → v.time = false → c.feq = wanted s S pt wall imp c.toEntry 0) ∧
    (wall c.label = none → c.feq = fun _ => 0)

theorem updateFeq_live (S : Kernel K s.ns nc d) (hEQ : ∀ j w, S.EQ (S.consm j) w = w j)
    (hw : ∀ l v, wall l = some v → Writes S.consm v.fn (imp l)) (t : K) (c : Column K dim s.ns)
    (hc : UpToDate s pt wall imp S c) :
    (updateFeq s S pt wall t c).toEntry = c.toEntry ∧
    (updateFeq s S pt wall t c).feq = wanted s S pt wall imp c.toEntry t ∧
    UpToDate s pt wall imp S (updateFeq s S pt wall t c) := by
  obtain ⟨h1, h2, h3⟩ := hc
  cases hv : wall c.label with
  | none =>
    have hu : updateFeq s S pt wall t c = c := by simp only [updateFeq, hv]
    rw [hu]
    exact ⟨rfl, by rw [h3 hv]; simp only [wanted, hv], h1, h2, h3⟩
  | some v =>
    cases ht : v.time with
    | false =>
      have hu : updateFeq s S pt wall t c = c := by simp only [updateFeq, hv, ht, Bool.false_eq_true, if_false]
      rw [hu]
      refine ⟨rfl, ?_, h1, h2, h3⟩
      rw [h2 v hv ht]
      simp only [wanted, hv, ht, Bool.false_eq_true, if_false]
    | true =>
      obtain ⟨e1, e2⟩ := evalWall_eq s S hEQ wall imp hw c.label v hv t (pt c.toEntry) c.fm h1
      have hu : updateFeq s S pt wall t c =
          ⟨⟨c.toEntry, (evalWall s S v.fn t (pt c.toEntry) c.fm).1⟩, evalWall s S v.fn t (pt c.toEntry) c.fm⟩ := by
        simp only [updateFeq, hv, ht, if_true]
      rw [hu]
      refine ⟨rfl, ?_, e2, fun v' hv' ht' => ?_, fun hn => ?_⟩
      · simp only [wanted, hv, ht, if_true]
        exact e1
      · have : v' = v := Option.some.inj (hv'.symm.trans hv)
        rw [this, ht] at ht'
        exact absurd ht' (by simp)
      · exact absurd (hn.symm.trans hv) (by simp)

/-- All the columns are those of `I` and are up to date. -/
def AllUpToDate (S : Kernel K s.ns nc d) (I : List (Method dim × List (Entry K dim s.ns)))
    (J : List (Method dim × List (Column K dim s.ns))) : Prop :=
  J.map (fun p => (p.1, p.2.map fun c => c.toEntry)) = I ∧ ∀ p ∈ J, ∀ c ∈ p.2, UpToDate s pt wall imp S c

theorem bcCall_live (S : Kernel K s.ns nc d) (hEQ : ∀ j w, S.EQ (S.consm j) w = w j)
    (hw : ∀ l v, wall l = some v → Writes S.consm v.fn (imp l)) (t : K)
    (J : List (Method dim × List (Column K dim s.ns))) (I : List (Method dim × List (Entry K dim s.ns)))
    (hJ : AllUpToDate s pt wall imp S I J) (f : Dist K dim s.ns) :
    (bcCall s S pt wall t J f).2 = boundaryCondition s (wantedInsts s S pt wall imp I t) f ∧
    AllUpToDate s pt wall imp S I (bcCall s S pt wall t J f).1 := by
  induction J generalizing I f with
  | nil =>
    obtain ⟨rfl, -⟩ := hJ
    exact ⟨rfl, rfl, by simp [bcCall]⟩
  | cons p J ih =>
    obtain ⟨rfl, hc⟩ := hJ
    have hp := fun c h => hc p (by simp) c h
    obtain ⟨h1, h2, h3⟩ := ih _ ⟨rfl, fun q hq => hc q (by simp [hq])⟩
      (update s p.1 ((p.2.map (updateFeq s S pt wall t)).map Column.toItem) f)
    have hitems : (p.2.map (updateFeq s S pt wall t)).map Column.toItem =
        (p.2.map fun c => c.toEntry).map fun e => ⟨e, match wall e.label with
          | none => fun _ => 0
          | some v => (imp e.label).feq S.invM S.EQ (if v.time then t else 0) (pt e)⟩ := by
      rw [List.map_map, List.map_map]
      apply List.map_congr_left
      intro c hcc
      obtain ⟨h4, h5, -⟩ := updateFeq_live s pt wall imp S hEQ hw t c (hp c hcc)
      simp only [Function.comp_apply]
      rw [show (updateFeq s S pt wall t c).toItem =
        ⟨(updateFeq s S pt wall t c).toEntry, (updateFeq s S pt wall t c).feq⟩ from rfl, h4, h5]
      rfl
    refine ⟨?_, ?_, ?_⟩
    · simp only [bcCall, List.map_cons]
      rw [h1, hitems]
      rfl
    · simp only [bcCall, List.map_cons]
      rw [h2]
      congr 2
      rw [List.map_map]
      apply List.map_congr_left
      intro c hcc
      exact (updateFeq_live s pt wall imp S hEQ hw t c (hp c hcc)).1
    · intro q hq c hcq
      simp only [bcCall, List.mem_cons] at hq
      rcases hq with rfl | hq
      · obtain ⟨c0, hc0, rfl⟩ := List.mem_map.1 hcq
        exact (updateFeq_live s pt wall imp S hEQ hw t c0 (hp c0 hc0)).2.2
      · exact h3 q hq c hcq

theorem prepare_live (S : Kernel K s.ns nc d) (hEQ : ∀ j w, S.EQ (S.consm j) w = w j)
    (hw : ∀ l v, wall l = some v → Writes S.consm v.fn (imp l)) (I : List (Method dim × List (Entry K dim s.ns))) :
    AllUpToDate s pt wall imp S I (I.map fun p => (p.1, p.2.map (prepareColumn s S pt wall))) := by
  refine ⟨?_, ?_⟩
  · rw [List.map_map]
    conv_rhs => rw [← List.map_id I]
    apply List.map_congr_left
    intro p _
    simp only [Function.comp_apply, List.map_map, id]
    have : (fun c => c.toEntry) ∘ prepareColumn s S pt wall = id := by
      funext e; exact (prepareColumn_spec s S hEQ pt wall imp hw e).1
    show (p.1, p.2.map ((fun c => c.toEntry) ∘ prepareColumn s S pt wall)) = p
    rw [this, List.map_id]
  · intro p hp c hc
    obtain ⟨q, -, rfl⟩ := List.mem_map.1 hp
    obtain ⟨e, -, rfl⟩ := List.mem_map.1 hc
    obtain ⟨h1, h2, h3⟩ := prepareColumn_spec s S hEQ pt wall imp hw e
    refine ⟨h3, fun v hv ht => by rw [h2, h1], fun hn => ?_⟩
    rw [h1] at hn
    rw [h2]
    simp only [wanted, hn]

/-- The values of the conditions which are not refreshed do not depend on the parameters. -/
def Steady (imp : Int → Imposed K dim nc) : Prop :=
  ∀ l v, wall l = some v → v.time = false → ∀ e e' x, (imp l).feq (P e).S.invM (P e).S.EQ 0 x =
    (imp l).feq (P e').S.invM (P e').S.EQ 0 x

theorem upToDate_env (hcons : ∀ e e', (P e).S.consm = (P e').S.consm) (hst : Steady s P wall imp) (e e' : E)
    (c : Column K dim s.ns) (h : UpToDate s pt wall imp (P e).S c) : UpToDate s pt wall imp (P e').S c := by
  obtain ⟨h1, h2, h3⟩ := h
  refine ⟨fun j hj => by rw [hcons e' e]; exact h1 j hj, fun v hv ht => ?_, h3⟩
  rw [h2 v hv ht]
  simp only [wanted, hv, ht, Bool.false_eq_true, if_false]
  exact hst _ v hv ht e e' _

theorem withDt_self {n : Nat} (Q : Setup K n nc d dim) : withDt Q.S.dt Q = Q := rfl

/-! ## The property -/

/-- **C105.**  For any sequence of operations and of changes of the parameters: if the time step does not depend on the
parameters which are changed, and the values of the boundary conditions without `time_bc` do not either, then every
operation is the one of the simulation built with the current values in its dictionary. -/
theorem C105_changes_partial (hEQ : ∀ e j w, (P e).S.EQ ((P e).S.consm j) w = w j)
    (hcons : ∀ e e', (P e).S.consm = (P e').S.consm)
    (hw : ∀ e l v, wall l = some v → Writes (P e).S.consm v.fn (imp l))
    (hdt : ∀ e e', (P e).S.dt = (P e').S.dt) (hst : Steady s P wall imp)
    (I : List (Method dim × List (Entry K dim s.ns))) (e : E) (x : Simu K s.ns d dim) (cache : Option K)
    (hcache : ∀ t, cache = some t → t = (P e).S.dt) (l : List (LiveOp E K s.ns dim)) :
    (runL s P pt wall halo (startL s P pt wall I e x cache) l).sim = expected s P pt wall imp halo I x e l := by
  suffices H : ∀ (l : List (LiveOp E K s.ns dim)) (y : Live K E dim s.ns d), AllUpToDate s pt wall imp (P y.env).S I y.cols →
      (∀ t, y.cache = some t → t = (P y.env).S.dt) →
      (runL s P pt wall halo y l).sim = expected s P pt wall imp halo I y.sim y.env l from
    H l _ (prepare_live s pt wall imp (P e).S (hEQ e) (hw e) I) hcache
  intro l
  induction l with
  | nil => intro y _ _; rfl
  | cons o l ih =>
    intro y hy hc
    cases o with
    | set e' =>
      refine ih ⟨y.sim, y.cols, e', y.cache⟩ ⟨hy.1, fun p hp c hcc => ?_⟩ fun t ht => ?_
      · exact upToDate_env s P pt wall imp hcons hst y.env e' c (hy.2 p hp c hcc)
      · rw [hc t ht]; exact hdt _ _
    | op o =>
      have hd : y.dt s P = (P y.env).S.dt := by
        unfold Live.dt
        cases hcc : y.cache with
        | none => rfl
        | some t => exact hc t hcc
      have hbc : ∀ t a, toArr (bcCall s (P y.env).S pt wall t y.cols (toDist (halo a))).2 =
          (withBc s (P y.env) halo (wantedInsts s (P y.env).S pt wall imp I)).bc t a := by
        intro t a
        rw [(bcCall_live s pt wall imp (P y.env).S (hEQ _) (hw _) t y.cols I hy _).1]
        rfl
      show (runL s P pt wall halo (applyL s P pt wall halo y (.op o)) l).sim = _
      rw [ih]
      · simp only [expected]
        congr 1
        simp only [applyL, hd, withDt_self, applyT, hbc]
        rfl
      · simp only [applyL, hd, withDt_self, applyT]
        cases o <;> first
          | exact hy
          | exact (bcCall_live s pt wall imp (P y.env).S (hEQ _) (hw _) _ y.cols I hy _).2
      · intro t ht
        simp only [applyL, hd] at ht ⊢
        split_ifs at ht
        · exact (Option.some.inj ht).symm
        · exact hc t ht

/-- **C105, values given once.**  If the parameters are given before the first operation and not changed, the run is the one
of the simulation with these values in its dictionary. -/
theorem C105_once (hEQ : ∀ e j w, (P e).S.EQ ((P e).S.consm j) w = w j)
    (hw : ∀ e l v, wall l = some v → Writes (P e).S.consm v.fn (imp l))
    (I : List (Method dim × List (Entry K dim s.ns))) (e : E) (x : Simu K s.ns d dim) (l : List (Op K s.ns dim)) :
    (runL s P pt wall halo (startL s P pt wall I e x none) (l.map .op)).sim =
      x.run (withBc s (P e) halo (wantedInsts s (P e).S pt wall imp I)) l := by
  rw [← C57_simulation s (P e).S (hEQ e) pt wall imp (hw e)]
  suffices H : ∀ (l : List (Op K s.ns dim)) (y : Live K E dim s.ns d), y.env = e →
      (∀ t, y.cache = some t → t = (P e).S.dt) →
      (runL s P pt wall halo y (l.map .op)).sim = (runT s (P e).S pt wall (P e) halo (y.sim, y.cols) l).1 from
    H l _ rfl (by simp [startL])
  intro l
  induction l with
  | nil => intro y _ _; rfl
  | cons o l ih =>
    intro y hy hc
    have hd : y.dt s P = (P e).S.dt := by
      unfold Live.dt
      rw [hy]
      cases hcc : y.cache with
      | none => rfl
      | some t => exact hc t hcc
    show (runL s P pt wall halo (applyL s P pt wall halo y (.op o)) (l.map .op)).sim = _
    rw [ih (applyL s P pt wall halo y (.op o)) hy]
    · simp only [applyL, hd, hy, withDt_self]
      rfl
    · intro t ht
      simp only [applyL, hd] at ht
      split_ifs at ht
      · exact (Option.some.inj ht).symm
      · exact hc t ht

theorem apply_t {n : Nat} (Q : Setup K n nc d dim) (x : Simu K n d dim) (o : Op K n dim) :
    (x.apply Q o).t = x.t + (match o with | .step => Q.S.dt | _ => 0) := by
  cases o <;> simp [Simu.apply, Simu.setF, Simu.getM]; split_ifs <;> rfl

/-- **C105 is false for the time step**: once a function has been called, `dt` is never computed again: whatever is done
and whatever values are given to the parameters, `t` advances by the time step of the parameters of the first call. -/
theorem C105_time_negation (x : Live K E dim s.ns d) (dt : K) (hx : x.cache = some dt) (l : List (LiveOp E K s.ns dim)) :
    (runL s P pt wall halo x l).cache = some dt ∧ (runL s P pt wall halo x l).sim.t = x.sim.t + stepsL l * dt := by
  induction l generalizing x with
  | nil => simp [runL, stepsL, hx]
  | cons o l ih =>
    cases o with
    | set e =>
      obtain ⟨h1, h2⟩ := ih { x with env := e } hx
      exact ⟨h1, by rw [show stepsL (.set e :: l) = stepsL l by simp [stepsL]]; exact h2⟩
    | op o =>
      have hd : x.dt s P = dt := by simp [Live.dt, hx]
      obtain ⟨h1, h2⟩ := ih (applyL s P pt wall halo x (.op o)) (by
        simp only [applyL, hd, hx]; split_ifs <;> rfl)
      refine ⟨h1, ?_⟩
      show (runL s P pt wall halo (applyL s P pt wall halo x (.op o)) l).sim.t = _
      rw [h2]
      simp only [applyL, applyT, apply_t, hd, withDt]
      cases o <;> simp [stepsL]
      ring

/-- **C105, the first call fixes the time step.** -/
theorem C105_first_negation (x : Live K E dim s.ns d) (hx : x.cache = none) (e' : E) (k : Nat) :
    (runL s P pt wall halo x ([.op .step, .set e'] ++ List.replicate k (.op .step))).sim.t =
      x.sim.t + (k + 1) * (P x.env).S.dt := by
  have hd : x.dt s P = (P x.env).S.dt := by simp [Live.dt, hx]
  have h1 : (applyL s P pt wall halo x (.op .step)).cache = some (P x.env).S.dt := by
    simp [applyL, hd, touches]
  have h2 : (applyL s P pt wall halo x (.op .step)).sim.t = x.sim.t + (P x.env).S.dt := by
    simp only [applyL, applyT, apply_t, hd, withDt]
  have h3 := (C105_time_negation s P pt wall halo (applyL s P pt wall halo x (.op .step)) _ h1
    (.set e' :: List.replicate k (.op .step))).2
  have h4 : stepsL (.set e' :: List.replicate k (.op .step) : List (LiveOp E K s.ns dim)) = k := by
    simp [stepsL]
  rw [h4, h2] at h3
  show (runL s P pt wall halo (applyL s P pt wall halo x (.op .step)) (.set e' :: List.replicate k (.op .step))).sim.t = _
  rw [h3]
  ring

/-- **C105 is false for the boundary conditions without `time_bc`**: their values are those of the parameters at the
initialisation, whatever is done and whatever values are given afterwards. -/
theorem C105_walls_negation (hEQ : ∀ e j w, (P e).S.EQ ((P e).S.consm j) w = w j)
    (hw : ∀ e l v, wall l = some v → Writes (P e).S.consm v.fn (imp l))
    (I : List (Method dim × List (Entry K dim s.ns))) (e : E) (x : Simu K s.ns d dim) (cache : Option K)
    (l : List (LiveOp E K s.ns dim)) :
    ∀ p ∈ (runL s P pt wall halo (startL s P pt wall I e x cache) l).cols, ∀ c ∈ p.2, ∀ v,
      wall c.label = some v → v.time = false →
        c.feq = (imp c.label).feq (P e).S.invM (P e).S.EQ 0 (pt c.toEntry) := by
  suffices H : ∀ (l : List (LiveOp E K s.ns dim)) (y : Live K E dim s.ns d),
      (∀ p ∈ y.cols, ∀ c ∈ p.2, ∀ v, wall c.label = some v → v.time = false →
        c.feq = (imp c.label).feq (P e).S.invM (P e).S.EQ 0 (pt c.toEntry)) →
      ∀ p ∈ (runL s P pt wall halo y l).cols, ∀ c ∈ p.2, ∀ v, wall c.label = some v → v.time = false →
        c.feq = (imp c.label).feq (P e).S.invM (P e).S.EQ 0 (pt c.toEntry) by
    refine H l _ fun p hp c hc v hv ht => ?_
    have := ((prepare_live s pt wall imp (P e).S (hEQ e) (hw e) I).2 p hp c hc).2.1 v hv ht
    rw [this]
    simp only [wanted, hv, ht, Bool.false_eq_true, if_false]
  intro l
  induction l with
  | nil => intro y hy; exact hy
  | cons o l ih =>
    intro y hy
    cases o with
    | set e' => exact ih { y with env := e' } hy
    | op o =>
      refine ih (applyL s P pt wall halo y (.op o)) ?_
      have hstep : ∀ t f, ∀ p ∈ (bcCall s (P y.env).S pt wall t y.cols f).1, ∀ c ∈ p.2, ∀ v,
          wall c.label = some v → v.time = false →
          c.feq = (imp c.label).feq (P e).S.invM (P e).S.EQ 0 (pt c.toEntry) := by
        intro t f p hp c hc v hv ht
        rw [bcCall_columns] at hp
        obtain ⟨q, hq, rfl⟩ := List.mem_map.1 hp
        obtain ⟨c0, hc0, rfl⟩ := List.mem_map.1 hc
        have hl : (updateFeq s (P y.env).S pt wall t c0).label = c0.label := by
          unfold updateFeq
          split
          · rfl
          · split_ifs <;> rfl
        rw [hl] at hv
        have hu : updateFeq s (P y.env).S pt wall t c0 = c0 := by
          simp only [updateFeq, hv, ht, Bool.false_eq_true, if_false]
        rw [hu]
        exact hy q hq c0 hc0 v hv ht
      simp only [applyL, applyT]
      cases o <;> first
        | exact hy
        | exact hstep _ _

/-- **C105 is false for the moments which have been read**: changing a parameter does not mark the moments, so that the
values read before the change are returned again, also when the matrix of the moments depends on the parameter. -/
theorem C105_read_negation (x : Live K E dim s.ns d) (e' : E) :
    (runL s P pt wall halo x [.op .readM, .set e', .op .readM]).sim = (runL s P pt wall halo x [.op .readM]).sim := by
  have hd : ∀ Q : Setup K s.ns nc d dim, (x.sim.getM Q).dirty = false := by
    intro Q
    unfold Simu.getM
    cases h : x.sim.dirty <;> simp [h]
  simp only [runL, List.foldl_cons, List.foldl_nil, applyL, applyT, Simu.apply]
  rw [Simu.getM]
  simp [hd]

end proofs

/-! ## Cases -/

/-- D1Q2 with the equilibrium `e ρ` of the second moment and the time step `dt e`. -/
def advect (dt : ℚ → ℚ) (e : ℚ) : Setup ℚ sten2.ns 1 0 1 :=
  { line .c pullCfg with S := { d1q2 with EQ := ![fun w => w 0, fun w => e * w 0], dt := dt e } }

/-- A wall with a ramp of density (label 1), walls without value (other labels). -/
def rampWall (l : Int) : Option (WallValue ℚ 1 sten2.ns) := if l = 1 then some ⟨ramp, true⟩ else none

/-- The same without `time_bc`. -/
def fixedWall (l : Int) : Option (WallValue ℚ 1 sten2.ns) := if l = 1 then some ⟨ramp, false⟩ else none

def rampImposed : Int → Imposed ℚ 1 1 := fun _ => ⟨fun _ => true, fun t x _ => t + x 0⟩

theorem ramp_writes : Writes (![0] : Fin 1 → Fin 2) ramp (rampImposed 1) := by
  intro t x fm j
  fin_cases j
  rfl

/-- The hypotheses of `C105_changes_partial` hold for a velocity changed during the run. -/
example (pt : Entry ℚ 1 sten2.ns → Fin 1 → ℚ) (halo : Arr ℚ sten2.ns 1 → Arr ℚ sten2.ns 1)
    (I : List (Method 1 × List (Entry ℚ 1 sten2.ns))) (e : ℚ) (x : Simu ℚ sten2.ns 0 1)
    (l : List (LiveOp ℚ ℚ sten2.ns 1)) :
    (runL sten2 (advect fun _ => 1) pt rampWall halo (startL sten2 (advect fun _ => 1) pt rampWall I e x none) l).sim =
      expected sten2 (advect fun _ => 1) pt rampWall rampImposed halo I x e l := by
  refine C105_changes_partial sten2 _ pt rampWall rampImposed halo ?_ ?_ ?_ ?_ ?_ I e x none ?_ l
  · intro e j w
    fin_cases j
    rfl
  · intro e e'; rfl
  · intro e l v hv
    unfold rampWall at hv
    split_ifs at hv with h1
    cases hv
    exact ramp_writes
  · intro e e'; rfl
  · intro l v hv ht
    unfold rampWall at hv
    split_ifs at hv with h1
    cases hv
    exact absurd ht (by simp)
  · intro t ht; exact absurd ht (by simp)

/-- The time after two steps when `dt` is 1 at the first one and 1/2 is asked for the second one: 2 instead of 3/2. -/
example : (runL sten2 (advect id) (fun _ _ => 5) rampWall id (⟨line0 1, [], 1, none⟩ : Live ℚ ℚ 1 sten2.ns 0)
      [.op .step, .set (1 / 2), .op .step]).sim.t = 2 := by
  rw [show ([.op .step, .set (1 / 2), .op .step] : List (LiveOp ℚ ℚ sten2.ns 1)) =
    [.op .step, .set (1 / 2)] ++ List.replicate 1 (.op .step) from rfl, C105_first_negation _ _ _ _ _ _ rfl]
  decide +kernel

/-- Without `time_bc` the values imposed on the wall do depend on the velocity at the initialisation. -/
example (e : ℚ) : (prepareColumn sten2 (advect (fun _ => 1) e).S (fun _ _ => 5) fixedWall
      ⟨(0 : Fin 2), fun _ => 0, 1, 1⟩).feq (0 : Fin 2) = 5 * (1 + e) / 2 := by
  have h := (prepareColumn_spec sten2 (advect (fun _ => 1) e).S (by intro j w; fin_cases j; rfl) (fun _ _ => 5) fixedWall
    rampImposed (by
      intro l v hv
      unfold fixedWall at hv
      split_ifs at hv with h1
      cases hv
      exact ramp_writes) ⟨(0 : Fin 2), fun _ => 0, 1, 1⟩).2.1
  rw [h]
  simp [wanted, fixedWall, Imposed.feq, rampImposed, advect, d1q2, line, Matrix.mulVec, dotProduct, Fin.sum_univ_succ]
  ring

end Pylbm.Boundary
