import Verif.Sim.Model
import Verif.Scheme.Lemmas
/-!
# Lemmas on the generated loops
-/

set_option linter.unusedSectionVars false

namespace Pylbm.Sim
open Scheme Halo

variable {K : Type} [Field K] {n nc d dim : Nat}

/-! ## The result of a step does not depend on the values found in the local variables -/

section agree
variable (S : Kernel K n nc d)

/-- The two states agree on the moments in `A`, the relative velocities in `U`, the new distribution
functions in `N`. -/
def Agree (A : Fin n → Prop) (U : Fin d → Prop) (N : Fin n → Prop) (x y : Local K n d) : Prop :=
  (∀ i, A i → x.m i = y.m i) ∧ (∀ i, U i → x.u i = y.u i) ∧ (∀ i, N i → x.fnew i = y.fnew i)

variable {S} {A N : Fin n → Prop} {U : Fin d → Prop} {f : Fin n → K} {x y : Local K n d}

theorem run_cons (f : Fin n → K) (x : Local K n d) (s : Stmt n d) (p : List (Stmt n d)) :
    S.run f x (s :: p) = S.run f (S.exec f x s) p := rfl

theorem agree_mom (fromNew rel : Bool) (hN : fromNew = true → ∀ k, N k) (hU : rel = true → ∀ i, U i)
    (l : List (Fin n)) : ∀ {A : Fin n → Prop} {x y : Local K n d}, Agree A U N x y →
    Agree (fun i => A i ∨ i ∈ l) U N (S.run f x (l.map (.mom fromNew rel)))
      (S.run f y (l.map (.mom fromNew rel))) := by
  induction l with
  | nil => intro A x y h; simpa [run_nil] using h
  | cons a l ih =>
    intro A x y h
    rw [List.map_cons, run_cons, run_cons]
    have h1 : Agree (fun i => A i ∨ i = a) U N (S.exec f x (.mom fromNew rel a))
        (S.exec f y (.mom fromNew rel a)) := by
      refine ⟨fun i hi => ?_, h.2.1, h.2.2⟩
      by_cases hia : i = a
      · subst hia
        simp only [Kernel.exec, Function.update_self]
        have e1 : rel = true → x.u = y.u := fun hr => funext fun j => h.2.1 j (hU hr j)
        have e2 : fromNew = true → x.fnew = y.fnew := fun hf => funext fun j => h.2.2 j (hN hf j)
        cases rel <;> cases fromNew <;> simp_all
      · simp only [Kernel.exec, Function.update_of_ne hia]
        rcases hi with hi | hi
        · exact h.1 i hi
        · exact absurd hi hia
    refine ⟨fun i hi => (ih h1).1 i ?_, (ih h1).2.1, (ih h1).2.2⟩
    rcases hi with hi | hi
    · exact Or.inl (Or.inl hi)
    · rcases List.mem_cons.1 hi with hi | hi
      · exact Or.inl (Or.inr hi)
      · exact Or.inr hi

theorem agree_vel (v : (Fin nc → K) → Fin d → K) (hv : S.relVel = some v) (hA : ∀ j, A (S.consm j))
    (l : List (Fin d)) : ∀ {U : Fin d → Prop} {x y : Local K n d}, Agree A U N x y →
    Agree A (fun i => U i ∨ i ∈ l) N (S.run f x (l.map .vel)) (S.run f y (l.map .vel)) := by
  induction l with
  | nil => intro A x y h; simpa [run_nil] using h
  | cons a l ih =>
    intro U x y h
    rw [List.map_cons, run_cons, run_cons]
    have h1 : Agree A (fun i => U i ∨ i = a) N (S.exec f x (.vel a)) (S.exec f y (.vel a)) := by
      refine ⟨h.1, fun i hi => ?_, h.2.2⟩
      have e : S.cons x.m = S.cons y.m := funext fun j => h.1 _ (hA j)
      simp only [Kernel.exec, hv, e]
      by_cases hia : i = a
      · subst hia
        rw [Function.update_self, Function.update_self]
      · rw [Function.update_of_ne hia, Function.update_of_ne hia]
        rcases hi with hi | hi
        · exact h.2.1 i hi
        · exact absurd hi hia
    refine ⟨(ih h1).1, fun i hi => (ih h1).2.1 i ?_, (ih h1).2.2⟩
    rcases hi with hi | hi
    · exact Or.inl (Or.inl hi)
    · rcases List.mem_cons.1 hi with hi | hi
      · exact Or.inl (Or.inr hi)
      · exact Or.inr hi

theorem agree_f2m (fromNew : Bool) (hfront : ∀ j, (S.consm j : Nat) < nc)
    (hN : fromNew = true → ∀ k, N k) (h : Agree A U N x y) :
    Agree (fun _ => True) (fun _ => S.relVel.isSome = true) N
      (S.run f x (f2mLocal n nc d fromNew S.relVel.isSome))
      (S.run f y (f2mLocal n nc d fromNew S.relVel.isSome)) := by
  unfold f2mLocal
  cases hv : S.relVel with
  | none =>
    have := agree_mom (S := S) (f := f) fromNew false hN (fun h => absurd h (by simp)) (List.finRange n) h
    simp only [Option.isSome_none, Bool.false_eq_true, if_false]
    exact ⟨fun i _ => this.1 i (Or.inr (List.mem_finRange i)), fun i hi => absurd hi (by simp), this.2.2⟩
  | some v =>
    simp only [Option.isSome_some, if_true]
    rw [run_append, run_append, run_append, run_append]
    have h1 := agree_mom (S := S) (f := f) fromNew false hN (fun h => absurd h (by simp)) (front n nc) h
    have h2 := agree_vel (S := S) (f := f) v hv
      (fun j => Or.inr (by simp [front, hfront j])) (List.finRange d) h1
    have h3 := agree_mom (S := S) (f := f) fromNew true hN
      (fun _ i => Or.inr (List.mem_finRange i)) (backIdx n nc) h2
    refine ⟨fun i _ => h3.1 i ?_, fun i _ => h3.2.1 i (Or.inr (List.mem_finRange i)), h3.2.2⟩
    by_cases hi : (i : Nat) < nc
    · exact Or.inl (Or.inr (by simp [front, hi]))
    · exact Or.inr (by simp [backIdx]; omega)

/-- Agreement on all the moments and, with a relative velocity, on the relative velocity. -/
abbrev Full (S : Kernel K n nc d) (N : Fin n → Prop) (x y : Local K n d) : Prop :=
  Agree (fun _ => True) (fun _ => S.relVel.isSome = true) N x y

theorem Full.m_eq (h : Full S N x y) : x.m = y.m := funext fun i => h.1 i trivial

theorem Full.u_eq (h : Full S N x y) (hr : S.relVel.isSome = true) : x.u = y.u :=
  funext fun i => h.2.1 i hr

theorem full_relax (l : List (Fin n)) : ∀ {x y : Local K n d}, Full S N x y →
    Full S N (S.run f x (l.map (.relax S.relVel.isSome))) (S.run f y (l.map (.relax S.relVel.isSome))) := by
  induction l with
  | nil => intro x y h; exact h
  | cons a l ih =>
    intro x y h
    rw [List.map_cons, run_cons, run_cons]
    apply ih
    refine ⟨fun i _ => ?_, h.2.1, h.2.2⟩
    have e := h.m_eq
    have e2 := h.u_eq
    simp only [Kernel.exec, e]
    cases hr : S.relVel.isSome with
    | false => simp
    | true => rw [e2 hr]

theorem full_src (l : List (Fin n)) : ∀ {x y : Local K n d}, Full S N x y →
    Full S N (S.run f x (l.map .src)) (S.run f y (l.map .src)) := by
  induction l with
  | nil => intro x y h; exact h
  | cons a l ih =>
    intro x y h
    rw [List.map_cons, run_cons, run_cons]
    apply ih
    have e := h.m_eq
    simp only [Kernel.exec]
    cases S.source a with
    | none => exact h
    | some r =>
      refine ⟨fun i _ => ?_, h.2.1, h.2.2⟩
      simp only [e]

theorem full_back (l : List (Fin n)) : ∀ {N : Fin n → Prop} {x y : Local K n d}, Full S N x y →
    Full S (fun i => N i ∨ i ∈ l) (S.run f x (l.map (.back S.relVel.isSome)))
      (S.run f y (l.map (.back S.relVel.isSome))) := by
  induction l with
  | nil => intro N x y h; simpa [run_nil] using h
  | cons a l ih =>
    intro N x y h
    rw [List.map_cons, run_cons, run_cons]
    have h1 : Full S (fun i => N i ∨ i = a) (S.exec f x (.back S.relVel.isSome a))
        (S.exec f y (.back S.relVel.isSome a)) := by
      refine ⟨h.1, h.2.1, fun i hi => ?_⟩
      have e := h.m_eq
      have e2 := h.u_eq
      simp only [Kernel.exec, e]
      by_cases hia : i = a
      · subst hia
        rw [Function.update_self, Function.update_self]
        cases hr : S.relVel.isSome with
        | false => simp
        | true => rw [e2 hr]
      · rw [Function.update_of_ne hia, Function.update_of_ne hia]
        rcases hi with hi | hi
        · exact h.2.2 i hi
        · exact absurd hi hia
    refine ⟨(ih h1).1, (ih h1).2.1, fun i hi => (ih h1).2.2 i ?_⟩
    rcases hi with hi | hi
    · exact Or.inl (Or.inl hi)
    · rcases List.mem_cons.1 hi with hi | hi
      · exact Or.inl (Or.inr hi)
      · exact Or.inr hi

end agree

/-- The statements of a step, as `one_time_step_local` returns them. -/
def prog (S : Kernel K n nc d) (a : Algo) : List (Stmt n d) := (groups n nc d S.relVel.isSome a).flatten

theorem f2mGroups_flatten (n nc d : Nat) (fromNew rel : Bool) :
    (f2mGroups n nc d fromNew rel).flatten = f2mLocal n nc d fromNew rel := by
  unfold f2mGroups f2mLocal
  cases rel
  · simp
  · simp only [if_true, List.flatten_append, List.flatten_cons, List.flatten_nil, List.append_nil]
    congr 2
    generalize List.finRange d = l
    induction l with
    | nil => rfl
    | cons a l ih => simp [ih]

theorem prog_eq (S : Kernel K n nc d) (a : Algo) : prog S a =
    match a with
    | .base => baseStep n nc d S.relVel.isSome
    | .pull => pullStep n nc d S.relVel.isSome := by
  unfold prog groups
  cases a with
  | base =>
    simp only [List.flatten_append, f2mGroups_flatten]
    simp [baseStep]
  | pull =>
    simp only [List.flatten_append, f2mGroups_flatten]
    cases S.relVel.isSome <;> simp [pullStep]

/-- The new distribution functions at a cell only depend on the old ones which reach the cell, not on
what the local variables contain at the beginning. -/
theorem prog_indep (S : Kernel K n nc d) (a : Algo) (hfront : ∀ j, (S.consm j : Nat) < nc)
    (f : Fin n → K) (x y : Local K n d) :
    (S.run f x (prog S a)).fnew = (S.run f y (prog S a)).fnew := by
  rw [prog_eq]
  cases a with
  | base =>
    simp only [baseStep]
    simp only [run_append]
    have h0 : Agree (fun _ => False) (fun _ => False) (fun _ => True)
        (S.run f x (transportLocal n d)) (S.run f y (transportLocal n d)) := by
      rw [run_transport, run_transport]
      exact ⟨fun _ h => h.elim, fun _ h => h.elim, fun _ _ => rfl⟩
    have h1 := agree_f2m (S := S) (f := f) true hfront (fun _ _ => trivial) h0
    have h2 := full_back (f := f) (List.finRange n) (full_src (f := f) (List.finRange n)
      (full_relax (f := f) (List.finRange n) (full_src (f := f) (List.finRange n) h1)))
    exact funext fun i => h2.2.2 i (Or.inl trivial)
  | pull =>
    simp only [pullStep]
    simp only [run_append]
    have h0 : Agree (fun _ => False) (fun _ => False) (fun _ => False) x y :=
      ⟨fun _ h => h.elim, fun _ h => h.elim, fun _ h => h.elim⟩
    have h1 := agree_f2m (S := S) (f := f) false hfront (fun h => absurd h (by simp)) h0
    have h2 := full_relax (f := f) (List.finRange n) (full_src (f := f) (List.finRange n) h1)
    have h3 : Full S (fun _ => False)
        (S.run f (S.run f (S.run f (S.run f x (f2mLocal n nc d false S.relVel.isSome)) (sourceLocal n d))
          (relaxLocal n d S.relVel.isSome)) (if S.relVel.isSome = true then restoreLocal n nc d else []))
        (S.run f (S.run f (S.run f (S.run f y (f2mLocal n nc d false S.relVel.isSome)) (sourceLocal n d))
          (relaxLocal n d S.relVel.isSome)) (if S.relVel.isSome = true then restoreLocal n nc d else [])) := by
      by_cases hr : S.relVel.isSome = true
      · rw [if_pos hr]
        have := agree_mom (S := S) (f := f) false true (fun h => absurd h (by simp)) (fun _ _ => hr)
          (front n nc) h2
        exact ⟨fun i _ => this.1 i (Or.inl trivial), this.2.1, this.2.2⟩
      · rw [if_neg hr, run_nil, run_nil]; exact h2
    have h4 := full_back (f := f) (List.finRange n) (full_src (f := f) (List.finRange n) h3)
    exact funext fun i => h4.2.2 i (Or.inr (List.mem_finRange i))

/-! ## Schedules with private variables -/

section schedule
variable (S : Kernel K n nc d) (vel : Fin n → Cell dim) (R : Refs dim)

theorem execAt_f (hne : R.f ≠ R.fnew) (mem : Mem K n d dim) (cs : Cell dim × Stmt n d) :
    (execAt S vel R mem cs).buf R.f = mem.buf R.f := by
  simp only [execAt]
  rw [Function.update_of_ne hne]

theorem exec_u (f : Fin n → K) (x : Local K n d) (s : Stmt n d) (h : ∀ i, s ≠ .vel i) :
    (S.exec f x s).u = x.u := by
  cases s with
  | vel i => exact absurd rfl (h i)
  | src i => simp only [Kernel.exec]; cases S.source i <;> rfl
  | shift k => rfl
  | mom fromNew rel i => rfl
  | relax rel i => rfl
  | eqm i => rfl
  | back rel i => rfl

theorem view_execAt (hm : Function.Injective R.ma) (mem : Mem K n d dim) (cs : Cell dim × Stmt n d)
    (hu : Function.Injective R.ua ∨ ∀ i, cs.2 ≠ .vel i) (c : Cell dim) :
    view R (execAt S vel R mem cs) c =
      if c = cs.1 then S.exec (pull vel (mem.buf R.f) c) (view R mem c) cs.2 else view R mem c := by
  split_ifs with h
  · subst h
    simp only [view, execAt, Function.update_self]
  · simp only [view, execAt, Function.update_self]
    rw [Function.update_of_ne h, Function.update_of_ne (fun e => h (hm e))]
    rcases hu with hu | hu
    · rw [Function.update_of_ne (fun e => h (hu e))]
    · rw [exec_u S _ _ _ hu]
      simp only
      rw [Function.update_eq_self]

/-- Whatever the interleaving of the statements of the cells, the values at a cell are those of its own
statements in their order. -/
theorem schedule_view (hne : R.f ≠ R.fnew) (hm : Function.Injective R.ma)
    (w : List (Cell dim × Stmt n d)) (hu : Function.Injective R.ua ∨ ∀ cs ∈ w, ∀ i, cs.2 ≠ .vel i)
    (mem : Mem K n d dim) :
    (w.foldl (execAt S vel R) mem).buf R.f = mem.buf R.f ∧
    ∀ c, view R (w.foldl (execAt S vel R) mem) c =
      S.run (pull vel (mem.buf R.f) c) (view R mem c)
        ((w.filter fun cs => decide (cs.1 = c)).map Prod.snd) := by
  induction w using List.reverseRecOn with
  | nil => exact ⟨rfl, fun c => rfl⟩
  | append_singleton w cs ih =>
    rw [List.foldl_append]
    simp only [List.foldl_cons, List.foldl_nil]
    have ih := ih (hu.imp id fun h cs hcs => h cs (by simp [hcs]))
    refine ⟨by rw [execAt_f S vel R hne, ih.1], fun c => ?_⟩
    rw [view_execAt S vel R hm _ cs (hu.imp id fun h => h cs (by simp)), List.filter_append, List.map_append, run_append, ← ih.2 c, ih.1]
    by_cases h : c = cs.1
    · rw [if_pos h, List.filter_cons_of_pos (by simp [h])]
      rfl
    · rw [if_neg h, List.filter_cons_of_neg (by simpa using fun e => h e.symm)]
      rfl

/-- The other buffer entries. -/
theorem schedule_fnew (w : List (Cell dim × Stmt n d)) (mem : Mem K n d dim) (c : Cell dim)
    (hc : ∀ cs ∈ w, cs.1 ≠ c) : (w.foldl (execAt S vel R) mem).buf R.fnew c = mem.buf R.fnew c := by
  induction w using List.reverseRecOn with
  | nil => rfl
  | append_singleton w cs ih =>
    rw [List.foldl_append]
    simp only [List.foldl_cons, List.foldl_nil]
    rw [← ih fun cs' h => hc cs' (by simp [h])]
    simp only [execAt, Function.update_self]
    rw [Function.update_of_ne (fun e => hc cs (by simp) e.symm)]

theorem schedule_buf (w : List (Cell dim × Stmt n d)) (mem : Mem K n d dim) (j : Fin 2)
    (hj : j ≠ R.fnew) : (w.foldl (execAt S vel R) mem).buf j = mem.buf j := by
  induction w using List.reverseRecOn with
  | nil => rfl
  | append_singleton w cs ih =>
    rw [List.foldl_append]
    simp only [List.foldl_cons, List.foldl_nil]
    rw [← ih]
    simp only [execAt]
    rw [Function.update_of_ne hj]

end schedule

/-! ## Cell loops with shared local variables -/

section cells
variable (S : Kernel K n nc d) (vel : Fin n → Cell dim) (R : Refs dim)

/-- All the statements of one cell. -/
theorem cell_view (hne : R.f ≠ R.fnew) (p : List (Stmt n d)) (c : Cell dim) (mem : Mem K n d dim) :
    view R ((p.map fun s => (c, s)).foldl (execAt S vel R) mem) c =
      S.run (pull vel (mem.buf R.f) c) (view R mem c) p := by
  induction p using List.reverseRecOn with
  | nil => rfl
  | append_singleton p s ih =>
    rw [List.map_append, List.foldl_append, run_append, ← ih]
    simp only [List.map_cons, List.map_nil, List.foldl_cons, List.foldl_nil]
    rw [← schedule_buf S vel R (p.map fun s => (c, s)) mem R.f hne]
    simp only [view, execAt, Function.update_self]
    rfl

/-- A loop over cells, with any storage of the local variables, when the result does not depend on what
they contain. -/
theorem cellLoop_fnew (hne : R.f ≠ R.fnew) (p : List (Stmt n d))
    (hp : ∀ f x y, (S.run f x p).fnew = (S.run f y p).fnew) (L : List (Cell dim)) (hL : L.Nodup)
    (mem : Mem K n d dim) (x : Local K n d) (c : Cell dim) :
    (cellLoop S vel R L p mem).buf R.fnew c =
      if c ∈ L then (S.run (pull vel (mem.buf R.f) c) x p).fnew else mem.buf R.fnew c := by
  unfold cellLoop
  induction L generalizing mem with
  | nil => simp
  | cons a L ih =>
    rw [List.flatMap_cons, List.foldl_append, ih (List.nodup_cons.1 hL).2]
    set mem1 := (p.map fun s => (a, s)).foldl (execAt S vel R) mem with h1
    have hf : mem1.buf R.f = mem.buf R.f := schedule_buf S vel R _ mem R.f hne
    by_cases hca : c = a
    · subst hca
      rw [if_neg (List.nodup_cons.1 hL).1, if_pos (by simp)]
      have := cell_view S vel R hne p c mem
      have e : mem1.buf R.fnew c = (view R mem1 c).fnew := rfl
      rw [e, h1, this]
      exact hp _ _ _
    · have hother : mem1.buf R.fnew c = mem.buf R.fnew c :=
        schedule_fnew S vel R _ mem c (by
          intro cs hcs
          obtain ⟨s, _, rfl⟩ := List.mem_map.1 hcs
          exact fun e => hca e.symm)
      rw [hf, hother]
      simp [hca]

end cells

/-! ## Slices -/

section vec
variable (S : Kernel K n nc d) (vel : Fin n → Cell dim) (F Fnew : Fin 2)

/-- The components of `f` used by a statement. -/
def reads : Stmt n d → Fin n → Bool
  | .shift k => fun j => decide (j = k)
  | .mom fromNew _ _ => fun _ => !fromNew
  | _ => fun _ => false

/-- The component of `fnew` changed by a statement. -/
def writes : Stmt n d → Fin n → Bool
  | .shift k => fun j => decide (j = k)
  | .back _ k => fun j => decide (j = k)
  | _ => fun _ => false

theorem exec_congr (f f' : Fin n → K) (x : Local K n d) (s : Stmt n d)
    (h : ∀ k, reads s k = true → f k = f' k) : S.exec f x s = S.exec f' x s := by
  cases s with
  | shift k => simp only [Kernel.exec]; rw [h k (by simp [reads])]
  | mom fromNew rel i =>
    cases fromNew with
    | false =>
      have : f = f' := funext fun k => h k rfl
      rw [this]
    | true => rfl
  | vel i => rfl
  | relax rel i => rfl
  | eqm i => rfl
  | src i => rfl
  | back rel i => rfl

theorem exec_fnew (f : Fin n → K) (x : Local K n d) (s : Stmt n d) (k : Fin n)
    (h : writes s k = false) : (S.exec f x s).fnew k = x.fnew k := by
  cases s with
  | shift j =>
    simp only [writes, decide_eq_false_iff_not] at h
    simp only [Kernel.exec, Function.update_of_ne h]
  | back rel j =>
    simp only [writes, decide_eq_false_iff_not] at h
    simp only [Kernel.exec, Function.update_of_ne h]
  | src i => simp only [Kernel.exec]; cases S.source i <;> rfl
  | mom fromNew rel i => rfl
  | vel i => rfl
  | relax rel i => rfl
  | eqm i => rfl

/-- No component of `f` is read after the same component of `fnew` has been changed. -/
def NoHazard (p : List (Stmt n d)) : Prop :=
  p.Pairwise fun s t => ∀ k, writes s k = true → reads t k = false

/-- Slice assignments: the values at the cells of the slices are those of the scalar code, the others do
not change.  `f` and `fnew` may be the same array if no component is read after it has been changed. -/
theorem vecLoop_view (L : List (Cell dim)) (p : List (Stmt n d)) (mem : Mem K n d dim)
    (h : F ≠ Fnew ∨ NoHazard p) :
    (∀ j, j ≠ Fnew → (vecLoop S vel (npRefs F Fnew) L p mem).buf j = mem.buf j) ∧
    (∀ c, c ∉ L → view (npRefs F Fnew) (vecLoop S vel (npRefs F Fnew) L p mem) c =
      view (npRefs F Fnew) mem c) ∧
    (∀ c k, (∀ s ∈ p, writes s k = false) →
      (vecLoop S vel (npRefs F Fnew) L p mem).buf Fnew c k = mem.buf Fnew c k) ∧
    (∀ c ∈ L, view (npRefs F Fnew) (vecLoop S vel (npRefs F Fnew) L p mem) c =
      S.run (pull vel (mem.buf F) c) (view (npRefs F Fnew) mem c) p) := by
  unfold vecLoop
  induction p using List.reverseRecOn with
  | nil => exact ⟨fun _ _ => rfl, fun _ _ => rfl, fun _ _ _ => rfl, fun _ _ => rfl⟩
  | append_singleton p s ih =>
    have h' : F ≠ Fnew ∨ NoHazard p := h.imp id fun hh => (List.pairwise_append.1 hh).1
    obtain ⟨i1, i2, i3, i4⟩ := ih h'
    rw [List.foldl_append]
    simp only [List.foldl_cons, List.foldl_nil]
    set mem1 := p.foldl (vecStep S vel (npRefs F Fnew) L) mem with hmem1
    refine ⟨?_, ?_, ?_, ?_⟩
    · intro j hj
      simp only [vecStep, npRefs]
      rw [Function.update_of_ne hj]
      exact i1 j hj
    · intro c hc
      rw [← i2 c hc]
      simp [view, vecStep, npRefs, hc]
    · intro c k hk
      rw [← i3 c k fun t ht => hk t (by simp [ht])]
      simp only [vecStep, npRefs, Function.update_self]
      split_ifs with hcL
      · exact exec_fnew S _ _ s k (hk s (by simp))
      · rfl
    · intro c hc
      rw [run_append, ← i4 c hc]
      have e : view (npRefs F Fnew) (vecStep S vel (npRefs F Fnew) L mem1 s) c =
          S.exec (pull vel (mem1.buf F) c) (view (npRefs F Fnew) mem1 c) s := by
        simp [view, vecStep, npRefs, hc]
      rw [e]
      refine exec_congr S _ _ _ s fun k hk => ?_
      simp only [pull]
      by_cases hF : F = Fnew
      · have hh : NoHazard (p ++ [s]) := h.resolve_left fun hne => hne hF
        have := (List.pairwise_append.1 hh).2.2
        subst hF
        apply i3
        intro t ht
        by_contra hw
        have := this t ht s (by simp) k (by simpa using hw)
        rw [this] at hk
        exact absurd hk (by simp)
      · rw [i1 F hF]

theorem noHazard_prog (a : Algo) : NoHazard (prog S a) := by
  rw [prog_eq]
  have hw : ∀ (rel fromNew : Bool), ∀ s ∈ (f2mLocal n nc d fromNew rel ++ sourceLocal n d ++ relaxLocal n d rel
      ++ (if rel then restoreLocal n nc d else []) ++ sourceLocal n d), ∀ k, writes s k = false := by
    intro rel fromNew s hs k
    simp only [List.mem_append] at hs
    have : ∀ (s : Stmt n d), (s ∈ f2mLocal n nc d fromNew rel ∨ s ∈ sourceLocal n d ∨
        s ∈ relaxLocal n d rel ∨ s ∈ restoreLocal n nc d) → writes s k = false := by
      intro s hs
      rcases hs with hs | hs | hs | hs
      · unfold f2mLocal at hs
        split_ifs at hs
        · simp only [List.mem_append, List.mem_map] at hs
          rcases hs with (⟨_, _, rfl⟩ | ⟨_, _, rfl⟩) | ⟨_, _, rfl⟩ <;> rfl
        · obtain ⟨_, _, rfl⟩ := List.mem_map.1 hs; rfl
      · obtain ⟨_, _, rfl⟩ := List.mem_map.1 hs; rfl
      · obtain ⟨_, _, rfl⟩ := List.mem_map.1 hs; rfl
      · obtain ⟨_, _, rfl⟩ := List.mem_map.1 hs; rfl
    rcases hs with (((hs | hs) | hs) | hs) | hs
    · exact this s (Or.inl hs)
    · exact this s (Or.inr (Or.inl hs))
    · exact this s (Or.inr (Or.inr (Or.inl hs)))
    · split_ifs at hs
      · exact this s (Or.inr (Or.inr (Or.inr hs)))
      · simp at hs
    · exact this s (Or.inr (Or.inl hs))
  have hback : ∀ (rel : Bool), ∀ s ∈ m2fLocal n d rel, ∀ k, reads s k = false := by
    intro rel s hs k
    obtain ⟨_, _, rfl⟩ := List.mem_map.1 hs; rfl
  cases a with
  | pull =>
    simp only [pullStep]
    refine List.pairwise_append.2 ⟨?_, ?_, ?_⟩
    · apply List.Pairwise.imp_of_mem (R := fun _ _ => True)
      · intro s t hs _ _ k hk
        rw [hw _ _ s hs k] at hk
        exact absurd hk (by simp)
      · exact List.pairwise_of_forall fun _ _ => trivial
    · apply List.Pairwise.imp_of_mem (R := fun _ _ => True)
      · intro s t _ ht _ k _
        exact hback _ t ht k
      · exact List.pairwise_of_forall fun _ _ => trivial
    · intro s _ t ht k _
      exact hback _ t ht k
  | base =>
    simp only [baseStep]
    have hread : ∀ (rel : Bool), ∀ s ∈ (f2mLocal n nc d true rel ++ sourceLocal n d ++ relaxLocal n d rel
      ++ sourceLocal n d ++ m2fLocal n d rel), ∀ k, reads s k = false := by
      intro rel s hs k
      simp only [List.mem_append] at hs
      rcases hs with (((hs | hs) | hs) | hs) | hs
      · unfold f2mLocal at hs
        split_ifs at hs
        · simp only [List.mem_append, List.mem_map] at hs
          rcases hs with (⟨_, _, rfl⟩ | ⟨_, _, rfl⟩) | ⟨_, _, rfl⟩ <;> rfl
        · obtain ⟨_, _, rfl⟩ := List.mem_map.1 hs; rfl
      · obtain ⟨_, _, rfl⟩ := List.mem_map.1 hs; rfl
      · obtain ⟨_, _, rfl⟩ := List.mem_map.1 hs; rfl
      · obtain ⟨_, _, rfl⟩ := List.mem_map.1 hs; rfl
      · exact hback rel s hs k
    simp only [List.append_assoc] at hread ⊢
    refine List.pairwise_append.2 ⟨?_, ?_, ?_⟩
    · unfold transportLocal
      rw [List.pairwise_map]
      refine (List.nodup_finRange n).imp ?_
      intro a b hab k hk
      simp only [writes, decide_eq_true_eq] at hk
      subst hk
      simpa [reads] using hab
    · apply List.Pairwise.imp_of_mem (R := fun _ _ => True)
      · intro s t _ ht _ k _
        exact hread _ t ht k
      · exact List.pairwise_of_forall fun _ _ => trivial
    · intro s _ t ht k _
      exact hread _ t ht k

end vec

end Pylbm.Sim
