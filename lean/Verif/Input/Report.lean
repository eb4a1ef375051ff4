import Verif.Input.Use
/-!
# C91: the report of the validation

The report is built for every dictionary, accepted or not, before the verdict is used (validator.py 345).  It looks at the
first item of each list of a dictionary: an empty list is an `IndexError`, also in a dictionary that Cerberus accepts.
-/
namespace Pylbm.Input

/-! ## Specification -/

/-- An empty list is the value of a key, in the dictionary or in one of the dictionaries the report visits. -/
inductive EmptyIn : Val → Prop
  | here {l : Dict} {k : Key} : (k, .list []) ∈ l → EmptyIn (.dict l)
  | dict {l q : Dict} {k : Key} : (k, .dict q) ∈ l → EmptyIn (.dict q) → EmptyIn (.dict l)
  | list {l q : Dict} {k : Key} {r : List Val} : (k, .list (.dict q :: r)) ∈ l → EmptyIn (.list (.dict q :: r)) →
      EmptyIn (.dict l)
  | item {l : List Val} {v : Val} : v ∈ l → EmptyIn v → EmptyIn (.list l)

/-- Errors as Cerberus gives them: there is at least one error for each key. -/
inductive Good : Err → Prop
  | msg (s : String) : Good (.msg s)
  | nest {l : Errs} : (∀ p ∈ l, p.2 ≠ []) → (∀ p ∈ l, ∀ x ∈ p.2, Good x) → Good (.nest l)

/-- A value which is shown on one line: neither a dictionary, nor a list which begins with a dictionary. -/
def leaf : Val → Bool
  | .dict _ => false
  | .list [] => false
  | .list (.dict _ :: _) => false
  | _ => true

/-! ## When there is a report -/

theorem nested_good {l : Errs} (h : Good (.nest l)) (k : Key) : ∃ x, nested (.nest l) k = some x ∧ Good x.2.1 := by
  rw [nested]
  cases hf : Errs.find l k with
  | none => exact ⟨_, rfl, .nest (by simp) (by simp)⟩
  | some xs =>
    cases h with
    | nest h1 h2 =>
      rw [Errs.find, Option.map_eq_some_iff] at hf
      obtain ⟨p, hp, rfl⟩ := hf
      have h1 := h1 p (List.mem_of_find?_eq_some hp)
      have h2 := h2 p (List.mem_of_find?_eq_some hp)
      cases hx : p.2 with
      | nil => exact absurd hx h1
      | cons x xs => exact ⟨_, rfl, h2 x (by simp [hx])⟩

mutual

theorem recDict_none (d : List (Key × Val)) (e : Err) (he : Good e) (i : Nat) (h : recDict d e i = none) :
    EmptyIn (.dict d) := by
  cases e with
  | msg s => simp [recDict] at h
  | nest l =>
    rw [recDict] at h
    cases hr : recItems d (.nest l) i with
    | none =>
      obtain ⟨p, hp, hv⟩ := recItems_none d l he i hr
      rcases hv with hv | ⟨q, hv, hE⟩ | ⟨q, r, hv, hE⟩
      · exact .here (k := p.1) (by rw [← hv]; exact hp)
      · exact .dict (k := p.1) (by rw [← hv]; exact hp) hE
      · exact .list (k := p.1) (by rw [← hv]; exact hp) hE
    | some a =>
      rw [hr] at h
      cases h
  termination_by (sizeOf d, 2)

theorem recItems_none (d : List (Key × Val)) (e : Errs) (he : Good (.nest e)) (i : Nat)
    (h : recItems d (.nest e) i = none) :
    ∃ p ∈ d, p.2 = .list [] ∨ (∃ q, p.2 = .dict q ∧ EmptyIn (.dict q)) ∨
      ∃ q r, p.2 = .list (.dict q :: r) ∧ EmptyIn (.list (.dict q :: r)) := by
  match d, h with
  | [], h => simp [recItems] at h
  | (k, v) :: d, h =>
    obtain ⟨x, hx, hg⟩ := nested_good he k
    rw [recItems, hx] at h
    cases ha : recValue v x k i with
    | none => exact ⟨(k, v), by simp, recValue_none v x hg k i ha⟩
    | some a =>
      cases hb : recItems d (.nest e) i with
      | none =>
        obtain ⟨p, hp, hv⟩ := recItems_none d e he i hb
        exact ⟨p, by simp [hp], hv⟩
      | some b =>
        simp [ha, hb] at h
  termination_by (sizeOf d, 1)

theorem recValue_none (v : Val) (x : Bool × Err × Option Err) (hg : Good x.2.1) (k : Key) (i : Nat)
    (h : recValue v x k i = none) :
    v = .list [] ∨ (∃ q, v = .dict q ∧ EmptyIn (.dict q)) ∨
      ∃ q r, v = .list (.dict q :: r) ∧ EmptyIn (.list (.dict q :: r)) := by
  match v, h with
  | .list [], _ => exact Or.inl rfl
  | .dict q, h =>
    rw [recValue] at h
    cases hr : recDict q x.2.1 (i + 1) with
    | none => exact Or.inr (Or.inl ⟨q, rfl, recDict_none q _ hg _ hr⟩)
    | some b => simp [hr] at h
  | .list (.dict q :: r), h =>
    rw [recValue] at h
    cases hr : recList (.dict q :: r) x.2.1 (i + 1) with
    | none => exact Or.inr (Or.inr ⟨q, r, rfl, recList_none _ _ hg _ hr⟩)
    | some b => simp [hr] at h
  | .list (.null :: _), h | .list (.bool _ :: _), h | .list (.int _ :: _), h | .list (.float _ :: _), h
  | .list (.str _ :: _), h | .list (.symbol _ :: _), h | .list (.expr :: _), h | .list (.matrix :: _), h
  | .list (.element _ :: _), h | .list (.func :: _), h | .list (.method :: _), h | .list (.algorithm :: _), h
  | .list (.list _ :: _), h | .list (.tuple _ :: _), h | .list (.other :: _), h
  | .null, h | .bool _, h | .int _, h | .float _, h | .str _, h | .symbol _, h | .expr, h | .matrix, h
  | .element _, h | .func, h | .method, h | .algorithm, h | .tuple _, h | .other, h => simp [recValue] at h
  termination_by (sizeOf v, 1)

theorem recList_none (l : List Val) (e : Err) (he : Good e) (i : Nat) (h : recList l e i = none) :
    EmptyIn (.list l) := by
  cases e with
  | msg s => simp [recList] at h
  | nest q =>
    rw [recList] at h
    obtain ⟨v, hv, hE⟩ := recEnum_none l 0 q he i h
    exact .item hv hE
  termination_by (sizeOf l, 2)

theorem recEnum_none (l : List Val) (n : Nat) (e : Errs) (he : Good (.nest e)) (i : Nat)
    (h : recEnum l n (.nest e) i = none) : ∃ v ∈ l, EmptyIn v := by
  match l, h with
  | [], h => simp [recEnum] at h
  | v :: l, h =>
    obtain ⟨x, hx, hg⟩ := nested_good he (.int n)
    rw [recEnum, hx] at h
    cases ha : recItem v x (.int n) i with
    | none => exact ⟨v, by simp, recItem_none v x hg _ i ha⟩
    | some a =>
      cases hb : recEnum l (n + 1) (.nest e) i with
      | none =>
        obtain ⟨p, hp, hv⟩ := recEnum_none l (n + 1) e he i hb
        exact ⟨p, by simp [hp], hv⟩
      | some b => simp [ha, hb] at h
  termination_by (sizeOf l, 1)

theorem recItem_none (v : Val) (x : Bool × Err × Option Err) (hg : Good x.2.1) (k : Key) (i : Nat)
    (h : recItem v x k i = none) : EmptyIn v := by
  match v, h with
  | .dict q, h =>
    rw [recItem] at h
    cases hr : recDict q x.2.1 (i + 1) with
    | none => exact recDict_none q _ hg _ hr
    | some b => simp [hr] at h
  | .list q, h =>
    rw [recItem] at h
    cases hr : recList q x.2.1 (i + 1) with
    | none => exact recList_none q _ hg _ hr
    | some b => simp [hr] at h
  | .null, h | .bool _, h | .int _, h | .float _, h | .str _, h | .symbol _, h | .expr, h | .matrix, h
  | .element _, h | .func, h | .method, h | .algorithm, h | .tuple _, h | .other, h => simp [recItem] at h
  termination_by (sizeOf v, 1)

end

/-- **C91** (report): the report is there for every dictionary without an empty list, whatever the errors. -/
theorem C91_report (d : Dict) (e : Err) (he : Good e) (h : ¬ EmptyIn (.dict d)) (i : Nat) :
    ∃ r, recDict d e i = some r := by
  cases hr : recDict d e i with
  | none => exact absurd (recDict_none d e he i hr) h
  | some r => exact ⟨r, rfl⟩

theorem nested_nil (k : Key) : nested (.nest []) k = some (false, .nest [], none) := rfl

theorem recItems_none_of_mem {d : Dict} {k : Key} {v : Val} (h : (k, v) ∈ d) (i : Nat)
    (hv : recValue v (false, .nest [], none) k i = none) : recItems d (.nest []) i = none := by
  induction d with
  | nil => cases h
  | cons p d ih =>
    obtain ⟨k', v'⟩ := p
    rw [recItems, nested_nil]
    rcases List.mem_cons.1 h with h | h
    · cases h
      simp [hv]
    · simp [ih h]

theorem recEnum_none_of_mem {l : List Val} {v : Val} (h : v ∈ l) (n i : Nat)
    (hv : ∀ k, recItem v (false, .nest [], none) k i = none) : recEnum l n (.nest []) i = none := by
  induction l generalizing n with
  | nil => cases h
  | cons w l ih =>
    rw [recEnum, nested_nil]
    rcases List.mem_cons.1 h with h | h
    · cases h
      simp [hv]
    · simp [ih h]

/-- No report for the value. -/
def NoReport : Val → Prop
  | .dict d => ∀ i, recDict d (.nest []) i = none
  | .list l => ∀ n i, recEnum l n (.nest []) i = none
  | _ => False

theorem noReport_of_emptyIn {v : Val} (h : EmptyIn v) : NoReport v := by
  induction h with
  | @here l k h =>
    intro i
    rw [recDict, recItems_none_of_mem h i (by rw [recValue])]
    rfl
  | @dict l q k h _ ih =>
    intro i
    rw [recDict, recItems_none_of_mem h i (by rw [recValue]; simp [ih (i + 1)])]
    rfl
  | @list l q k r h _ ih =>
    intro i
    rw [recDict, recItems_none_of_mem h i (by rw [recValue]; simp [recList, ih 0 (i + 1)])]
    rfl
  | @item l v h hv ih =>
    intro n i
    refine recEnum_none_of_mem h n i fun k => ?_
    cases v with
    | dict d => rw [recItem]; simp [ih (i + 1)]
    | list l => rw [recItem]; simp [recList, ih 0 (i + 1)]
    | _ => exact absurd ih (by simp [NoReport])

/-- **C91** (report, accepted dictionaries): without errors, there is no report exactly when the dictionary has an empty
list. -/
theorem C91_report_iff (d : Dict) (i : Nat) : recDict d (.nest []) i = none ↔ EmptyIn (.dict d) :=
  ⟨recDict_none d _ (.nest (by simp) (by simp)) i, fun h => noReport_of_emptyIn h i⟩

/-- **C91** (validation): what a user sees.  `e` are the errors of Cerberus, none for an accepted dictionary. -/
theorem C91_validate (c : Cls) (d : Dict) (e : Errs) (he : accepts c d = true → e = []) (hg : Good (.nest e)) :
    (accepts c d = true → ¬ EmptyIn (.dict d) → ∃ r, validate c d e = .accepted r) ∧
    (accepts c d = false → ¬ EmptyIn (.dict d) → ∃ r, validate c d e = .exit r) ∧
    (accepts c d = true → EmptyIn (.dict d) → validate c d e = .indexError) := by
  refine ⟨fun ha h => ?_, fun ha h => ?_, fun ha h => ?_⟩
  · obtain ⟨r, hr⟩ := C91_report d _ hg h 0
    exact ⟨r, by rw [validate, hr]; simp [ha]⟩
  · obtain ⟨r, hr⟩ := C91_report d _ hg h 0
    exact ⟨r, by rw [validate, hr]; simp [ha]⟩
  · rw [validate, he ha, (C91_report_iff d 0).2 h]

/-! ## What the report says -/

mutual

theorem recDict_depth (d : List (Key × Val)) (e : Err) (i : Nat) (r : List Line) (h : recDict d e i = some r) :
    ∀ a ∈ r, i ≤ a.depth := by
  cases e with
  | msg s =>
    rw [recDict] at h
    cases h
    simp
  | nest l =>
    rw [recDict] at h
    cases hr : recItems d (.nest l) i with
    | none => simp [hr] at h
    | some a =>
      simp only [hr, Option.bind_eq_bind, Option.bind_some, Option.pure_def, Option.some.injEq] at h
      subst h
      have := recItems_depth d (.nest l) i a hr
      intro x hx
      rcases List.mem_append.1 hx with hx | hx
      · exact this x hx
      · obtain ⟨p, _, rfl⟩ := List.mem_map.1 hx
        exact le_rfl
  termination_by (sizeOf d, 2)

theorem recItems_depth (d : List (Key × Val)) (e : Err) (i : Nat) (r : List Line) (h : recItems d e i = some r) :
    ∀ a ∈ r, i ≤ a.depth := by
  match d, h with
  | [], h =>
    rw [recItems] at h
    cases h
    simp
  | (k, v) :: d, h =>
    rw [recItems] at h
    simp only [Option.bind_eq_bind, Option.bind_eq_some_iff, Option.pure_def, Option.some.injEq] at h
    obtain ⟨x, hx, a, ha, b, hb, rfl⟩ := h
    intro y hy
    rcases List.mem_append.1 hy with hy | hy
    · obtain ⟨h1, h2⟩ := recValue_depth v x k i a ha
      obtain ⟨m, t, rfl⟩ := h1
      rcases List.mem_cons.1 hy with rfl | hy
      · exact le_rfl
      · exact (Nat.le_succ i).trans (h2 y (by simpa using hy))
    · exact recItems_depth d e i b hb y hy
  termination_by (sizeOf d, 1)

theorem recValue_depth (v : Val) (x : Bool × Err × Option Err) (k : Key) (i : Nat) (r : List Line)
    (h : recValue v x k i = some r) : (∃ m t, r = ⟨i, x.1, k, m⟩ :: t) ∧ ∀ a ∈ r.tail, i + 1 ≤ a.depth := by
  match v, h with
  | .list [], h => simp [recValue] at h
  | .dict q, h =>
    rw [recValue] at h
    simp only [Option.bind_eq_bind, Option.bind_eq_some_iff, Option.pure_def, Option.some.injEq] at h
    obtain ⟨b, hb, rfl⟩ := h
    exact ⟨⟨_, _, rfl⟩, recDict_depth q _ _ b hb⟩
  | .list (.dict q :: l), h =>
    rw [recValue] at h
    simp only [Option.bind_eq_bind, Option.bind_eq_some_iff, Option.pure_def, Option.some.injEq] at h
    obtain ⟨b, hb, rfl⟩ := h
    exact ⟨⟨_, _, rfl⟩, recList_depth _ _ _ b hb⟩
  | .list (.null :: _), h | .list (.bool _ :: _), h | .list (.int _ :: _), h | .list (.float _ :: _), h
  | .list (.str _ :: _), h | .list (.symbol _ :: _), h | .list (.expr :: _), h | .list (.matrix :: _), h
  | .list (.element _ :: _), h | .list (.func :: _), h | .list (.method :: _), h | .list (.algorithm :: _), h
  | .list (.list _ :: _), h | .list (.tuple _ :: _), h | .list (.other :: _), h
  | .null, h | .bool _, h | .int _, h | .float _, h | .str _, h | .symbol _, h | .expr, h | .matrix, h
  | .element _, h | .func, h | .method, h | .algorithm, h | .tuple _, h | .other, h =>
    simp only [recValue, Option.some.injEq] at h
    subst h
    exact ⟨⟨_, _, rfl⟩, by simp⟩
  termination_by (sizeOf v, 1)

theorem recList_depth (l : List Val) (e : Err) (i : Nat) (r : List Line) (h : recList l e i = some r) :
    ∀ a ∈ r, i ≤ a.depth := by
  cases e with
  | msg s =>
    rw [recList] at h
    cases h
    simp
  | nest q =>
    rw [recList] at h
    exact recEnum_depth l 0 _ i r h
  termination_by (sizeOf l, 2)

theorem recEnum_depth (l : List Val) (n : Nat) (e : Err) (i : Nat) (r : List Line) (h : recEnum l n e i = some r) :
    ∀ a ∈ r, i ≤ a.depth := by
  match l, h with
  | [], h =>
    rw [recEnum] at h
    cases h
    simp
  | v :: l, h =>
    rw [recEnum] at h
    simp only [Option.bind_eq_bind, Option.bind_eq_some_iff, Option.pure_def, Option.some.injEq] at h
    obtain ⟨x, hx, a, ha, b, hb, rfl⟩ := h
    intro y hy
    rcases List.mem_append.1 hy with hy | hy
    · exact recItem_depth v x _ i a ha y hy
    · exact recEnum_depth l _ e i b hb y hy
  termination_by (sizeOf l, 1)

theorem recItem_depth (v : Val) (x : Bool × Err × Option Err) (k : Key) (i : Nat) (r : List Line)
    (h : recItem v x k i = some r) : ∀ a ∈ r, i ≤ a.depth := by
  match v, h with
  | .dict q, h =>
    rw [recItem] at h
    simp only [Option.bind_eq_bind, Option.bind_eq_some_iff, Option.pure_def, Option.some.injEq] at h
    obtain ⟨b, hb, rfl⟩ := h
    intro a ha
    rcases List.mem_cons.1 ha with rfl | ha
    · exact le_rfl
    · exact (Nat.le_succ i).trans (recDict_depth q _ _ b hb a ha)
  | .list q, h =>
    rw [recItem] at h
    simp only [Option.bind_eq_bind, Option.bind_eq_some_iff, Option.pure_def, Option.some.injEq] at h
    obtain ⟨b, hb, rfl⟩ := h
    intro a ha
    rcases List.mem_cons.1 ha with rfl | ha
    · exact le_rfl
    · exact (Nat.le_succ i).trans (recList_depth q _ _ b hb a ha)
  | .null, h | .bool _, h | .int _, h | .float _, h | .str _, h | .symbol _, h | .expr, h | .matrix, h
  | .element _, h | .func, h | .method, h | .algorithm, h | .tuple _, h | .other, h =>
    simp only [recItem, Option.some.injEq] at h
    subst h
    simp
  termination_by (sizeOf v, 1)

end

theorem find_isSome (l : Errs) (k : Key) : (Errs.find l k).isSome = true ↔ ∃ p ∈ l, p.1 = k := by
  simp [Errs.find, List.find?_isSome]

theorem nested_fst {l : Errs} {k : Key} {x : Bool × Err × Option Err} (h : nested (.nest l) k = some x) :
    x.1 = true ↔ ∃ p ∈ l, p.1 = k := by
  rw [← find_isSome]
  rw [nested] at h
  cases hf : Errs.find l k with
  | none =>
    simp only [hf, Option.some.injEq] at h
    subst h
    simp
  | some xs =>
    cases xs with
    | nil => simp [hf] at h
    | cons y ys =>
      simp only [hf, Option.some.injEq] at h
      subst h
      simp

theorem recItems_lines (d : Dict) (e : Errs) (i : Nat) (r : List Line) (h : recItems d (.nest e) i = some r) (k : Key) :
    (∃ a ∈ r, a.depth = i ∧ a.wrong = true ∧ a.key = k) ↔ (∃ p ∈ d, p.1 = k) ∧ ∃ p ∈ e, p.1 = k := by
  induction d generalizing r with
  | nil =>
    rw [recItems] at h
    cases h
    simp
  | cons p d ih =>
    obtain ⟨k', v⟩ := p
    rw [recItems] at h
    simp only [Option.bind_eq_bind, Option.bind_eq_some_iff, Option.pure_def, Option.some.injEq] at h
    obtain ⟨x, hx, a, ha, b, hb, rfl⟩ := h
    have h1 := nested_fst hx
    obtain ⟨⟨m, t, rfl⟩, h2⟩ := recValue_depth v x k' i a ha
    have h3 := ih b hb
    constructor
    · rintro ⟨y, hy, hd, hw, rfl⟩
      rcases List.mem_append.1 hy with hy | hy
      · rcases List.mem_cons.1 hy with rfl | hy
        · exact ⟨⟨_, List.mem_cons_self, rfl⟩, h1.1 hw⟩
        · exact absurd (h2 y (by simpa using hy)) (by omega)
      · obtain ⟨⟨p, hp, hpk⟩, h4⟩ := h3.1 ⟨y, hy, hd, hw, rfl⟩
        exact ⟨⟨p, by simp [hp], hpk⟩, h4⟩
    · rintro ⟨⟨p, hp, rfl⟩, h4⟩
      rcases List.mem_cons.1 hp with rfl | hp
      · exact ⟨_, List.mem_append_left _ List.mem_cons_self, rfl, h1.2 h4, rfl⟩
      · obtain ⟨y, hy, h5⟩ := h3.2 ⟨⟨p, hp, rfl⟩, h4⟩
        exact ⟨y, List.mem_append_right _ hy, h5⟩

/-- **C91** (report, keys): the lines of the first level with the prompt of the errors are those of the keys which have
errors: the wrong ones, the unknown ones and the missing ones. -/
theorem C91_report_keys (d : Dict) (e : Errs) (r : List Line) (h : recDict d (.nest e) 0 = some r) (k : Key) :
    (∃ a ∈ r, a.depth = 0 ∧ a.wrong = true ∧ a.key = k) ↔ ∃ p ∈ e, p.1 = k := by
  rw [recDict] at h
  simp only [Option.bind_eq_bind, Option.bind_eq_some_iff, Option.pure_def, Option.some.injEq] at h
  obtain ⟨a, ha, rfl⟩ := h
  have h1 := recItems_lines d e 0 a ha k
  constructor
  · rintro ⟨y, hy, hd, hw, rfl⟩
    rcases List.mem_append.1 hy with hy | hy
    · exact (h1.1 ⟨y, hy, hd, hw, rfl⟩).2
    · obtain ⟨p, hp, rfl⟩ := List.mem_map.1 hy
      exact ⟨p, (List.mem_filter.1 hp).1, rfl⟩
  · rintro ⟨p, hp, rfl⟩
    by_cases hk : ∃ q ∈ d, q.1 = p.1
    · obtain ⟨y, hy, h2⟩ := h1.2 ⟨hk, p, hp, rfl⟩
      exact ⟨y, List.mem_append_left _ hy, h2⟩
    · refine ⟨⟨0, true, p.1, none⟩, List.mem_append_right _ (List.mem_map.2 ⟨p, List.mem_filter.2 ⟨hp, ?_⟩, rfl⟩),
        rfl, rfl, rfl⟩
      simp only [Bool.not_eq_true', List.any_eq_false, decide_eq_true_eq]
      exact fun q hq h => hk ⟨q, hq, h⟩

theorem recItems_value {d : Dict} {e : Errs} {i : Nat} {r : List Line} (h : recItems d (.nest e) i = some r) {k : Key}
    {v : Val} (hv : (k, v) ∈ d) {x : Err} {xs : List Err} (hx : Errs.find e k = some (x :: xs)) :
    ∃ b, recValue v (true, x, some x) k i = some b ∧ ∀ a ∈ b, a ∈ r := by
  induction d generalizing r with
  | nil => cases hv
  | cons p d ih =>
    obtain ⟨k', v'⟩ := p
    rw [recItems] at h
    simp only [Option.bind_eq_bind, Option.bind_eq_some_iff, Option.pure_def, Option.some.injEq] at h
    obtain ⟨y, hy, a, ha, b, hb, rfl⟩ := h
    rcases List.mem_cons.1 hv with hv | hv
    · cases hv
      have hy' : y = (true, x, some x) := by
        rw [nested, hx] at hy
        cases hy
        rfl
      subst hy'
      exact ⟨a, ha, fun c hc => List.mem_append_left _ hc⟩
    · obtain ⟨c, hc, h⟩ := ih hb hv
      exact ⟨c, hc, fun a ha => List.mem_append_right _ (h a ha)⟩

theorem recDict_value {d : Dict} {e : Errs} {i : Nat} {r : List Line} (h : recDict d (.nest e) i = some r) {k : Key}
    {v : Val} (hv : (k, v) ∈ d) {x : Err} {xs : List Err} (hx : Errs.find e k = some (x :: xs)) :
    ∃ b, recValue v (true, x, some x) k i = some b ∧ ∀ a ∈ b, a ∈ r := by
  rw [recDict] at h
  simp only [Option.bind_eq_bind, Option.bind_eq_some_iff, Option.pure_def, Option.some.injEq] at h
  obtain ⟨a, ha, rfl⟩ := h
  obtain ⟨b, hb, h⟩ := recItems_value ha hv hx
  exact ⟨b, hb, fun c hc => List.mem_append_left _ (h c hc)⟩

theorem recValue_leaf {v : Val} (hl : leaf v = true) (x : Bool × Err × Option Err) (k : Key) (i : Nat) :
    recValue v x k i = some [⟨i, x.1, k, x.2.2⟩] := by
  match v, hl with
  | .list [], hl => simp [leaf] at hl
  | .list (.dict _ :: _), hl => simp [leaf] at hl
  | .dict _, hl => simp [leaf] at hl
  | .list (.null :: _), h | .list (.bool _ :: _), h | .list (.int _ :: _), h | .list (.float _ :: _), h
  | .list (.str _ :: _), h | .list (.symbol _ :: _), h | .list (.expr :: _), h | .list (.matrix :: _), h
  | .list (.element _ :: _), h | .list (.func :: _), h | .list (.method :: _), h | .list (.algorithm :: _), h
  | .list (.list _ :: _), h | .list (.tuple _ :: _), h | .list (.other :: _), h
  | .null, h | .bool _, h | .int _, h | .float _, h | .str _, h | .symbol _, h | .expr, h | .matrix, h
  | .element _, h | .func, h | .method, h | .algorithm, h | .tuple _, h | .other, h => simp [recValue]

theorem recEnum_item {l : List Val} {n : Nat} {e : Errs} {i : Nat} {r : List Line}
    (h : recEnum l n (.nest e) i = some r) {j : Nat} {v : Val} (hv : l[j]? = some v) {x : Err} {xs : List Err}
    (hx : Errs.find e (.int (n + j : Nat)) = some (x :: xs)) :
    ∃ b, recItem v (true, x, some x) (.int (n + j : Nat)) i = some b ∧ ∀ a ∈ b, a ∈ r := by
  induction l generalizing r n j with
  | nil => simp at hv
  | cons w l ih =>
    rw [recEnum] at h
    simp only [Option.bind_eq_bind, Option.bind_eq_some_iff, Option.pure_def, Option.some.injEq] at h
    obtain ⟨y, hy, a, ha, b, hb, rfl⟩ := h
    cases j with
    | zero =>
      have hw : w = v := by simpa using hv
      subst hw
      have hy' : y = (true, x, some x) := by
        rw [nested, ← Nat.add_zero n, hx] at hy
        cases hy
        rfl
      subst hy'
      exact ⟨a, ha, fun c hc => List.mem_append_left _ hc⟩
    | succ j =>
      have hn : n + (j + 1) = n + 1 + j := by omega
      rw [hn] at hx ⊢
      obtain ⟨c, hc, h⟩ := ih hb (by simpa using hv) hx
      exact ⟨c, hc, fun a ha => List.mem_append_right _ (h a ha)⟩

/-- **C91** (report, messages): a wrong value on one line is shown with the first of its errors. -/
theorem C91_report_message (d : Dict) (e : Errs) (r : List Line) (h : recDict d (.nest e) 0 = some r) (k : Key) (v : Val)
    (hv : (k, v) ∈ d) (hl : leaf v = true) (x : Err) (xs : List Err) (hx : Errs.find e k = some (x :: xs)) :
    ⟨0, true, k, some x⟩ ∈ r := by
  obtain ⟨b, hb, h⟩ := recDict_value h hv hx
  rw [recValue_leaf hl] at hb
  cases hb
  exact h _ (by simp)

/-- **C91** (report, dictionaries): a wrong value in a dictionary (as the box or a boundary condition) is shown in its place
with the first of its errors. -/
theorem C91_report_nested (d : Dict) (e : Errs) (r : List Line) (h : recDict d (.nest e) 0 = some r) (k : Key) (q : Dict)
    (hv : (k, .dict q) ∈ d) (e' : Errs) (xs : List Err) (hx : Errs.find e k = some (.nest e' :: xs))
    (k' : Key) (v : Val) (hv' : (k', v) ∈ q) (hl : leaf v = true) (x : Err) (ys : List Err)
    (hx' : Errs.find e' k' = some (x :: ys)) : ⟨1, true, k', some x⟩ ∈ r := by
  obtain ⟨b, hb, h⟩ := recDict_value h hv hx
  rw [recValue] at hb
  simp only [Option.bind_eq_bind, Option.bind_eq_some_iff, Option.pure_def, Option.some.injEq] at hb
  obtain ⟨c, hc, rfl⟩ := hb
  obtain ⟨b, hb, h'⟩ := recDict_value hc hv' hx'
  rw [recValue_leaf hl] at hb
  cases hb
  exact h _ (List.mem_cons_of_mem _ (h' _ (by simp)))

/-- **C91** (report, schemes): a wrong value in one dictionary of a list (as the schemes) is shown in the place of this
dictionary with the first of its errors. -/
theorem C91_report_schemes (d : Dict) (e : Errs) (r : List Line) (h : recDict d (.nest e) 0 = some r) (k : Key)
    (q : Dict) (l : List Val) (hv : (k, .list (.dict q :: l)) ∈ d) (e' : Errs) (xs : List Err)
    (hx : Errs.find e k = some (.nest e' :: xs)) (j : Nat) (t : Dict) (ht : (Val.dict q :: l)[j]? = some (.dict t))
    (e'' : Errs) (ys : List Err) (hx' : Errs.find e' (.int j) = some (.nest e'' :: ys))
    (k' : Key) (v : Val) (hv' : (k', v) ∈ t) (hl : leaf v = true) (x : Err) (zs : List Err)
    (hx'' : Errs.find e'' k' = some (x :: zs)) :
    ⟨1, true, .int j, none⟩ ∈ r ∧ ⟨2, true, k', some x⟩ ∈ r := by
  obtain ⟨b, hb, h⟩ := recDict_value h hv hx
  rw [recValue] at hb
  simp only [Option.bind_eq_bind, Option.bind_eq_some_iff, Option.pure_def, Option.some.injEq] at hb
  obtain ⟨c, hc, rfl⟩ := hb
  simp only [recList] at hc
  have hz : (0 + j : Nat) = j := Nat.zero_add j
  obtain ⟨b, hb, h'⟩ := recEnum_item hc ht (x := .nest e'') (xs := ys) (by rw [hz]; exact hx')
  rw [recItem, hz] at hb
  simp only [Option.bind_eq_bind, Option.bind_eq_some_iff, Option.pure_def, Option.some.injEq] at hb
  obtain ⟨m, hm, rfl⟩ := hb
  obtain ⟨b, hb, h3⟩ := recDict_value hm hv' hx''
  rw [recValue_leaf hl] at hb
  cases hb
  exact ⟨h _ (List.mem_cons_of_mem _ (h' _ (by simp))),
    h _ (List.mem_cons_of_mem _ (h' _ (List.mem_cons_of_mem _ (h3 _ (by simp)))))⟩

/-- **C91** (report, items): a value which is neither a list nor a dictionary, in a list of dictionaries (a number among the
schemes), is shown with its number and the first of its errors. -/
theorem C91_report_items (d : Dict) (e : Errs) (r : List Line) (h : recDict d (.nest e) 0 = some r) (k : Key)
    (q : Dict) (l : List Val) (hv : (k, .list (.dict q :: l)) ∈ d) (e' : Errs) (xs : List Err)
    (hx : Errs.find e k = some (.nest e' :: xs)) (j : Nat) (v : Val) (hj : (Val.dict q :: l)[j]? = some v)
    (hd : ∀ t, v ≠ .dict t) (hl : ∀ t, v ≠ .list t) (x : Err) (ys : List Err)
    (hx' : Errs.find e' (.int j) = some (x :: ys)) :
    ⟨1, true, .int j, none⟩ ∈ r ∧ ⟨2, true, .int j, some x⟩ ∈ r := by
  obtain ⟨b, hb, h⟩ := recDict_value h hv hx
  rw [recValue] at hb
  simp only [Option.bind_eq_bind, Option.bind_eq_some_iff, Option.pure_def, Option.some.injEq] at hb
  obtain ⟨c, hc, rfl⟩ := hb
  simp only [recList] at hc
  have hz : (0 + j : Nat) = j := Nat.zero_add j
  obtain ⟨b, hb, h'⟩ := recEnum_item hc hj (x := x) (xs := ys) (by rw [hz]; exact hx')
  rw [hz] at hb
  cases v with
  | dict t => exact absurd rfl (hd t)
  | list t => exact absurd rfl (hl t)
  | _ =>
    rw [recItem] at hb
    · cases hb
      exact ⟨h _ (List.mem_cons_of_mem _ (h' _ (by simp))), h _ (List.mem_cons_of_mem _ (h' _ (by simp)))⟩
    all_goals intro _ h; cases h

/-- The number 7 as second scheme. -/
example (r : List Line) (h : recDict [(.str "schemes", .list [.dict [], .int 7])]
    (.nest [(.str "schemes", [.nest [(.int 1, [.msg "must be of dict type"])]])]) 0 = some r) :
    ⟨2, true, .int 1, some (.msg "must be of dict type")⟩ ∈ r :=
  (C91_report_items _ _ r h (.str "schemes") [] [.int 7] (by simp) [(.int 1, [.msg "must be of dict type"])] [] rfl 1
    (.int 7) rfl (by simp) (by simp) (.msg "must be of dict type") [] rfl).2

/-- The errors with the first one of each key only. -/
def firsts (e : Errs) : Errs := e.map fun p => (p.1, p.2.take 1)

theorem firsts_find (e : Errs) (k : Key) : Errs.find (firsts e) k = (Errs.find e k).map (List.take 1) := by
  induction e with
  | nil => rfl
  | cons p e ih =>
    simp only [firsts, Errs.find, List.map_cons, List.find?_cons] at ih ⊢
    by_cases h : p.1 = k
    · simp [h]
    · simp only [h, decide_false]
      exact ih

/-- **C91** (report, negation): when a key has several errors, only the first one has an effect on the report; the others
are never shown. -/
theorem C91_report_first_negation (d : Dict) (e : Errs) (i : Nat) :
    recDict d (.nest e) i = recDict d (.nest (firsts e)) i := by
  have hn : ∀ k, nested (.nest e) k = nested (.nest (firsts e)) k := by
    intro k
    rw [nested, nested, firsts_find]
    cases Errs.find e k with
    | none => rfl
    | some xs => cases xs <;> rfl
  have hi : ∀ d, recItems d (.nest e) i = recItems d (.nest (firsts e)) i := by
    intro d
    induction d with
    | nil => rw [recItems, recItems]
    | cons p d ih =>
      obtain ⟨k, v⟩ := p
      rw [recItems, recItems, hn, ih]
  rw [recDict, recDict, hi]
  congr 1
  funext a
  congr 2
  simp only [firsts, List.filter_map, List.map_map]
  rfl

end Pylbm.Input
