import Mathlib.Data.List.Basic
import Mathlib.Data.List.Nodup
import Mathlib.Algebra.BigOperators.Group.List.Basic
/-! General lemmas on lists, used by several areas. -/

namespace Pylbm.ListAux

theorem mapM_cons_some {α β : Type*} (f : α → Option β) (a : α) (l : List α) :
    (a :: l).mapM f = (f a).bind fun b => (l.mapM f).map fun r => b :: r := by
  rw [List.mapM_cons]
  cases f a with
  | none => rfl
  | some b => cases h : l.mapM f <;> simp

theorem mapM_eq_some_iff {α β : Type*} (f : α → Option β) : ∀ (l : List α) (r : List β),
    l.mapM f = some r ↔ r.length = l.length ∧ ∀ i (h : i < l.length), f l[i] = r[i]?
  | [], r => by
    rw [List.mapM_nil]
    constructor
    · intro h
      obtain rfl : [] = r := by simpa using h
      simp
    · rintro ⟨h, _⟩
      rw [List.eq_nil_of_length_eq_zero h]; rfl
  | a :: l, r => by
    rw [mapM_cons_some]
    constructor
    · intro h
      obtain ⟨b, hb, h⟩ := Option.bind_eq_some_iff.1 h
      obtain ⟨r', hr', rfl⟩ := Option.map_eq_some_iff.1 h
      obtain ⟨h1, h2⟩ := (mapM_eq_some_iff f l r').1 hr'
      refine ⟨by simp [h1], fun i hi => ?_⟩
      cases i with
      | zero => simpa using hb
      | succ i => simpa using h2 i (by simpa using hi)
    · rintro ⟨h1, h2⟩
      cases r with
      | nil => simp at h1
      | cons b r' =>
        have hb : f a = some b := h2 0 (by simp)
        have hr' : l.mapM f = some r' := by
          refine (mapM_eq_some_iff f l r').2 ⟨by simpa using h1, fun i hi => ?_⟩
          exact h2 (i + 1) (by simpa using hi)
        rw [hb, hr']; rfl

theorem mapM_eq_none_iff {α β : Type*} (f : α → Option β) : ∀ (l : List α),
    l.mapM f = none ↔ ∃ a ∈ l, f a = none
  | [] => by simp
  | a :: l => by
    rw [mapM_cons_some]
    cases ha : f a with
    | none => simp [ha]
    | some b => simp [ha, mapM_eq_none_iff f l]

theorem mapM_eq_map {α β : Type*} (f : α → Option β) (g : α → β) (l : List α)
    (h : ∀ a ∈ l, f a = some (g a)) : l.mapM f = some (l.map g) := by
  rw [mapM_eq_some_iff]
  refine ⟨by simp, fun i hi => ?_⟩
  rw [h _ (List.getElem_mem hi)]
  simp [hi]

/-- Start of block `n` in the concatenation of the blocks. -/
def offset {α : Type*} (ls : List (List α)) (n : Nat) : Nat := ((ls.take n).map List.length).sum

@[simp] theorem offset_zero {α : Type*} (ls : List (List α)) : offset ls 0 = 0 := by simp [offset]

@[simp] theorem offset_cons_succ {α : Type*} (l : List α) (ls : List (List α)) (n : Nat) :
    offset (l :: ls) (n + 1) = l.length + offset ls n := by simp [offset]

theorem offset_succ {α : Type*} (ls : List (List α)) (n : Nat) (h : n < ls.length) :
    offset ls (n + 1) = offset ls n + ls[n].length := by
  unfold offset
  rw [List.take_add_one]
  simp [h]

theorem offset_length {α : Type*} (ls : List (List α)) : offset ls ls.length = ls.flatten.length := by
  simp [offset, List.length_flatten]

theorem offset_mono {α : Type*} (ls : List (List α)) {n m : Nat} (h : n ≤ m) :
    offset ls n ≤ offset ls m := by
  induction ls generalizing n m with
  | nil => simp [offset]
  | cons l ls ih =>
    cases n with
    | zero => simp
    | succ n =>
      obtain ⟨m, rfl⟩ : ∃ m', m = m' + 1 := ⟨m - 1, by omega⟩
      simp only [offset_cons_succ]
      have := ih (n := n) (m := m) (by omega)
      omega

theorem flatten_block {α : Type*} : ∀ (ls : List (List α)) (n : Nat) (h : n < ls.length),
    (ls.flatten.drop (offset ls n)).take ls[n].length = ls[n]
  | l :: ls, 0, _ => by simp
  | l :: ls, n + 1, h => by
    simp only [offset_cons_succ, List.flatten_cons, List.getElem_cons_succ]
    rw [← List.drop_drop]
    have : (l ++ ls.flatten).drop l.length = ls.flatten := by simp
    rw [this]
    exact flatten_block ls n (by simpa using h)

theorem flatten_getElem? {α : Type*} : ∀ (ls : List (List α)) (n i : Nat) (h : n < ls.length)
    (_ : i < ls[n].length), ls.flatten[offset ls n + i]? = ls[n][i]?
  | l :: ls, 0, i, _, hi => by
    simp only [List.getElem_cons_zero] at hi
    simp [List.getElem?_append_left hi]
  | l :: ls, n + 1, i, h, hi => by
    simp only [offset_cons_succ, List.flatten_cons, List.getElem_cons_succ]
    rw [List.getElem?_append_right (by omega)]
    rw [show l.length + offset ls n + i - l.length = offset ls n + i by omega]
    exact flatten_getElem? ls n i (by simpa using h) (by simpa using hi)

/-- Every position of the concatenation is in exactly one block. -/
theorem exists_block {α : Type*} : ∀ (ls : List (List α)) (k : Nat), k < ls.flatten.length →
    ∃ n i, ∃ h : n < ls.length, i < ls[n].length ∧ k = offset ls n + i
  | [], k, h => by simp at h
  | l :: ls, k, h => by
    by_cases hk : k < l.length
    · exact ⟨0, k, by simp, by simpa using hk, by simp⟩
    · have : k - l.length < ls.flatten.length := by
        simp only [List.flatten_cons, List.length_append] at h; omega
      obtain ⟨n, i, hn, hi, e⟩ := exists_block ls (k - l.length) this
      refine ⟨n + 1, i, by simpa using hn, by simpa using hi, ?_⟩
      simp only [offset_cons_succ]; omega

theorem countP_eq_of_split {α : Type*} (p : α → Bool) (l : List α) (m : Nat) (hm : m ≤ l.length)
    (h1 : ∀ i (h : i < m), p (l[i]'(by omega)) = true)
    (h2 : ∀ i (_ : m ≤ i) (h : i < l.length), p l[i] = false) : l.countP p = m := by
  induction l generalizing m with
  | nil => simp at hm; simp [hm]
  | cons a l ih =>
    cases m with
    | zero =>
      rw [List.countP_eq_zero]
      intro b hb
      obtain ⟨i, hi, rfl⟩ := List.getElem_of_mem hb
      simp [h2 i (by omega) hi]
    | succ m =>
      have ha : p a = true := h1 0 (by omega)
      rw [List.countP_cons_of_pos ha, ih m (by simpa using hm)]
      · intro i hi
        exact h1 (i + 1) (by omega)
      · intro i hi h
        exact h2 (i + 1) (by omega) (by simpa using h)

theorem getElem?_countP_lt {a : List Nat} (h : a.Pairwise (· < ·)) {x : Nat} (hx : x ∈ a) :
    a[a.countP (· < x)]? = some x := by
  induction a with
  | nil => simp at hx
  | cons y a ih =>
    rw [List.pairwise_cons] at h
    rcases List.mem_cons.1 hx with rfl | hx
    · have : a.countP (· < x) = 0 := by
        rw [List.countP_eq_zero]
        intro b hb
        have := h.1 b hb
        simp; omega
      rw [List.countP_cons_of_neg (by simp), this]; rfl
    · have hyx := h.1 x hx
      rw [List.countP_cons_of_pos (by simpa using hyx)]
      simpa using ih h.2 hx

end Pylbm.ListAux
