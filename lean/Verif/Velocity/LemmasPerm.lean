import Verif.Velocity.Model
import Mathlib.Data.List.Lex
import Mathlib.Data.List.Sort
import Mathlib.Data.List.Permutation
import Mathlib.Data.Finset.Card
import Mathlib.Data.Finset.Filter
import Mathlib.Data.Finset.Dedup
import Mathlib.Tactic.Linarith
/-! Helper lemmas for `permute_in_place`. -/

set_option linter.unusedSectionVars false

namespace Pylbm.Velocity

section
variable {α : Type*} [LinearOrder α]

theorem perm_le_of_desc : ∀ {d c : List α}, d.Pairwise (· ≥ ·) → c.Perm d → c ≤ d
  | [], c, _, hp => by rw [List.Perm.eq_nil hp]
  | h :: t, c, hd, hp => by
    cases c with
    | nil => exact absurd hp.length_eq (by simp)
    | cons z c' =>
      have hz : z ∈ h :: t := hp.subset (by simp)
      rw [List.pairwise_cons] at hd
      have hzh : z ≤ h := by
        rcases List.mem_cons.1 hz with rfl | hz
        · exact le_rfl
        · exact hd.1 z hz
      rcases lt_or_eq_of_le hzh with hlt | rfl
      · exact le_of_lt (List.cons_lt_cons_iff.2 (Or.inl hlt))
      · have := perm_le_of_desc hd.2 (List.Perm.cons_inv hp)
        rcases lt_or_eq_of_le this with hlt | heq
        · exact le_of_lt (List.cons_lt_cons_iff.2 (Or.inr ⟨rfl, hlt⟩))
        · rw [heq]

theorem le_perm_of_asc : ∀ {d c : List α}, d.Pairwise (· ≤ ·) → c.Perm d → d ≤ c
  | [], c, _, hp => by rw [List.Perm.eq_nil hp]
  | h :: t, c, hd, hp => by
    cases c with
    | nil => exact absurd hp.length_eq (by simp)
    | cons z c' =>
      have hz : z ∈ h :: t := hp.subset (by simp)
      rw [List.pairwise_cons] at hd
      have hzh : h ≤ z := by
        rcases List.mem_cons.1 hz with rfl | hz
        · exact le_rfl
        · exact hd.1 z hz
      rcases lt_or_eq_of_le hzh with hlt | rfl
      · exact le_of_lt (List.cons_lt_cons_iff.2 (Or.inl hlt))
      · have := le_perm_of_asc hd.2 (List.Perm.cons_inv hp)
        rcases lt_or_eq_of_le this with hlt | heq
        · exact le_of_lt (List.cons_lt_cons_iff.2 (Or.inr ⟨rfl, hlt⟩))
        · rw [heq]

theorem append_lt_append (p : List α) {u w : List α} (h : u < w) : p ++ u < p ++ w := by
  induction p with
  | nil => exact h
  | cons a p ih => exact List.cons_lt_cons_iff.2 (Or.inr ⟨rfl, ih⟩)

/-- The successor of `pre ++ x :: (d1 ++ y :: d2)` among its rearrangements. -/
theorem succ_le {x y : α} {d1 d2 : List α} (hd : (d1 ++ y :: d2).Pairwise (· ≥ ·)) (hxy : x < y)
    (h2 : ∀ z ∈ d2, z ≤ x) : ∀ (pre c : List α), c.Perm (pre ++ x :: (d1 ++ y :: d2)) →
      pre ++ x :: (d1 ++ y :: d2) < c → pre ++ y :: (d1 ++ x :: d2).reverse ≤ c
  | [], c, hp, hlt => by
    cases c with
    | nil => exact absurd hp.length_eq (by simp)
    | cons z c' =>
      simp only [List.nil_append] at hp hlt ⊢
      rw [List.pairwise_append] at hd
      obtain ⟨hd1, hd2, hd12⟩ := hd
      rw [List.pairwise_cons] at hd2
      rcases List.cons_lt_cons_iff.1 hlt with hxz | ⟨rfl, hlt'⟩
      · -- z > x
        have hz : z ∈ x :: (d1 ++ y :: d2) := hp.subset (by simp)
        have hyz : y ≤ z := by
          rcases List.mem_cons.1 hz with rfl | hz
          · exact absurd hxz (lt_irrefl _)
          · rcases List.mem_append.1 hz with hz | hz
            · exact hd12 z hz y (by simp)
            · rcases List.mem_cons.1 hz with rfl | hz
              · exact le_rfl
              · exact absurd (h2 z hz) (not_le.2 hxz)
        rcases lt_or_eq_of_le hyz with hyz | rfl
        · exact le_of_lt (List.cons_lt_cons_iff.2 (Or.inl hyz))
        · have hp' : c'.Perm (d1 ++ x :: d2).reverse := by
            have e : (x :: (d1 ++ y :: d2)).Perm (y :: (d1 ++ x :: d2)) := by
              have e1 : (x :: (d1 ++ y :: d2)).Perm (x :: y :: (d1 ++ d2)) :=
                List.Perm.cons _ List.perm_middle
              have e2 : (y :: (d1 ++ x :: d2)).Perm (y :: x :: (d1 ++ d2)) :=
                List.Perm.cons _ List.perm_middle
              exact (e1.trans (List.Perm.swap _ _ _)).trans e2.symm
            exact (List.Perm.cons_inv (hp.trans e)).trans (List.reverse_perm _).symm
          have hasc : (d1 ++ x :: d2).reverse.Pairwise (· ≤ ·) := by
            rw [List.pairwise_reverse, List.pairwise_append]
            refine ⟨hd1, List.pairwise_cons.2 ⟨fun z hz => h2 z hz, hd2.2⟩, ?_⟩
            intro u hu w hw
            have huy : y ≤ u := hd12 u hu y (by simp)
            rcases List.mem_cons.1 hw with rfl | hw
            · exact le_trans (le_of_lt hxy) huy
            · exact hd12 u hu w (by simp [hw])
          have := le_perm_of_asc hasc hp'
          rcases lt_or_eq_of_le this with hlt | heq
          · exact le_of_lt (List.cons_lt_cons_iff.2 (Or.inr ⟨rfl, hlt⟩))
          · rw [heq]
      · -- z = x: impossible
        have hle := perm_le_of_desc (d := d1 ++ y :: d2) (c := c')
          (List.pairwise_append.2 ⟨hd1, List.pairwise_cons.2 hd2, hd12⟩) (List.Perm.cons_inv hp)
        exact absurd hlt' (not_lt.2 hle)
  | p :: pre, c, hp, hlt => by
    cases c with
    | nil => exact absurd hp.length_eq (by simp)
    | cons q c' =>
      simp only [List.cons_append] at hp hlt ⊢
      rcases List.cons_lt_cons_iff.1 hlt with hpq | ⟨rfl, hlt'⟩
      · exact le_of_lt (List.cons_lt_cons_iff.2 (Or.inl hpq))
      · have := succ_le hd hxy h2 pre c' (List.Perm.cons_inv hp) hlt'
        rcases lt_or_eq_of_le this with hlt | heq
        · exact le_of_lt (List.cons_lt_cons_iff.2 (Or.inr ⟨rfl, hlt⟩))
        · rw [heq]

variable [Inhabited α]

theorem findI_some (a : List α) : ∀ {i k : Nat}, findI a i = some k →
    k ≤ i ∧ a[k]! < a[k + 1]! ∧ ∀ m, k < m → m ≤ i → ¬ a[m]! < a[m + 1]!
  | 0, k, h => by
    unfold findI at h
    split at h
    · rename_i hc
      obtain rfl : 0 = k := by simpa using h
      exact ⟨le_rfl, hc, fun m h1 h2 => by omega⟩
    · simp at h
  | i + 1, k, h => by
    unfold findI at h
    split at h
    · rename_i hc
      obtain rfl : i + 1 = k := by simpa using h
      exact ⟨le_rfl, hc, fun m h1 h2 => by omega⟩
    · rename_i hc
      obtain ⟨h1, h2, h3⟩ := findI_some a h
      refine ⟨by omega, h2, fun m hm hm' => ?_⟩
      rcases Nat.lt_or_ge i m with hlt | hge
      · obtain rfl : m = i + 1 := by omega
        exact hc
      · exact h3 m hm hge

theorem findI_none (a : List α) : ∀ {i : Nat}, findI a i = none →
    ∀ m ≤ i, ¬ a[m]! < a[m + 1]!
  | 0, h => by
    unfold findI at h
    split at h
    · simp at h
    · rename_i hc
      intro m hm
      obtain rfl : m = 0 := by omega
      exact hc
  | i + 1, h => by
    unfold findI at h
    split at h
    · simp at h
    · rename_i hc
      intro m hm
      rcases Nat.lt_or_ge i m with hlt | hge
      · obtain rfl : m = i + 1 := by omega
        exact hc
      · exact findI_none a h m hge

theorem findJ_spec (a : List α) (i : Nat) (h : a[i]! < a[i + 1]!) : ∀ {j : Nat}, i < j →
    i < findJ a i j ∧ findJ a i j ≤ j ∧ a[i]! < a[findJ a i j]! ∧
      ∀ m, findJ a i j < m → m ≤ j → ¬ a[i]! < a[m]!
  | 0, hj => by omega
  | j + 1, hj => by
    unfold findJ
    split
    · rename_i hc
      exact ⟨hj, le_rfl, hc, fun m h1 h2 => by omega⟩
    · rename_i hc
      have hij : i < j := by
        rcases Nat.lt_or_ge i j with h' | h'
        · exact h'
        · obtain rfl : i = j := by omega
          exact absurd h hc
      obtain ⟨h1, h2, h3, h4⟩ := findJ_spec a i h hij
      refine ⟨h1, by omega, h3, fun m hm hm' => ?_⟩
      rcases Nat.lt_or_ge j m with hlt | hge
      · obtain rfl : m = j + 1 := by omega
        exact hc
      · exact h4 m hm hge

theorem getElem!_of_lt (a : List α) {i : Nat} (h : i < a.length) : a[i]! = a[i] := by
  simp [h]

/-- Without ascent after position `k`, the tail is non-increasing. -/
theorem desc_of_no_ascent (a : List α) (k : Nat)
    (h : ∀ m, k ≤ m → m + 1 < a.length → ¬ a[m]! < a[m + 1]!) : (a.drop k).Pairwise (· ≥ ·) := by
  have mono : ∀ n m, k ≤ m → (hh : m + n < a.length) → a[m + n] ≤ a[m] := by
    intro n
    induction n with
    | zero => intro m _ _; exact le_rfl
    | succ n ih =>
      intro m hm hh
      have h1 := h (m + n) (by omega) (by omega)
      rw [getElem!_of_lt a (by omega), getElem!_of_lt a (by omega)] at h1
      exact le_trans (not_lt.1 h1) (ih m hm (by omega))
  rw [List.pairwise_iff_getElem]
  intro i j hi hj hij
  simp only [List.length_drop] at hi hj
  simp only [List.getElem_drop]
  have := mono (j - i) (k + i) (by omega) (by omega)
  simpa [show k + i + (j - i) = k + j by omega] using this

theorem nextPerm_shape {a b : List α} (h2 : 2 ≤ a.length) (h : nextPerm a = some b) :
    ∃ pre x d1 y d2, a = pre ++ x :: (d1 ++ y :: d2) ∧ b = pre ++ y :: (d1 ++ x :: d2).reverse ∧
      (d1 ++ y :: d2).Pairwise (· ≥ ·) ∧ x < y ∧ ∀ z ∈ d2, z ≤ x := by
  unfold nextPerm at h
  split at h
  · simp at h
  · rename_i i hi
    obtain ⟨hi1, hi2, hi3⟩ := findI_some a hi
    obtain ⟨hj1, hj2, hj3, hj4⟩ := findJ_spec a i hi2 (j := a.length - 1) (by omega)
    set j := findJ a i (a.length - 1) with hj
    clear_value j
    simp only [Option.some.injEq] at h
    have hil : i < a.length := by omega
    have hjl : j < a.length := by omega
    rw [getElem!_of_lt a hil, getElem!_of_lt a hjl] at h
    rw [getElem!_of_lt a hil, getElem!_of_lt a hjl] at hj3
    -- decomposition
    have ea : a = a.take i ++ a[i] :: ((a.drop (i + 1)).take (j - i - 1) ++ a[j] :: a.drop (j + 1)) := by
      have e1 : a = a.take i ++ a.drop i := (List.take_append_drop i a).symm
      have e2 : a.drop i = a[i] :: a.drop (i + 1) := List.drop_eq_getElem_cons hil
      have e3 : a.drop (i + 1) = (a.drop (i + 1)).take (j - i - 1) ++ (a.drop (i + 1)).drop (j - i - 1) :=
        (List.take_append_drop _ _).symm
      have e4 : (a.drop (i + 1)).drop (j - i - 1) = a[j] :: a.drop (j + 1) := by
        rw [List.drop_drop, show i + 1 + (j - i - 1) = j by omega]
        exact List.drop_eq_getElem_cons hjl
      rw [e4] at e3
      rw [← e3, ← e2]; exact e1
    have hdesc := desc_of_no_ascent a (i + 1) (fun m hm hm' => hi3 m (by omega) (by omega))
    have hdrop : a.drop (i + 1) = (a.drop (i + 1)).take (j - i - 1) ++ a[j] :: a.drop (j + 1) := by
      have e3 : a.drop (i + 1) = (a.drop (i + 1)).take (j - i - 1) ++ (a.drop (i + 1)).drop (j - i - 1) :=
        (List.take_append_drop _ _).symm
      have e4 : (a.drop (i + 1)).drop (j - i - 1) = a[j] :: a.drop (j + 1) := by
        rw [List.drop_drop, show i + 1 + (j - i - 1) = j by omega]
        exact List.drop_eq_getElem_cons hjl
      rw [e4] at e3; exact e3
    refine ⟨a.take i, a[i], (a.drop (i + 1)).take (j - i - 1), a[j], a.drop (j + 1), ea, ?_, ?_, hj3, ?_⟩
    · have hlen : (a.take i).length = i := by simp; omega
      have hlen2 : ((a.drop (i + 1)).take (j - i - 1)).length = j - i - 1 := by simp; omega
      generalize hx : a[i] = x at *
      generalize hy : a[j] = y at *
      generalize hp : a.take i = pre at *
      generalize hq : (a.drop (i + 1)).take (j - i - 1) = d1 at *
      generalize hr : a.drop (j + 1) = d2 at *
      rw [← h]
      have hset : (a.set i y).set j x = pre ++ y :: (d1 ++ x :: d2) := by
        rw [ea, List.set_append_right _ _ (by omega), hlen, Nat.sub_self, List.set_cons_zero,
          List.set_append_right _ _ (by omega), hlen]
        obtain ⟨k, hk⟩ : ∃ k, j - i = k + 1 := ⟨j - i - 1, by omega⟩
        rw [hk, List.set_cons_succ, List.set_append_right _ _ (by omega), hlen2,
          show k - (j - i - 1) = 0 by omega, List.set_cons_zero]
      rw [hset]
      have ht : (pre ++ y :: (d1 ++ x :: d2)).take (i + 1) = pre ++ [y] := by
        rw [List.take_append, hlen, List.take_of_length_le (by omega)]
        simp
      have hdr : (pre ++ y :: (d1 ++ x :: d2)).drop (i + 1) = d1 ++ x :: d2 := by
        rw [List.drop_append, hlen, List.drop_eq_nil_of_le (by omega)]
        simp
      rw [ht, hdr]; simp
    · rw [← hdrop]; exact hdesc
    · intro z hz
      obtain ⟨n, hn, rfl⟩ := List.getElem_of_mem hz
      rw [List.getElem_drop]
      simp only [List.length_drop] at hn
      have := hj4 (j + 1 + n) (by omega) (by omega)
      rw [getElem!_of_lt a hil, getElem!_of_lt a (by omega)] at this
      exact not_lt.1 this

theorem nextPerm_some {a b : List α} (h2 : 2 ≤ a.length) (h : nextPerm a = some b) :
    a < b ∧ b.Perm a ∧ ∀ c : List α, c.Perm a → a < c → b ≤ c := by
  obtain ⟨pre, x, d1, y, d2, rfl, rfl, hd, hxy, hle⟩ := nextPerm_shape h2 h
  refine ⟨append_lt_append _ (List.cons_lt_cons_iff.2 (Or.inl hxy)), ?_, succ_le hd hxy hle pre⟩
  refine List.Perm.append_left _ ?_
  have e1 : (x :: (d1 ++ y :: d2)).Perm (x :: y :: (d1 ++ d2)) := List.Perm.cons _ List.perm_middle
  have e2 : (y :: (d1 ++ x :: d2)).Perm (y :: x :: (d1 ++ d2)) := List.Perm.cons _ List.perm_middle
  exact ((List.reverse_perm _).cons y).trans ((e1.trans (List.Perm.swap _ _ _)).trans e2.symm).symm

theorem nextPerm_none {a : List α} (h2 : 2 ≤ a.length) (h : nextPerm a = none) :
    a.Pairwise (· ≥ ·) := by
  unfold nextPerm at h
  split at h
  · rename_i hi
    have := desc_of_no_ascent a 0 (fun m _ hm' => findI_none a hi m (by omega))
    simpa using this
  · simp at h

/-- The rearrangements above `a`: the ones still to be produced. -/
def above (a : List α) : Finset (List α) := a.permutations.toFinset.filter (a < ·)

theorem mem_above {a c : List α} : c ∈ above a ↔ c.Perm a ∧ a < c := by
  simp [above, List.mem_permutations]

theorem permLoop_spec : ∀ (fuel : Nat) (a : List α), 2 ≤ a.length → (above a).card < fuel →
    (permLoop fuel a).1.Pairwise (· < ·) ∧ (∀ c, c ∈ (permLoop fuel a).1 ↔ c.Perm a ∧ a < c) ∧
      ∃ e, (permLoop fuel a).2 = some e ∧ e.Perm a ∧ e.Pairwise (· ≤ ·)
  | 0, a, _, h => by omega
  | fuel + 1, a, h2, hc => by
    unfold permLoop
    cases hn : nextPerm a with
    | none =>
      have hd := nextPerm_none h2 hn
      refine ⟨by simp, fun c => ?_, a.reverse, rfl, List.reverse_perm _, ?_⟩
      · simp only [List.not_mem_nil, false_iff, not_and, not_lt]
        exact fun hp => perm_le_of_desc hd hp
      · rw [List.pairwise_reverse]; exact hd
    | some b =>
      obtain ⟨hab, hperm, hmin⟩ := nextPerm_some h2 hn
      have hb2 : 2 ≤ b.length := by rw [hperm.length_eq]; exact h2
      have hcard : (above b).card < (above a).card := by
        apply Finset.card_lt_card
        rw [Finset.ssubset_iff_of_subset]
        · exact ⟨b, mem_above.2 ⟨hperm, hab⟩, fun hb => lt_irrefl _ (mem_above.1 hb).2⟩
        · intro c hc
          obtain ⟨h1, h2⟩ := mem_above.1 hc
          exact mem_above.2 ⟨h1.trans hperm, lt_trans hab h2⟩
      obtain ⟨i1, i2, e, i3, i4, i5⟩ := permLoop_spec fuel b hb2 (by omega)
      refine ⟨?_, fun c => ?_, e, i3, i4.trans hperm, i5⟩
      · exact List.pairwise_cons.2 ⟨fun c hc => ((i2 c).1 hc).2, i1⟩
      · simp only [List.mem_cons, i2]
        constructor
        · rintro (rfl | ⟨h1, h2⟩)
          · exact ⟨hperm, hab⟩
          · exact ⟨h1.trans hperm, lt_trans hab h2⟩
        · rintro ⟨h1, h2⟩
          rcases lt_or_eq_of_le (hmin c h1 h2) with h | h
          · exact Or.inr ⟨h1.trans hperm.symm, h⟩
          · exact Or.inl h.symm

theorem above_card_lt (a : List α) : (above a).card < Nat.factorial a.length := by
  have h1 : above a ⊂ a.permutations.toFinset := by
    rw [Finset.ssubset_iff_of_subset
      (show above a ⊆ a.permutations.toFinset from Finset.filter_subset _ _)]
    refine ⟨a, by simp, fun h => lt_irrefl _ (mem_above.1 h).2⟩
  calc (above a).card < a.permutations.toFinset.card := Finset.card_lt_card h1
    _ ≤ a.permutations.length := List.toFinset_card_le _
    _ = _ := List.length_permutations a

theorem permuteInPlace_spec (l : List α) :
    (permuteInPlace l).1.Pairwise (· < ·) ∧ (∀ c, c ∈ (permuteInPlace l).1 ↔ c.Perm l) ∧
      (∃ e, (permuteInPlace l).2 = some e ∧ e.Perm l ∧ e.Pairwise (· ≤ ·)) ∧
      (permuteInPlace l).1.head? = some (l.mergeSort (· ≤ ·)) := by
  have hperm : (l.mergeSort (· ≤ ·)).Perm l := List.mergeSort_perm l _
  have hsort : (l.mergeSort (· ≤ ·)).Pairwise (· ≤ ·) := by
    have := List.pairwise_mergeSort (le := fun a b : α => decide (a ≤ b))
      (by intro a b c; simpa using le_trans) (by intro a b; simpa using le_total a b) l
    simpa using this
  unfold permuteInPlace
  generalize l.mergeSort (· ≤ ·) = a at *
  by_cases h1 : a.length ≤ 1
  · simp only [h1, if_true]
    refine ⟨by simp, fun c => ?_, ⟨a, rfl, hperm, hsort⟩, rfl⟩
    simp only [List.mem_singleton]
    constructor
    · rintro rfl; exact hperm
    · intro hc
      have hca := hc.trans hperm.symm
      match a, h1 with
      | [], _ => exact hca.eq_nil
      | [x], _ => exact List.perm_singleton.1 hca
  · simp only [h1, if_false]
    obtain ⟨i1, i2, e, i3, i4, i5⟩ := permLoop_spec _ a (by omega) (above_card_lt a)
    refine ⟨List.pairwise_cons.2 ⟨fun c hc => ((i2 c).1 hc).2, i1⟩, fun c => ?_,
      ⟨e, i3, i4.trans hperm, i5⟩, rfl⟩
    simp only [List.mem_cons, i2]
    constructor
    · rintro (rfl | ⟨h, _⟩)
      · exact hperm
      · exact h.trans hperm
    · intro hc
      have hca := hc.trans hperm.symm
      rcases lt_or_eq_of_le (le_perm_of_asc hsort hca) with h | h
      · exact Or.inr ⟨hca, h⟩
      · exact Or.inl h.symm

end

end Pylbm.Velocity
