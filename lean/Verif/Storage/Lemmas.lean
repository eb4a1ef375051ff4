import Verif.Storage.Model
import Verif.Storage.Spec
import Mathlib.Tactic.Linarith
/-! Helper lemmas for the storage. -/

namespace Pylbm.Storage
open Radix StorageSpec

theorem getD_eq {α : Type} (l : List α) (d : α) {i : Nat} (hi : i < l.length) :
    l.getD i d = l[i] := by
  rw [List.getD_eq_getElem?_getD, List.getElem?_eq_getElem hi]; rfl

section order
variable {s : List Nat} (h : IsOrder s)
include h

theorem order_nodup : s.Nodup := h.nodup_iff.2 List.nodup_range

theorem order_mem {j : Nat} : j ∈ s ↔ j < s.length := by rw [h.mem_iff]; exact List.mem_range

theorem order_idx {j : Nat} (hj : j < s.length) : s.idxOf j < s.length :=
  List.idxOf_lt_length_iff.2 ((order_mem h).2 hj)

theorem order_get_idx {j : Nat} (hj : j < s.length) : s[s.idxOf j]'(order_idx h hj) = j :=
  List.getElem_idxOf _

theorem order_idx_get {i : Nat} (hi : i < s.length) : s.idxOf s[i] = i :=
  List.Nodup.idxOf_getElem (order_nodup h) i hi

theorem order_get_lt {i : Nat} (hi : i < s.length) : s[i] < s.length :=
  (order_mem h).1 (List.getElem_mem hi)

theorem getD_idx {j : Nat} (hj : j < s.length) : s.getD (s.idxOf j) 0 = j := by
  rw [getD_eq _ _ (order_idx h hj), order_get_idx h hj]

/-- `argsort` of a permutation is its inverse. -/
theorem argsort_eq : argsort s = (List.range s.length).map (fun j => s.idxOf j) := by
  have hperm : ((List.range s.length).map (fun j => s.idxOf j)).Perm (List.range s.length) := by
    have h1 : ((List.range s.length).map (fun j => s.idxOf j)).Perm (s.map (fun j => s.idxOf j)) :=
      h.symm.map _
    refine h1.trans (List.Perm.of_eq ?_)
    apply List.ext_getElem
    · simp
    · intro i h1 h2
      rw [List.getElem_map, List.getElem_range, order_idx_get h (by simpa using h1)]
  unfold argsort
  have hs1 : ((List.range s.length).map (fun j => s.idxOf j)).Pairwise
      (fun i j => s.getD i 0 < s.getD j 0) := by
    rw [List.pairwise_map]
    refine List.Pairwise.imp_of_mem ?_ List.pairwise_lt_range
    intro a b ha hb hab
    rw [getD_idx h (List.mem_range.1 ha), getD_idx h (List.mem_range.1 hb)]
    exact hab
  have htotal : Std.Total (fun i j => s.getD i 0 ≤ s.getD j 0) := ⟨fun a b => Nat.le_total _ _⟩
  have htrans : IsTrans Nat (fun i j => s.getD i 0 ≤ s.getD j 0) := ⟨fun _ _ _ => Nat.le_trans⟩
  have hs2 := List.pairwise_insertionSort (fun i j => s.getD i 0 ≤ s.getD j 0) (List.range s.length)
  have hp2 := (List.perm_insertionSort (fun i j => s.getD i 0 ≤ s.getD j 0)
    (List.range s.length)).trans hperm.symm
  refine List.Perm.eq_of_pairwise ?_ hs2 (hs1.imp (fun h => h.le)) hp2
  intro a b ha hb h1 h2
  have ha' : a < s.length := by
    have := (List.perm_insertionSort (fun i j => s.getD i 0 ≤ s.getD j 0) (List.range s.length)).mem_iff.1 ha
    exact List.mem_range.1 this
  have hb' : b < s.length := List.mem_range.1 (hperm.mem_iff.1 hb)
  have he : s.getD a 0 = s.getD b 0 := le_antisymm h1 h2
  rw [getD_eq _ _ ha', getD_eq _ _ hb'] at he
  exact (List.Nodup.getElem_inj_iff (order_nodup h)).1 he

theorem setOrder_eq {α : Type} (l : List α) (hl : l.length = s.length) (d : α) :
    setOrder l s = (List.range s.length).map (fun j => l.getD (s.idxOf j) d) := by
  unfold setOrder
  rw [argsort_eq h, List.filterMap_map]
  rw [← List.filterMap_eq_map]
  apply List.filterMap_congr
  intro j hj
  have := order_idx h (List.mem_range.1 hj)
  simp only [Function.comp_apply]
  rw [List.getElem?_eq_getElem (by omega), getD_eq _ _ (by omega)]

theorem length_setOrder {α : Type} (l : List α) (hl : l.length = s.length) :
    (setOrder l s).length = s.length := by
  cases l with
  | nil =>
    rw [List.length_nil] at hl
    simp [List.eq_nil_of_length_eq_zero hl.symm, setOrder]
  | cons a l => rw [setOrder_eq h _ hl a]; simp

theorem setOrder_getElem? {α : Type} (l : List α) (hl : l.length = s.length) (j : Nat)
    (hj : j < s.length) : (setOrder l s)[j]? = l[s.idxOf j]? := by
  have := order_idx h hj
  have hlt : s.idxOf j < l.length := by omega
  rw [setOrder_eq h l hl (l[s.idxOf j]), List.getElem?_map, List.getElem?_range hj]
  simp [List.getElem?_eq_getElem hlt]

theorem scatter_eq (l : List Nat) (hl : l.length = s.length) :
    scatter s l = (List.range s.length).map (fun j => l.getD (s.idxOf j) 0) := by
  have hlen : ∀ (z : List (Nat × Nat)) (t : List Nat),
      (z.foldl (fun out p => out.set p.1 p.2) t).length = t.length := by
    intro z
    induction z with
    | nil => intro t; rfl
    | cons p z ih => intro t; simp [ih]
  have hother : ∀ (z : List (Nat × Nat)) (t : List Nat) (j : Nat), j ∉ z.map Prod.fst →
      (z.foldl (fun out p => out.set p.1 p.2) t)[j]? = t[j]? := by
    intro z
    induction z with
    | nil => intro t j _; rfl
    | cons p z ih =>
      intro t j hj
      simp only [List.map_cons, List.mem_cons, not_or] at hj
      rw [List.foldl_cons, ih _ _ hj.2, List.getElem?_set_ne (Ne.symm hj.1)]
  have hmem : ∀ (z : List (Nat × Nat)) (t : List Nat) (i : Nat) (hi : i < z.length),
      (z.map Prod.fst).Nodup → z[i].1 < t.length →
      (z.foldl (fun out p => out.set p.1 p.2) t)[z[i].1]? = some z[i].2 := by
    intro z
    induction z with
    | nil => intro t i hi; simp at hi
    | cons p z ih =>
      intro t i hi hnd hlt
      simp only [List.map_cons, List.nodup_cons] at hnd
      rw [List.foldl_cons]
      cases i with
      | zero =>
        simp only [List.getElem_cons_zero] at hlt ⊢
        rw [hother _ _ _ hnd.1, List.getElem?_set_self hlt]
      | succ i =>
        simp only [List.getElem_cons_succ] at hlt ⊢
        exact ih _ i (by simpa using hi) hnd.2 (by simpa using hlt)
  apply List.ext_getElem?
  intro j
  by_cases hj : j < s.length
  · have hi := order_idx h hj
    have hzl : s.idxOf j < (s.zip l).length := by simp; omega
    have := hmem (s.zip l) (List.replicate l.length 0) (s.idxOf j) hzl
      (by rw [List.map_fst_zip (by omega)]; exact order_nodup h)
      (by simp only [List.getElem_zip, order_get_idx h hj, List.length_replicate]; omega)
    simp only [List.getElem_zip, order_get_idx h hj] at this
    rw [scatter, this, List.getElem?_map, List.getElem?_range hj]
    simp [List.getElem?_eq_getElem (show s.idxOf j < l.length by omega)]
  · rw [List.getElem?_eq_none, List.getElem?_eq_none]
    · simp; omega
    · rw [scatter, hlen]; simp; omega

theorem scatter_eq_setOrder (l : List Nat) (hl : l.length = s.length) :
    scatter s l = setOrder l s := by rw [scatter_eq h l hl, setOrder_eq h l hl 0]

theorem inShape_setOrder {shape pos : List Nat} (hl : shape.length = s.length)
    (hp : InShape shape pos) : InShape (setOrder shape s) (setOrder pos s) := by
  have hpl : pos.length = s.length := by rw [hp.length_eq, hl]
  unfold InShape
  rw [setOrder_eq h shape hl 0, setOrder_eq h pos hpl 0, List.forall₂_map_left_iff,
    List.forall₂_map_right_iff, List.forall₂_same]
  intro j hj
  have hi := order_idx h (List.mem_range.1 hj)
  rw [getD_eq _ _ (by omega), getD_eq _ _ (by omega)]
  have := List.forall₂_iff_get.1 hp
  exact this.2 _ (by omega) (by omega)

theorem setOrder_inj {α : Type} {a b : List α} (ha : a.length = s.length) (hb : b.length = s.length)
    (he : setOrder a s = setOrder b s) : a = b := by
  apply List.ext_getElem?
  intro i
  by_cases hi : i < s.length
  · have h1 := setOrder_getElem? h a ha s[i] (order_get_lt h hi)
    have h2 := setOrder_getElem? h b hb s[i] (order_get_lt h hi)
    rw [order_idx_get h hi] at h1 h2
    rw [← h1, ← h2, he]
  · rw [List.getElem?_eq_none (by omega), List.getElem?_eq_none (by omega)]

end order

theorem length_strides (l : List Nat) : (strides l).length = l.length := by
  induction l with
  | nil => rfl
  | cons a l ih => simp [strides, ih]

theorem ravel_eq_dot : ∀ (shape pos : List Nat), pos.length = shape.length →
    ravel shape pos = (List.zipWith (· * ·) pos (strides shape)).sum
  | [], [], _ => rfl
  | [], _ :: _, h => by simp at h
  | _ :: _, [], h => by simp at h
  | a :: s, x :: p, h => by
    simp only [ravel, strides, List.zipWith_cons_cons, List.sum_cons]
    rw [ravel_eq_dot s p (by simpa using h)]

theorem viewOffset_eq {s : List Nat} (h : IsOrder s) {shape pos : List Nat}
    (hl : shape.length = s.length) (hp : pos.length = s.length) :
    viewOffset s shape pos = ravel (scatter s shape) (setOrder pos s) := by
  have hsl : (scatter s shape).length = s.length := by rw [scatter_eq h shape hl]; simp
  rw [ravel_eq_dot _ _ (by rw [length_setOrder h pos hp, hsl])]
  unfold viewOffset
  set st := strides (scatter s shape) with hst
  have hstl : st.length = s.length := by rw [hst, length_strides, hsl]
  -- both are sums over the permuted axes
  have h1 : List.zipWith (fun x i => x * st.getD i 0) pos s =
      s.map (fun j => pos.getD (s.idxOf j) 0 * st.getD j 0) := by
    apply List.ext_getElem
    · simp; omega
    · intro i h1 h2
      have hi : i < s.length := by simpa using h2
      rw [List.getElem_zipWith, List.getElem_map, order_idx_get h hi,
        getD_eq pos 0 (by omega)]
  have h2 : List.zipWith (· * ·) (setOrder pos s) st =
      (List.range s.length).map (fun j => pos.getD (s.idxOf j) 0 * st.getD j 0) := by
    rw [setOrder_eq h pos hp 0]
    apply List.ext_getElem
    · simp; omega
    · intro i h1 h2
      have hi : i < s.length := by simpa using h2
      rw [List.getElem_zipWith, List.getElem_map, List.getElem_map, List.getElem_range,
        getD_eq st 0 (by omega)]
  rw [h1, h2]
  exact (List.Perm.map _ h).sum_eq

theorem mem_pyRange (lo hi x : Int) : x ∈ pyRange lo hi ↔ lo ≤ x ∧ x < hi := by
  unfold pyRange
  simp only [List.mem_map, List.mem_range]
  constructor
  · rintro ⟨i, hi, rfl⟩; omega
  · rintro ⟨h1, h2⟩; exact ⟨(x - lo).toNat, by omega, by omega⟩

theorem nodup_pyRange (lo hi : Int) : (pyRange lo hi).Nodup := by
  unfold pyRange
  rw [List.nodup_map_iff (by intro a b h; simpa using h)]
  exact List.nodup_range

theorem nodup_product {α : Type} (a : List α) (b : List (List α)) (ha : a.Nodup) (hb : b.Nodup) :
    (a.flatMap fun x => b.map (x :: ·)).Nodup := by
  rw [List.nodup_flatMap]
  refine ⟨fun x _ => ?_, ?_⟩
  · rw [List.nodup_map_iff (by intro a b h; simpa using h)]; exact hb
  · refine List.Pairwise.imp ?_ ha
    intro x y hxy
    rw [Function.onFun, List.disjoint_left]
    intro z hz hz'
    obtain ⟨u, _, rfl⟩ := List.mem_map.1 hz
    obtain ⟨v, _, hv⟩ := List.mem_map.1 hz'
    simp only [List.cons.injEq] at hv
    exact hxy hv.1.symm

theorem nodup_iterations (l : List Idx) : (iterations l).Nodup := by
  induction l with
  | nil => simp [iterations]
  | cons i l ih => exact nodup_product _ _ (nodup_pyRange _ _) ih

theorem mem_iterations (l : List Idx) (x : List Int) :
    x ∈ iterations l ↔ List.Forall₂ (fun (i : Idx) x => i.lo ≤ x ∧ x < i.hi) l x := by
  induction l generalizing x with
  | nil => simp [iterations]
  | cons i l ih =>
    simp only [iterations, List.mem_flatMap, List.mem_map, mem_pyRange]
    constructor
    · rintro ⟨y, hy, z, hz, rfl⟩
      exact .cons hy ((ih z).1 hz)
    · intro h
      cases h with
      | cons h1 h2 => exact ⟨_, h1, _, (ih _).2 h2, rfl⟩

/-- Loops of an order-preserving `sorder`: the indices are the axes in order. -/
theorem argsort_of_sorted {t : List Nat} (h : t.Pairwise (· < ·)) : argsort t = List.range t.length := by
  unfold argsort
  apply List.Pairwise.insertionSort_eq
  refine List.Pairwise.imp_of_mem ?_ List.pairwise_lt_range
  intro a b ha hb hab
  rw [getD_eq _ _ (List.mem_range.1 ha), getD_eq _ _ (List.mem_range.1 hb)]
  exact (List.pairwise_iff_getElem.1 h a b _ _ hab).le

end Pylbm.Storage
