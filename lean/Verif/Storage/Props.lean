import Verif.Storage.Lemmas
/-!
# Properties C13, C14, C17: storage order, generated loops, interior view
-/

namespace Pylbm.Storage
open Radix StorageSpec

/-- **C13.** For every storage order, the Python view has the logical shape; a logical position has
an offset inside the memory, different positions have different offsets, and the index list used
by generated code addresses the same memory cell. -/
theorem C13_storage_order (sorder : List Nat) (h : IsOrder sorder) (shape : List Nat)
    (hl : shape.length = sorder.length) :
    viewShape sorder shape = shape ∧
    ∀ pos, InShape shape pos →
      viewOffset sorder shape pos < (scatter sorder shape).prod ∧
      (∀ pos', InShape shape pos' → viewOffset sorder shape pos = viewOffset sorder shape pos' →
        pos = pos') ∧
      InShape (scatter sorder shape) (setOrder pos sorder) ∧
      ravel (scatter sorder shape) (setOrder pos sorder) = viewOffset sorder shape pos := by
  refine ⟨?_, fun pos hp => ?_⟩
  · unfold viewShape
    rw [scatter_eq h shape hl]
    apply List.ext_getElem
    · simp [hl]
    · intro i h1 h2
      have hi : i < sorder.length := by simpa using h1
      have hlt := order_get_lt h hi
      rw [List.getElem_map, getD_eq _ _ (by simpa using hlt), List.getElem_map, List.getElem_range,
        order_idx_get h hi, getD_eq _ _ h2]
  · have hpl : pos.length = sorder.length := by rw [hp.length_eq, hl]
    have hin : InShape (scatter sorder shape) (setOrder pos sorder) := by
      rw [scatter_eq_setOrder h shape hl]; exact inShape_setOrder h hl hp
    refine ⟨?_, ?_, hin, (viewOffset_eq h hl hpl).symm⟩
    · rw [viewOffset_eq h hl hpl]; exact ravel_lt hin
    · intro pos' hp' he
      have hpl' : pos'.length = sorder.length := by rw [hp'.length_eq, hl]
      have hin' : InShape (scatter sorder shape) (setOrder pos' sorder) := by
        rw [scatter_eq_setOrder h shape hl]; exact inShape_setOrder h hl hp'
      rw [viewOffset_eq h hl hpl, viewOffset_eq h hl hpl'] at he
      exact setOrder_inj h hpl hpl' (ravel_injective hin hin' he)

/-- **C13.** A value written at a logical position is read back there and nowhere else. -/
theorem C13_read_write {α : Type} (sorder : List Nat) (h : IsOrder sorder) (shape : List Nat)
    (hl : shape.length = sorder.length) (mem : List α) (hm : mem.length = (scatter sorder shape).prod)
    (pos pos' : List Nat) (hp : InShape shape pos) (hp' : InShape shape pos') (v : α) :
    read sorder shape (write sorder shape mem pos v) pos' =
      if pos' = pos then some v else read sorder shape mem pos' := by
  obtain ⟨_, hs⟩ := C13_storage_order sorder h shape hl
  obtain ⟨hlt, hinj, _⟩ := hs pos hp
  unfold read write
  split
  · next he => rw [he, List.getElem?_set_self (by omega)]
  · next he => rw [List.getElem?_set_ne (fun hc => he (hinj pos' hp' hc).symm)]

/-- **C13.** The memory has exactly one cell for each logical position. -/
theorem C13_memory_size (sorder : List Nat) (h : IsOrder sorder) (shape : List Nat)
    (hl : shape.length = sorder.length) : (scatter sorder shape).prod = shape.prod := by
  have h1 : (scatter sorder shape) = (List.range sorder.length).map
      (fun j => shape.getD (sorder.idxOf j) 0) := scatter_eq h shape hl
  have h2 : shape = sorder.map (fun j => shape.getD (sorder.idxOf j) 0) := by
    apply List.ext_getElem
    · simp [hl]
    · intro i hi1 hi2
      have hi : i < sorder.length := by simpa using hi2
      rw [List.getElem_map, order_idx_get h hi, getD_eq _ _ hi1]
  rw [h1]
  conv_rhs => rw [h2]
  exact (List.Perm.map _ h).prod_eq.symm

example : IsOrder [1, 2, 0] ∧ InShape [9, 5, 7] [8, 0, 6] ∧
    viewOffset [1, 2, 0] [9, 5, 7] [8, 0, 6] = 6 * 45 + 8 * 5 + 0 := by
  refine ⟨by unfold IsOrder; decide, ?_, by decide⟩
  unfold InShape
  exact .cons (by decide) (.cons (by decide) (.cons (by decide) .nil))

theorem storedAt_iff (sorder : List Nat) (h : IsOrder sorder) (l a : List Int)
    (hl : l.length = sorder.length) : StoredAt sorder l a ↔ a = setOrder l sorder := by
  constructor
  · rintro ⟨h1, h2, h3⟩
    apply List.ext_getElem?
    intro j
    by_cases hj : j < sorder.length
    · rw [setOrder_getElem? h l hl j hj]
      refine h3 _ (order_idx h hj) j ?_
      rw [List.getElem?_eq_getElem (order_idx h hj), order_get_idx h hj]
    · rw [List.getElem?_eq_none (by omega), List.getElem?_eq_none]
      rw [length_setOrder h l hl]; omega
  · rintro rfl
    refine ⟨by rw [length_setOrder h l hl, hl], hl, fun i hi j hj => ?_⟩
    obtain ⟨_, rfl⟩ := List.getElem?_eq_some_iff.1 hj
    rw [setOrder_getElem? h l hl _ (order_get_lt h hi), order_idx_get h hi]

theorem spaceIdx_sorted (ranges : List (Int × Int)) (t : List Nat) (ht : t.Pairwise (· < ·))
    (hr : t.length ≤ ranges.length) :
    spaceIdx ranges t = (ranges.take t.length).zipIdx.map fun p => ⟨p.2, p.1.1, p.1.2⟩ := by
  unfold spaceIdx setOrder
  rw [argsort_of_sorted ht]
  apply List.ext_getElem?
  intro i
  have hfm : ∀ (l : List Idx) (n : Nat), n ≤ l.length →
      (List.range n).filterMap (l[·]?) = l.take n := by
    intro l n
    induction n with
    | zero => intro _; simp
    | succ n ih =>
      intro hn
      rw [List.range_succ, List.filterMap_append, ih (by omega), List.take_add_one]
      simp [List.getElem?_eq_getElem (show n < l.length by omega)]
  rw [hfm _ _ (by simpa using hr)]
  congr 1
  rw [← List.map_take]
  congr 1
  apply List.ext_getElem
  · simp
  · intro j h1 h2; simp

/-- **C14, partial**: when the order keeps the space axes in increasing order (the velocity axis
may be anywhere), the loops of a kernel over `ranges` access, for the velocity `k` shifted by `v`,
exactly the memory cells of the logical positions `(k, x + v)` with `x` in the ranges, each once.
Missing: orders which permute the space axes, for which it is false (see
`C14_loops_correct_iff`). -/
theorem C14_loops_exact_partial (sorder : List Nat) (h : IsOrder sorder) (h1 : 1 ≤ sorder.length)
    (hinc : sorder.tail.Pairwise (· < ·)) (ranges : List (Int × Int))
    (hr : sorder.length ≤ ranges.length + 1) (k : Nat) (v : List Int)
    (hv : v.length + 1 = sorder.length) :
    (accesses sorder ranges k v).Nodup ∧
    ∀ a, a ∈ accesses sorder ranges k v ↔
      ∃ x, InRanges (ranges.take v.length) x ∧
        StoredAt sorder ((k : Int) :: List.zipWith (· + ·) x v) a := by
  have htl : sorder.tail.length = v.length := by rw [List.length_tail]; omega
  have hsp := spaceIdx_sorted ranges sorder.tail hinc (by omega)
  have hmem : ∀ x, x ∈ iterations (spaceIdx ranges sorder.tail) ↔ InRanges (ranges.take v.length) x := by
    intro x
    rw [mem_iterations, hsp, List.forall₂_map_left_iff, htl]
    unfold InRanges
    constructor
    · intro hf
      rw [List.forall₂_iff_get] at hf ⊢
      refine ⟨by simpa using hf.1, fun i h1 h2 => ?_⟩
      have := hf.2 i (by simpa using h1) h2
      simpa using this
    · intro hf
      rw [List.forall₂_iff_get] at hf ⊢
      refine ⟨by simpa using hf.1, fun i h1 h2 => ?_⟩
      have := hf.2 i (by simpa using h1) h2
      simpa using this
  have hxl : ∀ x, InRanges (ranges.take v.length) x → x.length = v.length := by
    intro x hx
    have := hx.length_eq
    simp only [List.length_take] at this
    omega
  have hlen : ∀ x, x.length = v.length → ((k : Int) :: List.zipWith (· + ·) x v).length = sorder.length := by
    intro x hx; simp; omega
  constructor
  · unfold accesses
    refine List.Nodup.map_on ?_ (nodup_iterations _)
    intro x hx y hy he
    have hxl' := hxl x ((hmem x).1 hx)
    have hyl' := hxl y ((hmem y).1 hy)
    have he' := setOrder_inj h (hlen x hxl') (hlen y hyl') he
    simp only [List.cons.injEq, true_and] at he'
    apply List.ext_getElem
    · omega
    · intro i hi1 hi2
      have h3 := congrArg (fun l => l[i]?) he'
      simp only [List.getElem?_zipWith, List.getElem?_eq_getElem hi1, List.getElem?_eq_getElem hi2,
        List.getElem?_eq_getElem (show i < v.length by omega)] at h3
      have := Option.some.inj h3
      omega
  · intro a
    unfold accesses
    rw [List.mem_map]
    constructor
    · rintro ⟨x, hx, rfl⟩
      have hx' := (hmem x).1 hx
      exact ⟨x, hx', (storedAt_iff sorder h _ _ (hlen x (hxl x hx'))).2 rfl⟩
    · rintro ⟨x, hx, hst⟩
      exact ⟨x, (hmem x).2 hx, ((storedAt_iff sorder h _ _ (hlen x (hxl x hx))).1 hst).symm⟩

/-- The cells which a loop without shift over the whole array has to access. -/
def LoopsCorrect (sorder : List Nat) : Prop :=
  ∀ n : List Int, n.length + 1 = sorder.length → ∀ a,
    a ∈ accesses sorder (fullRanges n) 0 (n.map fun _ => 0) ↔
      ∃ x, InRanges (fullRanges n) x ∧ StoredAt sorder (0 :: x) a

theorem argsort_perm (t : List Nat) : (argsort t).Perm (List.range t.length) :=
  List.perm_insertionSort _ _

theorem sorted_of_argsort_range (t : List Nat) (hnd : t.Nodup) (h : argsort t = List.range t.length) :
    t.Pairwise (· < ·) := by
  have htotal : Std.Total (fun i j => t.getD i 0 ≤ t.getD j 0) := ⟨fun a b => Nat.le_total _ _⟩
  have htrans : IsTrans Nat (fun i j => t.getD i 0 ≤ t.getD j 0) := ⟨fun _ _ _ => Nat.le_trans⟩
  have hs := List.pairwise_insertionSort (fun i j => t.getD i 0 ≤ t.getD j 0) (List.range t.length)
  unfold argsort at h
  rw [h, List.pairwise_iff_getElem] at hs
  rw [List.pairwise_iff_getElem]
  intro i j hi hj hij
  have := hs i j (by simpa using hi) (by simpa using hj) hij
  simp only [List.getElem_range, getD_eq _ _ hi, getD_eq _ _ hj] at this
  have hne : t[i] ≠ t[j] := fun he => by
    have := (List.Nodup.getElem_inj_iff hnd).1 he
    omega
  omega

theorem zipWith_zero (x n : List Int) (h : x.length = n.length) :
    List.zipWith (· + ·) x (n.map fun _ => (0 : Int)) = x := by
  apply List.ext_getElem
  · simp [h]
  · intro i h1 h2; simp

/-- **C14, exact domain of validity**: the loops over the whole array access exactly its cells for
all the grid sizes if and only if the order keeps the space axes in increasing order. -/
theorem C14_loops_correct_iff (sorder : List Nat) (h : IsOrder sorder) (h1 : 1 ≤ sorder.length) :
    LoopsCorrect sorder ↔ sorder.tail.Pairwise (· < ·) := by
  constructor
  · intro hc
    have hnd : sorder.tail.Nodup := (order_nodup h).sublist (List.tail_sublist _)
    by_contra hns
    have hne : argsort sorder.tail ≠ List.range sorder.tail.length :=
      fun he => hns (sorted_of_argsort_range _ hnd he)
    set t := sorder.tail with ht
    have hperm := argsort_perm t
    have hlen : (argsort t).length = t.length := by rw [hperm.length_eq]; simp
    have htl : t.length + 1 = sorder.length := by rw [ht, List.length_tail]; omega
    -- a position which is moved
    obtain ⟨q, hq, hqne⟩ : ∃ q, ∃ hq : q < (argsort t).length, (argsort t)[q] ≠ q := by
      by_contra hall
      push Not at hall
      apply hne
      apply List.ext_getElem
      · simp [hlen]
      · intro i hi1 hi2
        rw [hall i hi1]; simp
    set p := (argsort t)[q] with hp
    have hpl : p < t.length := List.mem_range.1 (hperm.mem_iff.1 (List.getElem_mem hq))
    -- sizes 1 except 2 on the axis `p`
    set n : List Int := (List.replicate t.length (1 : Int)).set p 2 with hn
    have hnl : n.length = t.length := by simp [hn]
    have hnget : ∀ i (hi : i < n.length), n[i] = if i = p then 2 else 1 := by
      intro i hi
      simp only [hn, List.getElem_set, List.getElem_replicate, eq_comm]
    set vals : List Int := (List.replicate t.length (0 : Int)).set q 1 with hvals
    have hvl : vals.length = t.length := by simp [hvals]
    have hit : vals ∈ iterations (spaceIdx (fullRanges n) t) := by
      rw [mem_iterations]
      unfold spaceIdx setOrder
      have hget : ∀ i ∈ argsort t, ((fullRanges n).zipIdx.map fun p : (Int × Int) × Nat =>
          (⟨p.2, p.1.1, p.1.2⟩ : Idx))[i]? = some ⟨i, 0, n.getD i 0⟩ := by
        intro i hi
        have hi' : i < n.length := by rw [hnl]; exact List.mem_range.1 (hperm.mem_iff.1 hi)
        rw [List.getElem?_eq_getElem (by simpa [fullRanges] using hi')]
        simp [fullRanges, List.getElem_zipIdx, List.getElem?_eq_getElem hi']
      have hfm : (argsort t).filterMap (fun i => ((fullRanges n).zipIdx.map fun p : (Int × Int) × Nat =>
          (⟨p.2, p.1.1, p.1.2⟩ : Idx))[i]?) = (argsort t).map fun i => ⟨i, 0, n.getD i 0⟩ := by
        rw [List.filterMap_congr (fun i hi => hget i hi)]
        exact List.filterMap_eq_map (f := fun i => (⟨i, 0, n.getD i 0⟩ : Idx)) ▸ rfl
      rw [hfm, List.forall₂_map_left_iff, List.forall₂_iff_get]
      refine ⟨by omega, fun i hi1 hi2 => ?_⟩
      simp only [List.get_eq_getElem]
      have hai : (argsort t)[i] < n.length := by
        rw [hnl]; exact List.mem_range.1 (hperm.mem_iff.1 (List.getElem_mem hi1))
      rw [getD_eq _ _ hai, hnget]
      simp only [hvals, List.getElem_set, List.getElem_replicate]
      by_cases hqi : q = i
      · subst hqi
        simp [← hp]
      · simp only [hqi, if_false]
        split <;> omega
    have hfulll : (fullRanges n).length = n.length := by simp [fullRanges]
    have hacc : setOrder (0 :: vals) sorder ∈ accesses sorder (fullRanges n) 0 (n.map fun _ => 0) := by
      unfold accesses
      refine List.mem_map.2 ⟨vals, hit, ?_⟩
      rw [zipWith_zero _ _ (by omega)]; rfl
    obtain ⟨x, hx, hst⟩ := (hc n (by omega) _).1 hacc
    have hxl : x.length = t.length := by
      have := hx.length_eq
      omega
    rw [storedAt_iff sorder h _ _ (by simp; omega)] at hst
    have he := setOrder_inj h (by simp; omega) (by simp; omega) hst
    simp only [List.cons.injEq, true_and] at he
    subst he
    have hqt : q < t.length := by omega
    have := (List.forall₂_iff_get.1 hx).2 q (by omega) (by omega)
    simp only [fullRanges, List.get_eq_getElem, List.getElem_map, hnget, hvals, List.getElem_set_self] at this
    rw [if_neg (fun hc => hqne hc.symm)] at this
    omega
  · intro hinc n hn a
    obtain ⟨_, hmem⟩ := C14_loops_exact_partial sorder h h1 hinc (fullRanges n)
      (by simp [fullRanges]; omega) 0 (n.map fun _ => 0) (by simpa using hn)
    rw [hmem]
    have htake : (fullRanges n).take (n.map fun _ => (0 : Int)).length = fullRanges n := by
      rw [List.take_of_length_le]; simp [fullRanges]
    rw [htake]
    refine exists_congr fun x => and_congr_right fun hx => ?_
    have hxl : x.length = n.length := by
      have := hx.length_eq; simp only [fullRanges, List.length_map] at this; omega
    rw [zipWith_zero _ _ hxl]; rfl

/-- C14 (space axes in increasing storage order): the inner loop with the velocity `v` accesses the
positions `x + v` of exactly the cells `x` at distance at least `w` from the borders, once each, and
when the width bounds the velocity every access is in the array. -/
theorem C14_inner_loops_partial (sorder : List Nat) (h : IsOrder sorder) (h1 : 1 ≤ sorder.length)
    (hinc : sorder.tail.Pairwise (· < ·)) (n w v : List Int) (hn : n.length + 1 = sorder.length)
    (hw : w.length = n.length) (hv : v.length = n.length) (k : Nat) :
    (accesses sorder (innerRanges w n) k v).Nodup ∧
    (∀ a, a ∈ accesses sorder (innerRanges w n) k v ↔ ∃ x : List Int, ∃ hx : x.length = n.length,
      (∀ i (hi : i < n.length), w[i] ≤ x[i] ∧ x[i] + w[i] < n[i]) ∧
      StoredAt sorder ((k : Int) :: List.zipWith (· + ·) x v) a) ∧
    ((∀ i (hi : i < n.length), |v[i]| ≤ w[i]) →
      ∀ a ∈ accesses sorder (innerRanges w n) k v, ∃ y : List Int, ∃ hy : y.length = n.length,
        (∀ i (hi : i < n.length), 0 ≤ y[i] ∧ y[i] < n[i]) ∧ StoredAt sorder ((k : Int) :: y) a) := by
  have hlr : (innerRanges w n).length = n.length := by
    unfold innerRanges; rw [List.length_zipWith]; omega
  obtain ⟨hnd, hmem⟩ := C14_loops_exact_partial sorder h h1 hinc (innerRanges w n)
    (by rw [hlr]; omega) k v (by omega)
  have htake : (innerRanges w n).take v.length = innerRanges w n := by
    rw [List.take_of_length_le]; omega
  rw [htake] at hmem
  have hin : ∀ x : List Int, InRanges (innerRanges w n) x ↔ ∃ hx : x.length = n.length,
      ∀ i (hi : i < n.length), w[i] ≤ x[i] ∧ x[i] + w[i] < n[i] := by
    intro x
    unfold InRanges
    rw [List.forall₂_iff_get]
    constructor
    · rintro ⟨h2, h3⟩
      have hx : x.length = n.length := by omega
      refine ⟨hx, fun i hi => ?_⟩
      have := h3 i (by omega) (by omega)
      simp only [innerRanges, List.get_eq_getElem, List.getElem_zipWith] at this
      omega
    · rintro ⟨hx, h3⟩
      refine ⟨by omega, fun i hi hi' => ?_⟩
      have := h3 i (by omega)
      simp only [innerRanges, List.get_eq_getElem, List.getElem_zipWith]
      omega
  have hmem' : ∀ a, a ∈ accesses sorder (innerRanges w n) k v ↔ ∃ x : List Int,
      ∃ hx : x.length = n.length, (∀ i (hi : i < n.length), w[i] ≤ x[i] ∧ x[i] + w[i] < n[i]) ∧
      StoredAt sorder ((k : Int) :: List.zipWith (· + ·) x v) a := by
    intro a
    rw [hmem]
    constructor
    · rintro ⟨x, h2, h3⟩
      obtain ⟨hx, h4⟩ := (hin x).1 h2
      exact ⟨x, hx, h4, h3⟩
    · rintro ⟨x, hx, h4, h3⟩
      exact ⟨x, (hin x).2 ⟨hx, h4⟩, h3⟩
  refine ⟨hnd, hmem', fun hb a ha => ?_⟩
  obtain ⟨x, hx, h4, h3⟩ := (hmem' a).1 ha
  refine ⟨_, by rw [List.length_zipWith]; omega, fun i hi => ?_, h3⟩
  rw [List.getElem_zipWith]
  have h5 := h4 i hi
  have h6 := abs_le.1 (hb i hi)
  omega

/-- **C14 is false** for permuted space axes: with `sorder = [0, 2, 1]` and a `2 × 3` grid, the
loops access the index `(0, 0, 2)` of a memory array of shape `(1, 3, 2)`. -/
theorem C14_loops_negation :
    IsOrder [0, 2, 1] ∧ scatter [0, 2, 1] [1, 2, 3] = [1, 3, 2] ∧
      [0, 0, 2] ∈ accesses [0, 2, 1] (fullRanges [2, 3]) 0 [0, 0] :=
  ⟨by unfold IsOrder; decide, by decide, by decide +kernel⟩

example : IsOrder [2, 0, 1] ∧ [2, 0, 1].tail.Pairwise (· < ·) ∧
    accesses [2, 0, 1] (innerRanges [1, 1] [4, 4]) 3 [1, 0] = [[2, 1, 3], [2, 2, 3], [3, 1, 3], [3, 2, 3]] :=
  ⟨by unfold IsOrder; decide, by decide, by decide +kernel⟩

theorem mem_slice_pos (n w x : Nat) (hw : 0 < w) :
    x ∈ slice n w (-(w : Int)) ↔ w ≤ x ∧ x + w < n := by
  unfold slice sliceBound
  rw [if_pos (show -(w : Int) < 0 by omega), if_neg (show ¬ (w : Int) < 0 by omega)]
  simp only [List.mem_map, List.mem_range]
  constructor
  · rintro ⟨y, hy, rfl⟩; omega
  · intro hx
    exact ⟨x - w, by omega, by omega⟩

theorem nodup_slice (n : Nat) (a b : Int) : (slice n a b).Nodup := by
  unfold slice
  rw [List.nodup_map_iff (by intro a b h; simpa using h)]
  exact List.nodup_range

theorem interior_cons (n w x : Nat) (ns ws xs : List Nat) :
    Interior (n :: ns) (w :: ws) (x :: xs) ↔ (w ≤ x ∧ x + w < n) ∧ Interior ns ws xs := by
  constructor
  · rintro ⟨h1, h2⟩
    refine ⟨h2 0 n w x rfl rfl rfl, by simpa using h1, fun i n' w' y h3 h4 h5 => ?_⟩
    exact h2 (i + 1) n' w' y (by simpa using h3) (by simpa using h4) (by simpa using h5)
  · rintro ⟨h0, h1, h2⟩
    refine ⟨by simpa using h1, fun i n' w' y h3 h4 h5 => ?_⟩
    cases i with
    | zero => simp at h3 h4 h5; subst h3 h4 h5; exact h0
    | succ i => exact h2 i n' w' y (by simpa using h3) (by simpa using h4) (by simpa using h5)

/-- **C17, partial**: for positive halo widths the interior view has exactly the cells at
distance at least the width from the border, each once.  Missing: width 0, for which it is false
(see `C17_interior_negation`). -/
theorem C17_interior_partial (shape widths : List Nat) (hl : shape.length = widths.length)
    (hw : ∀ w ∈ widths, 0 < w) :
    (inCells shape widths).Nodup ∧ ∀ x, x ∈ inCells shape widths ↔ Interior shape widths x := by
  induction shape generalizing widths with
  | nil =>
    obtain rfl := List.eq_nil_of_length_eq_zero hl.symm
    refine ⟨by simp [inCells], fun x => ?_⟩
    simp only [inCells, List.mem_singleton]
    constructor
    · rintro rfl; exact ⟨rfl, fun i n w y h => by simp at h⟩
    · rintro ⟨h, _⟩; exact List.eq_nil_of_length_eq_zero h
  | cons n ns ih =>
    match widths, hl, hw with
    | w :: ws, hl, hw =>
      obtain ⟨h1, h2⟩ := ih ws (by simpa using hl) (fun w' hw' => hw w' (by simp [hw']))
      refine ⟨nodup_product _ _ (nodup_slice _ _ _) h1, fun x => ?_⟩
      simp only [inCells, List.mem_flatMap, List.mem_map, mem_slice_pos n w _ (hw w (by simp))]
      constructor
      · rintro ⟨y, hy, z, hz, rfl⟩
        exact (interior_cons n w y ns ws z).2 ⟨hy, (h2 z).1 hz⟩
      · intro hx
        match x, hx with
        | [], hx => exact absurd hx.1 (by simp)
        | y :: z, hx =>
          obtain ⟨hy, hz⟩ := (interior_cons n w y ns ws z).1 hx
          exact ⟨y, hy, z, (h2 z).2 hz, rfl⟩

/-- **C17 is false** for a halo of width 0 (a stencil without positive velocity in a direction):
the view is empty though all the cells are interior. -/
theorem C17_interior_negation :
    inCells [5] [0] = [] ∧ Interior [5] [0] [2] := by
  refine ⟨by decide, rfl, ?_⟩
  intro i n w y h1 h2 h3
  match i, h1, h2, h3 with
  | 0, h1, h2, h3 => simp at h1 h2 h3; omega
  | i + 1, h1, _, _ => simp at h1

/-- Extension of the negation: a width 0 on any axis makes the whole view empty. -/
theorem C17_interior_empty (shape widths : List Nat) (hl : shape.length = widths.length)
    (hw : 0 ∈ widths) : inCells shape widths = [] := by
  induction shape generalizing widths with
  | nil =>
    obtain rfl := List.eq_nil_of_length_eq_zero hl.symm
    simp at hw
  | cons n ns ih =>
    match widths, hl, hw with
    | w :: ws, hl, hw =>
      rcases List.mem_cons.1 hw with h0 | h0
      · subst h0
        have : slice n ((0 : Nat) : Int) (-((0 : Nat) : Int)) = [] := by
          simp [slice, sliceBound]
        simp only [inCells]
        rw [this]; rfl
      · simp [inCells, ih ws (by simpa using hl) h0]

example : inCells [5, 6] [1, 2] = [[1, 2], [1, 3], [2, 2], [2, 3], [3, 2], [3, 3]] := by decide

end Pylbm.Storage
