import Verif.Halo.Props
import Mathlib.Data.Finset.Sort
import Mathlib.Data.List.OfFn
import Mathlib.Tactic.FinCases
/-!
# C52: `pylbm/hdf5.py`

A process is given by its coordinates.  `K` is the type of the coordinates and `α` the type of the stored
values.  Messages are matched by source and tag: each process sends the components in order, and the root
receives them in order, so that the model takes the data of the sender directly.
-/

namespace Pylbm.Hdf5
open Halo Mpi

variable {dim : Nat} {K α : Type}

/-! ## Model -/

/-- The cumulated sizes, hdf5.py 121-124: `region.insert(0, 0)` and the loop adding the previous entry. -/
def cumul (sizes : List Nat) : List Nat :=
  (List.range' 1 sizes.length).foldl (fun r j => r.set j (r.getD j 0 + r.getD (j - 1) 0)) (0 :: sizes)

/-- `np.asarray` of a list of vectors, hdf5.py 117; `none` is the `ValueError` (inhomogeneous shape) of the
NumPy versions required by `environment.yml` (`numpy>=2`) for vectors of different lengths. -/
def asarray (rows : List (List K)) : Option (List (List K)) :=
  if rows.all fun r => r.length == (rows.headD []).length then some rows else none

/-- `comm.gather` on the root, for the communicator `Sub` of the direction `i` (hdf5.py 111-117): the
processes with the other coordinates 0, in the order of their coordinate `i`. -/
def gather {β : Type} (g : Grid dim) (i : Fin dim) (x : Proc g → β) : List β :=
  (List.finRange (g.p i)).map fun k => x (Function.update (fun j => ⟨0, g.hp j⟩) i k)

/-- What `set_grid` leaves on the root, hdf5.py 59-133: `region` and the datasets `x_i`. -/
structure GridInfo (K : Type) (dim : Nat) where
  region : Fin dim → List Nat
  globalSize : Fin dim → Nat
  coords : Fin dim → List K

/-- `set_grid` on the root; `x c i` is the vector of coordinates given by the process `c`. -/
def setGrid (g : Grid dim) (x : Proc g → Fin dim → List K) : Option (GridInfo K dim) :=
  if ∀ i, (asarray (gather g i fun c => x c i)).isSome then
    some
      { region := fun i => cumul (gather g i fun c => (x c i).length)
        globalSize := fun i => (gather g i fun c => (x c i).length).sum
        coords := fun i => ((asarray (gather g i fun c => x c i)).getD []).flatten }
  else none

/-- `_get_slice`, hdf5.py 135-152: first index and end in the direction `i`, before the reversal. -/
def getSlice {g : Grid dim} (G : GridInfo K dim) (c : Proc g) (i : Fin dim) : Nat × Nat :=
  ((G.region i).getD (c i) 0, (G.region i).getD ((c i : Nat) + 1) 0)

/-- Indices of a box. -/
def boxList (lo hi : Fin dim → Nat) : List (Fin dim → Nat) :=
  (List.finRange dim).foldr (fun i l => (List.range' (lo i) (hi i - lo i)).flatMap fun v =>
    l.map fun a => Function.update a i v) [fun _ => 0]

/-- Reversal of the axes. -/
def rev (a : Fin dim → Nat) : Fin dim → Nat := fun i => a i.rev

/-- `dset[ind] = data.T` for the process `c`, hdf5.py 177 and 188: the entries written, with their values.
Simplification: the shape of `data` is the one of the slice (else the assignment fails). -/
def writeBlock {g : Grid dim} (G : GridInfo K dim) (c : Proc g) (data : (Fin dim → Nat) → α) :
    List ((Fin dim → Nat) × α) :=
  let lo := fun i => (getSlice G c i).1
  (boxList (rev lo) (rev fun i => (getSlice G c i).2)).map fun a => (a, data (fun i => rev a i - lo i))

/-- `_set_dset`, hdf5.py 154-188, `ranks` are the coordinates of the ranks in order: entries written, in
order. -/
def setDset {g : Grid dim} (G : GridInfo K dim) (ranks : List (Proc g)) (data : Proc g → (Fin dim → Nat) → α) :
    List ((Fin dim → Nat) × α) :=
  ranks.flatMap fun c => writeBlock G c (data c)

/-- `add_vector`, hdf5.py 226-257: one more index for the component. -/
def addVector {g : Grid dim} (G : GridInfo K dim) (ranks : List (Proc g))
    (datas : List (Proc g → (Fin dim → Nat) → α)) : List (((Fin dim → Nat) × Nat) × α) :=
  datas.zipIdx.flatMap fun d => (setDset G ranks d.1).map fun e => ((e.1, d.2), e.2)

/-- Shape of the dataset of a vector, hdf5.py 249, and dimensions written in the XDMF file, hdf5.py
332-340. -/
def vectorShape (sizes : List Nat) : List Nat := sizes.reverse ++ [3]

@[inherit_doc vectorShape]
def vectorXdmf (sizes : List Nat) : List Nat := sizes.reverse ++ [sizes.length]

/-! ## Lemmas -/

theorem cumul_getD (sizes : List Nat) (k : Nat) (hk : k ≤ sizes.length) :
    (cumul sizes).getD k 0 = (sizes.take k).sum := by
  have key : ∀ m, m ≤ sizes.length → ∀ k, k ≤ sizes.length →
      ((List.range' 1 m).foldl (fun r j => r.set j (r.getD j 0 + r.getD (j - 1) 0)) (0 :: sizes)).length =
        sizes.length + 1 ∧
      ((List.range' 1 m).foldl (fun r j => r.set j (r.getD j 0 + r.getD (j - 1) 0)) (0 :: sizes)).getD k 0 =
        if k ≤ m then (sizes.take k).sum else (0 :: sizes).getD k 0 := by
    intro m
    induction m with
    | zero =>
      intro _ k _
      refine ⟨by simp, ?_⟩
      rcases Nat.eq_zero_or_pos k with h | h
      · subst h; simp
      · rw [if_neg (by omega)]; rfl
    | succ m ih =>
      intro hm k hk
      rw [List.range'_concat, List.foldl_append]
      simp only [List.foldl_cons, List.foldl_nil, Nat.one_mul]
      set r := (List.range' 1 m).foldl (fun r j => r.set j (r.getD j 0 + r.getD (j - 1) 0)) (0 :: sizes) with hr
      have ih' := ih (by omega)
      refine ⟨by rw [List.length_set]; exact (ih' 0 (by omega)).1, ?_⟩
      have hlen := (ih' 0 (by omega)).1
      rw [List.getD_eq_getElem?_getD, List.getElem?_set]
      by_cases hkm : 1 + m = k
      · subst hkm
        rw [if_pos rfl, if_pos (by omega), Option.getD_some, (ih' (1 + m) (by omega)).2,
          (ih' (1 + m - 1) (by omega)).2, if_neg (by omega), if_pos (by omega), if_pos (by omega)]
        rw [show 1 + m - 1 = m by omega, show 1 + m = m + 1 by omega, List.getD_cons_succ,
          List.take_succ_eq_append_getElem (by omega), List.sum_append, List.sum_singleton,
          List.getD_eq_getElem?_getD, List.getElem?_eq_getElem (by omega)]
        simp only [Option.getD_some]; omega
      · rw [if_neg hkm, ← List.getD_eq_getElem?_getD, (ih' k hk).2]
        by_cases h : k ≤ m
        · rw [if_pos h, if_pos (by omega)]
        · rw [if_neg h, if_neg (by omega)]
  have := (key sizes.length le_rfl k hk).2
  rw [if_pos hk] at this
  exact this

theorem start_eq (g : Grid dim) (i : Fin dim) (k : Nat) (hk : k ≤ g.p i) : start g i k = bound (g.N i) (g.p i) k := by
  unfold start
  rw [List.getD_eq_getElem?_getD, regionIndices_getElem? _ _ _ hk]; rfl

theorem size_eq (g : Grid dim) (c : Proc g) (i : Fin dim) :
    size g c i = bound (g.N i) (g.p i) (c i + 1) - bound (g.N i) (g.p i) (c i) := by
  unfold size
  rw [start_eq g i _ (by have := (c i).2; omega), start_eq g i _ (by have := (c i).2; omega)]

theorem gather_getElem {β : Type} (g : Grid dim) (i : Fin dim) (x : Proc g → β) (k : Nat) (hk : k < g.p i) :
    (gather g i x)[k]? = some (x (Function.update (fun j => ⟨0, g.hp j⟩) i ⟨k, hk⟩)) := by
  unfold gather
  rw [List.getElem?_map, List.getElem?_eq_getElem (by simpa using hk)]
  simp

theorem gather_length {β : Type} (g : Grid dim) (i : Fin dim) (x : Proc g → β) : (gather g i x).length = g.p i := by
  simp [gather]

theorem gather_sizes (g : Grid dim) (i : Fin dim) (x : Proc g → Fin dim → List K)
    (hx : ∀ c i, (x c i).length = size g c i) (k : Nat) (hk : k ≤ g.p i) :
    ((gather g i fun c => (x c i).length).take k).sum = bound (g.N i) (g.p i) k := by
  induction k with
  | zero => simp [bound]
  | succ k ih =>
    have hk' : k < (gather g i fun c => (x c i).length).length := by rw [gather_length]; omega
    rw [List.take_succ_eq_append_getElem hk', List.sum_append, List.sum_singleton, ih (by omega)]
    have h := gather_getElem g i (fun c => (x c i).length) k (by omega)
    rw [List.getElem?_eq_getElem hk', Option.some.injEq] at h
    rw [h, hx, size_eq, Function.update_self]
    have := bound_mono (g.N i) (g.p i) (Nat.le_succ k)
    simp only [Nat.succ_eq_add_one] at this ⊢
    omega

theorem mem_boxList (lo hi : Fin dim → Nat) (hle : ∀ i, lo i ≤ hi i) (a : Fin dim → Nat) :
    a ∈ boxList lo hi ↔ ∀ i, lo i ≤ a i ∧ a i < hi i := by
  unfold boxList
  have key : ∀ l : List (Fin dim), l.Nodup → ∀ a : Fin dim → Nat,
      a ∈ l.foldr (fun i l => (List.range' (lo i) (hi i - lo i)).flatMap fun v =>
        l.map fun a => Function.update a i v) [fun _ => 0] ↔
      (∀ i ∈ l, lo i ≤ a i ∧ a i < hi i) ∧ ∀ i, i ∉ l → a i = 0 := by
    intro l
    induction l with
    | nil =>
      intro _ a
      simp [funext_iff]
    | cons i l ih =>
      intro hnd a
      obtain ⟨hi', hnd'⟩ := List.nodup_cons.1 hnd
      simp only [List.foldr_cons, List.mem_flatMap, List.mem_map, List.mem_range'_1]
      constructor
      · rintro ⟨v, hv, b, hb, rfl⟩
        obtain ⟨h1, h2⟩ := (ih hnd' b).1 hb
        constructor
        · intro j hj
          rcases List.mem_cons.1 hj with rfl | hj
          · rw [Function.update_self]
            have := hle j; omega
          · have : j ≠ i := fun e => hi' (e ▸ hj)
            rw [Function.update_of_ne this]
            exact h1 j hj
        · intro j hj
          simp only [List.mem_cons, not_or] at hj
          rw [Function.update_of_ne hj.1]
          exact h2 j hj.2
      · rintro ⟨h1, h2⟩
        refine ⟨a i, ?_, Function.update a i 0, ?_, by simp⟩
        · have := h1 i (by simp); omega
        · rw [ih hnd']
          constructor
          · intro j hj
            have : j ≠ i := fun e => hi' (e ▸ hj)
            rw [Function.update_of_ne this]
            exact h1 j (by simp [hj])
          · intro j hj
            by_cases e : j = i
            · subst e; simp
            · rw [Function.update_of_ne e]
              exact h2 j (by simp [e, hj])
  rw [key _ (List.nodup_finRange dim)]
  simp

theorem nodup_boxList (lo hi : Fin dim → Nat) : (boxList lo hi).Nodup := by
  unfold boxList
  have key : ∀ l : List (Fin dim), l.Nodup →
      (l.foldr (fun i l => (List.range' (lo i) (hi i - lo i)).flatMap fun v =>
        l.map fun a => Function.update a i v) [fun _ => 0]).Nodup ∧
      ∀ a ∈ l.foldr (fun i l => (List.range' (lo i) (hi i - lo i)).flatMap fun v =>
        l.map fun a => Function.update a i v) [fun _ => 0], ∀ i, i ∉ l → a i = 0 := by
    intro l
    induction l with
    | nil => simp
    | cons i l ih =>
      intro hnd
      obtain ⟨hi', hnd'⟩ := List.nodup_cons.1 hnd
      obtain ⟨ih1, ih2⟩ := ih hnd'
      simp only [List.foldr_cons]
      constructor
      · rw [List.nodup_flatMap]
        constructor
        · intro v _
          apply List.Nodup.map_on _ ih1
          intro a ha b hb e
          funext j
          by_cases h : j = i
          · subst h; rw [ih2 a ha j hi', ih2 b hb j hi']
          · have := congrFun e j
            rwa [Function.update_of_ne h, Function.update_of_ne h] at this
        · refine (List.nodup_range' (step := 1)).imp ?_
          intro v w hvw
          rw [Function.onFun, List.disjoint_left]
          intro a ha hb
          obtain ⟨a', -, rfl⟩ := List.mem_map.1 ha
          obtain ⟨b', -, e⟩ := List.mem_map.1 hb
          have := congrFun e i
          rw [Function.update_self, Function.update_self] at this
          exact hvw this.symm
      · intro a ha j hj
        simp only [List.mem_flatMap, List.mem_map] at ha
        obtain ⟨v, -, b, hb, rfl⟩ := ha
        simp only [List.mem_cons, not_or] at hj
        rw [Function.update_of_ne hj.1]
        exact ih2 b hb j hj.2
  exact (key _ (List.nodup_finRange dim)).1

theorem rev_rev (a : Fin dim → Nat) : rev (rev a) = a := by
  funext i; simp [rev]

/-! ## C52 -/

theorem region_spec (g : Grid dim) (x : Proc g → Fin dim → List K) (hx : ∀ c i, (x c i).length = size g c i)
    (I : GridInfo K dim) (hI : setGrid g x = some I) (c : Proc g) (i : Fin dim) :
    getSlice I c i = (first g c i, first g c i + size g c i) := by
  unfold setGrid at hI
  split at hI
  · rw [Option.some.injEq] at hI
    subst hI
    have hc := (c i).2
    unfold getSlice
    simp only
    rw [cumul_getD _ _ (by rw [gather_length]; omega), cumul_getD _ _ (by rw [gather_length]; omega),
      gather_sizes g i x hx _ (by omega), gather_sizes g i x hx _ (by omega)]
    unfold first
    rw [start_eq g i _ (by omega), size_eq]
    have := bound_mono (g.N i) (g.p i) (Nat.le_succ (c i))
    rw [Nat.add_sub_cancel' this]
  · simp at hI

theorem owner (g : Grid dim) (y : Fin dim → Nat) (hy : ∀ i, y i < g.N i) :
    ∃! c : Proc g, ∀ i, first g c i ≤ y i ∧ y i < first g c i + size g c i := by
  have h : ∀ i, ∃ k : Fin (g.p i), bound (g.N i) (g.p i) k ≤ y i ∧ y i < bound (g.N i) (g.p i) (k + 1) := by
    intro i
    obtain ⟨k, hk, h1⟩ := exists_region (g.N i) (g.p i) (y i) (g.hp i) (hy i)
    exact ⟨⟨k, hk⟩, h1⟩
  choose c hc using h
  have hb : ∀ (c : Proc g) i, first g c i = bound (g.N i) (g.p i) (c i) ∧
      first g c i + size g c i = bound (g.N i) (g.p i) (c i + 1) := by
    intro c i
    have hc := (c i).2
    unfold first
    rw [start_eq g i _ (by omega), size_eq]
    have := bound_mono (g.N i) (g.p i) (Nat.le_succ (c i))
    exact ⟨rfl, Nat.add_sub_cancel' this⟩
  refine ⟨c, fun i => ?_, fun c' hc' => ?_⟩
  · rw [(hb c i).2, (hb c i).1]; exact hc i
  · funext i
    have := hc' i
    rw [(hb c' i).2, (hb c' i).1] at this
    exact Fin.ext (region_unique (g.N i) (g.p i) (y i) _ _ this (hc i))

theorem flatMap_filter_single {β γ : Type} (l : List β) (hnd : l.Nodup) (b : β) (hb : b ∈ l) (F : β → List γ)
    (P : γ → Bool) (h : ∀ b' ∈ l, b' ≠ b → (F b').filter P = []) :
    (l.flatMap F).filter P = (F b).filter P := by
  induction l with
  | nil => simp at hb
  | cons a l ih =>
    obtain ⟨ha, hnd'⟩ := List.nodup_cons.1 hnd
    rw [List.flatMap_cons, List.filter_append]
    by_cases e : a = b
    · subst e
      have : (l.flatMap F).filter P = [] := by
        rw [List.filter_flatMap, List.flatMap_eq_nil_iff]
        intro b' hb'
        exact h b' (by simp [hb']) (fun e => ha (e ▸ hb'))
      rw [this, List.append_nil]
    · rw [h a (by simp) e, List.nil_append]
      refine ih hnd' ?_ fun b' hb' hne => h b' (by simp [hb']) hne
      rcases List.mem_cons.1 hb with rfl | hb
      · exact absurd rfl e
      · exact hb

theorem filter_nodup {β γ : Type} [DecidableEq β] (l : List β) (hnd : l.Nodup) (F : β → γ) (b : β) :
    (l.map fun a => (a, F a)).filter (fun e => decide (e.1 = b)) = if b ∈ l then [(b, F b)] else [] := by
  induction l with
  | nil => simp
  | cons a l ih =>
    obtain ⟨ha, hnd'⟩ := List.nodup_cons.1 hnd
    rw [List.map_cons, List.filter_cons, ih hnd']
    by_cases e : a = b
    · subst e; simp [ha]
    · simp [e, Ne.symm e]

/-- **C52 (scalars).** When `set_grid` has succeeded, the entry `a` (axes reversed) of the dataset of
`add_scalar` is written exactly once in the bounds of the global grid, with the value of the global field there,
and nothing is written outside: for all process grids, all sizes, all orders of the ranks. -/
theorem C52_scalar (g : Grid dim) (x : Proc g → Fin dim → List K) (hx : ∀ c i, (x c i).length = size g c i)
    (I : GridInfo K dim) (hI : setGrid g x = some I) (ranks : List (Proc g)) (hnd : ranks.Nodup)
    (hall : ∀ c, c ∈ ranks) (F : (Fin dim → Nat) → α) (data : Proc g → (Fin dim → Nat) → α)
    (hdata : ∀ c z, (∀ i, z i < size g c i) → data c z = F fun i => first g c i + z i) (a : Fin dim → Nat) :
    (setDset I ranks data).filter (fun e => decide (e.1 = a)) =
      if ∀ i, a i < g.N i.rev then [(a, F fun i => a i.rev)] else [] := by
  have hslice := region_spec g x hx I hI
  have hblock : ∀ c, (writeBlock I c (data c)).filter (fun e => decide (e.1 = a)) =
      if ∀ i, first g c i ≤ a i.rev ∧ a i.rev < first g c i + size g c i then
        [(a, data c (fun i => a i.rev - first g c i))] else [] := by
    intro c
    unfold writeBlock
    simp only [hslice]
    rw [filter_nodup _ (nodup_boxList _ _)]
    have hm : a ∈ boxList (rev fun i => first g c i) (rev fun i => first g c i + size g c i) ↔
        ∀ i, first g c i ≤ a i.rev ∧ a i.rev < first g c i + size g c i := by
      rw [mem_boxList _ _ (fun i => by simp [rev])]
      constructor
      · intro h i
        have := h i.rev
        simpa [rev] using this
      · intro h i
        have := h i.rev
        simpa [rev] using this
    simp only [hm]
    rfl
  unfold setDset
  by_cases h : ∀ i, a i < g.N i.rev
  · rw [if_pos h]
    obtain ⟨c, hc, huniq⟩ := owner g (fun i => a i.rev) (fun i => by
      have := h i.rev
      simpa using this)
    rw [flatMap_filter_single ranks hnd c (hall c), hblock, if_pos hc, hdata c _ (fun i => by
      have := hc i; omega)]
    · congr 3
      funext i
      have := (hc i).1
      omega
    · intro c' _ hne
      rw [hblock, if_neg]
      intro hc'
      exact hne (huniq c' hc')
  · rw [if_neg h, List.filter_flatMap, List.flatMap_eq_nil_iff]
    intro c _
    rw [hblock, if_neg]
    intro hc
    apply h
    intro i
    have h1 := (hc i.rev).2
    rw [Fin.rev_rev] at h1
    have h2 : first g c i.rev + size g c i.rev ≤ g.N i.rev := by
      have hlt := (c i.rev).2
      unfold first
      rw [start_eq g _ _ (by omega), size_eq]
      have m1 := bound_mono (g.N i.rev) (g.p i.rev) (Nat.le_succ (c i.rev))
      have m2 := bound_mono (g.N i.rev) (g.p i.rev) hlt
      rw [bound_last _ _ (g.hp _)] at m2
      simp only [Nat.succ_eq_add_one] at m1 m2
      omega
    omega

/-- **C52 (vectors).** The same for each component of the dataset of `add_vector`. -/
theorem C52_vector (g : Grid dim) (x : Proc g → Fin dim → List K) (hx : ∀ c i, (x c i).length = size g c i)
    (I : GridInfo K dim) (hI : setGrid g x = some I) (ranks : List (Proc g)) (hnd : ranks.Nodup)
    (hall : ∀ c, c ∈ ranks) (datas : List (Proc g → (Fin dim → Nat) → α)) (F : Nat → (Fin dim → Nat) → α)
    (hdata : ∀ j (hj : j < datas.length) c z, (∀ i, z i < size g c i) →
      datas[j] c z = F j fun i => first g c i + z i) (a : Fin dim → Nat) (j : Nat) :
    (addVector I ranks datas).filter (fun e => decide (e.1 = (a, j))) =
      if j < datas.length ∧ ∀ i, a i < g.N i.rev then [((a, j), F j fun i => a i.rev)] else [] := by
  have hblock : ∀ d : (Proc g → (Fin dim → Nat) → α) × Nat,
      ((setDset I ranks d.1).map fun e => ((e.1, d.2), e.2)).filter (fun e => decide (e.1 = (a, j))) =
        if d.2 = j then ((setDset I ranks d.1).filter (fun e => decide (e.1 = a))).map fun e => ((e.1, d.2), e.2)
        else [] := by
    intro d
    rw [List.filter_map]
    split
    · next h =>
      congr 2
      funext e
      simp [h]
    · next h =>
      rw [List.map_eq_nil_iff, List.filter_eq_nil_iff]
      intro e _
      simp [h]
  unfold addVector
  have hzip : datas.zipIdx.Nodup := by
    have : (datas.zipIdx.map Prod.snd).Nodup := by
      rw [List.zipIdx_map_snd]
      exact List.nodup_range'
    exact List.Nodup.of_map _ this
  by_cases hj : j < datas.length
  · have hmem : (datas[j], j) ∈ datas.zipIdx := by
      rw [List.mk_mem_zipIdx_iff_getElem?]
      exact List.getElem?_eq_getElem hj
    rw [flatMap_filter_single _ hzip (datas[j], j) hmem, hblock, if_pos rfl,
      C52_scalar g x hx I hI ranks hnd hall (F j) datas[j] (hdata j hj)]
    · by_cases h : ∀ i, a i < g.N i.rev
      · rw [if_pos h, if_pos ⟨hj, h⟩]; rfl
      · rw [if_neg h, if_neg fun h' => h h'.2]; rfl
    · rintro ⟨d, k⟩ hd hne
      rw [hblock, if_neg]
      rintro rfl
      rw [List.mk_mem_zipIdx_iff_getElem?] at hd
      apply hne
      rw [List.getElem?_eq_getElem hj, Option.some.injEq] at hd
      rw [hd]
  · rw [if_neg fun h => hj h.1, List.filter_flatMap, List.flatMap_eq_nil_iff]
    rintro ⟨d, k⟩ hd
    rw [hblock, if_neg]
    rintro rfl
    rw [List.mk_mem_zipIdx_iff_getElem?] at hd
    exact hj (List.getElem?_eq_some_iff.1 hd).1

/-- **C52 (coordinates, partial).** When the numbers of cells are multiples of the numbers of processes,
`set_grid` succeeds, and the datasets `x_i` are the global coordinates.  Missing: the other sizes, for which it
fails (`C52_ragged_negation`). -/
theorem C52_grid_partial (g : Grid dim) (hdiv : ∀ i, g.p i ∣ g.N i) (X : Fin dim → Nat → K)
    (x : Proc g → Fin dim → List K)
    (hx : ∀ c i, x c i = (List.range (size g c i)).map fun k => X i (first g c i + k)) :
    ∃ I, setGrid g x = some I ∧ (∀ i, I.globalSize i = g.N i) ∧
      ∀ i, I.coords i = (List.range (g.N i)).map (X i) := by
  have hxl : ∀ c i, (x c i).length = size g c i := by intro c i; rw [hx]; simp
  have hsz : ∀ c i, size g c i = g.N i / g.p i := by
    intro c i
    rw [size_eq, bound_succ, Nat.mod_eq_zero_of_dvd (hdiv i)]
    simp
  have hasarray : ∀ i, asarray (gather g i fun c => x c i) = some (gather g i fun c => x c i) := by
    intro i
    unfold asarray
    rw [if_pos]
    rw [List.all_eq_true]
    intro r hr
    have key : ∀ r ∈ gather g i (fun c => x c i), r.length = g.N i / g.p i := by
      intro r hr
      obtain ⟨k, -, rfl⟩ := List.mem_map.1 hr
      rw [hxl, hsz]
    have hp := g.hp i
    obtain ⟨r0, l, hl⟩ : ∃ r0 l, gather g i (fun c => x c i) = r0 :: l := by
      rcases h : gather g i (fun c => x c i) with _ | ⟨r0, l⟩
      · have := gather_length g i (fun c => x c i)
        rw [h] at this
        simp at this
        omega
      · exact ⟨r0, l, rfl⟩
    rw [key r hr, hl, List.headD_cons, key r0 (by rw [hl]; simp)]
    simp
  refine ⟨_, if_pos fun i => by rw [hasarray]; rfl, fun i => ?_, fun i => ?_⟩
  · have := gather_sizes g i x hxl (g.p i) le_rfl
    rw [List.take_of_length_le (by rw [gather_length]), bound_last _ _ (g.hp i)] at this
    exact this
  · simp only [hasarray, Option.getD_some]
    have key : ∀ k, k ≤ g.p i → ((gather g i fun c => x c i).take k).flatten =
        (List.range (bound (g.N i) (g.p i) k)).map (X i) := by
      intro k
      induction k with
      | zero => intro _; simp [bound]
      | succ k ih =>
        intro hk
        have hk' : k < (gather g i fun c => x c i).length := by rw [gather_length]; omega
        have h := gather_getElem g i (fun c => x c i) k (by omega)
        rw [List.getElem?_eq_getElem hk', Option.some.injEq] at h
        rw [List.take_succ_eq_append_getElem hk', List.flatten_append, ih (by omega), h, hx]
        have hsize : size g (Function.update (fun j => ⟨0, g.hp j⟩ : Proc g) i ⟨k, by omega⟩) i =
            bound (g.N i) (g.p i) (k + 1) - bound (g.N i) (g.p i) k := by
          rw [size_eq, Function.update_self]
        have hfirst : first g (Function.update (fun j => ⟨0, g.hp j⟩ : Proc g) i ⟨k, by omega⟩) i =
            bound (g.N i) (g.p i) k := by
          unfold first
          rw [Function.update_self, start_eq g i _ (by simp; omega)]
        rw [hsize, hfirst]
        have hm := bound_mono (g.N i) (g.p i) (Nat.le_succ k)
        simp only [Nat.succ_eq_add_one] at hm
        conv_rhs => rw [show bound (g.N i) (g.p i) (k + 1) =
          bound (g.N i) (g.p i) k + (bound (g.N i) (g.p i) (k + 1) - bound (g.N i) (g.p i) k) by omega]
        rw [List.range_add, List.map_append]
        simp
    have := key (g.p i) le_rfl
    rw [List.take_of_length_le (by rw [gather_length]), bound_last _ _ (g.hp i)] at this
    exact this

/-- **C52 (negation: ragged decompositions).** `set_grid` fails whenever the number of cells in a direction is
not a multiple of the number of processes. -/
theorem C52_ragged_negation (g : Grid dim) (x : Proc g → Fin dim → List K)
    (hx : ∀ c i, (x c i).length = size g c i) (i : Fin dim) (hndvd : ¬ g.p i ∣ g.N i) : setGrid g x = none := by
  unfold setGrid
  rw [if_neg]
  intro h
  have hi := h i
  unfold asarray at hi
  split at hi
  · next hall =>
    rw [List.all_eq_true] at hall
    have hmod : 0 < g.N i % g.p i := Nat.pos_of_ne_zero fun e => hndvd (Nat.dvd_of_mod_eq_zero e)
    have hlt := Nat.mod_lt (g.N i) (g.hp i)
    have g0 := gather_getElem g i (fun c => x c i) 0 (g.hp i)
    have g1 := gather_getElem g i (fun c => x c i) (g.p i - 1) (by omega)
    have e := hall _ (List.mem_of_getElem? g1)
    have hhead : (gather g i fun c => x c i).headD [] = x (Function.update (fun j => ⟨0, g.hp j⟩) i ⟨0, g.hp i⟩) i := by
      rw [List.headD_eq_head?_getD, List.head?_eq_getElem?, g0]; rfl
    rw [hhead, beq_iff_eq, hx, hx, size_eq, size_eq, Function.update_self, Function.update_self, bound_succ, bound_succ,
      if_neg (by simp; omega), if_pos (by simpa using hmod)] at e
    simp at e
  · simp at hi

/-- Five cells on two processes. -/
example : ∃ g : Grid 1, g.N 0 = 5 ∧ g.p 0 = 2 ∧ ¬ g.p 0 ∣ g.N 0 :=
  ⟨⟨fun _ => 5, fun _ => 2, fun _ => 1, fun _ => by decide⟩, rfl, rfl, by decide⟩

/-- **C52** (size of the dataset): with at most three components, the entries written by `add_vector` are inside the
dataset which it has created, which has one index for each direction, in the opposite order, and one for the component. -/
theorem C52_vector_inside (g : Grid dim) (x : Proc g → Fin dim → List K) (hx : ∀ c i, (x c i).length = size g c i)
    (I : GridInfo K dim) (hI : setGrid g x = some I) (ranks : List (Proc g)) (hnd : ranks.Nodup)
    (hall : ∀ c, c ∈ ranks) (datas : List (Proc g → (Fin dim → Nat) → α)) (F : Nat → (Fin dim → Nat) → α)
    (hdata : ∀ j (hj : j < datas.length) c z, (∀ i, z i < size g c i) →
      datas[j] c z = F j fun i => first g c i + z i) (hd : datas.length ≤ 3)
    (e : ((Fin dim → Nat) × Nat) × α) (he : e ∈ addVector I ranks datas) :
    List.Forall₂ (· < ·) (List.ofFn e.1.1 ++ [e.1.2]) (vectorShape (List.ofFn I.globalSize)) := by
  have h := C52_vector g x hx I hI ranks hnd hall datas F hdata e.1.1 e.1.2
  have hm : e ∈ (addVector I ranks datas).filter (fun e' => decide (e'.1 = (e.1.1, e.1.2))) := by
    rw [List.mem_filter]; exact ⟨he, by simp⟩
  rw [h] at hm
  split at hm
  · next hin =>
    have hN : ∀ i, I.globalSize i = g.N i := by
      intro i
      have h2 : I.globalSize i = (gather g i fun c => (x c i).length).sum := by
        unfold setGrid at hI
        split at hI <;> cases hI
        rfl
      have := gather_sizes g i x hx (g.p i) le_rfl
      rw [List.take_of_length_le (by rw [gather_length]), bound_last _ _ (g.hp i)] at this
      rw [h2, this]
    unfold vectorShape
    refine List.rel_append ?_ (List.Forall₂.cons (by omega) List.Forall₂.nil)
    rw [List.forall₂_iff_get]
    refine ⟨by simp, fun k h1 h2 => ?_⟩
    have hk : k < dim := by simpa using h1
    have := hin.2 ⟨k, hk⟩
    simp only [List.get_eq_getElem, List.getElem_ofFn, List.getElem_reverse, List.length_ofFn, hN]
    convert this using 2
    ext
    simp [Fin.val_rev]
    omega
  · cases hm

/-- **C52 (negation: description of the vectors).** The XDMF file describes the vectors with as many components as there
are directions, while the dataset has three: the two agree in dimension 3 only. -/
theorem C52_xdmf_negation (sizes : List Nat) : vectorXdmf sizes = vectorShape sizes ↔ sizes.length = 3 := by
  simp [vectorXdmf, vectorShape]

/-- A case for `C52_scalar`: 2 x 2 processes on 4 x 6 cells. -/
def demo : Grid 2 := ⟨![4, 6], ![2, 2], fun _ => 1, by decide⟩

/-- The four processes. -/
def demoRanks : List (Proc demo) :=
  (List.range 4).map fun (r : Nat) (i : Fin 2) => ⟨[r / 2 % 2, r % 2].getD i 0, by
    fin_cases i <;> simp [demo] <;> omega⟩

example : (∀ i, demo.p i ∣ demo.N i) ∧ demoRanks.Nodup ∧ (∀ c : Proc demo, c ∈ demoRanks) ∧
    ((setDset (g := demo) ⟨![[0, 2, 4], [0, 3, 6]], ![4, 6], fun _ => ([] : List Nat)⟩ demoRanks
      fun c z => 10 * (first demo c 0 + z 0) + (first demo c 1 + z 1)).filter
        (fun e => decide (e.1 = ![5, 2]))).map (fun e => e.2) = [25] := by
  refine ⟨by decide, by decide +kernel, by decide +kernel, by decide +kernel⟩

/-- The two components of a vector, on the four processes. -/
example : ∃ I, setGrid demo (fun c i => (List.range (size demo c i)).map fun k => first demo c i + k) = some I ∧
    ∀ e ∈ addVector I demoRanks [fun c z => first demo c 0 + z 0, fun c z => first demo c 1 + z 1],
      List.Forall₂ (· < ·) (List.ofFn e.1.1 ++ [e.1.2]) (vectorShape (List.ofFn I.globalSize)) := by
  obtain ⟨I, hI, -⟩ := C52_grid_partial demo (by decide) (fun _ k => k)
    (fun c i => (List.range (size demo c i)).map fun k => first demo c i + k) fun c i => rfl
  refine ⟨I, hI, fun e he => C52_vector_inside demo _ (fun c i => by simp) I hI demoRanks (by decide +kernel)
    (by decide +kernel) _ (fun j z => if j = 0 then z 0 else z 1) (fun j hj c z _ => ?_) (by simp) e he⟩
  obtain rfl | rfl : j = 0 ∨ j = 1 := by simp at hj; omega
  all_goals rfl

end Pylbm.Hdf5
