import Verif.Boundary.MemorySpec
import Verif.Boundary.Witness
import Verif.Storage.Props
import Verif.Stencil.Props
/-!
# C94: the generated functions stay inside the arrays

The Cython modules are compiled with `boundscheck=False` and `wraparound=False` (generator/codegen.py 1030-1048): an index
outside an array is not detected, it reads or overwrites other memory.
-/
namespace Pylbm.Boundary
open Domain Storage StorageSpec MemorySpec

section model
variable {K : Type} {dim : Nat} [Field K] [LinearOrder K] (s : Sten dim)

/-- The index of `f` in the generated functions of the boundary conditions, boundary.py 447-459 and the same lines of the
other classes: `indexed("f", [ns, nx, ny, nz], index=[…[idx, k] for k in range(dim + 1)], priority=sorder)`, with the row
`(k, c)` of `istore` or `iload`. -/
def bcIndex (sorder : List Nat) {ns : Nat} (k : Fin ns) (c : Cell dim) : List Int :=
  setOrder (((k : Nat) : Int) :: List.ofFn c) sorder

/-- The indices of one assignment: the stored one, then the loaded ones (`set_iload` of each class, boundary.py 411-420,
495-531, 640-650, 700-735, 785-797, 842-895; `value_congr` shows that the assigned value uses these ones only). -/
def itemAccesses (sorder : List Nat) (m : Method dim) (it : Item K dim s.ns) : List (List Int) :=
  bcIndex sorder it.k it.cell :: (reads s m it).map fun p => bcIndex sorder p.1 p.2

/-- The indices of `f` (or `fcopy`, of the same shape) in the generated functions of all the instances. -/
def bcAccesses (sorder : List Nat) (I : List (Method dim × List (Item K dim s.ns))) : List (List Int) :=
  I.flatMap fun p => p.2.flatMap (itemAccesses s sorder p.1)

end model

/-- The shape of the memory of `ns` functions on `n` cells, storage.py 100-106. -/
def memShape (sorder : List Nat) (ns : Nat) (n : List Nat) : List Nat := scatter sorder (logicalShape ns n)

/-- The order of the storage does not change whether an index is inside. -/
theorem inMemory_setOrder (sorder : List Nat) (h : IsOrder sorder) (shape : List Nat) (l : List Int)
    (hs : shape.length = sorder.length) (hl : l.length = sorder.length) :
    InMemory (scatter sorder shape) (setOrder l sorder) ↔ InMemory shape l := by
  rw [scatter_eq_setOrder h shape hs]
  unfold InMemory
  rw [setOrder_eq h shape hs 0, setOrder_eq h l hl 0, List.forall₂_map_left_iff,
    List.forall₂_map_right_iff, List.forall₂_same, List.forall₂_iff_get]
  constructor
  · intro hall
    refine ⟨by omega, fun i h1 h2 => ?_⟩
    have hi : i < sorder.length := by omega
    have := hall (sorder[i]) (List.mem_range.2 (order_get_lt h hi))
    rw [order_idx_get h hi, getD_eq _ _ h1, getD_eq _ _ h2] at this
    exact this
  · rintro ⟨-, hall⟩ j hj
    have hj' := List.mem_range.1 hj
    have hi := order_idx h hj'
    have := hall (sorder.idxOf j) (by omega) (by omega)
    rw [getD_eq _ _ (by omega), getD_eq _ _ (by omega)]
    exact this

theorem inMemory_cell {dim ns : Nat} (n : Fin dim → Nat) (k : Fin ns) (c : Cell dim) :
    InMemory (ns :: List.ofFn n) (((k : Nat) : Int) :: List.ofFn c) ↔ ∀ j, 0 ≤ c j ∧ c j < n j := by
  unfold InMemory
  rw [List.forall₂_cons, List.forall₂_iff_get]
  constructor
  · rintro ⟨-, -, h⟩ j
    simpa using h j (by simp) (by simp)
  · intro h
    refine ⟨⟨by omega, by exact_mod_cast k.isLt⟩, by simp, fun i h1 h2 => ?_⟩
    have hi : i < dim := by simpa using h1
    simpa using h ⟨i, hi⟩

theorem inMemory_bcIndex {dim ns : Nat} (sorder : List Nat) (h : IsOrder sorder) (hd : sorder.length = dim + 1)
    (n : Fin dim → Nat) (k : Fin ns) (c : Cell dim) :
    InMemory (memShape sorder ns (List.ofFn n)) (bcIndex sorder k c) ↔ ∀ j, 0 ≤ c j ∧ c j < n j := by
  unfold memShape bcIndex logicalShape
  rw [inMemory_setOrder sorder h _ _ (by simp [hd]) (by simp [hd]), inMemory_cell]

/-- **C94, boundary conditions.** On a domain built from any list of elements, with any methods and any values, and in any
storage order, the generated functions of the boundary conditions read and write inside the array of the distribution
functions, when no label is 999. -/
theorem C94_boundary {K : Type} [Field K] [LinearOrder K] [IsStrictOrderedRing K] [FloorRing K] {dim : Nat}
    (s : Sten dim) (hs : s.WF) (g : Grid K dim s.nu) (elems : List (Elem K dim)) (st : State K dim s.nu)
    (labels : List Int) (dico : Int → Option (List (Nat × Method dim)))
    (I : List (Method dim × List (Item K dim s.ns))) (h : OnDomain s g elems st labels dico I)
    (h999 : (999 : Int) ∉ labels) (sorder : List Nat) (ho : IsOrder sorder) (hd : sorder.length = dim + 1) :
    ∀ a ∈ bcAccesses s sorder I, InMemory (memShape sorder s.ns (List.ofFn g.total)) a := by
  intro a ha
  obtain ⟨p, hp, ha⟩ := List.mem_flatMap.1 ha
  obtain ⟨it, hit, ha⟩ := List.mem_flatMap.1 ha
  have hq : (p.1, it) ∈ flat s I := by
    unfold flat
    exact List.mem_flatMap.2 ⟨p, hp, List.mem_map.2 ⟨it, hit, rfl⟩⟩
  obtain ⟨hint, htar, -⟩ := h.item hs h999 hq
  have hhalo : ∀ j, -(g.h j : Int) ≤ s.vel it.k j ∧ s.vel it.k j ≤ g.h j := by
    intro j
    have := h.wf.halo (s.ux it.k) j
    rw [h.vel] at this
    exact abs_le.1 this
  have hsrc : ∀ j, (g.h j : Int) ≤ it.cell j + s.vel it.k j ∧ it.cell j + s.vel it.k j < g.h j + g.n j := hint
  have htot : ∀ j, ((g.total j : Nat) : Int) = g.n j + 2 * g.h j := by
    intro j; simp [Grid.total]
  have h0 : ∀ j, 0 ≤ it.cell j ∧ it.cell j < g.total j := by
    intro j; have := hsrc j; have := hhalo j; rw [htot]; omega
  have h1 : ∀ j, 0 ≤ inner s 1 it.toEntry j ∧ inner s 1 it.toEntry j < g.total j := by
    intro j; have := hsrc j; have := hhalo j; rw [htot]; simp only [inner]; omega
  have h2 : ∀ j, 0 ≤ inner s 2 it.toEntry j ∧ inner s 2 it.toEntry j < g.total j := by
    intro j; have := hsrc j; have := hhalo j; rw [htot]; simp only [inner]; omega
  have key : ∀ q : Fin s.ns × Cell dim, q ∈ (it.k, it.cell) :: reads s p.1 it →
      ∀ j, 0 ≤ q.2 j ∧ q.2 j < g.total j := by
    intro q hq
    rcases List.mem_cons.1 hq with rfl | hq
    · exact h0
    · cases hm : p.1 <;> rw [hm] at hq <;>
        simp only [reads, List.mem_cons, List.not_mem_nil, or_false] at hq
      · rw [hq]; exact h1
      · rcases hq with rfl | rfl
        · exact h1
        · split
          · exact h2
          · exact h1
      · rw [hq]; exact h1
      · rcases hq with rfl | rfl
        · exact h1
        · split
          · exact h2
          · exact h1
      · rw [hq]; exact h1
      · rw [hq]
        intro j
        have := hsrc j; have := hhalo j; have := h0 j
        dsimp only
        split
        · rw [htot]; omega
        · simpa using h0 j
  unfold itemAccesses at ha
  rcases List.mem_cons.1 ha with rfl | ha
  · exact (inMemory_bcIndex sorder ho hd _ _ _).2 h0
  · obtain ⟨q, hq, rfl⟩ := List.mem_map.1 ha
    exact (inMemory_bcIndex sorder ho hd _ _ _).2 (key q (List.mem_cons_of_mem _ hq))

/-- A case for `C94_boundary`: the box with an obstacle, with the velocities stored last and the axes swapped. -/
example : IsOrder [2, 1, 0] ∧
    ((bcAccesses sten25 [2, 1, 0] (prepareAll sten25 boxGrid boxWall boxInsts)).length = 36) ∧
    ∀ a ∈ bcAccesses sten25 [2, 1, 0] (prepareAll sten25 boxGrid boxWall boxInsts),
      InMemory (memShape [2, 1, 0] 5 (List.ofFn boxGrid.total)) a :=
  ⟨by unfold IsOrder; decide, by decide +kernel,
    C94_boundary sten25 sten25_wf boxGrid _ _ _ _ _ box_onDomain (by decide) _ (by unfold IsOrder; decide) rfl⟩

/-- **C94 is false with the label 999**: the border cells of the array carry this value too, and the functions generated
for the label write before the beginning of the array. -/
theorem C94_label_999_negation : ∃ (st : State ℚ 1 3) (insts : List (Method 1 × List (Entry ℚ 1 3))),
    build (lineGrid 3 999 0) [] = some st ∧
    instances sten13 (lineGrid 3 999 0).total st.link [0, 999] (fun _ => some [(0, .bounceBack)]) = some insts ∧
    ∃ a ∈ bcAccesses sten13 [0, 1] (prepareAll sten13 (lineGrid 3 999 0) (fun _ => none) insts),
      ¬ InMemory (memShape [0, 1] 3 (List.ofFn (lineGrid 3 999 0).total)) a := by
  refine ⟨(build (lineGrid 3 999 0) []).get (by decide +kernel),
    (instances sten13 (lineGrid 3 999 0).total
      ((build (lineGrid 3 999 0) []).get (by decide +kernel)).link [0, 999]
      (fun _ => some [(0, .bounceBack)])).get (by decide +kernel), (Option.some_get _).symm,
    (Option.some_get _).symm, [1, -1], by decide +kernel, ?_⟩
  intro hc
  have h : ∀ (A B : Nat), memShape [0, 1] 3 (List.ofFn (lineGrid 3 999 0).total) = [3, 5] := by
    intro _ _; decide +kernel
  rw [h 0 0] at hc
  unfold InMemory at hc
  simp at hc

/-- When the order permutes the space axes, a loop variable takes a value too large for its axis. -/
theorem permuted_iteration (sorder : List Nat) (h : IsOrder sorder) (h1 : 1 ≤ sorder.length)
    (hns : ¬ sorder.tail.Pairwise (· < ·)) :
    ∃ (n : List Nat) (vals : List Int) (q : Nat), n.length + 1 = sorder.length ∧ vals.length = n.length ∧
      vals ∈ iterations (spaceIdx (fullRanges (n.map fun m : Nat => (m : Int))) sorder.tail) ∧
      n[q]? = some 1 ∧ vals[q]? = some 1 := by
  have hnd : sorder.tail.Nodup := (order_nodup h).sublist (List.tail_sublist _)
  have hne : argsort sorder.tail ≠ List.range sorder.tail.length :=
    fun he => hns (sorted_of_argsort_range _ hnd he)
  set t := sorder.tail with ht
  have hperm := argsort_perm t
  have hlen : (argsort t).length = t.length := by rw [hperm.length_eq]; simp
  have htl : t.length + 1 = sorder.length := by rw [ht, List.length_tail]; omega
  obtain ⟨q, hq, hqne⟩ : ∃ q, ∃ hq : q < (argsort t).length, (argsort t)[q] ≠ q := by
    by_contra hall
    push Not at hall
    apply hne
    apply List.ext_getElem
    · simp [hlen]
    · intro i hi1 hi2
      rw [hall i hi1]; simp
  set p := (argsort t)[q] with hp
  have hpl : p < t.length := List.mem_range.1 (hperm.mem_iff.1 (List.getElem_mem hq))
  set n : List Nat := (List.replicate t.length 1).set p 2 with hn
  have hnl : n.length = t.length := by simp [hn]
  have hnget : ∀ i (hi : i < n.length), n[i] = if i = p then 2 else 1 := by
    intro i hi
    simp only [hn, List.getElem_set, List.getElem_replicate, eq_comm]
  set vals : List Int := (List.replicate t.length (0 : Int)).set q 1 with hvals
  have hvl : vals.length = t.length := by simp [hvals]
  refine ⟨n, vals, q, by omega, by omega, ?_, ?_, ?_⟩
  · rw [mem_iterations]
    unfold spaceIdx setOrder
    have hget : ∀ i ∈ argsort t, ((fullRanges (n.map fun m : Nat => (m : Int))).zipIdx.map
        fun p : (Int × Int) × Nat => (⟨p.2, p.1.1, p.1.2⟩ : Idx))[i]? = some ⟨i, 0, (n.getD i 0 : Nat)⟩ := by
      intro i hi
      have hi' : i < n.length := by rw [hnl]; exact List.mem_range.1 (hperm.mem_iff.1 hi)
      rw [List.getElem?_eq_getElem (by simpa [fullRanges] using hi')]
      simp [fullRanges, List.getElem_zipIdx, List.getElem?_eq_getElem hi']
    have hfm : (argsort t).filterMap (fun i => ((fullRanges (n.map fun m : Nat => (m : Int))).zipIdx.map
        fun p : (Int × Int) × Nat => (⟨p.2, p.1.1, p.1.2⟩ : Idx))[i]?) =
          (argsort t).map fun i => ⟨i, 0, (n.getD i 0 : Nat)⟩ := by
      rw [List.filterMap_congr (fun i hi => hget i hi)]
      exact List.filterMap_eq_map (f := fun i => (⟨i, 0, (n.getD i 0 : Nat)⟩ : Idx)) ▸ rfl
    rw [hfm, List.forall₂_map_left_iff, List.forall₂_iff_get]
    refine ⟨by omega, fun i hi1 hi2 => ?_⟩
    simp only [List.get_eq_getElem]
    have hai : (argsort t)[i] < n.length := by
      rw [hnl]; exact List.mem_range.1 (hperm.mem_iff.1 (List.getElem_mem hi1))
    rw [getD_eq _ _ hai, hnget]
    simp only [hvals, List.getElem_set, List.getElem_replicate]
    by_cases hqi : q = i
    · subst hqi
      simp [← hp]
    · simp only [hqi, if_false]
      split <;> simp
  · have hqn : q < n.length := by omega
    rw [List.getElem?_eq_getElem hqn, hnget q hqn, if_neg (fun hc => hqne hc.symm)]
  · rw [List.getElem?_eq_getElem (by omega)]
    simp [hvals]

/-- The order `sorder` is safe: the loops over the whole array stay inside it. -/
def LoopsInside (sorder : List Nat) : Prop :=
  ∀ (ns k : Nat) (n : List Nat), k < ns → n.length + 1 = sorder.length →
    ∀ a ∈ accesses sorder (fullRanges (n.map fun m : Nat => (m : Int))) k (n.map fun _ => 0),
      InMemory (memShape sorder ns n) a

/-- **C94, loops of the kernels.** The loops over all the cells (`m2f`, `f2m`, `equilibrium`, `relaxation`, `source`) stay
inside the array for all the sizes if and only if the storage keeps the space axes in increasing order. -/
theorem C94_loops_iff (sorder : List Nat) (h : IsOrder sorder) (h1 : 1 ≤ sorder.length) :
    LoopsInside sorder ↔ sorder.tail.Pairwise (· < ·) := by
  constructor
  · intro hc
    by_contra hns
    obtain ⟨n, vals, q, hn, hvl, hit, hq1, hq2⟩ := permuted_iteration sorder h h1 hns
    have := hc 1 0 n (by omega) hn (setOrder (0 :: vals) sorder) (by
      unfold accesses
      refine List.mem_map.2 ⟨vals, hit, ?_⟩
      rw [show List.zipWith (· + ·) vals (n.map fun _ => (0 : Int)) = vals from by
        apply List.ext_getElem
        · simp [hvl]
        · intro i h1 h2; simp]
      rfl)
    rw [memShape, inMemory_setOrder sorder h _ _ (by simp [logicalShape]; omega) (by simp; omega)] at this
    unfold InMemory logicalShape at this
    rw [List.forall₂_cons] at this
    obtain ⟨hqn, e1⟩ := List.getElem?_eq_some_iff.1 hq1
    obtain ⟨hqv, e2⟩ := List.getElem?_eq_some_iff.1 hq2
    have h3 := (List.forall₂_iff_get.1 this.2).2 q hqn hqv
    simp only [List.get_eq_getElem, e1, e2] at h3
    omega
  · intro hinc ns k n hk hn a ha
    obtain ⟨_, hmem⟩ := C14_loops_exact_partial sorder h h1 hinc (fullRanges (n.map fun m : Nat => (m : Int)))
      (by simp [fullRanges]; omega) k (n.map fun _ => 0) (by simpa using hn)
    obtain ⟨x, hx, hst⟩ := (hmem a).1 ha
    rw [List.take_of_length_le (by simp [fullRanges])] at hx
    have hxl : x.length = n.length := by
      have := hx.length_eq; simp only [fullRanges, List.length_map] at this; omega
    rw [show List.zipWith (· + ·) x (n.map fun _ => (0 : Int)) = x from by
      apply List.ext_getElem
      · simp [hxl]
      · intro i h1 h2; simp] at hst
    rw [(storedAt_iff sorder h _ _ (by simp; omega)).1 hst, memShape,
      inMemory_setOrder sorder h _ _ (by simp [logicalShape]; omega) (by simp; omega)]
    unfold InMemory logicalShape
    refine .cons ⟨by omega, by exact_mod_cast hk⟩ ?_
    unfold InRanges fullRanges at hx
    rw [List.map_map, List.forall₂_map_left_iff] at hx
    exact hx

example : IsOrder [3, 0, 1, 2] ∧ [3, 0, 1, 2].tail.Pairwise (· < ·) ∧ IsOrder [0, 2, 1] ∧
    ¬ [0, 2, 1].tail.Pairwise (· < ·) ∧ memShape [3, 0, 1, 2] 19 [4, 5, 6] = [4, 5, 6, 19] :=
  ⟨by unfold IsOrder; decide, by decide, by unfold IsOrder; decide, by decide, by decide⟩

/-- The velocity `v` is safe with the halo `w`: the loop of the transport, over the cells at distance at least `w` from the
borders, reads inside the array. -/
def TransportInside (sorder : List Nat) (w v : List Int) : Prop :=
  ∀ (ns k : Nat) (n : List Nat), k < ns → n.length + 1 = sorder.length →
    ∀ a ∈ accesses sorder (innerRanges w (n.map fun m : Nat => (m : Int))) k v, InMemory (memShape sorder ns n) a

/-- **C94, transport.** With the space axes in increasing order, the reads of the transport (`transport`, `one_time_step`:
the cell shifted by minus the velocity) are inside the array for all the sizes if and only if the halo is at least as wide as
the velocity, in both directions. -/
theorem C94_transport_iff (sorder : List Nat) (h : IsOrder sorder) (hinc : sorder.tail.Pairwise (· < ·))
    (w v : List Int) (hw : w.length + 1 = sorder.length) (hv : v.length = w.length) (hpos : ∀ x ∈ w, 0 ≤ x) :
    TransportInside sorder w v ↔ ∀ i (hi : i < w.length), |v[i]| ≤ w[i] := by
  constructor
  · intro hc i hi
    set n : List Nat := w.map fun x => (2 * x + 1).toNat with hn
    have hnl : n.length = w.length := by simp [hn]
    have hni : ∀ i (hi : i < w.length), ((n[i]'(by omega) : Nat) : Int) = 2 * w[i] + 1 := by
      intro i hi
      have := hpos _ (List.getElem_mem hi)
      simp only [hn, List.getElem_map]
      omega
    obtain ⟨-, hmem, -⟩ := C14_inner_loops_partial sorder h (by omega) hinc (n.map fun m : Nat => (m : Int)) w v
      (by simp; omega) (by simp; omega) (by simp; omega) 0
    have := hc 1 0 n (by omega) (by omega) (setOrder (0 :: List.zipWith (· + ·) w v) sorder) ((hmem _).2
      ⟨w, by simp; omega, fun i hi => by
        have hi' : i < w.length := by simp at hi; omega
        have := hni i hi'
        simp only [List.getElem_map]
        omega, (storedAt_iff sorder h _ _ (by simp; omega)).2 rfl⟩)
    rw [memShape, inMemory_setOrder sorder h _ _ (by simp [logicalShape]; omega) (by simp; omega)] at this
    unfold InMemory logicalShape at this
    rw [List.forall₂_cons] at this
    have h3 := (List.forall₂_iff_get.1 this.2).2 i (by omega) (by simp; omega)
    have h4 := hni i hi
    simp only [List.get_eq_getElem, List.getElem_zipWith] at h3
    rw [abs_le]
    omega
  · intro hb ns k n hk hn a ha
    obtain ⟨-, -, hin⟩ := C14_inner_loops_partial sorder h (by omega) hinc (n.map fun m : Nat => (m : Int)) w v
      (by simp; omega) (by simp; omega) (by simp; omega) k
    obtain ⟨y, hy, h3, hst⟩ := hin (fun i hi => hb i (by simp at hi; omega)) a ha
    have hyl : y.length = n.length := by simpa using hy
    rw [(storedAt_iff sorder h _ _ (by simp; omega)).1 hst, memShape,
      inMemory_setOrder sorder h _ _ (by simp [logicalShape]; omega) (by simp; omega)]
    unfold InMemory logicalShape
    refine .cons ⟨by omega, by exact_mod_cast hk⟩ (List.forall₂_iff_get.2 ⟨by omega, fun i h5 h6 => ?_⟩)
    have := h3 i (by simpa using h5)
    simpa using this

/-- **C94, halo of the stencil, partial**: with schemes all symmetric, the halo computed by the simulation (the largest
component of the velocities along each axis) makes the transport of every velocity safe.  Missing: one-sided schemes, for which
it is false (`C94_one_sided_negation`). -/
theorem C94_stencil_halo_partial (dim : Nat) (schemes : List (List Nat)) (s : Sten.Stencil)
    (hb : Sten.build dim schemes = some s) (hsym : StencilSpec.AllSymmetric none (Sten.allCoords dim schemes))
    (w : List Int) (hwl : w.length = dim) (hw : ∀ i (hi : i < w.length), s.vmax i = some w[i])
    (sorder : List Nat) (h : IsOrder sorder) (hd : sorder.length = dim + 1) (hinc : sorder.tail.Pairwise (· < ·))
    (t : List Nat) (ht : t ∈ schemes) (m : Nat) (hm : m ∈ t) :
    TransportInside sorder w ((Sten.coords dim m).map fun x => -x) := by
  have hl : (Sten.coords dim m).length = dim := by
    obtain ⟨_, _, hv⟩ := (Sten.C06_build_succeeds_iff dim schemes).1 (by rw [hb]; rfl)
    obtain ⟨v, hv'⟩ := Option.isSome_iff_exists.1 (hv t ht m hm)
    rw [Sten.coords, hv']
    have := (Velocity.C03_velocity_number_roundtrip dim m v hv').1
    cases v <;> simp [Velocity.Vel.dim, Velocity.Vel.comps] at this ⊢ <;> omega
  have hle : ∀ i (hi : i < w.length), -w[i] ≤ (Sten.coords dim m)[i]'(by omega) ∧
      (Sten.coords dim m)[i]'(by omega) ≤ w[i] := by
    intro i hi
    obtain ⟨h1, h2, -⟩ := Sten.C09_halo_width_partial dim schemes s hb hsym i w[i] (hw i hi) t ht m hm _
      (List.getElem?_eq_getElem (by omega))
    exact ⟨h1, h2⟩
  have hpos : ∀ x ∈ w, 0 ≤ x := by
    intro x hx
    obtain ⟨i, hi, rfl⟩ := List.getElem_of_mem hx
    have := hle i hi
    omega
  refine (C94_transport_iff sorder h hinc w _ (by omega) (by simp; omega) hpos).2 fun i hi => ?_
  rw [List.getElem_map, abs_neg, abs_le]
  exact hle i hi

/-- A case for `C94_stencil_halo_partial`: nine velocities in the plane and five in the same simulation. -/
example : StencilSpec.AllSymmetric none (Sten.allCoords 2 [[0, 1, 2, 3, 4, 5, 6, 7, 8], [0, 9, 10, 11, 12]]) ∧
    ∃ s, Sten.build 2 [[0, 1, 2, 3, 4, 5, 6, 7, 8], [0, 9, 10, 11, 12]] = some s ∧
      s.vmax 0 = some 2 ∧ s.vmax 1 = some 2 := by
  refine ⟨by unfold StencilSpec.AllSymmetric StencilSpec.SchemeSymmetric; decide +kernel, ?_⟩
  have hacc : Sten.Accepted 2 [[0, 1, 2, 3, 4, 5, 6, 7, 8], [0, 9, 10, 11, 12]] :=
    ⟨by decide, by decide, by decide +kernel⟩
  exact ⟨_, Sten.build_eq _ _ hacc.some_scheme hacc.no_empty hacc.numbered, by decide +kernel, by decide +kernel⟩

/-- **C94 is false with one-sided schemes**: with the velocities 0 and -1 in one dimension the halo has width 0, and the
transport reads after the end of the array. -/
theorem C94_one_sided_negation : ∃ s, Sten.build 1 [[0, 2]] = some s ∧ s.vmax 0 = some 0 ∧ Sten.coords 1 2 = [-1] ∧
    ¬ TransportInside [0, 1] [0] ((Sten.coords 1 2).map fun x => -x) := by
  obtain ⟨s, h1, h2, h3, -⟩ := Sten.C09_halo_width_negation
  refine ⟨s, h1, h2, h3, fun hc => ?_⟩
  rw [h3] at hc
  have := (C94_transport_iff [0, 1] (by unfold IsOrder; decide) (by decide) [0] (List.map (fun x => -x) [-1]) rfl rfl
    (by simp)).1 hc 0 (by simp)
  simp at this

end Pylbm.Boundary
