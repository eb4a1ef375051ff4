import Verif.Sim.Global
import Verif.Boundary.Time
import Verif.Boundary.Props
import Verif.Domain.Decompose
/-!
# C42: decomposed runs with walls, obstacles and the real boundary methods
-/

set_option linter.unusedSectionVars false

namespace Pylbm.Boundary
open Domain DomainSpec BoundarySpec

variable {K : Type} [Field K] [LinearOrder K] [IsStrictOrderedRing K] [FloorRing K] {dim : Nat}

/-- `list_of_labels`, domain.py 637-642: `np.union1d` of the labels of the faces (−2 on the interfaces) and
of the labels `els` of the elements. -/
def listOfLabels {nv : Nat} (g : Grid K dim nv) (els : List Int) : List Int :=
  (((List.finRange dim).flatMap fun j => [g.label j false, g.label j true]) ++ els).dedup.insertionSort (· ≤ ·)

theorem mem_listOfLabels {nv : Nat} (g : Grid K dim nv) (els : List Int) (l : Int) :
    l ∈ listOfLabels g els ↔ (∃ j side, l = g.label j side) ∨ l ∈ els := by
  unfold listOfLabels
  rw [List.mem_insertionSort, List.mem_dedup, List.mem_append, List.mem_flatMap]
  simp only [List.mem_finRange, true_and, List.mem_cons, List.not_mem_nil, or_false]
  constructor
  · rintro (⟨j, h | h⟩ | h)
    · exact Or.inl ⟨j, false, h⟩
    · exact Or.inl ⟨j, true, h⟩
    · exact Or.inr h
  · rintro (⟨j, side, h⟩ | h)
    · cases side
      · exact Or.inl ⟨j, Or.inl h⟩
      · exact Or.inl ⟨j, Or.inr h⟩
    · exact Or.inr h

theorem nodup_listOfLabels {nv : Nat} (g : Grid K dim nv) (els : List Int) : (listOfLabels g els).Nodup :=
  (List.perm_insertionSort _ _).nodup_iff.2 (List.nodup_dedup _)

variable (s : Sten dim)

/-- The instances with the values at the time `t`: the column of `feq` is `ψ label t x` at the wall point
`x`.  By C57 this is what the kept arrays of the simulation hold (`wantedInsts` is of this form). -/
def withValues {nv : Nat} (g : Grid K dim nv) (ψ : Int → K → (Fin dim → K) → Fin s.ns → K)
    (I : List (Method dim × List (Entry K dim s.ns))) (t : K) :
    List (Method dim × List (Item K dim s.ns)) :=
  I.map fun p => (p.1, p.2.map fun e => ⟨e, ψ e.label t (wallPoint s g e)⟩)

theorem mem_withValues {nv : Nat} (g : Grid K dim nv) (ψ : Int → K → (Fin dim → K) → Fin s.ns → K)
    (I : List (Method dim × List (Entry K dim s.ns))) (t : K) (m : Method dim) (it : Item K dim s.ns) :
    (m, it) ∈ flat s (withValues s g ψ I t) ↔
      (m, it.toEntry) ∈ entries s I ∧ it.feq = ψ it.label t (wallPoint s g it.toEntry) := by
  unfold flat withValues entries
  simp only [List.mem_flatMap, List.mem_map, Prod.mk.injEq, exists_exists_and_eq_and]
  constructor
  · rintro ⟨p, hp, e, he, rfl, rfl⟩
    exact ⟨⟨p, hp, e, he, rfl, rfl⟩, rfl⟩
  · rintro ⟨⟨p, hp, e, he, h1, h2⟩, h3⟩
    refine ⟨p, hp, e, he, h1, ?_⟩
    cases it with
    | mk e' q => simp only at h2 h3; subst h2; rw [h3]

/-- The boundary conditions of a domain: the geometry, the conditions given by the user and the labels of the
elements. -/
structure WallData (K : Type) (dim : Nat) (s : Sten dim) where
  elems : List (Elem K dim)
  els : List Int
  dico : Int → Option (List (Nat × Method dim))
  ψ : Int → K → (Fin dim → K) → Fin s.ns → K

/-- What is asked from the data: the elements have distances which make sense and labels in the list, the
conditions of a label are a dictionary, and 999 (the code for "no label") is not a label. -/
structure WallData.WF {s : Sten dim} (D : WallData K dim s) (userLabel : Fin dim → Bool → Int) : Prop where
  sten : s.WF
  sound : ∀ e ∈ D.elems, e.Sound
  labels : ∀ e ∈ D.elems, ∀ x v, 0 < e.alpha x v → e.border x v ∈ D.els
  dict : ∀ label ms, D.dico label = some ms → (ms.map Prod.fst).Nodup
  no999 : 999 ∉ D.els
  noFace : ∀ j side, userLabel j side ≠ 999

/-- The domain `st` and the entries `I` of the boundary methods on the grid `g`, domain.py 284-301 and
boundary.py 78-160. -/
structure OnGrid {s : Sten dim} (D : WallData K dim s) (g : Grid K dim s.nu) (st : State K dim s.nu)
    (I : List (Method dim × List (Entry K dim s.ns))) : Prop where
  wf : g.WF
  vel : g.vel = s.uvel
  built : build g D.elems = some st
  insts : instances s g.total st.link (listOfLabels g D.els) D.dico = some I

variable {s}

theorem OnGrid.onDomain {D : WallData K dim s} {g : Grid K dim s.nu} {st : State K dim s.nu}
    {I : List (Method dim × List (Entry K dim s.ns))} (h : OnGrid D g st I) (hD : D.WF g.userLabel) (t : K) :
    OnDomain s g D.elems st (listOfLabels g D.els) D.dico (withValues s g D.ψ I t) where
  vel := h.vel
  wf := h.wf
  sound := hD.sound
  built := h.built
  nodup := nodup_listOfLabels _ _
  dict := hD.dict
  perm := by
    refine ⟨I, h.insts, ?_⟩
    have : (flat s (withValues s g D.ψ I t)).map (fun q => (q.1, q.2.toEntry)) = entries s I := by
      unfold flat withValues entries
      rw [List.flatMap_map, List.map_flatMap]
      simp only [List.map_map, Function.comp_def]
    rw [this]

theorem no999_list {D : WallData K dim s} {g : Grid K dim s.nu} (hD : D.WF g.userLabel) :
    (999 : Int) ∉ listOfLabels g D.els := by
  rw [mem_listOfLabels]
  rintro (⟨j, side, h⟩ | h)
  · have h1 := hD.noFace j side
    unfold Grid.label at h
    cases side
    · simp only [if_true] at h
      split_ifs at h
      exact h1 h.symm
    · simp only [Bool.true_eq_false, if_false] at h
      split_ifs at h
      exact h1 h.symm
  · exact hD.no999 h

/-- The label of a link with a distance is in the list. -/
theorem OnGrid.label_mem {D : WallData K dim s} {g : Grid K dim s.nu} {st : State K dim s.nu}
    {I : List (Method dim × List (Entry K dim s.ns))} (h : OnGrid D g st I) (hD : D.WF g.userLabel)
    {c : Cell dim} (hc : g.Interior c) (k : Fin s.nu) (hf : (st.link k c).flag ≠ 999) :
    (st.link k c).flag ∈ listOfLabels g D.els := by
  obtain ⟨h1, h2⟩ := C23_flagged_links g h.wf D.elems hD.sound st h.built c hc k
  have hd : (st.link k c).dist ≠ 999 := fun hh => hf (h2 hh)
  rw [mem_listOfLabels]
  rcases (h1 hd).2.2.2.2 with ⟨f, -, h3⟩ | ⟨e, he, x, v, h3, h4⟩
  · exact Or.inl ⟨f.ax, f.upper, h3⟩
  · rw [h4]; exact Or.inr (hD.labels e he x v h3)

/-- Translation of an entry. -/
def shiftEntry {ns : Nat} (r : Cell dim) (e : Entry K dim ns) : Entry K dim ns :=
  { e with cell := fun j => e.cell j + r j }

/-- Translation of an item. -/
def shiftItem {ns : Nat} (r : Cell dim) (it : Item K dim ns) : Item K dim ns :=
  { it with cell := fun j => it.cell j + r j }

theorem source_shift (r : Cell dim) (e : Entry K dim s.ns) :
    source s (shiftEntry r e) = fun j => source s e j + r j := by
  funext j; simp only [source, shiftEntry]; ring

theorem inner_shift (r : Cell dim) (n : Int) (e : Entry K dim s.ns) :
    inner s n (shiftEntry r e) = fun j => inner s n e j + r j := by
  funext j; simp only [inner, shiftEntry]; ring

theorem reads_shift (r : Cell dim) (m : Method dim) (it : Item K dim s.ns) :
    reads s m (shiftItem r it) = (reads s m it).map fun p => (p.1, fun j => p.2 j + r j) := by
  have e1 : (shiftItem r it).toEntry = shiftEntry r it.toEntry := rfl
  have e2 : (shiftEntry r it.toEntry).k = it.k := rfl
  have e3 : (shiftEntry r it.toEntry).dist = it.dist := rfl
  cases m <;> simp only [reads, e1, e2, e3, inner_shift, List.map_cons, List.map_nil]
  · split_ifs <;> rfl
  · split_ifs <;> rfl
  · simp only [List.cons.injEq, and_true, shiftEntry, Prod.mk.injEq, true_and]
    funext i
    ring

/-- The value on the translated array. -/
theorem value_shift (r : Cell dim) (m : Method dim) (f : Dist K dim s.ns) (it : Item K dim s.ns) :
    value s m f f (shiftItem r it) =
      value s m (fun k c => f k fun j => c j + r j) (fun k c => f k fun j => c j + r j) it := by
  have e1 : (shiftItem r it).toEntry = shiftEntry r it.toEntry := rfl
  have e2 : (shiftItem r it).k = it.k := rfl
  have e3 : rhs s m (shiftItem r it) = rhs s m it := by cases m <;> rfl
  have e4 : (shiftEntry r it.toEntry).k = it.k := rfl
  have e5 : (shiftItem r it).dist = it.dist := rfl
  have e6 : (shiftEntry r it.toEntry).dist = it.dist := rfl
  cases m
  case neumannAxis j =>
    simp only [value]
    show f it.k _ = _
    congr 1
    funext i
    simp only [shiftItem]
    ring
  all_goals simp only [value, load0, load1, e1, e3, e4, e5, e6, inner_shift]

/-- The hypotheses which relate the domain of a process to the domain of a single process. -/
structure Splits (D : WallData K dim s) (g : Grid K dim s.nu) : Prop where
  sub : ∀ j, g.r1 j ≤ g.N j
  wide : g.Wide
  away : ∀ c, g.Interior c → ∀ k, g.Clear (g.target k c) ∨
    ∀ e ∈ D.elems, e.alpha (g.cellCentre c) (fun j => g.dx * (g.vel k j : K)) ≤ 0

section compare
variable {D : WallData K dim s} {g : Grid K dim s.nu} {st ST : State K dim s.nu}
  {I J : List (Method dim × List (Entry K dim s.ns))}

theorem mem_cells_interior {c : Cell dim} (hc : g.Interior c) : c ∈ cells dim g.total := by
  rw [mem_cells]
  intro j
  have := hc j
  unfold Grid.total
  omega

/-- Entries whose source is a cell owned by the process: the same as those of the single process. -/
theorem entry_iff (hD : D.WF g.userLabel) (h : OnGrid D g st I) (H : OnGrid D g.whole ST J)
    (hsp : Splits D g) (m : Method dim) (e : Entry K dim s.ns) (hc : g.Interior (source s e)) :
    (m, e) ∈ entries s I ↔ (m, shiftEntry (fun j => (g.r0 j : Int)) e) ∈ entries s J := by
  have hL := C62_away_partial g h.wf hsp.sub hsp.wide D.elems hD.sound st ST h.built H.built _ hc
    (s.ux (s.sym e.k)) (hsp.away _ hc _)
  have hsrc : source s (shiftEntry (fun j => (g.r0 j : Int)) e) = g.global (source s e) := source_shift _ e
  have hC : g.whole.Interior (g.global (source s e)) :=
    (interior_global h.wf hsp.sub (interior_clear hc)).1 hc
  rw [mem_entries s g.total st.link hD.sten _ D.dico I h.insts,
    mem_entries s g.whole.total ST.link hD.sten _ D.dico J H.insts, hsrc]
  have hD' : D.WF g.whole.userLabel := hD
  constructor
  · rintro ⟨label, h1, h2, h3, h4, h5, -, h7, h8⟩
    have h999 : label ≠ 999 := fun hh => no999_list hD (hh ▸ h1)
    refine ⟨label, ?_, h2, h3, h4, h5, mem_cells_interior hC, ?_, ?_⟩
    · have := H.label_mem hD' hC (s.ux (s.sym e.k)) (by rw [← hL, h7]; exact h999)
      rw [← hL, h7] at this
      exact this
    · show (ST.link (s.ux (s.sym e.k)) _).flag = label
      rw [← hL]; exact h7
    · show e.dist = (ST.link (s.ux (s.sym e.k)) _).dist
      rw [← hL]; exact h8
  · rintro ⟨label, h1, h2, h3, h4, h5, -, h7, h8⟩
    change (ST.link (s.ux (s.sym e.k)) _).flag = label at h7
    change e.dist = (ST.link (s.ux (s.sym e.k)) _).dist at h8
    have h999 : label ≠ 999 := fun hh => no999_list hD' (hh ▸ h1)
    refine ⟨label, ?_, h2, h3, h4, h5, mem_cells_interior hc, by rw [hL]; exact h7, by rw [hL]; exact h8⟩
    have := h.label_mem hD hc (s.ux (s.sym e.k)) (by rw [hL, h7]; exact h999)
    rw [hL, h7] at this
    exact this

/-- The point of the wall is the same. -/
theorem wallPoint_shift (hg : g.WF) (hN : ∀ j, g.r1 j ≤ g.N j) (hv : g.vel = s.uvel)
    (e : Entry K dim s.ns) (hc : g.Interior (source s e)) :
    wallPoint s g.whole (shiftEntry (fun j => (g.r0 j : Int)) e) = wallPoint s g e := by
  funext i
  have h1 := hc i
  have h2 := abs_le.1 (hg.halo (s.ux e.k) i)
  rw [hv] at h2
  have h3 := hN i
  have h4 := hg.region i
  have hcell : e.cell i = source s e i - s.uvel (s.ux e.k) i := by simp [source, Sten.vel]
  have hG := whole_wf hg
  have hg1 : (g.whole.h i : Int) = g.h i := rfl
  unfold wallPoint
  have : g.whole.point (shiftEntry (fun j => (g.r0 j : Int)) e).cell i = g.point e.cell i := by
    unfold Grid.point
    unfold Grid.n at h1
    rw [coord_eq hG i (by simp only [shiftEntry]; omega)
        (by simp only [shiftEntry, Grid.total, Grid.n, Grid.whole]; omega),
      coord_eq hg i (by omega) (by simp only [Grid.total, Grid.n]; omega)]
    simp only [shiftEntry, Grid.whole]
    congr 1
    push_cast; ring
  rw [this]; rfl

/-- Items whose source is a cell owned by the process. -/
theorem item_iff (hD : D.WF g.userLabel) (h : OnGrid D g st I) (H : OnGrid D g.whole ST J)
    (hsp : Splits D g) (t : K) (m : Method dim) (it : Item K dim s.ns)
    (hc : g.Interior (source s it.toEntry)) :
    (m, it) ∈ flat s (withValues s g D.ψ I t) ↔
      (m, shiftItem (fun j => (g.r0 j : Int)) it) ∈ flat s (withValues s g.whole D.ψ J t) := by
  rw [mem_withValues, mem_withValues]
  have e1 : (shiftItem (fun j => (g.r0 j : Int)) it).toEntry = shiftEntry (fun j => (g.r0 j : Int)) it.toEntry :=
    rfl
  rw [e1, wallPoint_shift h.wf hsp.sub h.vel _ hc, entry_iff hD h H hsp m _ hc]
  rfl

/-- The boundary conditions of the process give the values of those of the single process at the positions
from which the distribution functions come to an owned cell. -/
theorem boundary_same (hD : D.WF g.userLabel) (h : OnGrid D g st I) (H : OnGrid D g.whole ST J)
    (hsp : Splits D g) (t : K) (hfree : Free s (flat s (withValues s g.whole D.ψ J t)))
    (f F : Dist K dim s.ns)
    (hf : ∀ k (c : Cell dim), (∀ j, 0 ≤ c j ∧ c j < g.total j) → f k c = F k (g.global c))
    (k : Fin s.ns) (y : Cell dim) (hy : g.Interior y) :
    boundaryCondition s (withValues s g D.ψ I t) f k (fun j => y j - s.vel k j) =
      boundaryCondition s (withValues s g.whole D.ψ J t) F k (fun j => g.global y j - s.vel k j) := by
  have hD' : D.WF g.whole.userLabel := hD
  have o1 := h.onDomain hD t
  have o2 := H.onDomain hD' t
  have n1 := o1.nodup_positions hD.sten
  have n2 := o2.nodup_positions hD.sten
  have hin : ∀ q ∈ flat s (withValues s g D.ψ I t), g.Interior (source s q.2.toEntry) :=
    fun q hq => (o1.item hD.sten (no999_list hD) hq).1
  have f1 : Free s (flat s (withValues s g D.ψ I t)) := by
    intro q hq p hp hpos
    obtain ⟨r, hr, hre⟩ := List.mem_map.1 hpos
    have q' := (item_iff hD h H hsp t q.1 q.2 (hin q hq)).1 hq
    have r' := (item_iff hD h H hsp t r.1 r.2 (hin r hr)).1 hr
    refine hfree _ q' (p.1, fun j => p.2 j + (g.r0 j : Int)) ?_ ?_
    · rw [reads_shift]
      exact List.mem_map.2 ⟨p, hp, rfl⟩
    · refine List.mem_map.2 ⟨_, r', ?_⟩
      rw [← hre]; rfl
  rw [boundaryCondition_written s _ n1 f1, boundaryCondition_written s _ n2 hfree]
  have hvel : ∀ i, |s.vel k i| ≤ (g.h i : Int) := fun i => by
    have := h.wf.halo (s.ux k) i; rw [h.vel] at this; exact this
  by_cases hpos : (k, fun j => y j - s.vel k j) ∈ positions s (flat s (withValues s g D.ψ I t))
  · obtain ⟨q, hq, hqe⟩ := List.mem_map.1 hpos
    simp only [Prod.mk.injEq] at hqe
    obtain ⟨hk, hcell⟩ := hqe
    have hq' := (item_iff hD h H hsp t q.1 q.2 (hin q hq)).1 hq
    have w1 := written_mem s n1 hq f
    have w2 := written_mem s n2 hq' F
    rw [hk, hcell] at w1
    rw [w1]
    have e1 : (fun j => g.global y j - s.vel k j) = (shiftItem (fun j => (g.r0 j : Int)) q.2).cell := by
      funext j
      simp only [shiftItem, hcell, Grid.global]; ring
    rw [e1]
    have e2 : (shiftItem (fun j => (g.r0 j : Int)) q.2).k = k := hk
    simp only [e2] at w2
    rw [w2, value_shift]
    have hr : ∀ p ∈ reads s q.1 q.2, f p.1 p.2 = F p.1 fun j => p.2 j + (g.r0 j : Int) := by
      intro p hp
      apply hf
      intro j
      have hyj := hy j
      have hvj := abs_le.1 (hvel j)
      have hc : q.2.cell j = y j - s.vel k j := congrFun hcell j
      unfold Grid.total
      have i1 : inner s 1 q.2.toEntry j = y j := by simp only [inner, hk, hc]; ring
      have i2 : inner s 2 q.2.toEntry j = y j + s.vel k j := by simp only [inner, hk, hc]; ring
      obtain ⟨m, it⟩ := q
      simp only at hp hk hc i1 i2
      cases m <;> simp only [reads, List.mem_cons, List.not_mem_nil, or_false] at hp
      · rw [hp]; simp only [i1]; omega
      · rcases hp with rfl | rfl
        · simp only [i1]; omega
        · split_ifs
          · simp only [i2]; omega
          · simp only [i1]; omega
      · rw [hp]; simp only [i1]; omega
      · rcases hp with rfl | rfl
        · simp only [i1]; omega
        · split_ifs
          · simp only [i2]; omega
          · simp only [i1]; omega
      · rw [hp]; simp only [i1]; omega
      · rw [hp]
        simp only [hc, hk]
        split_ifs <;> omega
    exact value_congr s hr hr
  · have hpos' : (k, fun j => g.global y j - s.vel k j) ∉ positions s (flat s (withValues s g.whole D.ψ J t)) := by
      intro hp
      apply hpos
      obtain ⟨q, hq, hqe⟩ := List.mem_map.1 hp
      simp only [Prod.mk.injEq] at hqe
      obtain ⟨hk, hcell⟩ := hqe
      set it : Item K dim s.ns := shiftItem (fun j => -(g.r0 j : Int)) q.2 with hit
      have hback : shiftItem (fun j => (g.r0 j : Int)) it = q.2 := by
        rw [hit]; unfold shiftItem; simp
      have hcy : it.cell = fun j => y j - s.vel k j := by
        funext j
        have := congrFun hcell j
        simp only [hit, shiftItem, Grid.global] at this ⊢
        omega
      have hsrc : source s it.toEntry = y := by
        funext j
        have hik : it.k = k := hk
        simp only [source, hcy, hik]; ring
      have := (item_iff hD h H hsp t q.1 it (by rw [hsrc]; exact hy)).2 (by rw [hback]; exact hq)
      exact List.mem_map.2 ⟨_, this, by simp only [hcy]; rw [show it.k = k from hk]⟩
    rw [written_not_mem s hpos, written_not_mem s hpos']
    rw [hf]
    · congr 1
      funext j
      simp only [Grid.global]; ring
    · intro j
      have hyj := hy j
      have hvj := abs_le.1 (hvel j)
      unfold Grid.total
      constructor <;> omega

end compare
end Pylbm.Boundary

namespace Pylbm.Boundary
open Domain

theorem OnGrid.oneCell {K : Type} [Field K] [LinearOrder K] [IsStrictOrderedRing K] [FloorRing K] {dim : Nat}
    {s : Sten dim} {D : WallData K dim s} {g : Grid K dim s.nu} {st : State K dim s.nu}
    {I : List (Method dim × List (Entry K dim s.ns))} (h : OnGrid D g st I) (hD : D.WF g.userLabel)
    (hone : ∀ label ms, D.dico label = some ms → ∀ p ∈ ms, OneCell p.2) : ∀ q ∈ I, OneCell q.1 := by
  intro q hq
  have hI := h.insts
  unfold instances at hI
  simp only [Option.bind_eq_bind, Option.bind_eq_some_iff, Option.pure_def, Option.some.injEq] at hI
  obtain ⟨all, hall, rfl⟩ := hI
  obtain ⟨m, hm, rfl⟩ := List.mem_map.1 hq
  rw [mem_firsts] at hm
  obtain ⟨e, he, rfl⟩ := List.mem_map.1 hm
  rw [(allEntries_spec s g.total st.link _ D.dico all hall).2] at he
  obtain ⟨label, -, he⟩ := List.mem_flatMap.1 he
  obtain ⟨p, hp, he⟩ := List.mem_flatMap.1 he
  have h1 := ((mem_labelEntries s g.total st.link hD.sten label p e).1 he).1
  show OneCell e.1
  rw [h1]
  cases hd : D.dico label with
  | none => rw [hd] at hp; simp at hp
  | some ms => rw [hd] at hp; exact hone label ms hd p hp

/-- When all the conditions given by the user read one cell, no method reads a position written by the
boundary conditions. -/
theorem OnGrid.free {K : Type} [Field K] [LinearOrder K] [IsStrictOrderedRing K] [FloorRing K] {dim : Nat}
    {s : Sten dim} {D : WallData K dim s} {g : Grid K dim s.nu} {st : State K dim s.nu}
    {I : List (Method dim × List (Entry K dim s.ns))} (h : OnGrid D g st I) (hD : D.WF g.userLabel)
    (hone : ∀ label ms, D.dico label = some ms → ∀ p ∈ ms, OneCell p.2) (t : K) :
    Free s (flat s (withValues s g D.ψ I t)) := by
  apply (h.onDomain hD t).free hD.sten (no999_list hD)
  intro p hp
  obtain ⟨q, hq, rfl⟩ := List.mem_map.1 hp
  exact h.oneCell hD hone q hq

end Pylbm.Boundary

namespace Pylbm.Sim
open Scheme Halo SchemeSpec Matrix HaloSpec Mpi Boundary

variable {K : Type} [Field K] [LinearOrder K] [IsStrictOrderedRing K] [FloorRing K] {nc d dim : Nat}

/-- The box `lo + [0, N dx]` with the labels `lab` of its faces, seen by a single process. -/
def boxGrid (N w : Fin dim → Nat) (lo : Fin dim → K) (dx : K) (lab : Fin dim → Bool → Int) (s : Sten dim) :
    Domain.Grid K dim s.nu where
  lo := lo
  dx := dx
  N := N
  r0 := fun _ => 0
  r1 := N
  h := w
  vel := s.uvel
  userLabel := lab

/-- The box seen by the process `c`, domain.py 393-440 with `get_region`. -/
def procGrid (g : Grid dim) (lo : Fin dim → K) (dx : K) (lab : Fin dim → Bool → Int) (s : Sten dim)
    (c : Proc g) : Domain.Grid K dim s.nu :=
  { boxGrid g.N g.w lo dx lab s with r0 := first g c, r1 := fun i => first g c i + size g c i }

theorem procGrid_whole (g : Grid dim) (lo : Fin dim → K) (dx : K) (lab : Fin dim → Bool → Int) (s : Sten dim)
    (c : Proc g) : (procGrid g lo dx lab s c).whole = boxGrid g.N g.w lo dx lab s := rfl

theorem procGrid_sub (g : Grid dim) (c : Proc g) (i : Fin dim) : first g c i + size g c i ≤ g.N i := by
  have h1 := start_succ g c i
  have h2 : start g i ((c i : Nat) + 1) ≤ g.N i := by
    rw [← start_last g i, start_eq g i _ (by omega), start_eq g i _ (by omega)]
    exact bound_mono _ _ (by omega)
  simp only [first]
  omega

theorem procGrid_wide (g : Grid dim) (hlarge : ∀ c i, g.w i ≤ size g c i) (lo : Fin dim → K) (dx : K)
    (lab : Fin dim → Bool → Int) (s : Sten dim) (c : Proc g) : (procGrid g lo dx lab s c).Wide := by
  intro i
  constructor
  · intro h0
    change first g c i ≠ 0 at h0
    change g.w i ≤ first g c i
    have hc : (c i : Nat) ≠ 0 := by
      intro h; apply h0
      simp only [first, h, start_zero]
    set c' : Proc g := Function.update c i ⟨(c i : Nat) - 1, by omega⟩ with hc'
    have h1 := start_succ g c' i
    have h2 := hlarge c' i
    have h3 : ((c' i : Nat)) = (c i : Nat) - 1 := by simp [hc']
    rw [h3, show (c i : Nat) - 1 + 1 = c i by omega] at h1
    simp only [first]
    omega
  · intro h0
    change first g c i + size g c i ≠ g.N i at h0
    change first g c i + size g c i + g.w i ≤ g.N i
    have h4 := start_succ g c i
    have hc : (c i : Nat) + 1 < g.p i := by
      by_contra hh
      have h5 : (c i : Nat) + 1 = g.p i := by omega
      rw [h5, start_last] at h4
      exact h0 (by simp only [first]; omega)
    set c' : Proc g := Function.update c i ⟨(c i : Nat) + 1, hc⟩ with hc'
    have h2 := hlarge c' i
    have h3 : ((c' i : Nat)) = (c i : Nat) + 1 := by simp [hc']
    have h6 := procGrid_sub g c' i
    simp only [first, h3] at h6 ⊢
    omega

/-- The boundary conditions on the global array: those of the single process, whose array has `w` more cells
on each side. -/
def wallBc {s : Sten dim} (D : WallData K dim s) (N w : Fin dim → Nat) (lo : Fin dim → K) (dx : K)
    (lab : Fin dim → Bool → Int) (J : List (Method dim × List (Entry K dim s.ns))) (t : K)
    (H : Arr K s.ns dim) : Arr K s.ns dim :=
  fun y k => boundaryCondition s (withValues s (boxGrid N w lo dx lab s) D.ψ J t)
    (fun k X => H (fun i => X i - w i) k) k (fun i => y i + w i)

/-- A run with walls: every process builds its part of the domain and the entries of its boundary methods
from the same data, and uses them in its steps. -/
structure WallRun {s : Sten dim} (D : WallData K dim s) (g : Grid dim) (lo : Fin dim → K) (dx : K)
    (lab : Fin dim → Bool → Int) (Q : Proc g → Setup K s.ns nc d dim) : Prop where
  large : ∀ c i, g.w i ≤ size g c i
  onGrid : ∀ c, ∃ st I, OnGrid D (procGrid g lo dx lab s c) st I ∧
    ∀ t A, (Q c).bc t A =
      toArr (boundaryCondition s (withValues s (procGrid g lo dx lab s c) D.ψ I t) (toDist A))
  away : ∀ c x, (procGrid g lo dx lab s c).Interior x → ∀ k,
    (procGrid g lo dx lab s c).Clear ((procGrid g lo dx lab s c).target k x) ∨
    ∀ e ∈ D.elems, e.alpha ((procGrid g lo dx lab s c).cellCentre x) (fun j => dx * (s.uvel k j : K)) ≤ 0

/-- The boundary conditions of the processes agree with those of a single process. -/
theorem sameBoundary_walls {s : Sten dim} (D : WallData K dim s) (g : Grid dim) (lo : Fin dim → K) (dx : K)
    (lab : Fin dim → Bool → Int) (hD : D.WF lab) (Q : Proc g → Setup K s.ns nc d dim)
    (hQ : WallRun D g lo dx lab Q) (ST : Domain.State K dim s.nu)
    (J : List (Method dim × List (Entry K dim s.ns))) (hJ : OnGrid D (boxGrid g.N g.w lo dx lab s) ST J)
    (hfree : ∀ t, Free s (flat s (withValues s (boxGrid g.N g.w lo dx lab s) D.ψ J t))) :
    SameBoundary g s.vel Q (wallBc D g.N g.w lo dx lab J) := by
  intro c t A H hA y hy j
  obtain ⟨st, I, hI, hbc⟩ := hQ.onGrid c
  rw [hbc]
  have hn : ∀ i, (procGrid g lo dx lab s c).n i = size g c i := fun i => by
    simp [Domain.Grid.n, procGrid]
  have hsp : Splits D (procGrid g lo dx lab s c) :=
    ⟨fun i => procGrid_sub g c i, procGrid_wide g hQ.large lo dx lab s c, hQ.away c⟩
  have := boundary_same (D := D) (g := procGrid g lo dx lab s c) hD hI
    (by rw [procGrid_whole]; exact hJ) hsp t (by rw [procGrid_whole]; exact hfree t) (toDist A)
    (fun k X => H (fun i => X i - g.w i) k) (by
      intro k x hx
      show A x k = H (fun i => (procGrid g lo dx lab s c).global x i - g.w i) k
      rw [hA x (by
        intro i
        have := hx i
        unfold Domain.Grid.total at this
        rw [hn] at this
        exact ⟨this.1, by have := this.2; push_cast at this; exact this⟩)]
      congr 2
      funext i
      simp only [globalPos, Domain.Grid.global, procGrid]
      ring) j y (by
      intro i
      rw [hn]
      exact hy i)
  rw [procGrid_whole] at this
  show boundaryCondition s _ (toDist A) j (fun i => y i - s.vel j i) = _
  rw [this]
  unfold wallBc
  congr 1
  funext i
  simp only [globalPos, Domain.Grid.global, procGrid]
  ring

/-- **C42 (partial), walls and obstacles.** Two runs of the same scheme from the same initial values, on the
same box with the same elements and boundary conditions (any of the methods of `boundary.py`, with wall
values depending on the point and on the time), agree after any number of steps on the owned cells, for any
two process grids (in particular against a single process), any schedules of the messages, any backends and
settings.  Hypotheses: no link through an interface between processes meets an element (`WallRun.away`;
without it the claim is false, see `C62_negation`), no boundary method reads a position which a boundary
method writes (`hfree`; always true for the methods which read one cell, `OnGrid.free`).  With
`check_isfluid`: see C73.  Missing: the stateful kept arrays (for these see C57). -/
theorem C42_walls_partial (hdim : dim ≤ 3) {s : Sten dim} (D : WallData K dim s) (lo : Fin dim → K) (dx : K)
    (lab : Fin dim → Bool → Int) (hD : D.WF lab) (g g' : Grid dim) (hN : g.N = g'.N) (hw : g.w = g'.w)
    (ST : Domain.State K dim s.nu) (J : List (Method dim × List (Entry K dim s.ns)))
    (hJ : OnGrid D (boxGrid g.N g.w lo dx lab s) ST J)
    (hfree : ∀ t, Free s (flat s (withValues s (boxGrid g.N g.w lo dx lab s) D.ψ J t)))
    (S : Kernel K s.ns nc d) (hfront : ∀ j, (S.consm j : Nat) < nc) (a : Algo)
    (Q : Proc g → Setup K s.ns nc d dim) (hQ : Uniform g S s.vel a Q) (hQw : WallRun D g lo dx lab Q)
    (Q' : Proc g' → Setup K s.ns nc d dim) (hQ' : Uniform g' S s.vel a Q') (hQw' : WallRun D g' lo dx lab Q')
    (σ₀ : Proc g → Simu K s.ns d dim) (h0 : ∀ c, (σ₀ c).Start (Q c))
    (σ₀' : Proc g' → Simu K s.ns d dim) (h0' : ∀ c, (σ₀' c).Start (Q' c)) (G : Arr K s.ns dim)
    (hG : ∀ c x, Owned (size g c) g.w x → (σ₀ c).arr x = G (globalPos (first g c) g.w x))
    (hG' : ∀ c x, Owned (size g' c) g'.w x → (σ₀' c).arr x = G (globalPos (first g' c) g'.w x))
    (k : Nat) (σ : Proc g → Simu K s.ns d dim) (hr : PRun g Q σ₀ k σ)
    (σ' : Proc g' → Simu K s.ns d dim) (hr' : PRun g' Q' σ₀' k σ')
    (c : Proc g) (x : Cell dim) (hx : Owned (size g c) g.w x)
    (c' : Proc g') (x' : Cell dim) (hx' : Owned (size g' c') g'.w x')
    (he : globalPos (first g c) g.w x = globalPos (first g' c') g'.w x') :
    (σ c).arr x = (σ' c').arr x' ∧ (σ c).t = (σ' c').t ∧ (σ c).nt = (σ' c').nt := by
  obtain ⟨h1, h2⟩ := C42_global_partial hdim g hQw.large S hfront s.vel a Q hQ _
    (sameBoundary_walls D g lo dx lab hD Q hQw ST J hJ hfree) σ₀ h0 G hG k σ hr
  rw [hN, hw] at hJ hfree
  obtain ⟨h1', h2'⟩ := C42_global_partial hdim g' hQw'.large S hfront s.vel a Q' hQ' _
    (sameBoundary_walls D g' lo dx lab hD Q' hQw' ST J hJ hfree) σ₀' h0' G hG' k σ' hr'
  refine ⟨?_, ?_, ?_⟩
  · rw [h2 c x hx, h2' c' x' hx', he, hN, hw]
  · rw [(h1 c).2.1, (h1' c').2.1]
  · rw [(h1 c).2.2, (h1' c').2.2]

/-! ## A case -/

/-- A solid interval `[1, 2]` with the label 5. -/
def plug : Domain.Elem ℚ 1 where
  isFluid := false
  bl := fun _ => 1
  ur := fun _ => 2
  inside := fun x => decide (1 ≤ x 0 ∧ x 0 ≤ 2)
  alpha := fun x v => if 0 < v 0 ∧ x 0 ≤ 1 ∧ 1 ≤ x 0 + v 0 then (1 - x 0) / v 0
    else if v 0 < 0 ∧ 2 ≤ x 0 ∧ x 0 + v 0 ≤ 2 then (2 - x 0) / v 0 else -1
  border := fun _ _ => 5
  normvect := fun _ v j => -v j

theorem plug_sound : plug.Sound where
  inside := by
    intro x hx j
    obtain rfl : j = 0 := Subsingleton.elim _ _
    simpa [plug] using hx
  hit := by
    intro x v
    simp only [plug]
    split_ifs with h1 h2
    · intro _
      refine ⟨(div_le_one h1.1).2 (by linarith [h1.2.2]), fun j => ?_⟩
      obtain rfl : j = 0 := Subsingleton.elim _ _
      rw [div_mul_cancel₀ _ h1.1.ne']
      constructor <;> linarith
    · intro _
      refine ⟨(div_le_one_of_neg h2.1).2 (by linarith [h2.2.2]), fun j => ?_⟩
      obtain rfl : j = 0 := Subsingleton.elim _ _
      rw [div_mul_cancel₀ _ h2.1.ne]
      constructor <;> linarith
    · intro h; linarith

/-- Walls 0 and 1 at the ends, the plug 5 between: anti bounce-back with values depending on the time and on the
place at the ends, bounce-back on the plug. -/
def pipe : WallData ℚ 1 sten2 where
  elems := [plug]
  els := [5]
  dico := fun l => if l = 5 then some [(0, .bounceBack)] else some [(0, .antiBounceBack)]
  ψ := fun l t x k => if l = 5 then 0 else t + x 0 + k

def pipeLab : Fin 1 → Bool → Int := fun _ side => if side then 1 else 0

theorem pipe_wf : pipe.WF pipeLab where
  sten :=
    { inj := by decide
      usym := by decide
      sym := by decide
      scheme := by decide
      distinct := by decide }
  sound := by intro e he; rw [List.mem_singleton.1 he]; exact plug_sound
  labels := by intro e he x v _; rw [List.mem_singleton.1 he]; simp [plug, pipe]
  dict := by intro l ms h; simp only [pipe] at h; split_ifs at h <;> cases h <;> simp
  no999 := by simp [pipe]
  noFace := by intro j side; cases side <;> simp [pipeLab]


/-- The seven cells on one process. -/
def grid7one : Grid 1 := ⟨fun _ => 7, fun _ => 1, fun _ => 1, by decide⟩

/-- The domain of a process of the pipe and the entries of its boundary methods. -/
def pipeData (g : Grid 1) (c : Proc g) : Option (Domain.State ℚ 1 2 × List (Method 1 × List (Entry ℚ 1 2))) := do
  let st ← Domain.build (procGrid g (fun _ => 0) 1 pipeLab sten2 c) pipe.elems
  let I ← instances sten2 (procGrid g (fun _ => (0 : ℚ)) 1 pipeLab sten2 c).total st.link
    (listOfLabels (procGrid g (fun _ => (0 : ℚ)) 1 pipeLab sten2 c) pipe.els) pipe.dico
  return (st, I)

theorem procGrid_wf {K : Type} [Field K] [LinearOrder K] [IsStrictOrderedRing K] [FloorRing K] {dim : Nat}
    (g : Grid dim) (lo : Fin dim → K) (dx : K) (hdx : 0 < dx) (lab : Fin dim → Bool → Int) (s : Sten dim)
    (hv : ∀ k j, |s.uvel k j| ≤ g.w j) (c : Proc g) : (procGrid g lo dx lab s c).WF :=
  ⟨hdx, fun _ => Nat.le_add_right _ _, hv⟩

theorem pipe_onGrid (g : Grid 1) (hw : ∀ k j, |sten2.uvel k j| ≤ g.w j) (c : Proc g) {st I}
    (h : pipeData g c = some (st, I)) :
    OnGrid pipe (procGrid g (fun _ => 0) 1 pipeLab sten2 c) st I := by
  unfold pipeData at h
  simp only [Option.bind_eq_bind, Option.bind_eq_some_iff, Option.pure_def, Option.some.injEq,
    Prod.mk.injEq] at h
  obtain ⟨st', h1, I', h2, rfl, rfl⟩ := h
  exact ⟨procGrid_wf g _ _ one_pos _ _ hw c, rfl, h1, h2⟩

/-- The setup of a process of the pipe. -/
def pipeSetup (g : Grid 1) (b : Backend) (a : Algo) (c : Proc g) : Setup ℚ 2 1 0 1 :=
  { ring d1q2 sten2.vel a g c with
    backend := b
    bc := fun t A => match pipeData g c with
      | none => A
      | some p => toArr (boundaryCondition sten2
          (withValues sten2 (procGrid g (fun _ => 0) 1 pipeLab sten2 c) pipe.ψ p.2 t) (toDist A)) }

theorem pipe_uniform (g : Grid 1) (b : Backend) (a : Algo) :
    Uniform g d1q2 sten2.vel a (pipeSetup g b a) :=
  let h := ring_uniform d1q2 sten2.vel a g
  ⟨h.scheme, h.vel, h.algo, h.all, h.nodup, h.loops, fun c => by simp [pipeSetup, ring]⟩

theorem pipe_wallRun (g : Grid 1) (hl : ∀ c i, g.w i ≤ size g c i) (hw : ∀ k j, |sten2.uvel k j| ≤ g.w j)
    (hs : ∀ c : Proc g, (pipeData g c).isSome) (b : Backend) (a : Algo)
    (hbeg : ∀ c : Proc g, first g c 0 = 0 ∨ 4 ≤ first g c 0)
    (hend : ∀ c : Proc g, 4 ≤ first g c 0 + size g c 0) :
    WallRun pipe g (fun _ => 0) 1 pipeLab (pipeSetup g b a) where
  large := hl
  onGrid := fun c => by
    obtain ⟨⟨st, I⟩, hp⟩ := Option.isSome_iff_exists.1 (hs c)
    exact ⟨st, I, pipe_onGrid g hw c hp, fun t A => by simp only [pipeSetup, hp]⟩
  away := fun c x hx k => by
    by_cases hcl : (procGrid g (fun _ => (0 : ℚ)) 1 pipeLab sten2 c).Clear
        ((procGrid g (fun _ => (0 : ℚ)) 1 pipeLab sten2 c).target k x)
    · exact Or.inl hcl
    · right
      intro e he
      rw [List.mem_singleton.1 he]
      have hx0 := hx 0
      have hc1 := hbeg c
      have hc2 := hend c
      have hcc : (procGrid g (fun _ => (0 : ℚ)) 1 pipeLab sten2 c).cellCentre x 0 =
          (((first g c 0 : Int) + x 0 - g.w 0 : Int) : ℚ) + 1 / 2 := by
        simp [Domain.Grid.cellCentre, procGrid, boxGrid, DomainSpec.centre]
      have hv : (k = 0 ∨ k = 1) := by clear hcl; revert k; decide
      have hn : (procGrid g (fun _ => (0 : ℚ)) 1 pipeLab sten2 c).n 0 = size g c 0 := by
        simp [Domain.Grid.n, procGrid]
      rw [hn] at hx0
      change (g.w 0 : Int) ≤ x 0 ∧ x 0 < g.w 0 + size g c 0 at hx0
      have hcl' : (first g c 0 ≠ 0 ∧ x 0 + sten2.uvel k 0 < g.w 0) ∨
          (g.w 0 + size g c 0 : Int) ≤ x 0 + sten2.uvel k 0 := by
        by_contra hh
        push Not at hh
        apply hcl
        intro j
        obtain rfl : j = 0 := Subsingleton.elim _ _
        rw [hn]
        exact ⟨hh.1, fun _ => hh.2⟩
      simp only [plug, hcc]
      rcases hv with rfl | rfl
      · have e1 : sten2.uvel 0 0 = 1 := rfl
        rw [e1] at hcl'
        have e2 : (![fun _ => 1, fun _ => -1] : Fin 2 → Fin 1 → Int) 0 0 = 1 := rfl
        rw [e2]
        have h4 : (4 : Int) ≤ (first g c 0 : Int) + x 0 - g.w 0 + 1 := by omega
        have h5 : (4 : ℚ) ≤ (((first g c 0 : Int) + x 0 - g.w 0 : Int) : ℚ) + 1 := by exact_mod_cast h4
        rw [if_neg (by rintro ⟨-, h, -⟩; linarith), if_neg (by rintro ⟨h, -⟩; norm_num at h)]
        norm_num
      · have e1 : sten2.uvel 1 0 = -1 := rfl
        rw [e1] at hcl'
        have e2 : (![fun _ => 1, fun _ => -1] : Fin 2 → Fin 1 → Int) 1 0 = -1 := rfl
        rw [e2]
        have h4 : (4 : Int) ≤ (first g c 0 : Int) + x 0 - g.w 0 := by omega
        have h5 : (4 : ℚ) ≤ (((first g c 0 : Int) + x 0 - g.w 0 : Int) : ℚ) := by exact_mod_cast h4
        rw [if_neg (by rintro ⟨h, -⟩; norm_num at h),
          if_neg (by rintro ⟨-, -, h⟩; push_cast at h h5; linarith)]
        norm_num

/-- A case for C42: the pipe on two processes and on one process, with different backends; there are entries
on the walls and on the plug, and runs of both kinds exist. -/
example : (∀ c, ((pipeData grid7one c).map fun p => p.2.map fun q => q.2.length) = some [2, 2]) ∧
    WallRun pipe grid7 (fun _ => 0) 1 pipeLab (pipeSetup grid7 .c .pull) ∧
    WallRun pipe grid7one (fun _ => 0) 1 pipeLab (pipeSetup grid7one .numpy .pull) ∧
    (∃ ST J, OnGrid pipe (boxGrid grid7.N grid7.w (fun _ => 0) 1 pipeLab sten2) ST J ∧
      ∀ t, Free sten2 (flat sten2 (withValues sten2 (boxGrid grid7.N grid7.w (fun _ => 0) 1 pipeLab sten2)
        pipe.ψ J t))) ∧
    ∃ σ σ', PRun grid7 (pipeSetup grid7 .c .pull)
      (fun c => startWith 2 0 1 fun x k => (first grid7 c 0 : ℚ) + x 0 + 10 * k) 5 σ ∧
      PRun grid7one (pipeSetup grid7one .numpy .pull)
        (fun c => { startWith 2 0 1 fun x k => (first grid7one c 0 : ℚ) + x 0 + 10 * k with Fnew := 0 }) 5 σ' := by
  have h : ∀ c i, grid7.w i ≤ size grid7 c i := (large_iff grid7).2 (by decide)
  have h' : ∀ c i, grid7one.w i ≤ size grid7one c i := (large_iff grid7one).2 (by decide)
  have hs : ∀ c, (pipeData grid7 c).isSome := by decide +kernel
  have hs' : ∀ c, (pipeData grid7one c).isSome := by decide +kernel
  refine ⟨by decide +kernel, pipe_wallRun grid7 h (by decide) hs _ _ (by decide +kernel) (by decide +kernel),
    pipe_wallRun grid7one h' (by decide) hs' _ _ (by decide +kernel) (by decide +kernel), ?_, ?_⟩
  · obtain ⟨⟨st, I⟩, hp⟩ := Option.isSome_iff_exists.1 (hs' fun i => ⟨0, grid7one.hp i⟩)
    have ho := pipe_onGrid grid7one (by decide) _ hp
    have he : procGrid grid7one (fun _ => (0 : ℚ)) 1 pipeLab sten2 (fun i => ⟨0, grid7one.hp i⟩) =
        boxGrid grid7.N grid7.w (fun _ => 0) 1 pipeLab sten2 := by
      have e1 : first grid7one (fun i => ⟨0, grid7one.hp i⟩) = fun _ => 0 := by
        funext i; revert i; decide +kernel
      have e2 : size grid7one (fun i => ⟨0, grid7one.hp i⟩) = fun _ => 7 := by
        funext i; revert i; decide +kernel
      unfold procGrid boxGrid
      simp only [e1, e2]
      rfl
    rw [he] at ho
    refine ⟨st, I, ho, fun t => ho.free pipe_wf ?_ t⟩
    intro l ms hl p hp
    simp only [pipe] at hl
    split_ifs at hl <;> cases hl <;> rw [List.mem_singleton.1 hp] <;> trivial
  · obtain ⟨σ, hσ⟩ := C42_run_exists (by omega) grid7 h (pipeSetup grid7 .c .pull) _ 5
    obtain ⟨σ', hσ'⟩ := C42_run_exists (by omega) grid7one h' (pipeSetup grid7one .numpy .pull) _ 5
    exact ⟨σ, σ', hσ, hσ'⟩

end Pylbm.Sim
