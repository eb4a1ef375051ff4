import Verif.Boundary.Lemmas
import Verif.Boundary.Spec
import Verif.Domain.Provenance
import Verif.Domain.Witness
import Mathlib.Tactic.FieldSimp
/-!
# Boundary conditions: properties C30, C31, C33, C34, C35
-/
set_option linter.unusedSectionVars false
namespace Pylbm.Boundary
open Domain DomainSpec BoundarySpec

section tables
variable {K : Type} {dim : Nat} (s : Sten dim) (shape : Fin dim → Nat)
  (link : Fin s.nu → Cell dim → Link K dim)

/-- All the (class, entry) of the instances. -/
def entries (insts : List (Method dim × List (Entry K dim s.ns))) :
    List (Method dim × Entry K dim s.ns) :=
  insts.flatMap fun p => p.2.map fun e => (p.1, e)

/-- Membership in the tables of all the instances. -/
theorem mem_entries (hs : s.WF) (labels : List Int)
    (dico : Int → Option (List (Nat × Method dim)))
    (insts : List (Method dim × List (Entry K dim s.ns)))
    (h : instances s shape link labels dico = some insts) (m : Method dim) (e : Entry K dim s.ns) :
    (m, e) ∈ entries s insts ↔ ∃ label ∈ labels, label ≠ -1 ∧ label ≠ -2 ∧
      (s.scheme e.k, m) ∈ (dico label).getD [] ∧ e.label = label ∧
      source s e ∈ cells dim shape ∧ (link (s.ux (s.sym e.k)) (source s e)).flag = label ∧
      e.dist = (link (s.ux (s.sym e.k)) (source s e)).dist := by
  obtain ⟨all, hall, hp⟩ := instances_spec s shape link labels dico insts h
  unfold entries
  rw [hp.mem_iff, (allEntries_spec s shape link labels dico all hall).2]
  simp only [List.mem_flatMap, List.mem_filter, decide_eq_true_eq]
  constructor
  · rintro ⟨label, ⟨h1, h2, h3⟩, p, hp, hm⟩
    obtain ⟨m1, m2, m3⟩ := (mem_labelEntries s shape link hs label p _).1 hm
    refine ⟨label, h1, h2, h3, ?_, m3⟩
    simp only at m1 m2
    rw [m1, m2]; exact hp
  · rintro ⟨label, h1, h2, h3, h4, h5⟩
    exact ⟨label, ⟨h1, h2, h3⟩, _, h4, (mem_labelEntries s shape link hs label _ _).2
      ⟨rfl, rfl, h5⟩⟩

theorem entries_nodup (hs : s.WF) (labels : List Int) (hl : labels.Nodup)
    (dico : Int → Option (List (Nat × Method dim)))
    (hd : ∀ label ms, dico label = some ms → (ms.map Prod.fst).Nodup)
    (insts : List (Method dim × List (Entry K dim s.ns)))
    (h : instances s shape link labels dico = some insts) :
    ((entries s insts).map fun q => (q.2.k, q.2.cell)).Nodup := by
  obtain ⟨all, hall, hp⟩ := instances_spec s shape link labels dico insts h
  unfold entries
  rw [(hp.map _).nodup_iff, (allEntries_spec s shape link labels dico all hall).2,
    List.map_flatMap, List.nodup_flatMap]
  have key : ∀ label p q, q ∈ labelEntries s shape link label p →
      s.scheme q.2.k = p.1 ∧ (link (s.ux (s.sym q.2.k)) (source s q.2)).flag = label := by
    intro label p q hq
    obtain ⟨-, m2, -, -, m5, -⟩ := (mem_labelEntries s shape link hs label p q).1 hq
    exact ⟨m2, m5⟩
  have hsrc : ∀ e e' : Entry K dim s.ns, e.k = e'.k → e.cell = e'.cell → source s e = source s e' := by
    intro e e' h1 h2
    unfold source
    rw [h1, h2]
  constructor
  · intro label _
    rw [List.map_flatMap, List.nodup_flatMap]
    refine ⟨fun p _ => labelEntries_nodup s shape link label p, ?_⟩
    have hpw : ((dico label).getD []).Pairwise fun p q => p.1 ≠ q.1 := by
      cases hdl : dico label with
      | none => simp
      | some ms => exact List.pairwise_map.1 (hd label ms hdl)
    refine hpw.imp ?_
    intro p p' hpp x hx hy
    obtain ⟨q, hq, rfl⟩ := List.mem_map.1 hx
    obtain ⟨q', hq', e'⟩ := List.mem_map.1 hy
    simp only [Prod.mk.injEq] at e'
    apply hpp
    rw [← (key label p q hq).1, ← (key label p' q' hq').1, e'.1]
  · refine (hl.filter _).imp ?_
    intro l l' hll x hx hy
    obtain ⟨q, hq, rfl⟩ := List.mem_map.1 hx
    obtain ⟨q', hq', e'⟩ := List.mem_map.1 hy
    simp only [Prod.mk.injEq] at e'
    obtain ⟨p, _, hq⟩ := List.mem_flatMap.1 hq
    obtain ⟨p', _, hq'⟩ := List.mem_flatMap.1 hq'
    apply hll
    rw [← (key l p q hq).2, ← (key l' p' q' hq').2, hsrc q'.2 q.2 e'.1 e'.2, e'.1]

/-- C30: the positions (distribution function `k`, outer cell) written by the instances are pairwise
distinct, and they are exactly the positions `(k, c - v_k)` for the cells `c` of the array whose link
of velocity `-v_k` is flagged with a label for which the user gives a condition for the scheme of
`k`; the entry carries the label and the distance of that link, and belongs to the class which
the user gives for that label and scheme. -/
theorem C30_ghosts_are_links (hs : s.WF) (labels : List Int) (hl : labels.Nodup)
    (dico : Int → Option (List (Nat × Method dim)))
    (hd : ∀ label ms, dico label = some ms → (ms.map Prod.fst).Nodup)
    (insts : List (Method dim × List (Entry K dim s.ns)))
    (h : instances s shape link labels dico = some insts) :
    (insts.flatMap fun p => p.2.map fun e => (e.k, e.cell)).Nodup ∧
    (∀ (k : Fin s.ns) (c : Cell dim) (u : Fin s.nu), (∀ j, s.uvel u j = -s.vel k j) →
      (∀ j, 0 ≤ c j ∧ c j < shape j) → ∀ m label,
      label ∈ labels → label ≠ -1 → label ≠ -2 → (link u c).flag = label →
      (s.scheme k, m) ∈ (dico label).getD [] →
      ∃ es, (m, es) ∈ insts ∧ ⟨k, fun j => c j - s.vel k j, label, (link u c).dist⟩ ∈ es) ∧
    (∀ m es, (m, es) ∈ insts → ∀ e ∈ es, e.label ∈ labels ∧ e.label ≠ -1 ∧ e.label ≠ -2 ∧
      (s.scheme e.k, m) ∈ (dico e.label).getD [] ∧
      ∃ (c : Cell dim) (u : Fin s.nu), (∀ j, s.uvel u j = -s.vel e.k j) ∧
        (∀ j, 0 ≤ c j ∧ c j < shape j) ∧ (∀ j, e.cell j = c j - s.vel e.k j) ∧
        (link u c).flag = e.label ∧ e.dist = (link u c).dist) := by
  refine ⟨?_, ?_, ?_⟩
  · have := entries_nodup s shape link hs labels hl dico hd insts h
    unfold entries at this
    rw [List.map_flatMap] at this
    simpa only [List.map_map, Function.comp_def] using this
  · intro k c u hu hc m label h1 h2 h3 h4 h5
    have hus : u = s.ux (s.sym k) := by
      apply hs.inj
      funext j
      rw [hu j, ← hs.sym k j]; rfl
    have hsrc : source s (⟨k, fun j => c j - s.vel k j, label, (link u c).dist⟩ :
        Entry K dim s.ns) = c := by
      funext j; simp [source]
    have := (mem_entries s shape link hs labels dico insts h m
      ⟨k, fun j => c j - s.vel k j, label, (link u c).dist⟩).2
      ⟨label, h1, h2, h3, h5, rfl, by rw [hsrc]; exact mem_cells.2 hc, by
        simp only [hsrc, ← hus]; exact h4, by simp only [hsrc, ← hus]⟩
    unfold entries at this
    obtain ⟨p, hp, hm⟩ := List.mem_flatMap.1 this
    obtain ⟨e, he, hme⟩ := List.mem_map.1 hm
    simp only [Prod.mk.injEq] at hme
    refine ⟨p.2, ?_, ?_⟩
    · rw [← hme.1]; exact hp
    · rw [← hme.2]; exact he
  · intro m es hes e he
    have : (m, e) ∈ entries s insts := List.mem_flatMap.2 ⟨_, hes, List.mem_map.2 ⟨e, he, rfl⟩⟩
    obtain ⟨label, h1, h2, h3, h4, h5, h6, h7, h8⟩ :=
      (mem_entries s shape link hs labels dico insts h m e).1 this
    subst h5
    refine ⟨h1, h2, h3, h4, source s e, s.ux (s.sym e.k), fun j => hs.sym e.k j, mem_cells.1 h6,
      fun j => by simp [source], h7, h8⟩

end tables

section domain
variable {K : Type} [Field K] [LinearOrder K] [IsStrictOrderedRing K] [FloorRing K] {dim : Nat}
  (s : Sten dim)

/-- The classes which read only the cell on the fluid side of the link. -/
def OneCell : Method dim → Prop
  | .bounceBack | .antiBounceBack | .neumann => True
  | _ => False

/-- The instances of a domain built from elements, with any values `feq`: a list of instances with
items whose entries are, up to the order, those of `Boundary.__init__`. -/
structure OnDomain (g : Grid K dim s.nu) (elems : List (Elem K dim)) (st : State K dim s.nu)
    (labels : List Int) (dico : Int → Option (List (Nat × Method dim)))
    (I : List (Method dim × List (Item K dim s.ns))) : Prop where
  vel : g.vel = s.uvel
  wf : g.WF
  sound : ∀ e ∈ elems, e.Sound
  built : build g elems = some st
  nodup : labels.Nodup
  dict : ∀ label ms, dico label = some ms → (ms.map Prod.fst).Nodup
  perm : ∃ insts, instances s g.total st.link labels dico = some insts ∧
    ((flat s I).map fun q => (q.1, q.2.toEntry)).Perm (entries s insts)

theorem OnDomain.nodup_positions {s : Sten dim} {g : Grid K dim s.nu} {elems : List (Elem K dim)}
    {st : State K dim s.nu} {labels : List Int} {dico : Int → Option (List (Nat × Method dim))}
    {I : List (Method dim × List (Item K dim s.ns))} (hs : s.WF)
    (h : OnDomain s g elems st labels dico I) : (positions s (flat s I)).Nodup := by
  obtain ⟨insts, h1, h2⟩ := h.perm
  have h3 := entries_nodup s g.total st.link hs labels h.nodup dico h.dict insts h1
  rw [← ((h2.map fun q => (q.2.k, q.2.cell)).nodup_iff)] at h3
  unfold positions
  simpa only [List.map_map, Function.comp_def] using h3

/-- The item of an instance comes from a link from a fluid cell to a solid cell. -/
theorem OnDomain.item {s : Sten dim} {g : Grid K dim s.nu} {elems : List (Elem K dim)}
    {st : State K dim s.nu} {labels : List Int} {dico : Int → Option (List (Nat × Method dim))}
    {I : List (Method dim × List (Item K dim s.ns))} (hs : s.WF)
    (h : OnDomain s g elems st labels dico I) (h999 : (999 : Int) ∉ labels)
    {q : Method dim × Item K dim s.ns} (hq : q ∈ flat s I) :
    let c := source s q.2.toEntry
    let L := st.link (s.ux (s.sym q.2.k)) c
    g.Interior c ∧ g.target (s.ux (s.sym q.2.k)) c = q.2.cell ∧
      st.ioo c = 999 ∧ st.ioo q.2.cell = -1 ∧ q.2.dist = L.dist ∧ q.2.label = L.flag ∧
      L.dist ≠ 999 ∧ 0 < q.2.dist ∧ q.2.dist ≤ 1 := by
  intro c L
  obtain ⟨insts, h1, h2⟩ := h.perm
  have hm : (q.1, q.2.toEntry) ∈ entries s insts :=
    h2.mem_iff.1 (List.mem_map.2 ⟨q, hq, rfl⟩)
  obtain ⟨label, hl, -, -, -, m5, m6, m7, m8⟩ :=
    (mem_entries s g.total st.link hs labels dico insts h1 _ _).1 hm
  have hflag : L.flag ≠ 999 := by
    intro hh
    apply h999
    rw [← hh]
    change (st.link (s.ux (s.sym q.2.k)) (source s q.2.toEntry)).flag ∈ labels
    rw [m7]; exact hl
  have hint : g.Interior c := by
    by_contra hc
    exact hflag (build_link_outside h.wf h.sound h.built hc _).2
  have h23 := C23_flagged_links g h.wf elems h.sound st h.built c hint (s.ux (s.sym q.2.k))
  have hd : L.dist ≠ 999 := fun hh => hflag (h23.2 hh)
  obtain ⟨f1, f2, f3, f4, -⟩ := h23.1 hd
  have ht : g.target (s.ux (s.sym q.2.k)) c = q.2.cell := by
    funext j
    have e1 := hs.sym q.2.k j
    unfold Sten.vel at e1
    simp only [Grid.target, h.vel, c, source, Sten.vel, e1]
    ring
  refine ⟨hint, ht, f1, by rw [← ht]; exact f2, m8, by rw [m5, ← m7], hd, ?_, ?_⟩
  · change 0 < q.2.dist; rw [m8]; exact f3
  · change q.2.dist ≤ 1; rw [m8]; exact f4

theorem OnDomain.free {s : Sten dim} {g : Grid K dim s.nu} {elems : List (Elem K dim)}
    {st : State K dim s.nu} {labels : List Int} {dico : Int → Option (List (Nat × Method dim))}
    {I : List (Method dim × List (Item K dim s.ns))} (hs : s.WF)
    (h : OnDomain s g elems st labels dico I) (h999 : (999 : Int) ∉ labels)
    (hm : ∀ p ∈ I, OneCell p.1) : Free s (flat s I) := by
  intro q hq p hp hpos
  have hcell : p.2 = source s q.2.toEntry := by
    have hone : OneCell q.1 := by
      obtain ⟨r, hr, hr'⟩ := List.mem_flatMap.1 hq
      obtain ⟨it, _, rfl⟩ := List.mem_map.1 hr'
      exact hm r hr
    have : p.2 = inner s 1 q.2.toEntry := by
      cases hq1 : q.1 <;> rw [hq1] at hone hp <;> simp only [OneCell] at hone <;>
        simp only [reads, List.mem_singleton] at hp <;> rw [hp]
    rw [this]
    funext j; simp [inner, source]
  obtain ⟨r, hr, hre⟩ := List.mem_map.1 hpos
  have h1 := (h.item hs h999 hq).2.2.1
  have h2 := (h.item hs h999 hr).2.2.2.1
  rw [← hcell] at h1
  rw [show r.2.cell = p.2 from by rw [← hre]] at h2
  rw [h1] at h2
  exact absurd h2 (by norm_num)

/-- C30: on a domain built from any list of elements, with labels other than 999, the update of all the
methods which read one cell (bounce-back, anti bounce-back, Neumann) leaves the values of the fluid
cells and writes in each ghost position the formula of its method evaluated on the array before the
update; so the order of the labels, of the methods and of the links does not matter. -/
theorem C30_update_order (hs : s.WF) (g : Grid K dim s.nu) (elems : List (Elem K dim))
    (st : State K dim s.nu) (labels : List Int) (dico : Int → Option (List (Nat × Method dim)))
    (I J : List (Method dim × List (Item K dim s.ns)))
    (hI : OnDomain s g elems st labels dico I) (h999 : (999 : Int) ∉ labels)
    (hm : ∀ p ∈ I, OneCell p.1) (hJ : (flat s J).Perm (flat s I)) (f : Dist K dim s.ns) :
    (∀ k c, st.ioo c = 999 → boundaryCondition s J f k c = f k c) ∧
    (∀ m items, (m, items) ∈ I → ∀ it ∈ items,
      boundaryCondition s J f it.k it.cell = value s m f f it) ∧
    boundaryCondition s J f = boundaryCondition s I f := by
  have hn := hI.nodup_positions hs
  have hf := hI.free hs h999 hm
  have hnJ : (positions s (flat s J)).Nodup := ((hJ.map _).nodup_iff).2 hn
  have hfJ : Free s (flat s J) := by
    intro q hq p hp hpos
    exact hf q (hJ.mem_iff.1 hq) p hp ((hJ.map _).mem_iff.1 hpos)
  have eI := boundaryCondition_written s I hn hf f
  have eJ := boundaryCondition_written s J hnJ hfJ f
  have e : boundaryCondition s J f = boundaryCondition s I f := by
    rw [eI, eJ]; exact written_perm s hnJ hJ f
  refine ⟨fun k c hc => ?_, fun m items hmi it hit => ?_, e⟩
  · rw [e, eI]
    apply written_not_mem
    intro hpos
    obtain ⟨r, hr, hre⟩ := List.mem_map.1 hpos
    have h2 := (hI.item hs h999 hr).2.2.2.1
    rw [show r.2.cell = c from by simpa using congrArg Prod.snd hre, hc] at h2
    exact absurd h2 (by norm_num)
  · rw [e, eI]
    exact written_mem s hn (q := (m, it)) (List.mem_flatMap.2 ⟨_, hmi, List.mem_map.2 ⟨it, hit, rfl⟩⟩) f

/-- The wall point of an item. -/
theorem OnDomain.wall {s : Sten dim} {g : Grid K dim s.nu} {elems : List (Elem K dim)}
    {st : State K dim s.nu} {labels : List Int} {dico : Int → Option (List (Nat × Method dim))}
    {I : List (Method dim × List (Item K dim s.ns))} (hs : s.WF)
    (hI : OnDomain s g elems st labels dico I) (h999 : (999 : Int) ∉ labels)
    {q : Method dim × Item K dim s.ns} (hq : q ∈ flat s I) (i : Fin dim) :
    wallPoint s g q.2.toEntry i = g.cellCentre (source s q.2.toEntry) i +
      q.2.dist * (g.dx * (s.uvel (s.ux (s.sym q.2.k)) i : K)) := by
  obtain ⟨h1, h2, h3, h4, h5, h6, -, h8, h9⟩ := hI.item hs h999 hq
  obtain ⟨m, it⟩ := q
  unfold wallPoint
  simp only at h1 h2 ⊢
  have hi := h1 i
  have hv : |s.uvel (s.ux (s.sym it.k)) i| ≤ (g.h i : Int) := by
    have := hI.wf.halo (s.ux (s.sym it.k)) i
    rw [hI.vel] at this
    exact this
  have hcell : it.cell i = source s it.toEntry i + s.uvel (s.ux (s.sym it.k)) i := by
    rw [← h2]; unfold Grid.target; rw [hI.vel]
  have hab := abs_le.1 hv
  have hpt : g.point it.cell i = g.cellCentre (source s it.toEntry) i +
      g.dx * (s.uvel (s.ux (s.sym it.k)) i : K) := by
    unfold Grid.point Grid.cellCentre
    rw [coord_eq hI.wf i (by rw [hcell]; omega) (by rw [hcell]; unfold Grid.total; omega), hcell]
    unfold centre
    push_cast; ring
  have hvel : (s.vel it.k i : K) = -(s.uvel (s.ux (s.sym it.k)) i : K) := by
    have := hs.sym it.k i
    unfold Sten.vel at this ⊢
    rw [this]; push_cast; ring
  rw [hpt, hvel]; ring

/-- C31: the point at which the user function of a boundary condition is evaluated is the centre of
the fluid cell plus `distance · velocity · dx` along the link. -/
theorem C31_wall_point (hs : s.WF) (g : Grid K dim s.nu) (elems : List (Elem K dim))
    (st : State K dim s.nu) (labels : List Int) (dico : Int → Option (List (Nat × Method dim)))
    (I : List (Method dim × List (Item K dim s.ns)))
    (hI : OnDomain s g elems st labels dico I) (h999 : (999 : Int) ∉ labels) (m : Method dim)
    (items : List (Item K dim s.ns)) (hm : (m, items) ∈ I) (it : Item K dim s.ns) (hit : it ∈ items) :
    ∃ (c : Cell dim) (u : Fin s.nu), g.Interior c ∧ g.target u c = it.cell ∧
      (∀ j, s.uvel u j = -s.vel it.k j) ∧ st.ioo c = 999 ∧ st.ioo it.cell = -1 ∧
      it.label = (st.link u c).flag ∧ it.dist = (st.link u c).dist ∧ 0 < it.dist ∧ it.dist ≤ 1 ∧
      ∀ i, wallPoint s g it.toEntry i = g.cellCentre c i + it.dist * (g.dx * (s.uvel u i : K)) := by
  have hq : (m, it) ∈ flat s I := List.mem_flatMap.2 ⟨_, hm, List.mem_map.2 ⟨it, hit, rfl⟩⟩
  obtain ⟨h1, h2, h3, h4, h5, h6, -, h8, h9⟩ := hI.item hs h999 hq
  exact ⟨_, _, h1, h2, fun j => hs.sym it.k j, h3, h4, h6, h5, h8, h9, hI.wall hs h999 hq⟩

/-- C31 (where the wall is): the point lies on the face of the box with the label of the entry (its
coordinate along the axis of the face is the bound of the box), or it is the point at which the
link meets an element with the label of the entry. -/
theorem C31_wall_point_on_wall (hs : s.WF) (g : Grid K dim s.nu)
    (elems : List (Elem K dim))
    (st : State K dim s.nu) (labels : List Int) (dico : Int → Option (List (Nat × Method dim)))
    (I : List (Method dim × List (Item K dim s.ns)))
    (hI : OnDomain s g elems st labels dico I) (h999 : (999 : Int) ∉ labels) (m : Method dim)
    (items : List (Item K dim s.ns)) (hm : (m, items) ∈ I) (it : Item K dim s.ns) (hit : it ∈ items) :
    (∃ f : Face dim, it.label = g.userLabel f.ax f.upper ∧
      wallPoint s g it.toEntry f.ax =
        if f.upper then g.lo f.ax + g.dx * g.N f.ax else g.lo f.ax) ∨
    (∃ e ∈ elems, ∃ x v : Fin dim → K, 0 < e.alpha x v ∧ it.label = e.border x v ∧
      wallPoint s g it.toEntry = fun i => x i + e.alpha x v * v i) := by
  have hq : (m, it) ∈ flat s I := List.mem_flatMap.2 ⟨_, hm, List.mem_map.2 ⟨it, hit, rfl⟩⟩
  obtain ⟨h1, h2, h3, h4, h5, h6, h7, h8, h9⟩ := hI.item hs h999 hq
  have hw := hI.wall hs h999 hq
  simp only at hw h1 h2 h5 h6
  obtain ⟨-, hor⟩ := build_origin hI.wf hI.sound hI.built _ _ h7
  rcases hor with ⟨f, ⟨hA, hX, -⟩, hlab, -⟩ | ⟨e, he, hpos, hal, hlab, -⟩
  · left
    refine ⟨f, ?_, ?_⟩
    · rw [h6, hlab]
      have hA' : g.label f.ax f.upper ≠ -2 := hA
      unfold Grid.label at hA' ⊢
      split_ifs at hA' ⊢ with c1 c2 c3
      · exact absurd rfl hA'
      · rw [c1]
      · exact absurd rfl hA'
      · rw [Bool.not_eq_false] at c1; rw [c1]
    · rw [hw, h5]
      obtain ⟨-, -, hX⟩ := hX
      rw [hI.vel] at hX
      unfold Grid.inner at hX
      simp only at hX
      have hA' : g.label f.ax f.upper ≠ -2 := hA
      have hr := hI.wf.region f.ax
      unfold Grid.cellCentre centre
      have hX' := congrArg (fun y => g.dx * y) hX
      cases hu : f.upper
      · have hr0 : g.r0 f.ax = 0 := by
          by_contra hr0
          apply hA'
          unfold Grid.label
          rw [hu]; simp [hr0]
        simp only [facePos, hu] at hX'
        rw [hr0]
        simp only [Bool.false_eq_true, if_false] at hX' ⊢
        push_cast at hX' ⊢
        linear_combination hX'
      · have hr1 : g.r1 f.ax = g.N f.ax := by
          by_contra hr1
          apply hA'
          unfold Grid.label
          rw [hu]; simp [hr1]
        have hn : (g.n f.ax : K) = (g.N f.ax : K) - (g.r0 f.ax : K) := by
          unfold Grid.n
          rw [Nat.cast_sub hr, hr1]
        simp only [facePos, hu, if_true] at hX' ⊢
        rw [hn] at hX'
        push_cast at hX' ⊢
        linear_combination hX'
  · right
    refine ⟨e, he, _, _, ?_, by rw [h6]; exact hlab, ?_⟩
    · rw [← hal]; exact hpos
    · funext i
      rw [hw i, h5, ← hal, hI.vel]

end domain

/-- C31 (2D geometries of the library): on a domain built from any list of valid shapes, the point at
which the user function is evaluated lies on a face of the box or on the boundary of one of the
shapes. -/
theorem C31_plane (s : Sten 2) (hs : s.WF) (g : Grid ℝ 2 s.nu)
    (shapes : List (Shape × Bool)) (hv : ∀ p ∈ shapes, p.1.Valid)
    (st : State ℝ 2 s.nu) (labels : List Int) (dico : Int → Option (List (Nat × Method 2)))
    (I : List (Method 2 × List (Item ℝ 2 s.ns)))
    (hI : OnDomain s g (shapes.map fun p => p.1.elem p.2) st labels dico I)
    (h999 : (999 : Int) ∉ labels) (m : Method 2) (items : List (Item ℝ 2 s.ns)) (hm : (m, items) ∈ I)
    (it : Item ℝ 2 s.ns) (hit : it ∈ items) :
    (∃ f : Face 2, it.label = g.userLabel f.ax f.upper ∧ wallPoint s g it.toEntry f.ax =
        if f.upper then g.lo f.ax + g.dx * g.N f.ax else g.lo f.ax) ∨
    (∃ p ∈ shapes, (wallPoint s g it.toEntry 0, wallPoint s g it.toEntry 1) ∈ p.1.boundary) := by
  rcases C31_wall_point_on_wall s hs g _ st labels dico I hI h999 m items hm it hit with
    h | ⟨e, he, x, v, ha, -, hw⟩
  · exact Or.inl h
  · right
    obtain ⟨p, hp, rfl⟩ := List.mem_map.1 he
    refine ⟨p, hp, ?_⟩
    rw [hw]
    exact p.1.elem_hit (hv p hp) p.2 x v ha

section formulas
variable {K : Type} [Field K] [LinearOrder K] [IsStrictOrderedRing K] {dim : Nat} (s : Sten dim)

/-- C33: on a uniform distribution equal to the equilibrium `feq` of the imposed wall state,
bounce-back, anti bounce-back and the Neumann conditions write this equilibrium in the ghost
position; the interpolated bounce-back does so for distances smaller than 1/2. -/
theorem C33_uniform_equilibrium_partial (m : Method dim) (it : Item K dim s.ns) (f fcopy : Dist K dim s.ns)
    (hf : ∀ k c, f k c = it.feq k) (hc : ∀ k c, fcopy k c = it.feq k)
    (h : match m with
      | .bouzidiBounceBack => it.dist < 1 / 2 ∨ it.dist = 1 / 2 ∨ it.feq it.k = it.feq (s.sym it.k)
      | .bouzidiAntiBounceBack => it.dist = 1 / 2 ∨ (it.feq it.k = 0 ∧ it.feq (s.sym it.k) = 0)
      | _ => True) :
    value s m f fcopy it = it.feq it.k := by
  cases m with
  | bounceBack => simp [value, rhs, hf]
  | antiBounceBack => simp [value, rhs, hf]
  | neumann => simp [value, hf]
  | neumannAxis j => simp [value, hf]
  | bouzidiBounceBack =>
    simp only [value, rhs, load0, load1, hc]
    rcases h with h | h | h
    · rw [if_pos h]; ring
    · have : weight it.dist = 1 := by unfold weight; rw [h]; norm_num
      rw [this]; ring
    · rw [← h]; split_ifs <;> ring
  | bouzidiAntiBounceBack =>
    simp only [value, rhs, load0, load1, hf]
    rcases h with h | ⟨h1, h2⟩
    · have : weight it.dist = 1 := by unfold weight; rw [h]; norm_num
      rw [this]; ring
    · rw [h1, h2]; split_ifs <;> ring

/-- The error of the interpolated conditions on a uniform equilibrium: zero only if the weight is 1
or the two populations are equal (respectively opposite, or vanish). -/
theorem C33_bouzidi_error (it : Item K dim s.ns) (f fcopy : Dist K dim s.ns)
    (hf : ∀ k c, f k c = it.feq k) (hc : ∀ k c, fcopy k c = it.feq k) :
    (1 / 2 ≤ it.dist → value s .bouzidiBounceBack f fcopy it - it.feq it.k =
      (1 - 1 / (2 * it.dist)) * (it.feq it.k - it.feq (s.sym it.k))) ∧
    (it.dist < 1 / 2 → value s .bouzidiAntiBounceBack f fcopy it - it.feq it.k =
      2 * (1 - 2 * it.dist) * it.feq (s.sym it.k)) ∧
    (1 / 2 ≤ it.dist → value s .bouzidiAntiBounceBack f fcopy it - it.feq it.k =
      (1 - 1 / (2 * it.dist)) * (it.feq it.k + it.feq (s.sym it.k))) := by
  refine ⟨fun h => ?_, fun h => ?_, fun h => ?_⟩ <;> simp only [value, rhs, load0, load1, hf, hc, weight]
  · have h0 : it.dist ≠ 0 := by intro h0; rw [h0] at h; norm_num at h
    rw [if_neg (not_lt.2 h), if_neg (not_lt.2 h)]
    field_simp; ring
  · rw [if_pos h, if_pos h]; ring
  · have h0 : it.dist ≠ 0 := by intro h0; rw [h0] at h; norm_num at h
    rw [if_neg (not_lt.2 h), if_neg (not_lt.2 h)]
    field_simp; ring

/-- C34: for every positive distance the weights of the interpolated bounce-back are in `[0, 1]`
and their sum is 1. -/
theorem C34_weights (d : K) (h0 : 0 < d) :
    0 ≤ weight d ∧ weight d ≤ 1 ∧ 0 ≤ 1 - weight d ∧ weight d + (1 - weight d) = 1 := by
  have : 0 ≤ weight d ∧ weight d ≤ 1 := by
    unfold weight
    split_ifs with h
    · constructor <;> linarith
    · constructor
      · positivity
      · rw [div_le_one h0]; exact not_lt.1 h
  exact ⟨this.1, this.2, by linarith [this.2], by ring⟩

/-- C34: at distance 1/2 both branches agree and the condition is the plain bounce-back: whatever the
branch, the value is the one of `BounceBack` on the same array, and the formula of the first branch
tends to it. -/
theorem C34_half (it : Item K dim s.ns) (f : Dist K dim s.ns) (h : it.dist = 1 / 2) :
    value s .bouzidiBounceBack f f it = value s .bounceBack f f it ∧
    (2 * it.dist) * f (s.sym it.k) (inner s 1 it.toEntry)
      + (1 - 2 * it.dist) * f (s.sym it.k) (inner s 2 it.toEntry)
      + (it.feq it.k - it.feq (s.sym it.k)) = value s .bounceBack f f it := by
  constructor
  · have : weight it.dist = 1 := by unfold weight; rw [h]; norm_num
    simp only [value, rhs, load0, this]; ring
  · simp only [value, rhs, h]; ring

/-- C34: the interpolated value is a linear interpolation along the link.  Positions are measured
from the fluid cell `c`, in units of the link, positive towards the wall at `d`.
For `d < 1/2`, the population which arrives at `c` after the reflection comes from the departure
point `2 d - 1` and is interpolated between the cells at `0` and `-1`; for `d ≥ 1/2`, it is
interpolated at `0` between the arrival point `2 d - 1` of the population of `c` and the cell at
`-1`, which receives the population of `c` of the opposite velocity. -/
theorem C34_interpolation (it : Item K dim s.ns) (f fcopy : Dist K dim s.ns) (h0 : 0 < it.dist) :
    value s .bouzidiBounceBack f fcopy it = (it.feq it.k - it.feq (s.sym it.k)) +
      if it.dist < 1 / 2 then
        lerp 0 (fcopy (s.sym it.k) (fun j => it.cell j + s.vel it.k j))
          (-1) (fcopy (s.sym it.k) (fun j => it.cell j + 2 * s.vel it.k j)) (departure it.dist)
      else
        lerp (reflected it.dist) (fcopy (s.sym it.k) (fun j => it.cell j + s.vel it.k j))
          (-1) (fcopy it.k (fun j => it.cell j + s.vel it.k j)) 0 := by
  have e1 : inner s 1 it.toEntry = fun j => it.cell j + s.vel it.k j := by
    funext j; simp [inner]
  have e2 : inner s 2 it.toEntry = fun j => it.cell j + 2 * s.vel it.k j := by
    funext j; simp [inner]
  simp only [value, rhs, load0, load1, weight, e1, e2]
  split_ifs with h
  · unfold lerp departure; ring
  · unfold lerp reflected
    have h2 : it.dist ≠ 0 := h0.ne'
    have h3 : (-1 : K) - (it.dist - (1 - it.dist)) = -2 * it.dist := by ring
    rw [h3]
    field_simp
    ring

/-- C35 (Bouzidi bounce-back): on distinct ghost positions, the result of the update does not depend
on the order of the links, and the loop in order and the vectorised loop agree: every ghost position
gets the formula evaluated on the array before the update. -/
theorem C35_bouzidi_bounce_back (items items' : List (Item K dim s.ns))
    (hn : (items.map fun it => (it.k, it.cell)).Nodup) (hp : items'.Perm items)
    (f : Dist K dim s.ns) :
    update s .bouzidiBounceBack items' f = update s .bouzidiBounceBack items f ∧
    update s .bouzidiBounceBack items f = updateVector s .bouzidiBounceBack items f ∧
    (∀ it ∈ items, update s .bouzidiBounceBack items f it.k it.cell =
      value s .bouzidiBounceBack f f it) ∧
    (∀ k c, (k, c) ∉ items.map (fun it => (it.k, it.cell)) →
      update s .bouzidiBounceBack items f k c = f k c) := by
  have key : ∀ l : List (Item K dim s.ns), (l.map fun it => (it.k, it.cell)).Nodup →
      update s .bouzidiBounceBack l f = written s (l.map fun it => (.bouzidiBounceBack, it)) f := by
    intro l hl
    unfold update
    have := foldl_put s (fun g q => value s q.1 g f q.2) f (l.map fun it => (.bouzidiBounceBack, it)) []
      (by unfold positions; simpa [List.map_map, Function.comp_def] using hl)
      (by
        intro q hq done' todo' _
        obtain ⟨it, _, rfl⟩ := List.mem_map.1 hq
        rfl)
    rw [List.foldl_map] at this
    simpa [written_nil] using this
  have hn' : (items'.map fun it => (it.k, it.cell)).Nodup := ((hp.map _).nodup_iff).2 hn
  have hpos : (positions s (items.map fun it => ((.bouzidiBounceBack : Method dim), it))).Nodup := by
    unfold positions; simpa [List.map_map, Function.comp_def] using hn
  refine ⟨?_, ?_, ?_, ?_⟩
  · rw [key items' hn', key items hn]
    exact written_perm s (by unfold positions; simpa [List.map_map, Function.comp_def] using hn')
      (hp.map _) f
  · rfl
  · intro it hit
    rw [key items hn]
    exact written_mem s hpos (q := (.bouzidiBounceBack, it)) (List.mem_map.2 ⟨it, hit, rfl⟩) f
  · intro k c hkc
    rw [key items hn]
    apply written_not_mem
    unfold positions
    simpa [List.map_map, Function.comp_def] using hkc

/-- C35 (any class): when no link reads a ghost position written by the update, the result does not
depend on the order of the links and is the one of the vectorised loop. -/
theorem C35_disjoint_reads_partial (m : Method dim) (items items' : List (Item K dim s.ns))
    (hn : (items.map fun it => (it.k, it.cell)).Nodup) (hp : items'.Perm items)
    (hr : ∀ it ∈ items, ∀ p ∈ reads s m it, p ∉ items.map (fun it => (it.k, it.cell)))
    (f : Dist K dim s.ns) :
    update s m items' f = update s m items f ∧ update s m items f = updateVector s m items f := by
  have hpos : ∀ l : List (Item K dim s.ns), positions s (l.map fun it => (m, it)) =
      l.map fun it => (it.k, it.cell) := by
    intro l; unfold positions; simp [List.map_map, Function.comp_def]
  have key : ∀ l : List (Item K dim s.ns), l.Perm items →
      update s m l f = written s (l.map fun it => (m, it)) f ∧
      updateVector s m l f = written s (l.map fun it => (m, it)) f := by
    intro l hl
    have hnl : (l.map fun it => (it.k, it.cell)).Nodup := ((hl.map _).nodup_iff).2 hn
    constructor
    · have := update_written s (m := m) (items := l) (all := l.map fun it => (m, it)) (done := [])
        (by rw [hpos]; exact hnl) (by
          intro q hq p hp' hmem
          obtain ⟨it, hit, rfl⟩ := List.mem_map.1 hq
          rw [hpos] at hmem
          exact hr it (hl.mem_iff.1 hit) p hp' ((hl.map _).mem_iff.1 hmem)) f ⟨[], by simp⟩
      simpa [written_nil] using this
    · unfold updateVector
      have := foldl_put s (fun g q => value s q.1 f f q.2) f (l.map fun it => (m, it)) []
        (by rw [List.nil_append, hpos]; exact hnl) (by intro q _ _ _ _; rfl)
      rw [List.foldl_map] at this
      simpa [written_nil] using this
  refine ⟨?_, ?_⟩
  · rw [(key items' hp).1, (key items (List.Perm.refl _)).1]
    exact written_perm s (by rw [hpos]; exact ((hp.map _).nodup_iff).2 hn) (hp.map _) f
  · rw [(key items (List.Perm.refl _)).1, (key items (List.Perm.refl _)).2]

end formulas
end Pylbm.Boundary
