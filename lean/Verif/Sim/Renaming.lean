import Verif.Domain.Labels
import Verif.Sim.Fluid
/-!
# C113: renaming the labels, the boundary conditions and the simulation
-/

set_option linter.unusedSectionVars false

namespace Pylbm.Boundary
open Domain DomainSpec BoundarySpec

variable {K : Type} [Field K] [LinearOrder K] [IsStrictOrderedRing K] [FloorRing K] {dim : Nat}

/-! ## Specification: the same data with other numbers as labels -/

/-- What the user writes when the labels are renamed by `π`: the elements, and the conditions and the values of the
label `π l` are those which the label `l` had. -/
def WallData.renamed {s : Sten dim} (π : Equiv.Perm Int) (D : WallData K dim s) : WallData K dim s where
  elems := D.elems.map (Elem.renamed π)
  els := D.els.map π
  dico := fun l => D.dico (π.symm l)
  ψ := fun l => D.ψ (π.symm l)

/-- A renaming which keeps the reserved values: −1 (periodic), −2 (interface), 999 (no label). -/
structure Renaming (π : Equiv.Perm Int) : Prop where
  periodic : π (-1) = -1
  interface : π (-2) = -2
  none : π 999 = 999

/-! ## Proofs -/

/-- The entry with its label renamed. -/
def Entry.renamed {ns : Nat} (π : Int → Int) (e : Entry K dim ns) : Entry K dim ns := { e with label := π e.label }

/-- The item with its label renamed. -/
def Item.renamed {ns : Nat} (π : Int → Int) (it : Item K dim ns) : Item K dim ns := { it with label := π it.label }

variable {s : Sten dim} {π : Equiv.Perm Int}

theorem value_renamed (m : Method dim) (f fc : Dist K dim s.ns) (it : Item K dim s.ns) :
    value s m f fc (it.renamed π) = value s m f fc it := by
  cases m <;> rfl

theorem reads_renamed (m : Method dim) (it : Item K dim s.ns) : reads s m (it.renamed π) = reads s m it := by
  cases m <;> rfl

theorem update_renamed (m : Method dim) (items : List (Item K dim s.ns)) (f : Dist K dim s.ns) :
    update s m (items.map (Item.renamed π)) f = update s m items f := by
  unfold update
  rw [List.foldl_map]
  congr 1

theorem boundaryCondition_renamed (I : List (Method dim × List (Item K dim s.ns))) (f : Dist K dim s.ns) :
    boundaryCondition s (I.map fun p => (p.1, p.2.map (Item.renamed π))) f = boundaryCondition s I f := by
  unfold boundaryCondition
  rw [List.foldl_map]
  congr 1
  funext g p
  exact update_renamed p.1 p.2 g

theorem written_renamed (l : List (Method dim × Item K dim s.ns)) (f : Dist K dim s.ns) :
    written s (l.map fun q => (q.1, q.2.renamed π)) f = written s l f := by
  funext k c
  unfold written
  rw [List.find?_map]
  have : ((fun q : Method dim × Item K dim s.ns => decide (q.2.k = k ∧ q.2.cell = c)) ∘
      fun q : Method dim × Item K dim s.ns => (q.1, q.2.renamed π)) =
      fun q => decide (q.2.k = k ∧ q.2.cell = c) := rfl
  rw [this]
  cases l.find? (fun q => decide (q.2.k = k ∧ q.2.cell = c)) with
  | none => rfl
  | some q => exact value_renamed q.1 f f q.2

theorem labelEntries_renamed (shape : Fin dim → Nat) (st : State K dim s.nu) (label : Int) (p : Nat × Method dim) :
    labelEntries s shape (st.renamed π).link (π label) p =
      (labelEntries s shape st.link label p).map fun q => (q.1, q.2.renamed π) := by
  have hb : ∀ u, boundaryVelocity s shape (st.renamed π).link (π label) u = boundaryVelocity s shape st.link label u := by
    intro u
    unfold boundaryVelocity
    have : (fun c => decide (((st.renamed π).link (s.usym u) c).flag = π label)) =
        fun c => decide ((st.link (s.usym u) c).flag = label) := by
      funext c
      simp [State.renamed, Link.renamed]
    simp only [this]
    rfl
  unfold labelEntries
  simp only [hb, List.map_flatMap, List.map_map]
  rfl

theorem mapM_isSome {α β : Type} (f : α → Option β) : ∀ l : List α, (∀ a ∈ l, (f a).isSome) →
    ∃ r, l.mapM f = some r
  | [], _ => ⟨[], rfl⟩
  | a :: l, h => by
    obtain ⟨b, hb⟩ := Option.isSome_iff_exists.1 (h a (by simp))
    obtain ⟨r, hr⟩ := mapM_isSome f l fun x hx => h x (by simp [hx])
    exact ⟨b :: r, by simp [List.mapM_cons, hb, hr]⟩

/-- `allEntries` succeeds when every label has a condition, and then it is the concatenation. -/
theorem allEntries_eq (shape : Fin dim → Nat) (link : Fin s.nu → Cell dim → Link K dim) (labels : List Int)
    (dico : Int → Option (List (Nat × Method dim)))
    (h : ∀ label ∈ labels, label ≠ -1 → label ≠ -2 → (dico label).isSome) :
    allEntries s shape link labels dico = some
      ((labels.filter fun label => decide (label ≠ -1 ∧ label ≠ -2)).flatMap fun label =>
        ((dico label).getD []).flatMap (labelEntries s shape link label)) := by
  obtain ⟨r, hr⟩ := mapM_isSome (fun label => (dico label).map fun ms => ms.flatMap (labelEntries s shape link label))
    (labels.filter fun label => decide (label ≠ -1 ∧ label ≠ -2)) (by
      intro a ha
      simp only [List.mem_filter, decide_eq_true_eq] at ha
      simpa using h a ha.1 ha.2.1 ha.2.2)
  have : allEntries s shape link labels dico = some r.flatten := by
    unfold allEntries
    rw [hr]; rfl
  rw [this]
  exact congrArg some (allEntries_spec s shape link labels dico _ this).2

/-- The entries of the labels `π l` for `l` in `labels`. -/
theorem flatMap_renamed (hπ : Renaming π) (shape : Fin dim → Nat) (st : State K dim s.nu) (labels : List Int)
    (dico : Int → Option (List (Nat × Method dim))) :
    (((labels.map π).filter fun label => decide (label ≠ -1 ∧ label ≠ -2)).flatMap fun label =>
        ((dico (π.symm label)).getD []).flatMap (labelEntries s shape (st.renamed π).link label)) =
      ((labels.filter fun label => decide (label ≠ -1 ∧ label ≠ -2)).flatMap fun label =>
        ((dico label).getD []).flatMap (labelEntries s shape st.link label)).map fun q => (q.1, q.2.renamed π) := by
  have hf : ((fun label => decide (label ≠ -1 ∧ label ≠ -2)) ∘ π) = fun label => decide (label ≠ -1 ∧ label ≠ -2) := by
    funext l
    have h1 : π l = -1 ↔ l = -1 := by
      conv_lhs => rw [← hπ.periodic]
      exact π.injective.eq_iff
    have h2 : π l = -2 ↔ l = -2 := by
      conv_lhs => rw [← hπ.interface]
      exact π.injective.eq_iff
    simp only [Function.comp, ne_eq, h1, h2]
  rw [List.filter_map, hf, List.flatMap_map, List.map_flatMap]
  refine List.flatMap_congr fun label _ => ?_
  rw [Equiv.symm_apply_apply, List.map_flatMap]
  exact List.flatMap_congr fun p _ => labelEntries_renamed shape st label p

/-- The labels of the renamed box and elements, up to the order. -/
theorem listOfLabels_perm (hπ : Renaming π) {nv : Nat} (g : Grid K dim nv) (els : List Int) :
    (listOfLabels (g.renamed π) (els.map π)).Perm ((listOfLabels g els).map π) := by
  refine (List.perm_ext_iff_of_nodup (nodup_listOfLabels _ _)
    ((nodup_listOfLabels g els).map π.injective)).2 fun l => ?_
  rw [mem_listOfLabels, List.mem_map]
  simp only [mem_listOfLabels, label_renamed hπ.interface, List.mem_map]
  constructor
  · rintro (⟨j, side, h⟩ | ⟨a, h1, h2⟩)
    · exact ⟨_, Or.inl ⟨j, side, rfl⟩, h.symm⟩
    · exact ⟨a, Or.inr h1, h2⟩
  · rintro ⟨a, ⟨j, side, rfl⟩ | h1, h2⟩
    · exact Or.inl ⟨j, side, h2.symm⟩
    · exact Or.inr ⟨a, h1, h2⟩

theorem sorted_listOfLabels {nv : Nat} (g : Grid K dim nv) (els : List Int) :
    (listOfLabels g els).Pairwise (· ≤ ·) := List.pairwise_insertionSort _ _

/-- Renaming without changing the order of the labels. -/
theorem listOfLabels_mono (hπ : Renaming π) {nv : Nat} (g : Grid K dim nv) (els : List Int)
    (hmono : ∀ a ∈ listOfLabels g els, ∀ b ∈ listOfLabels g els, a ≤ b → π a ≤ π b) :
    listOfLabels (g.renamed π) (els.map π) = (listOfLabels g els).map π := by
  refine (listOfLabels_perm hπ g els).eq_of_pairwise (le := (· ≤ ·)) (fun a b _ _ => le_antisymm)
    (sorted_listOfLabels _ _) ?_
  rw [List.pairwise_map]
  exact (sorted_listOfLabels g els).imp_of_mem fun ha hb h => hmono _ ha _ hb h

/-- The columns of a class, as in `instances`. -/
theorem instances_eq (shape : Fin dim → Nat) (link : Fin s.nu → Cell dim → Link K dim) (labels : List Int)
    (dico : Int → Option (List (Nat × Method dim))) (all : List (Method dim × Entry K dim s.ns))
    (h : allEntries s shape link labels dico = some all) :
    instances s shape link labels dico = some ((firsts (all.map Prod.fst)).map fun m =>
      (m, (all.filter fun p => decide (p.1 = m)).map Prod.snd)) := by
  unfold instances
  rw [h]; rfl

variable {D : WallData K dim s} {g : Grid K dim s.nu} {st st' : State K dim s.nu}
  {I I' : List (Method dim × List (Entry K dim s.ns))}

theorem Renaming.dico (hI : OnGrid D g st I) : ∀ label ∈ listOfLabels g D.els, label ≠ -1 → label ≠ -2 →
    (D.dico label).isSome := by
  obtain ⟨all, hall, -⟩ := instances_spec s g.total st.link _ D.dico I hI.insts
  exact (allEntries_spec s g.total st.link _ D.dico all hall).1

theorem Renaming.dico' (hπ : Renaming π) (hI : OnGrid D g st I) : ∀ label ∈ listOfLabels (g.renamed π) (D.els.map π),
    label ≠ -1 → label ≠ -2 → ((D.renamed π).dico label).isSome := by
  intro label hl h1 h2
  rw [(listOfLabels_perm hπ g D.els).mem_iff, List.mem_map] at hl
  obtain ⟨l, hl, rfl⟩ := hl
  simp only [WallData.renamed, Equiv.symm_apply_apply]
  exact Renaming.dico hI l hl (fun h => h1 (by rw [h, hπ.periodic])) (fun h => h2 (by rw [h, hπ.interface]))

/-- The renamed domain can be built, with its boundary conditions. -/
theorem OnGrid.renamed (hπ : Renaming π) (hI : OnGrid D g st I) :
    ∃ I', OnGrid (D.renamed π) (g.renamed π) (st.renamed π) I' := by
  have hall := allEntries_eq (s := s) g.total (st.renamed π).link (listOfLabels (g.renamed π) (D.els.map π))
    (D.renamed π).dico (hπ.dico' hI)
  refine ⟨_, ⟨⟨hI.wf.dx, hI.wf.region, hI.wf.halo⟩, hI.vel, ?_, instances_eq _ _ _ _ _ hall⟩⟩
  rw [show (D.renamed π).elems = D.elems.map (Elem.renamed π) from rfl,
    C113_domain π.injective hπ.interface hπ.none, hI.built]
  rfl

theorem OnGrid.renamed_state (hπ : Renaming π) (hI : OnGrid D g st I)
    (hI' : OnGrid (D.renamed π) (g.renamed π) st' I') : st' = st.renamed π := by
  have := hI'.built
  rw [show (D.renamed π).elems = D.elems.map (Elem.renamed π) from rfl,
    C113_domain π.injective hπ.interface hπ.none, hI.built] at this
  exact (Option.some.inj this).symm

theorem withValues_renamed (I : List (Method dim × List (Entry K dim s.ns))) (t : K) :
    withValues s (g.renamed π) (D.renamed π).ψ (I.map fun p => (p.1, p.2.map (Entry.renamed π))) t =
      (withValues s g D.ψ I t).map fun p => (p.1, p.2.map (Item.renamed π)) := by
  unfold withValues
  simp only [List.map_map]
  refine List.map_congr_left fun p _ => ?_
  simp only [Function.comp, Prod.mk.injEq, true_and, List.map_map]
  refine List.map_congr_left fun e _ => ?_
  simp only [Function.comp, WallData.renamed, Entry.renamed, Equiv.symm_apply_apply, Item.renamed]
  rfl

/-- Renaming without changing the order of the labels: the tables are the same. -/
theorem instances_mono (hπ : Renaming π) (hI : OnGrid D g st I)
    (hI' : OnGrid (D.renamed π) (g.renamed π) st' I')
    (hmono : ∀ a ∈ listOfLabels g D.els, ∀ b ∈ listOfLabels g D.els, a ≤ b → π a ≤ π b) :
    I' = I.map fun p => (p.1, p.2.map (Entry.renamed π)) := by
  have hst := hI.renamed_state hπ hI'
  subst hst
  have e1 := instances_eq _ _ _ _ _ (allEntries_eq (s := s) g.total st.link (listOfLabels g D.els) D.dico
    (Renaming.dico hI))
  have e2 := instances_eq _ _ _ _ _ (allEntries_eq (s := s) g.total (st.renamed π).link
    (listOfLabels (g.renamed π) (D.els.map π)) (D.renamed π).dico (hπ.dico' hI))
  rw [hI.insts] at e1
  have e3 := hI'.insts
  change instances s g.total _ (listOfLabels (g.renamed π) (D.els.map π)) _ = _ at e3
  rw [e2] at e3
  rw [Option.some.inj e1, ← Option.some.inj e3, listOfLabels_mono hπ g D.els hmono]
  have hfl := flatMap_renamed (s := s) hπ g.total st (listOfLabels g D.els) D.dico
  change (((listOfLabels g D.els).map π).filter _).flatMap (fun label =>
    (((D.renamed π).dico label).getD []).flatMap (labelEntries s g.total (st.renamed π).link label)) = _ at hfl
  rw [hfl]
  generalize ((listOfLabels g D.els).filter fun label => decide (label ≠ -1 ∧ label ≠ -2)).flatMap (fun label =>
        ((D.dico label).getD []).flatMap (labelEntries s g.total st.link label)) = all
  have hfst : (all.map fun q => (q.1, q.2.renamed π)).map Prod.fst = all.map Prod.fst := by
    rw [List.map_map]; rfl
  rw [hfst, List.map_map]
  refine List.map_congr_left fun m _ => ?_
  simp only [Function.comp, Prod.mk.injEq, true_and, List.map_map, List.filter_map]
  rfl

/-- The items of the renamed conditions are those of the conditions, up to the order. -/
theorem flat_renamed (hπ : Renaming π) (hI : OnGrid D g st I)
    (hI' : OnGrid (D.renamed π) (g.renamed π) st' I') (t : K) :
    (flat s (withValues s (g.renamed π) (D.renamed π).ψ I' t)).Perm
      ((flat s (withValues s g D.ψ I t)).map fun q => (q.1, q.2.renamed π)) := by
  have hst := hI.renamed_state hπ hI'
  subst hst
  obtain ⟨all, hall, hp⟩ := instances_spec s g.total st.link _ D.dico I hI.insts
  obtain ⟨all', hall', hp'⟩ := instances_spec s g.total (st.renamed π).link _ (D.renamed π).dico I' hI'.insts
  have h1 := (allEntries_spec s g.total st.link _ D.dico all hall).2
  have h2 := (allEntries_spec s g.total (st.renamed π).link _ (D.renamed π).dico all' hall').2
  have h3 : all'.Perm (all.map fun q => (q.1, q.2.renamed π)) := by
    rw [h1, h2, ← flatMap_renamed hπ]
    exact ((listOfLabels_perm hπ g D.els).filter _).flatMap_right _
  have hflat : ∀ (g₁ : Grid K dim s.nu) (ψ : Int → K → (Fin dim → K) → Fin s.ns → K)
      (J : List (Method dim × List (Entry K dim s.ns))), flat s (withValues s g₁ ψ J t) =
      (J.flatMap fun p => p.2.map fun e => (p.1, e)).map
        fun q => (q.1, ⟨q.2, ψ q.2.label t (wallPoint s g₁ q.2)⟩) := by
    intro g₁ ψ J
    unfold flat withValues
    simp only [List.flatMap_map, List.map_flatMap, List.map_map, Function.comp_def]
  rw [hflat, hflat]
  refine ((hp'.trans h3).map _).trans ?_
  refine List.Perm.trans ?_ ((hp.symm.map _).map _)
  rw [List.map_map, List.map_map]
  refine List.Perm.of_eq (List.map_congr_left fun q _ => ?_)
  simp only [Function.comp, WallData.renamed, Entry.renamed, Equiv.symm_apply_apply, Item.renamed]
  rfl

/-! ## Properties -/

/-- **C113 (partial), the boundary conditions.** The numbers chosen as labels do not matter: on any process, when the
labels are renamed everywhere (faces, elements, conditions, values), the boundary conditions of the renamed domain are
the same map on the distribution functions, if no boundary method reads a position which a boundary method writes; this
holds when the methods read one cell (`OnGrid.free`).  What is missing is false: `C113_negation`. -/
theorem C113_boundary_partial (hπ : Renaming π) (hD : D.WF g.userLabel) (hI : OnGrid D g st I)
    (hI' : OnGrid (D.renamed π) (g.renamed π) st' I') (t : K) (hfree : Free s (flat s (withValues s g D.ψ I t))) :
    boundaryCondition s (withValues s (g.renamed π) (D.renamed π).ψ I' t) =
      boundaryCondition s (withValues s g D.ψ I t) := by
  have hp := flat_renamed hπ hI hI' t
  have hn := (hI.onDomain hD t).nodup_positions hD.sten
  have hpos : positions s ((flat s (withValues s g D.ψ I t)).map fun q => (q.1, q.2.renamed π)) =
      positions s (flat s (withValues s g D.ψ I t)) := by
    unfold positions
    rw [List.map_map]; rfl
  have hpp : (positions s (flat s (withValues s (g.renamed π) (D.renamed π).ψ I' t))).Perm
      (positions s (flat s (withValues s g D.ψ I t))) := by
    rw [← hpos]; exact hp.map _
  have hn' := hpp.nodup_iff.2 hn
  have hfree' : Free s (flat s (withValues s (g.renamed π) (D.renamed π).ψ I' t)) := by
    intro q hq p hpr hps
    obtain ⟨r, hr, rfl⟩ := List.mem_map.1 (hp.mem_iff.1 hq)
    refine hfree r hr p ?_ (hpp.mem_iff.1 hps)
    rw [← reads_renamed (π := π)]
    exact hpr
  funext f
  rw [boundaryCondition_written s _ hn' hfree', boundaryCondition_written s _ hn hfree,
    written_perm s hn' hp, written_renamed]

/-- **C113, renaming in the same order.** With all the boundary methods, and without hypothesis on what they read: the
boundary conditions are the same map when the renaming keeps the order of the labels. -/
theorem C113_same_order (hπ : Renaming π) (hI : OnGrid D g st I)
    (hI' : OnGrid (D.renamed π) (g.renamed π) st' I')
    (hmono : ∀ a ∈ listOfLabels g D.els, ∀ b ∈ listOfLabels g D.els, a ≤ b → π a ≤ π b) (t : K) :
    boundaryCondition s (withValues s (g.renamed π) (D.renamed π).ψ I' t) =
      boundaryCondition s (withValues s g D.ψ I t) := by
  rw [instances_mono hπ hI hI' hmono, withValues_renamed]
  funext f
  exact boundaryCondition_renamed _ f

/-! ## The outlet -/

theorem update_untouched (m : Method dim) (items : List (Item K dim s.ns)) (f : Dist K dim s.ns) (k : Fin s.ns)
    (c : Cell dim) (h : (k, c) ∉ items.map fun it => (it.k, it.cell)) : update s m items f k c = f k c := by
  have key : ∀ (l : List (Item K dim s.ns)) (g : Dist K dim s.ns), (k, c) ∉ l.map (fun it => (it.k, it.cell)) →
      l.foldl (fun g it => put g it.k it.cell (value s m g f it)) g k c = g k c := by
    intro l
    induction l with
    | nil => intro g _; rfl
    | cons it l ih =>
      intro g hl
      rw [List.map_cons, List.mem_cons, not_or] at hl
      rw [List.foldl_cons, ih _ hl.2, put_spec, if_neg hl.1]
  exact key items f h

theorem boundaryCondition_untouched : ∀ (I : List (Method dim × List (Item K dim s.ns))) (f : Dist K dim s.ns)
    (k : Fin s.ns) (c : Cell dim), (k, c) ∉ positions s (flat s I) → boundaryCondition s I f k c = f k c
  | [], _, _, _, _ => rfl
  | p :: I, f, k, c, h => by
    have e : positions s (flat s (p :: I)) = p.2.map (fun it => (it.k, it.cell)) ++ positions s (flat s I) := by
      simp [positions, flat, Function.comp_def]
    rw [e, List.mem_append, not_or] at h
    change boundaryCondition s I (update s p.1 p.2 f) k c = _
    rw [boundaryCondition_untouched I _ k c h.2, update_untouched _ _ _ _ _ h.1]

/-- The value written by a class which does not read what it writes. -/
theorem update_own (m : Method dim) (items : List (Item K dim s.ns)) (f : Dist K dim s.ns)
    (hn : (items.map fun it => (it.k, it.cell)).Nodup)
    (hr : ∀ it ∈ items, ∀ p ∈ reads s m it, p ∉ items.map fun it => (it.k, it.cell)) (it : Item K dim s.ns)
    (hit : it ∈ items) : update s m items f it.k it.cell = value s m f f it := by
  have e : flat s [(m, items)] = items.map fun it => (m, it) := by simp [flat]
  have ep : positions s (flat s [(m, items)]) = items.map fun it => (it.k, it.cell) := by
    rw [e]; simp [positions, Function.comp_def]
  have := boundaryCondition_written s [(m, items)] (by rw [ep]; exact hn) (by
    intro q hq p hp
    rw [e] at hq
    obtain ⟨i, hi, rfl⟩ := List.mem_map.1 hq
    rw [ep]
    exact hr i hi p hp) f
  change update s m items f = _ at this
  rw [this]
  exact written_mem s (by rw [ep]; exact hn) (q := (m, it)) (by rw [e]; exact List.mem_map.2 ⟨it, hit, rfl⟩) f

theorem firsts_append {α : Type} [DecidableEq α] (a b : List α) :
    firsts (a ++ b) = firsts a ++ (firsts b).filter fun x => decide (x ∉ a) := by
  induction a with
  | nil => simp [firsts]
  | cons x a ih =>
    simp only [List.cons_append, firsts, ih, List.filter_append, List.filter_filter, List.cons.injEq, true_and,
      List.append_cancel_left_eq]
    refine List.filter_congr fun y _ => ?_
    rw [← Bool.decide_and]
    exact decide_eq_decide.2 (by rw [List.mem_cons, not_or])

theorem nodup_const {α : Type} (l : List α) (m : α) (hn : l.Nodup) (h : ∀ x ∈ l, x = m) : l = [] ∨ l = [m] := by
  cases l with
  | nil => exact Or.inl rfl
  | cons a l =>
    right
    have ha := h a (by simp)
    subst ha
    cases l with
    | nil => rfl
    | cons b l => exact absurd (h b (by simp)) (fun hh => (List.nodup_cons.1 hn).1 (by simp [hh]))

/-- A class comes last, when it is used for one label only and the other classes are used for a smaller label. -/
theorem instances_last (hs : s.WF) (hI : OnGrid D g st I) (m : Method dim) (L : Int)
    (hcls : ∀ label ms, D.dico label = some ms → ∀ p ∈ ms, (p.2 = m ↔ label = L))
    (hlast : ∀ q ∈ entries s I, q.1 ≠ m → ∃ q' ∈ entries s I, q'.1 = q.1 ∧ q'.2.label < L) :
    ∃ A, (I = A ∨ ∃ items, I = A ++ [(m, items)]) ∧ ∀ p ∈ A, p.1 ≠ m := by
  have hall := allEntries_eq (s := s) g.total st.link (listOfLabels g D.els) D.dico (Renaming.dico hI)
  have e1 := instances_eq _ _ _ _ _ hall
  obtain ⟨all', hall', hperm⟩ := instances_spec s g.total st.link _ D.dico I hI.insts
  rw [hall] at hall'
  rw [hI.insts] at e1
  set labels := (listOfLabels g D.els).filter fun label => decide (label ≠ -1 ∧ label ≠ -2) with hlabels
  set F : Int → List (Method dim × Entry K dim s.ns) := fun label =>
    ((D.dico label).getD []).flatMap (labelEntries s g.total st.link label) with hF
  rw [← Option.some.inj hall'] at hperm
  have hsort : labels.Pairwise (· ≤ ·) := (sorted_listOfLabels g D.els).filter _
  have hmem : ∀ label q, q ∈ F label → (q.1 = m ↔ label = L) ∧ q.2.label = label := by
    intro label q hq
    obtain ⟨p, hp, hq⟩ := List.mem_flatMap.1 hq
    obtain ⟨h1, h2, h3, -⟩ := (mem_labelEntries s g.total st.link hs label p q).1 hq
    refine ⟨?_, h3⟩
    cases hd : D.dico label with
    | none => rw [hd] at hp; simp at hp
    | some ms =>
      rw [hd] at hp
      rw [h1]
      exact hcls label ms hd p hp
  have hpp : labels = labels.filter (fun l => decide (l < L)) ++ labels.filter (fun l => !decide (l < L)) := by
    refine List.Perm.eq_of_pairwise (le := (· ≤ ·)) (fun a b _ _ => le_antisymm) hsort ?_
      (List.filter_append_perm _ _).symm
    rw [List.pairwise_append]
    refine ⟨hsort.filter _, hsort.filter _, ?_⟩
    intro a ha b hb
    simp only [List.mem_filter, decide_eq_true_eq, Bool.not_eq_true', decide_eq_false_iff_not] at ha hb
    omega
  set pre := labels.filter fun l => decide (l < L) with hpre
  set post := labels.filter fun l => !decide (l < L) with hpost
  rw [hpp, List.flatMap_append] at hperm e1
  rw [Option.some.inj e1]
  have hY : ∀ x ∈ (post.flatMap F).map Prod.fst, x ∉ (pre.flatMap F).map Prod.fst → x = m := by
    intro x hx hnot
    by_contra hxm
    obtain ⟨q, hq, rfl⟩ := List.mem_map.1 hx
    obtain ⟨q', hq', h1, h2⟩ := hlast q (hperm.mem_iff.2 (List.mem_append.2 (Or.inr hq))) hxm
    rcases List.mem_append.1 (hperm.mem_iff.1 hq') with h3 | h3
    · exact hnot (h1 ▸ List.mem_map.2 ⟨q', h3, rfl⟩)
    · obtain ⟨l, hl, h4⟩ := List.mem_flatMap.1 h3
      rw [(hmem l q' h4).2] at h2
      rw [hpost, List.mem_filter] at hl
      simp only [Bool.not_eq_true', decide_eq_false_iff_not] at hl
      exact hl.2 h2
  rw [List.map_append, firsts_append, List.map_append]
  have hX : ∀ x ∈ (pre.flatMap F).map Prod.fst, x ≠ m := by
    intro x hx hxm
    obtain ⟨q, hq, rfl⟩ := List.mem_map.1 hx
    obtain ⟨l, hl, hq⟩ := List.mem_flatMap.1 hq
    have := ((hmem l q hq).1).1 hxm
    rw [hpre, List.mem_filter] at hl
    simp only [decide_eq_true_eq] at hl
    omega
  refine ⟨(firsts ((pre.flatMap F).map Prod.fst)).map fun m => (m, ((pre.flatMap F ++ post.flatMap F).filter fun p =>
    decide (p.1 = m)).map Prod.snd), ?_, ?_⟩
  · rcases nodup_const ((firsts ((post.flatMap F).map Prod.fst)).filter fun x =>
        decide (x ∉ (pre.flatMap F).map Prod.fst)) m ((firsts_nodup _).filter _) (by
          intro x hx
          rw [List.mem_filter, mem_firsts, decide_eq_true_eq] at hx
          exact hY x hx.1 hx.2) with h | h
    · left
      rw [h]
      simp only [List.map_nil, List.append_nil]
    · right
      rw [h]
      exact ⟨_, rfl⟩
  · intro p hp
    obtain ⟨x, hx, rfl⟩ := List.mem_map.1 hp
    exact hX x ((mem_firsts _ _).1 hx)

/-- A link which carries the label of a face goes out of the box along the axis of this face. -/
theorem target_outside (hD : D.WF g.userLabel) (hI : OnGrid D g st I) (j : Fin dim) (L : Int) (h2 : L ≠ -2)
    (hfaces : ∀ i side, g.userLabel i side = L → i = j) (hels : L ∉ D.els) (c : Cell dim) (hc : g.Interior c)
    (k : Fin s.nu) (hd : (st.link k c).dist ≠ 999) (hf : (st.link k c).flag = L) :
    g.target k c j < g.h j ∨ (g.h j : Int) + g.n j ≤ g.target k c j := by
  rcases C65_same_wall g hI.wf D.elems hD.sound st hI.built c k hd with ⟨f, ⟨-, hcr, -⟩, hfl, -⟩ | ⟨e, he, h1, -, h3, -⟩
  · have hax : f.ax = j := by
      rw [hf] at hfl
      apply hfaces f.ax f.upper
      unfold Grid.label at hfl
      cases hu : f.upper <;> rw [hu] at hfl
      · simp only [if_true] at hfl
        split at hfl
        · exact absurd hfl h2
        · exact hfl.symm
      · simp only [Bool.true_eq_false, if_false] at hfl
        split at hfl
        · exact absurd hfl h2
        · exact hfl.symm
    obtain ⟨t0, t1, hx⟩ := hcr
    rw [hax] at hx
    have hcj := hc j
    unfold facePos at hx
    rw [hax] at hx
    simp only [Grid.inner] at hx
    simp only [Grid.target]
    have hlo : (0 : K) ≤ ((c j - g.h j : Int) : K) := by exact_mod_cast (by omega : (0 : Int) ≤ c j - g.h j)
    have hhi : ((c j - g.h j : Int) : K) ≤ (g.n j : K) - 1 := by
      have : ((c j - g.h j : Int) : K) ≤ ((g.n j - 1 : Int) : K) := by exact_mod_cast (by omega : c j - g.h j ≤ (g.n j : Int) - 1)
      push_cast at this ⊢
      exact this
    split at hx
    · right
      have hv : 0 < (g.vel k j : K) := by
        by_contra hh
        push Not at hh
        nlinarith
      have : ((g.n j : Int) : K) - 1 / 2 ≤ ((c j - g.h j + g.vel k j : Int) : K) := by
        push_cast at hx ⊢
        nlinarith
      have h4 : (g.n j : Int) - 1 < c j - g.h j + g.vel k j := by
        have h5 : (((g.n j : Int) - 1 : Int) : K) < ((c j - g.h j + g.vel k j : Int) : K) := by
          push_cast at this ⊢
          linarith
        exact_mod_cast h5
      omega
    · left
      have hv : (g.vel k j : K) < 0 := by
        by_contra hh
        push Not at hh
        nlinarith
      have : ((c j - g.h j + g.vel k j : Int) : K) ≤ - (1 / 2) := by
        push_cast at hx ⊢
        nlinarith
      have h4 : c j - g.h j + g.vel k j < 0 := by
        have h5 : ((c j - g.h j + g.vel k j : Int) : K) < ((0 : Int) : K) := by
          push_cast at this ⊢
          linarith
        exact_mod_cast h5
      omega
  · exact absurd (hD.labels e he _ _ h1) (by rw [← h3, hf]; exact hels)

/-- **C113, the outlet.** `NeumannX` (`NeumannY`, `NeumannZ`) on faces orthogonal to the axis `j`, with a label `L` of
their own: after the boundary conditions each population which enters through the outlet is equal to the same population
of the neighbour along the axis (zero derivative) when this neighbour is a fluid cell, or, at the edges of the outlet
where this neighbour is in the wall, when each other class of boundary conditions is used for a label smaller than `L`
(as in `demo/2D/Poiseuille.py`).  It fails at the edges when the labels are exchanged: `C113_outlet_negation`. -/
theorem C113_outlet (hD : D.WF g.userLabel) (hI : OnGrid D g st I) (j : Fin dim) (L : Int) (h2 : L ≠ -2)
    (hfaces : ∀ i side, g.userLabel i side = L → i = j) (hels : L ∉ D.els)
    (hcls : ∀ label ms, D.dico label = some ms → ∀ p ∈ ms, (p.2 = .neumannAxis j ↔ label = L)) (t : K)
    (f : Dist K dim s.ns) (it : Item K dim s.ns) (hit : (.neumannAxis j, it) ∈ flat s (withValues s g D.ψ I t))
    (h : st.ioo (fun i => it.cell i + if i = j then s.vel it.k i else 0) = 999 ∨
      ∀ q ∈ flat s (withValues s g D.ψ I t), q.1 ≠ .neumannAxis j →
        ∃ q' ∈ flat s (withValues s g D.ψ I t), q'.1 = q.1 ∧ q'.2.label < L) :
    let f' := boundaryCondition s (withValues s g D.ψ I t) f
    f' it.k it.cell = f' it.k fun i => it.cell i + if i = j then s.vel it.k i else 0 := by
  intro f'
  have hO := hI.onDomain hD t
  have hn := hO.nodup_positions hD.sten
  -- the items of the class are beyond the faces of the axis
  have hout : ∀ q ∈ flat s (withValues s g D.ψ I t), q.1 = .neumannAxis j →
      (q.2.cell j < g.h j ∨ (g.h j : Int) + g.n j ≤ q.2.cell j) ∧
      (g.h j : Int) ≤ q.2.cell j + s.vel q.2.k j ∧ q.2.cell j + s.vel q.2.k j < g.h j + g.n j := by
    intro q hq hm
    obtain ⟨i1, i2, -, -, -, i6, i7, -, -⟩ := hO.item hD.sten (no999_list hD) hq
    have hmem := ((mem_withValues s g D.ψ I t q.1 q.2).1 hq).1
    obtain ⟨label, hl, -, -, h4, h5, -, -, -⟩ :=
      (mem_entries s g.total st.link hD.sten _ D.dico I hI.insts q.1 q.2.toEntry).1 hmem
    have hL : label = L := by
      cases hd : D.dico label with
      | none => rw [hd] at h4; simp at h4
      | some ms =>
        rw [hd] at h4
        exact (hcls label ms hd _ h4).1 hm
    refine ⟨?_, ?_⟩
    · rw [← i2]
      refine target_outside hD hI j L h2 hfaces hels _ i1 _ i7 ?_
      rw [← i6, ← hL]; exact h5
    · have := i1 j
      simpa [source] using this
  -- the instances before and after this class
  obtain ⟨p, hp, hpi⟩ := List.mem_flatMap.1 hit
  obtain ⟨it', hit', he⟩ := List.mem_map.1 hpi
  obtain ⟨hp1, rfl⟩ := Prod.mk.inj he
  obtain ⟨A, B, hAB⟩ := List.append_of_mem hp
  have hpos : positions s (flat s (withValues s g D.ψ I t)) =
      positions s (flat s A) ++ (p.2.map (fun it => (it.k, it.cell)) ++ positions s (flat s B)) := by
    rw [hAB]
    simp [positions, flat, Function.comp_def]
  have hpin : ∀ i ∈ p.2, (p.1, i) ∈ flat s (withValues s g D.ψ I t) := fun i hi =>
    List.mem_flatMap.2 ⟨p, hp, List.mem_map.2 ⟨i, hi, rfl⟩⟩
  rw [hpos] at hn
  have hn2 := (List.nodup_append.1 hn).2.1
  have hown : (p.2.map fun it => (it.k, it.cell)).Nodup := (List.nodup_append.1 hn2).1
  have hself : ∀ i ∈ p.2, ∀ r ∈ reads s p.1 i, r ∉ p.2.map fun it => (it.k, it.cell) := by
    intro i hi r hr hmem
    obtain ⟨i', hi', he'⟩ := List.mem_map.1 hmem
    rw [hp1] at hr
    simp only [reads, List.mem_singleton] at hr
    rw [hr] at he'
    have h3 := (hout _ (hpin i hi) hp1).2
    have h4 := (hout _ (hpin i' hi') hp1).1
    have h5 := congrFun (Prod.mk.inj he').2 j
    simp only [if_true] at h3 h4 h5
    omega
  have hval : f' = boundaryCondition s B (update s p.1 p.2 (boundaryCondition s A f)) := by
    show boundaryCondition s (withValues s g D.ψ I t) f = _
    rw [hAB]
    unfold boundaryCondition
    rw [List.foldl_append, List.foldl_cons]
  have hB : (it'.k, it'.cell) ∉ positions s (flat s B) := fun hh =>
    (List.nodup_append.1 hn2).2.2 _ (List.mem_map.2 ⟨it', hit', rfl⟩) _ hh rfl
  have hleft : f' it'.k it'.cell =
      boundaryCondition s A f it'.k fun i => it'.cell i + if i = j then s.vel it'.k i else 0 := by
    rw [hval, boundaryCondition_untouched B _ _ _ hB, update_own _ _ _ hown hself it' hit', hp1]
    rfl
  have hread : (it'.k, fun i => it'.cell i + if i = j then s.vel it'.k i else 0) ∉
      p.2.map fun it => (it.k, it.cell) := by
    refine hself it' hit' _ ?_
    rw [hp1]
    simp [reads]
  have hBnot : (it'.k, fun i => it'.cell i + if i = j then s.vel it'.k i else 0) ∉ positions s (flat s B) := by
    rcases h with h | h
    · intro hh
      obtain ⟨q, hq, hqe⟩ := List.mem_map.1 hh
      have hq' : q ∈ flat s (withValues s g D.ψ I t) := by
        rw [hAB]
        unfold flat at hq ⊢
        rw [List.flatMap_append, List.flatMap_cons]
        exact List.mem_append.2 (Or.inr (List.mem_append.2 (Or.inr hq)))
      have := (hO.item hD.sten (no999_list hD) hq').2.2.2.1
      rw [(Prod.mk.inj hqe).2, h] at this
      exact absurd this (by norm_num)
    · obtain ⟨A', hA, hA'⟩ := instances_last hD.sten hI (.neumannAxis j) L hcls (by
        intro q hq hqm
        obtain ⟨q', h3, h4, h5⟩ := h (q.1, ⟨q.2, D.ψ q.2.label t (wallPoint s g q.2)⟩)
          ((mem_withValues s g D.ψ I t _ _).2 ⟨hq, rfl⟩) hqm
        exact ⟨(q'.1, q'.2.toEntry), ((mem_withValues s g D.ψ I t _ _).1 h3).1, h4, h5⟩)
      have hBnil : B = [] := by
        have hcl : ∀ q ∈ withValues s g D.ψ A' t, q.1 ≠ .neumannAxis j := by
          intro q hq
          obtain ⟨r, hr, rfl⟩ := List.mem_map.1 hq
          exact hA' r hr
        rcases hA with hA | ⟨items, hA⟩
        · exact absurd hp1 (hcl p (by rw [← hA]; exact hp))
        · rw [hA] at hAB
          have e : withValues s g D.ψ (A' ++ [(.neumannAxis j, items)]) t =
              withValues s g D.ψ A' t ++ withValues s g D.ψ [(.neumannAxis j, items)] t := by
            simp [withValues]
          rw [e] at hAB
          rcases List.append_eq_append_iff.1 hAB with ⟨X, h3, h4⟩ | ⟨X, h3, h4⟩
          · cases X with
            | nil => simp [withValues] at h4; exact h4.2
            | cons a X => simp [withValues] at h4
          · cases X with
            | nil => simp [withValues] at h4; exact h4.2
            | cons a X =>
              rw [List.cons_append, List.cons.injEq] at h4
              exact absurd hp1 (hcl p (by rw [h3, h4.1]; simp))
      rw [hBnil]
      simp [positions, flat]
  rw [hleft, hval, boundaryCondition_untouched B _ _ _ hBnot, update_untouched _ _ _ _ _ hread]

end Pylbm.Boundary

namespace Pylbm.Sim
open Scheme Halo SchemeSpec Matrix HaloSpec Mpi Boundary

variable {K : Type} [Field K] [LinearOrder K] [IsStrictOrderedRing K] [FloorRing K] {nc d dim : Nat}
  {s : Sten dim} {π : Equiv.Perm Int}

theorem renaming_symm (h : Renaming π) : Renaming π.symm :=
  ⟨by rw [Equiv.symm_apply_eq]; exact h.periodic.symm, by rw [Equiv.symm_apply_eq]; exact h.interface.symm,
    by rw [Equiv.symm_apply_eq]; exact h.none.symm⟩

theorem renamed_symm (D : WallData K dim s) : (D.renamed π).renamed π.symm = D := by
  cases D with
  | mk elems els dico ψ =>
  simp only [WallData.renamed, List.map_map, WallData.mk.injEq, Equiv.symm_symm, Equiv.symm_apply_apply, and_true]
  constructor
  · refine (List.map_congr_left fun e _ => ?_).trans (List.map_id elems)
    simp [Domain.Elem.renamed]
  · refine (List.map_congr_left fun e _ => ?_).trans (List.map_id els)
    simp

theorem grid_renamed_symm {nv : Nat} (g : Domain.Grid K dim nv) : (g.renamed π).renamed π.symm = g := by
  cases g
  simp [Domain.Grid.renamed]

theorem wf_renamed (hπ : Renaming π) {D : WallData K dim s} {lab : Fin dim → Bool → Int} (hD : D.WF lab) :
    (D.renamed π).WF fun j side => π (lab j side) where
  sten := hD.sten
  sound := by
    intro e he
    obtain ⟨e', h1, rfl⟩ := List.mem_map.1 he
    have := hD.sound e' h1
    exact ⟨this.inside, this.hit⟩
  labels := by
    intro e he x v hx
    obtain ⟨e', h1, rfl⟩ := List.mem_map.1 he
    exact List.mem_map.2 ⟨_, hD.labels e' h1 x v hx, rfl⟩
  dict := fun label ms h => hD.dict _ ms h
  no999 := by
    intro h
    obtain ⟨a, h1, h2⟩ := List.mem_map.1 h
    exact hD.no999 (by rwa [π.injective (h2.trans hπ.none.symm)] at h1)
  noFace := fun j side h => hD.noFace j side (π.injective (h.trans hπ.none.symm))

/-- What is needed for the order of the boundary methods not to matter on a grid: nothing is read where something is
written, or the order of the labels is kept. -/
def Harmless (π : Equiv.Perm Int) (D : WallData K dim s) (g : Domain.Grid K dim s.nu) : Prop :=
  (∀ st I, OnGrid D g st I → ∀ t, Free s (flat s (withValues s g D.ψ I t))) ∨
  ∀ a ∈ listOfLabels g D.els, ∀ b ∈ listOfLabels g D.els, a ≤ b → π a ≤ π b

theorem Harmless.same (hπ : Renaming π) {D : WallData K dim s} {g : Domain.Grid K dim s.nu} (hD : D.WF g.userLabel)
    (h : Harmless π D g) {st st' : Domain.State K dim s.nu} {I I' : List (Method dim × List (Entry K dim s.ns))}
    (hI : OnGrid D g st I) (hI' : OnGrid (D.renamed π) (g.renamed π) st' I') (t : K) :
    boundaryCondition s (withValues s (g.renamed π) (D.renamed π).ψ I' t) =
      boundaryCondition s (withValues s g D.ψ I t) := by
  rcases h with h | h
  · exact C113_boundary_partial hπ hD hI hI' t (h st I hI t)
  · exact C113_same_order hπ hI hI' h t

theorem WallRun.of_renamed (hπ : Renaming π) {D : WallData K dim s} {g : Grid dim} {lo : Fin dim → K} {dx : K}
    {lab : Fin dim → Bool → Int} (hD : D.WF lab) (h : ∀ c, Harmless π D (procGrid g lo dx lab s c))
    {Q : Proc g → Setup K s.ns nc d dim} (hQ : WallRun (D.renamed π) g lo dx (fun j side => π (lab j side)) Q) :
    WallRun D g lo dx lab Q where
  large := hQ.large
  onGrid := by
    intro c
    obtain ⟨st', I', hI', hbc⟩ := hQ.onGrid c
    have e1 : procGrid g lo dx (fun j side => π (lab j side)) s c = (procGrid g lo dx lab s c).renamed π := rfl
    rw [e1] at hI' hbc
    obtain ⟨I, hI⟩ := hI'.renamed (renaming_symm hπ)
    rw [renamed_symm, grid_renamed_symm] at hI
    refine ⟨_, I, hI, fun t A => ?_⟩
    rw [hbc, Harmless.same hπ hD (h c) hI hI']
  away := by
    intro c x hx k
    rcases hQ.away c x hx k with h1 | h1
    · exact Or.inl h1
    · exact Or.inr fun e he => h1 (e.renamed π) (List.mem_map.2 ⟨e, he, rfl⟩)

theorem WallRun.renamed (hπ : Renaming π) {D : WallData K dim s} {g : Grid dim} {lo : Fin dim → K} {dx : K}
    {lab : Fin dim → Bool → Int} (hD : D.WF lab) (h : ∀ c, Harmless π D (procGrid g lo dx lab s c))
    {Q : Proc g → Setup K s.ns nc d dim} (hQ : WallRun D g lo dx lab Q) :
    WallRun (D.renamed π) g lo dx (fun j side => π (lab j side)) Q where
  large := hQ.large
  onGrid := by
    intro c
    obtain ⟨st, I, hI, hbc⟩ := hQ.onGrid c
    obtain ⟨I', hI'⟩ := hI.renamed hπ
    refine ⟨_, I', hI', fun t A => ?_⟩
    rw [hbc, ← Harmless.same hπ hD (h c) hI hI']
    rfl
  away := by
    intro c x hx k
    rcases hQ.away c x hx k with h1 | h1
    · exact Or.inl h1
    · refine Or.inr fun e he => ?_
      obtain ⟨e', h2, rfl⟩ := List.mem_map.1 he
      exact h1 e' h2

/-- **C113 (partial), the simulations.** When the labels are renamed everywhere, the simulations of the renamed problem
are exactly those of the problem: the same boundary conditions, fluid cells, loops, on every process of every
decomposition, for every scheme and backend.  Hypothesis (`Harmless`): on each process no boundary method reads a
position which a boundary method writes, or the renaming keeps the order of the labels. -/
theorem C113_runs_partial (hπ : Renaming π) (D : WallData K dim s) (g : Grid dim) (lo : Fin dim → K) (dx : K)
    (lab : Fin dim → Bool → Int) (hD : D.WF lab) (h : ∀ c, Harmless π D (procGrid g lo dx lab s c))
    (S : Kernel K s.ns nc d) (a : Algo) (Q : Proc g → Setup K s.ns nc d dim) :
    FluidRun (D.renamed π) g lo dx (fun j side => π (lab j side)) S a Q ↔ FluidRun D g lo dx lab S a Q := by
  have hb : ∀ c, Domain.build (procGrid g lo dx (fun j side => π (lab j side)) s c) (D.renamed π).elems =
      (Domain.build (procGrid g lo dx lab s c) D.elems).map (Domain.State.renamed π) := fun c =>
    Domain.C113_domain π.injective hπ.interface hπ.none (procGrid g lo dx lab s c) D.elems
  constructor
  · intro hQ
    refine ⟨hQ.walls.of_renamed hπ hD h, hQ.scheme, hQ.vel, hQ.algo, ?_, hQ.nodup, hQ.loops, hQ.split⟩
    intro c hc st hst x
    exact hQ.fluid c hc (st.renamed π) (by rw [hb, hst]; rfl) x
  · intro hQ
    refine ⟨hQ.walls.renamed hπ hD h, hQ.scheme, hQ.vel, hQ.algo, ?_, hQ.nodup, hQ.loops, hQ.split⟩
    intro c hc st hst x
    rw [hb] at hst
    obtain ⟨st', h1, rfl⟩ := Option.map_eq_some_iff.1 hst
    exact hQ.fluid c hc st' h1 x

/-- **C113, methods which read one cell** (`BounceBack`, `AntiBounceBack`, `Neumann`): the numbers chosen as labels do
not matter at all. -/
theorem C113_one_cell (hπ : Renaming π) (D : WallData K dim s) (g : Grid dim) (lo : Fin dim → K) (dx : K)
    (lab : Fin dim → Bool → Int) (hD : D.WF lab)
    (hone : ∀ label ms, D.dico label = some ms → ∀ p ∈ ms, OneCell p.2)
    (S : Kernel K s.ns nc d) (a : Algo) (Q : Proc g → Setup K s.ns nc d dim) :
    FluidRun (D.renamed π) g lo dx (fun j side => π (lab j side)) S a Q ↔ FluidRun D g lo dx lab S a Q :=
  C113_runs_partial hπ D g lo dx lab hD
    (fun _ => Or.inl fun _ _ hI t => hI.free hD hone t) S a Q

end Pylbm.Sim
