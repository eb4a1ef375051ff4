import Verif.Domain.Props
/-!
# C113: renaming the labels, the domain
-/

set_option linter.unusedSectionVars false

namespace Pylbm.Domain

variable {K : Type} [Field K] [LinearOrder K] [IsStrictOrderedRing K] [FloorRing K] {dim nv : Nat}

/-! ## Specification: the same data with other numbers as labels -/

/-- The box whose faces have the labels renamed by `π`. -/
def Grid.renamed (π : Int → Int) (g : Grid K dim nv) : Grid K dim nv :=
  { g with userLabel := fun j side => π (g.userLabel j side) }

/-- The element whose edges have the labels renamed by `π`. -/
def Elem.renamed (π : Int → Int) (e : Elem K dim) : Elem K dim :=
  { e with border := fun x v => π (e.border x v) }

/-- The link whose label is renamed by `π`. -/
def Link.renamed (π : Int → Int) (L : Link K dim) : Link K dim := { L with flag := π L.flag }

/-- The domain with the labels renamed by `π`: `in_or_out`, the distances and the normals are the same. -/
def State.renamed (π : Int → Int) (st : State K dim nv) : State K dim nv :=
  { st with link := fun k c => (st.link k c).renamed π }

/-! ## Proofs -/

theorem foldlM_commute {α β : Type} (ρ : α → α) (f f' : α → β → Option α)
    (h : ∀ a b, f' (ρ a) b = (f a b).map ρ) : ∀ (l : List β) (a : α),
    l.foldlM f' (ρ a) = (l.foldlM f a).map ρ
  | [], a => rfl
  | b :: l, a => by
    rw [List.foldlM_cons, List.foldlM_cons, h]
    cases f a b with
    | none => rfl
    | some a' => exact foldlM_commute ρ f f' h l a'

variable {π : Int → Int}

theorem label_renamed (h2 : π (-2) = -2) (g : Grid K dim nv) (j : Fin dim) (side : Bool) :
    (g.renamed π).label j side = π (g.label j side) := by
  unfold Grid.label
  change (if side = false then (if g.r0 j ≠ 0 then -2 else π (g.userLabel j false))
    else (if g.r1 j ≠ g.N j then -2 else π (g.userLabel j true))) = _
  by_cases h0 : side = false
  · rw [if_pos h0, if_pos h0]
    by_cases h1 : g.r0 j ≠ 0
    · rw [if_pos h1, if_pos h1, h2]
    · rw [if_neg h1, if_neg h1]
  · rw [if_neg h0, if_neg h0]
    by_cases h1 : g.r1 j ≠ g.N j
    · rw [if_pos h1, if_pos h1, h2]
    · rw [if_neg h1, if_neg h1]

theorem layer_renamed (g : Grid K dim nv) (ax : Fin dim) (k : Fin nv) (pos : Nat) (d : K) (lab : Int) (sgn : K)
    (st : State K dim nv) :
    layer (g.renamed π) ax k pos d (π lab) sgn (st.renamed π) = (layer g ax k pos d lab sgn st).renamed π := by
  simp only [layer, State.renamed, State.mk.injEq, true_and]
  funext k' c
  by_cases hh : k' = k ∧ g.Interior c ∧ c ax = g.h ax + pos ∧ d < (st.link k' c).dist
  · have hh' : k' = k ∧ (g.renamed π).Interior c ∧ c ax = (g.renamed π).h ax + pos ∧ d < (st.link k' c).dist := hh
    refine (if_pos hh').trans ?_
    rw [if_pos hh]
    rfl
  · have hh' : ¬ (k' = k ∧ (g.renamed π).Interior c ∧ c ax = (g.renamed π).h ax + pos ∧ d < (st.link k' c).dist) := hh
    refine (if_neg hh').trans ?_
    rw [if_neg hh]

theorem layers_renamed (hinj : Function.Injective π) (h2 : π (-2) = -2) (g : Grid K dim nv) (ax : Fin dim)
    (k : Fin nv) (st : State K dim nv) :
    layers (g.renamed π) ax k (st.renamed π) = (layers g ax k st).map (State.renamed π) := by
  have hl : ∀ side, (g.renamed π).label ax side ≠ -2 ↔ g.label ax side ≠ -2 := by
    intro side
    rw [label_renamed h2]
    exact ⟨fun h hh => h (by rw [hh, h2]), fun h hh => h (hinj (by rw [hh, h2]))⟩
  unfold layers
  simp only [hl]
  change (if g.vel k ax < 0 ∧ g.label ax false ≠ -2 then _ else if 0 < g.vel k ax ∧ g.label ax true ≠ -2 then _ else _) = _
  split
  · refine foldlM_commute (State.renamed π) _ _ ?_ _ st
    intro st i
    change (if i < g.n ax then _ else _) = _
    split
    · rw [label_renamed h2]
      exact congrArg some (layer_renamed g ax k i _ _ _ st)
    · rfl
  · split
    · refine foldlM_commute (State.renamed π) _ _ ?_ _ st
      intro st i
      change (if i < g.n ax then _ else _) = _
      split
      · rw [label_renamed h2]
        exact congrArg some (layer_renamed g ax k _ _ _ _ st)
      · rfl
    · rfl

theorem addInit_renamed (hinj : Function.Injective π) (h2 : π (-2) = -2) (h9 : π 999 = 999) (g : Grid K dim nv) :
    addInit (g.renamed π) = (addInit g).map (State.renamed π) := by
  have h0 : initState (g.renamed π) = (initState g).renamed π := by
    simp only [initState, State.renamed, Link.renamed, valin, h9]
    rfl
  unfold addInit
  rw [h0]
  refine foldlM_commute (State.renamed π) _ _ ?_ _ _
  intro st ax
  exact foldlM_commute (State.renamed π) _ _ (fun st k => layers_renamed hinj h2 g ax k st) _ _

theorem elemLink_renamed (h9 : π 999 = 999) (e : Elem K dim) (ioo : Int) (out : Bool) (x v : Fin dim → K)
    (L : Link K dim) :
    elemLink (e.renamed π) ioo out x v (L.renamed π) = (elemLink e ioo out x v L).renamed π := by
  have h1 : (if e.isFluid then
      (if !out ∧ ioo = valin then { L.renamed π with dist := (valin : K), flag := valin } else L.renamed π)
    else (if e.inside x then { L.renamed π with dist := (valin : K), flag := valin } else L.renamed π)) =
    ((if e.isFluid then
      (if !out ∧ ioo = valin then { L with dist := (valin : K), flag := valin } else L)
    else (if e.inside x then { L with dist := (valin : K), flag := valin } else L)) : Link K dim).renamed π := by
    split_ifs <;> simp only [Link.renamed, valin, h9]
  have h2 : ∀ M : Link K dim, (if (decide (0 < e.alpha x v) && (if e.isFluid then e.inside x else !e.inside x) && out) &&
      (if e.isFluid then decide ((M.renamed π).dist < e.alpha x v) || decide ((M.renamed π).dist = (valin : K))
        else decide (e.alpha x v < (M.renamed π).dist)) then
      (⟨e.alpha x v, π (e.border x v), fun j => -e.normvect x v j⟩ : Link K dim) else M.renamed π) =
    ((if (decide (0 < e.alpha x v) && (if e.isFluid then e.inside x else !e.inside x) && out) &&
      (if e.isFluid then decide (M.dist < e.alpha x v) || decide (M.dist = (valin : K))
        else decide (e.alpha x v < M.dist)) then
      ⟨e.alpha x v, e.border x v, fun j => -e.normvect x v j⟩ else M) : Link K dim).renamed π := by
    intro M
    rw [apply_ite (Link.renamed π)]
    rfl
  refine Eq.trans ?_ (h2 _)
  rw [← h1]
  rfl

theorem elemLinks_renamed (h9 : π 999 = 999) (g : Grid K dim nv) (e : Elem K dim) (k : Fin nv) (masked : Bool)
    (st : State K dim nv) :
    elemLinks (g.renamed π) (e.renamed π) k masked (st.renamed π) = (elemLinks g e k masked st).renamed π := by
  simp only [elemLinks, State.renamed, State.mk.injEq, true_and]
  funext k' c
  by_cases hh : k' = k ∧ InView g e c
  · have hh' : k' = k ∧ InView (g.renamed π) (e.renamed π) c := hh
    refine (if_pos hh').trans ?_
    rw [if_pos hh]
    exact elemLink_renamed h9 e _ _ _ _ _
  · have hh' : ¬ (k' = k ∧ InView (g.renamed π) (e.renamed π) c) := hh
    refine (if_neg hh').trans ?_
    rw [if_neg hh]

theorem elemVel_renamed (h9 : π 999 = 999) (g : Grid K dim nv) (e : Elem K dim) (k : Fin nv)
    (st : State K dim nv) :
    elemVel (g.renamed π) (e.renamed π) k (st.renamed π) = (elemVel g e k st).map (State.renamed π) := by
  unfold elemVel
  rw [elemLinks_renamed h9, elemLinks_renamed h9]
  change (if ∀ j, g.vel k j = 0 then _ else if ∀ j, viewSize g e j (g.vel k j) = viewSize g e j 0 then _
    else if e.isFluid then if (∀ j, bcast (viewSize g e j (g.vel k j)) (viewSize g e j 0) = some (viewSize g e j 0)) ∧
        ∃ j, viewSize g e j 0 = 0 then _ else _ else if ∃ j, viewSize g e j (g.vel k j) = 0 then _
      else if (∀ j, (bcast (viewSize g e j (g.vel k j)) (viewSize g e j 0)).isSome) ∧
      ∃ j, viewSize g e j 0 = 0 then _ else _) = _
  split_ifs <;> rfl

/-- **C113, the domain.** Renaming the labels of the faces of the box and of the edges of the elements by an injective
map (which keeps the two reserved values, −2 for the interfaces and 999 for "no label") renames the labels of the domain
and changes nothing else: the same cells are fluid, the links have the same distances and normals, and the construction
fails in the same cases. -/
theorem C113_domain (hinj : Function.Injective π) (h2 : π (-2) = -2) (h9 : π 999 = 999) (g : Grid K dim nv)
    (elems : List (Elem K dim)) :
    build (g.renamed π) (elems.map (Elem.renamed π)) = (build g elems).map (State.renamed π) := by
  have hadd : ∀ (st : State K dim nv) (e : Elem K dim),
      addElem (g.renamed π) (st.renamed π) (e.renamed π) = (addElem g st e).map (State.renamed π) := by
    intro st e
    unfold addElem
    exact foldlM_commute (State.renamed π) (fun st k => elemVel g e k st) _
      (fun st k => elemVel_renamed h9 g e k st) (List.finRange nv) (elemIoo g e st)
  have hclean : ∀ st : State K dim nv, clean (st.renamed π) = (clean st).renamed π := by
    intro st
    simp only [clean, State.renamed, State.mk.injEq, true_and]
    funext k c
    by_cases hh : 0 < (st.link k c).dist ∧ st.ioo c = valout
    · refine (if_pos hh).trans ?_
      rw [if_pos hh]
      simp only [Link.renamed, valin, h9]
    · refine (if_neg hh).trans ?_
      rw [if_neg hh]
  unfold build
  rw [addInit_renamed hinj h2 h9]
  cases addInit g with
  | none => rfl
  | some st =>
    simp only [Option.map_some, Option.bind_eq_bind, Option.bind_some, List.foldlM_map]
    rw [foldlM_commute (State.renamed π) (addElem g) _ hadd elems st]
    cases elems.foldlM (addElem g) st with
    | none => rfl
    | some st' => simp [hclean]

end Pylbm.Domain
