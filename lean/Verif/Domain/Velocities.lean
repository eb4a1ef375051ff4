import Verif.Domain.Decompose
/-!
# The links of a velocity do not depend on the other velocities (C103)
-/
set_option linter.unusedSectionVars false
namespace Pylbm.Domain
open Round Storage DomainSpec

variable {K : Type} [Field K] [LinearOrder K] [IsStrictOrderedRing K] {dim nv nv' : Nat} [FloorRing K]

/-! ## Specification -/

/-- The same box cut in the same way, for two stencils: the velocities and the widths of the halo may differ. -/
structure SameBox (g : Grid K dim nv) (g' : Grid K dim nv') : Prop where
  lo : g'.lo = g.lo
  dx : g'.dx = g.dx
  N : g'.N = g.N
  r0 : g'.r0 = g.r0
  r1 : g'.r1 = g.r1
  label : g'.userLabel = g.userLabel

/-- The cells `c` and `c'` of the two arrays are the same cell of the box: they differ by the widths of the halos. -/
def SamePlace (g : Grid K dim nv) (g' : Grid K dim nv') (c c' : Cell dim) : Prop :=
  ∀ j, c j - g.h j = c' j - g'.h j

/-! ## Lemmas -/

section
variable {g : Grid K dim nv} {g' : Grid K dim nv'} {c c' : Cell dim}

theorem SamePlace.interior (hB : SameBox g g') (h : SamePlace g g' c c') : g.Interior c ↔ g'.Interior c' := by
  unfold Grid.Interior Grid.n
  rw [hB.r0, hB.r1]
  refine forall_congr' fun j => ?_
  have := h j
  omega

theorem SamePlace.centre (hB : SameBox g g') (h : SamePlace g g' c c') : g'.cellCentre c' = g.cellCentre c := by
  funext j
  unfold Grid.cellCentre
  rw [hB.lo, hB.dx, hB.r0]
  congr 1
  have := h j
  omega

theorem SamePlace.target (h : SamePlace g g' c c') {k : Fin nv} {k' : Fin nv'} (hk : g.vel k = g'.vel k') :
    SamePlace g g' (g.target k c) (g'.target k' c') := by
  intro j
  have := h j
  unfold Grid.target
  rw [hk]
  omega

theorem SamePlace.crossing (hB : SameBox g g') (h : SamePlace g g' c c') {k : Fin nv} {k' : Fin nv'}
    (hk : g.vel k = g'.vel k') (ax : Fin dim) : Domain.crossing g' ax k' c' = Domain.crossing g ax k c := by
  unfold Domain.crossing Grid.label Grid.n
  rw [hB.r0, hB.r1, hB.N, hB.label, hk, h ax]

end

/-! ## Property -/

/-- **C103, domain.** Two domains built from the same elements on the same box for two stencils, whose velocities and
halos may differ: the cells have the same states, and the distance, the label and the normal of a velocity which both
stencils have are the same on every cell of the box. -/
theorem C103_domain (g : Grid K dim nv) (hg : g.WF) (g' : Grid K dim nv') (hg' : g'.WF) (hB : SameBox g g')
    (elems : List (Elem K dim)) (he : ∀ e ∈ elems, e.Sound) (st : State K dim nv) (st' : State K dim nv')
    (h : build g elems = some st) (h' : build g' elems = some st') (c c' : Cell dim) (hp : SamePlace g g' c c') :
    st.ioo c = st'.ioo c' ∧
    ∀ k k', g.vel k = g'.vel k' → g.Interior c → st.link k c = st'.link k' c' := by
  obtain ⟨s0, s1, h0, h1, rfl⟩ := build_some h
  obtain ⟨S0, S1, H0, H1, rfl⟩ := build_some h'
  have hio : ∀ (l : List (Elem K dim)) (s : State K dim nv) (S : State K dim nv'), (∀ e ∈ l, e.Sound) →
      l.foldlM (addElem g) s0 = some s → l.foldlM (addElem g') S0 = some S →
      ∀ t t', SamePlace g g' t t' → s.ioo t = S.ioo t' := by
    intro l s S hl hs hS t t' ht
    rw [fold_ioo hg l hl s0 s (addInit_spec g s0 h0).1 hs,
      fold_ioo hg' l hl S0 S (addInit_spec g' S0 H0).1 hS]
    have e1 := ht.interior hB
    by_cases hI : g.Interior t
    · rw [point_eq hg hI, point_eq hg' (e1.1 hI), ht.centre hB]
      simp [hI, e1.1 hI]
    · have hI' : ¬ g'.Interior t' := fun h => hI (e1.2 h)
      simp [hI, hI']
  have hlk : ∀ (l : List (Elem K dim)) (s : State K dim nv) (S : State K dim nv'), (∀ e ∈ l, e.Sound) →
      l.foldlM (addElem g) s0 = some s → l.foldlM (addElem g') S0 = some S →
      ∀ k k', g.vel k = g'.vel k' → g.Interior c → s.link k c = S.link k' c' := by
    intro l
    induction l using List.reverseRecOn with
    | nil =>
      intro s S _ hs hS k k' hk hc
      simp only [List.foldlM_nil, Option.pure_def, Option.some.injEq] at hs hS
      subst hs; subst hS
      rw [(addInit_spec g s0 h0).2 k c, (addInit_spec g' S0 H0).2 k' c', if_pos hc, if_pos ((hp.interior hB).1 hc)]
      congr 1
      funext L ax
      unfold axisUpd
      rw [hp.crossing hB hk]
    | append_singleton l e ih =>
      intro s S hl hs hS k k' hk hc
      have hs' := hs
      have hS' := hS
      rw [List.foldlM_append] at hs hS
      simp only [List.foldlM_cons, List.foldlM_nil, Option.pure_def, Option.bind_eq_bind,
        Option.bind_eq_some_iff] at hs hS
      obtain ⟨s2, hs2, s3, hs3, e3⟩ := hs
      obtain ⟨S2, hS2, S3, hS3, E3⟩ := hS
      simp only [Option.some.injEq] at e3 E3
      subst e3; subst E3
      have hl' : ∀ e ∈ l, e.Sound := fun e' h' => hl e' (by simp [h'])
      rw [addElem_link hg (hl e (by simp)) (linkInv_fold hg l hl' s0 s2 h0 hs2) hs3 k hc,
        addElem_link hg' (hl e (by simp)) (linkInv_fold hg' l hl' S0 S2 H0 hS2) hS3 k' ((hp.interior hB).1 hc),
        ih s2 S2 hl' hs2 hS2 k k' hk hc, hio _ s3 S3 hl hs' hS' c c' hp,
        hio _ s3 S3 hl hs' hS' _ _ (hp.target hk), hp.centre hB, hB.dx, hk]
  have hioc := hio elems s1 S1 he h1 H1 c c' hp
  refine ⟨hioc, fun k k' hk hc => ?_⟩
  have := hlk elems s1 S1 he h1 H1 k k' hk hc
  unfold clean
  simp only
  rw [this, hioc]

/-- The box of `boxGrid` for a stencil with longer velocities: the halo has two cells. -/
def longGrid : Grid ℚ 2 4 := { boxGrid with
  h := ![2, 2]
  vel := ![![2, 0], ![1, 0], ![-2, 0], ![-1, 0]] }

/-- A case for `C103_domain`: the velocity `(1, 0)` has number 1 in both stencils, the cell `(1, 2)` of the first array is
the cell `(2, 3)` of the second one, and it is next to the obstacle. -/
example : ∃ st st', boxGrid.WF ∧ longGrid.WF ∧ SameBox boxGrid longGrid ∧ (∀ e ∈ [obstacle], e.Sound) ∧
    build boxGrid [obstacle] = some st ∧ build longGrid [obstacle] = some st' ∧
    SamePlace boxGrid longGrid ![1, 2] ![2, 3] ∧ boxGrid.vel 1 = longGrid.vel 1 ∧ boxGrid.Interior ![1, 2] ∧
    (st'.link 1 ![2, 3]).flag = 7 := by
  refine ⟨(build boxGrid [obstacle]).get (by decide +kernel), (build longGrid [obstacle]).get (by decide +kernel),
    boxGrid_wf, ⟨by decide +kernel, by decide +kernel, by decide +kernel⟩, ⟨rfl, rfl, rfl, rfl, rfl, rfl⟩, ?_,
    (Option.some_get _).symm, (Option.some_get _).symm, by unfold SamePlace; decide +kernel, by decide +kernel,
    by decide +kernel, by decide +kernel⟩
  simp only [List.mem_singleton, forall_eq]
  exact rect_sound (by norm_num) (by norm_num) _ _

end Pylbm.Domain
