import Verif.Domain.Provenance
import Verif.Domain.Decompose
import Verif.Domain.Witness
/-!
# The nearest wall: property C66
-/
set_option linter.unusedSectionVars false
namespace Pylbm.Domain
open Round Storage DomainSpec

variable {K : Type} [Field K] [LinearOrder K] [IsStrictOrderedRing K] {dim nv : Nat} [FloorRing K]

/-- The parameters at which the link `x`, `v` meets a wall: the first face of the box and the
elements. -/
def Walls (g : Grid K dim nv) (elems : List (Elem K dim)) (k : Fin nv) (c : Cell dim) : Set K :=
  {t | ∃ f, FirstFace g.n g.Active (g.inner c) (g.vel k) f t} ∪
  {t | ∃ e ∈ elems, t = e.alpha (g.cellCentre c) (fun j => g.dx * (g.vel k j : K)) ∧ 0 < t}

/-- The target of the link is out of the local grid or in one of the solid elements of the list. -/
def Blocked (g : Grid K dim nv) (l : List (Elem K dim)) (t : Cell dim) : Prop :=
  ¬ g.Interior t ∨ ∃ e ∈ l, e.inside (g.cellCentre t) = true

theorem material_solid {P : Type} (l : List (Bool × (P → Bool))) (h : ∀ r ∈ l, r.1 = false) (x : P) :
    material l x = true ↔ ∀ r ∈ l, r.2 x = false := by
  induction l with
  | nil => simp [material]
  | cons r l ih =>
    obtain ⟨b, m⟩ := r
    have hb : b = false := h (b, m) (by simp)
    have ih' := ih (fun r hr => h r (by simp [hr]))
    simp only [material]
    by_cases ha : l.any (fun r => r.2 x) = true
    · rw [if_pos ha, ih']
      obtain ⟨r, hr, hx⟩ := List.any_eq_true.1 ha
      constructor
      · intro h2; rw [h2 r hr] at hx; exact absurd hx (by simp)
      · intro h2 r' hr'; exact h2 r' (by simp [hr'])
    · rw [if_neg ha]
      have hn : ∀ r ∈ l, r.2 x = false := by
        intro r hr
        by_contra hx
        rw [Bool.not_eq_false] at hx
        exact ha (List.any_eq_true.2 ⟨r, hr, hx⟩)
      by_cases hm : m x = true
      · rw [if_pos hm, hb]
        simp only [Bool.false_eq_true, false_iff]
        intro h2
        have := h2 (false, m) (by simp)
        simp only at this
        rw [hm] at this; exact absurd this (by simp)
      · rw [if_neg hm]
        simp only [true_iff]
        intro r hr
        rcases List.mem_cons.1 hr with rfl | hr
        · simpa using hm
        · exact hn r hr

theorem elemLink_solid (e : Elem K dim) (ioo : Int) (out : Bool) (x v : Fin dim → K) (L : Link K dim)
    (hf : e.isFluid = false) (hx : e.inside x = false) :
    elemLink e ioo out x v L = if 0 < e.alpha x v ∧ out = true ∧ e.alpha x v < L.dist then
      ⟨e.alpha x v, e.border x v, fun j => -e.normvect x v j⟩ else L := by
  unfold elemLink
  simp only [hf, hx, Bool.false_eq_true, if_false, Bool.not_false, Bool.and_true]
  by_cases h1 : 0 < e.alpha x v <;> by_cases h2 : out = true <;>
    by_cases h3 : e.alpha x v < L.dist <;> simp [h1, h2, h3]

/-- The links after the elements of the list, all solid. -/
theorem solid_links {g : Grid K dim nv} (hg : g.WF) (s0 : State K dim nv) (h0 : addInit g = some s0)
    (l : List (Elem K dim)) (he : ∀ e ∈ l, e.Sound) (hf : ∀ e ∈ l, e.isFluid = false)
    (s : State K dim nv) (h : l.foldlM (addElem g) s0 = some s) {c : Cell dim} (hc : g.Interior c)
    (hx : ∀ e ∈ l, e.inside (g.cellCentre c) = false) (k : Fin nv) (hz : ∃ j, g.vel k j ≠ 0) :
    (s.link k c).dist ≤ (s0.link k c).dist ∧
    ∀ pre e post, l = pre ++ e :: post → Blocked g (pre ++ [e]) (g.target k c) →
      0 < e.alpha (g.cellCentre c) (fun j => g.dx * (g.vel k j : K)) →
      (s.link k c).dist ≤ e.alpha (g.cellCentre c) (fun j => g.dx * (g.vel k j : K)) := by
  induction l using List.reverseRecOn generalizing s with
  | nil =>
    simp only [List.foldlM_nil, Option.pure_def, Option.some.injEq] at h
    subst h
    exact ⟨le_rfl, fun pre e post h1 => absurd h1 (by simp)⟩
  | append_singleton l e ih =>
    have hs := h
    rw [List.foldlM_append] at h
    simp only [List.foldlM_cons, List.foldlM_nil, Option.pure_def, Option.bind_eq_bind,
      Option.bind_eq_some_iff] at h
    obtain ⟨s2, hs2, s3, hs3, e3⟩ := h
    simp only [Option.some.injEq] at e3
    subst e3
    have he' : ∀ e' ∈ l, e'.Sound := fun e' h' => he e' (by simp [h'])
    obtain ⟨i1, i2⟩ := ih he' (fun e' h' => hf e' (by simp [h'])) s2 hs2
      (fun e' h' => hx e' (by simp [h']))
    have hl := addElem_link hg (he e (by simp)) (linkInv_fold hg l he' s0 s2 h0 hs2) hs3 k hc
    rw [if_pos hz, elemLink_solid e _ _ _ _ _ (hf e (by simp)) (hx e (by simp))] at hl
    have hmono : (s3.link k c).dist ≤ (s2.link k c).dist := by
      rw [hl]
      split_ifs with h1
      · exact h1.2.2.le
      · exact le_rfl
    refine ⟨hmono.trans i1, ?_⟩
    intro pre e' post h1 hb ha
    rcases List.eq_nil_or_concat post with rfl | ⟨post', e'', rfl⟩
    · have h2 := List.append_inj' h1 rfl
      obtain ⟨rfl, h3⟩ := h2
      simp only [List.cons.injEq, and_true] at h3
      subst h3
      have hout : s3.ioo (g.target k c) = valout := by
        rw [fold_ioo hg (l ++ [e]) he s0 s3 (addInit_spec g s0 h0).1 hs, if_neg]
        rintro ⟨h5, h6⟩
        rcases hb with hb | ⟨e1, h7, h8⟩
        · exact hb h5
        · rw [material_solid _ (by
            intro r hr
            obtain ⟨e2, he2, rfl⟩ := List.mem_map.1 hr
            exact hf e2 he2)] at h6
          have := h6 (e1.isFluid, e1.inside) (List.mem_map.2 ⟨e1, h7, rfl⟩)
          rw [← point_eq hg h5] at h8
          simp only at this
          rw [this] at h8; exact absurd h8 (by simp)
      rw [hl]
      split_ifs with h9
      · exact le_rfl
      · by_contra hlt
        push Not at hlt
        exact h9 ⟨ha, by rw [hout]; simp, hlt⟩
    · have h2 : l ++ [e] = (pre ++ e' :: post') ++ [e''] := by rw [h1]; simp
      obtain ⟨h3, -⟩ := List.append_inj' h2 rfl
      exact hmono.trans (i2 pre e' post' h3 hb ha)

/-- C66 (geometries of solid elements, none of which the link crosses before an element containing
its target has been added; the general statement is false): the distance of a link from a fluid cell
is the smallest fraction at which the link meets a wall, 999 when it meets none. -/
theorem C66_nearest_wall_partial (g : Grid K dim nv) (hg : g.WF) (elems : List (Elem K dim))
    (he : ∀ e ∈ elems, e.Sound) (hf : ∀ e ∈ elems, e.isFluid = false) (st : State K dim nv)
    (h : build g elems = some st) (c : Cell dim) (hc : g.Interior c) (k : Fin nv)
    (hz : ∃ j, g.vel k j ≠ 0) (hfl : st.ioo c = 999)
    (hb : ∀ pre e post, elems = pre ++ e :: post →
      0 < e.alpha (g.cellCentre c) (fun j => g.dx * (g.vel k j : K)) →
      Blocked g (pre ++ [e]) (g.target k c)) :
    IsLeast (Walls g elems k c) (st.link k c).dist ∨
      (Walls g elems k c = ∅ ∧ (st.link k c).dist = 999) := by
  have hx : ∀ e ∈ elems, e.inside (g.cellCentre c) = false := by
    have := C21_fluid_map g hg elems he st h c
    rw [hfl] at this
    have hm : material (regions elems) (g.cellCentre c) = true := by
      by_contra hm
      rw [if_neg (fun h => hm h.2)] at this
      exact absurd this (by norm_num)
    rw [material_solid _ (by
      intro r hr
      obtain ⟨e2, he2, rfl⟩ := List.mem_map.1 hr
      exact hf e2 he2)] at hm
    intro e hm'
    exact hm (e.isFluid, e.inside) (List.mem_map.2 ⟨e, hm', rfl⟩)
  have hlow : ∀ t ∈ Walls g elems k c, (st.link k c).dist ≤ t := by
    have hst := h
    obtain ⟨s0, s1, h0, h1, rfl⟩ := build_some h
    have hinv := linkInv_fold hg elems he s0 s1 h0 h1
    obtain ⟨c1, -, c3, -⟩ := C22_clean s1 hinv.pos
    rw [c1] at hfl
    rw [c3 k c (by rw [hfl]; decide)]
    obtain ⟨g1, g2⟩ := solid_links hg s0 h0 elems he hf s1 h1 hc hx k hz
    rintro t (⟨f, hff⟩ | ⟨e, hm, rfl, hpos⟩)
    · refine g1.trans ?_
      rcases C20_box_links g s0 h0 k c hc with ⟨h2, -⟩ | ⟨f', t', hf', hL⟩
      · exact absurd hff.2.1 (h2 f t hff.1)
      · rw [hL]
        rcases hf'.2.2 f t hff.1 hff.2.1 with h3 | h3
        · exact h3.le
        · exact h3.1.le
    · obtain ⟨pre, post, rfl⟩ := List.append_of_mem hm
      exact g2 pre e post rfl (hb pre e post rfl hpos) hpos
  by_cases hd : (st.link k c).dist = 999
  · right
    refine ⟨Set.eq_empty_iff_forall_notMem.2 (fun t ht => ?_), hd⟩
    have h1 := hlow t ht
    have h2 : t ≤ 1 := by
      rcases ht with ⟨f, hff⟩ | ⟨e, hm, rfl, hpos⟩
      · exact hff.2.1.2.1
      · exact ((he e hm).hit _ _ hpos).1
    rw [hd] at h1
    linarith
  · left
    refine ⟨?_, hlow⟩
    rcases C65_same_wall g hg elems he st h c k hd with ⟨f, h1, -⟩ | ⟨e, h1, h2, h3, -⟩
    · exact Or.inl ⟨f, h1⟩
    · exact Or.inr ⟨e, h1, h3, by rw [h3]; exact h2⟩

/-- C66: when every solid element met by the link contains its target (or when the target is out of
the grid), the distance does not depend on the order of the elements. -/
theorem C66_order_partial (g : Grid K dim nv) (hg : g.WF) (elems elems' : List (Elem K dim))
    (hp : elems.Perm elems') (he : ∀ e ∈ elems, e.Sound) (hf : ∀ e ∈ elems, e.isFluid = false)
    (st st' : State K dim nv) (h : build g elems = some st) (h' : build g elems' = some st')
    (c : Cell dim) (hc : g.Interior c) (k : Fin nv) (hz : ∃ j, g.vel k j ≠ 0) (hfl : st.ioo c = 999)
    (hb : ∀ e ∈ elems, 0 < e.alpha (g.cellCentre c) (fun j => g.dx * (g.vel k j : K)) →
      ¬ g.Interior (g.target k c) ∨ e.inside (g.cellCentre (g.target k c)) = true) :
    (st.link k c).dist = (st'.link k c).dist := by
  have hW : Walls g elems k c = Walls g elems' k c := by
    unfold Walls
    congr 1
    ext t
    simp only [Set.mem_ofPred_eq, hp.mem_iff]
  have he' : ∀ e ∈ elems', e.Sound := fun e hm => he e (hp.mem_iff.2 hm)
  have hf' : ∀ e ∈ elems', e.isFluid = false := fun e hm => hf e (hp.mem_iff.2 hm)
  have hfl' : st'.ioo c = 999 := by
    rw [C21_fluid_map g hg elems' he' st' h' c]
    rw [C21_fluid_map g hg elems he st h c] at hfl
    have hm : material (regions elems) (g.cellCentre c) = true := by
      by_contra hm
      rw [if_neg (fun h => hm h.2)] at hfl
      exact absurd hfl (by norm_num)
    rw [if_pos]
    refine ⟨hc, ?_⟩
    rw [material_solid _ (by
      intro r hr
      obtain ⟨e2, he2, rfl⟩ := List.mem_map.1 hr
      exact hf' e2 he2)]
    rw [material_solid _ (by
      intro r hr
      obtain ⟨e2, he2, rfl⟩ := List.mem_map.1 hr
      exact hf e2 he2)] at hm
    intro r hr
    exact hm r ((hp.map _).mem_iff.2 hr)
  have hbl : ∀ (l : List (Elem K dim)), l.Perm elems → ∀ pre e post, l = pre ++ e :: post →
      0 < e.alpha (g.cellCentre c) (fun j => g.dx * (g.vel k j : K)) →
      Blocked g (pre ++ [e]) (g.target k c) := by
    intro l hl pre e post h1 h2
    have hm : e ∈ elems := hl.mem_iff.1 (by rw [h1]; simp)
    rcases hb e hm h2 with h3 | h3
    · exact Or.inl h3
    · exact Or.inr ⟨e, by simp, h3⟩
  rcases C66_nearest_wall_partial g hg elems he hf st h c hc k hz hfl (hbl elems (List.Perm.refl _))
    with h1 | ⟨h1, h2⟩
  · rcases C66_nearest_wall_partial g hg elems' he' hf' st' h' c hc k hz hfl' (hbl elems' hp.symm)
      with h3 | ⟨h3, h4⟩
    · rw [hW] at h1
      exact h1.unique h3
    · rw [hW, h3] at h1; exact absurd h1.1 (Set.notMem_empty _)
  · rcases C66_nearest_wall_partial g hg elems' he' hf' st' h' c hc k hz hfl' (hbl elems' hp.symm)
      with h3 | ⟨h3, h4⟩
    · rw [← hW, h1] at h3; exact absurd h3.1 (Set.notMem_empty _)
    · rw [h2, h4]

/-- A solid block which contains the target of the link `1` of the cell `(2, 2)`: the hypotheses of
the two theorems above hold, and the distance is the smaller of those of the two walls. -/
example : ∃ st : State ℚ 2 5, build boxGrid [rect (9 / 4) (11 / 4) (5 / 4) (7 / 4) 8 false,
    rect 2 3 1 2 7 false] = some st ∧ st.ioo ![2, 2] = 999 ∧
    (st.link 1 ![2, 2]).dist = 1 / 2 ∧
    (∀ e ∈ [rect (9 / 4) (11 / 4) (5 / 4) (7 / 4) 8 false, rect 2 3 1 2 7 false],
      e.inside (boxGrid.cellCentre (boxGrid.target 1 ![2, 2])) = true) :=
  ⟨_, (Option.some_get (by decide +kernel)).symm, by decide +kernel, by decide +kernel,
    by decide +kernel⟩

/-- A thin solid wall between two columns of cells, and a solid block behind it. -/
def thinWall : Elem ℚ 2 := rect (7 / 4) (15 / 8) 1 2 7 false

def blockBehind : Elem ℚ 2 := rect (9 / 4) (11 / 4) (5 / 4) (7 / 4) 8 false

/-- C66 is false in general: with a thin wall added before the block which contains the target, the
link from the fluid cell carries the distance and the label of the block, although it meets the wall
before; with the two elements in the other order it carries those of the wall. -/
theorem C66_nearest_wall_negation : ∃ (st st' : State ℚ 2 5), boxGrid.WF ∧ thinWall.Sound ∧
    blockBehind.Sound ∧ build boxGrid [thinWall, blockBehind] = some st ∧
    build boxGrid [blockBehind, thinWall] = some st' ∧ boxGrid.Interior ![2, 2] ∧
    st.ioo ![2, 2] = 999 ∧ st'.ioo ![2, 2] = 999 ∧
    (1 / 4 : ℚ) ∈ Walls boxGrid [thinWall, blockBehind] 1 ![2, 2] ∧
    (st.link 1 ![2, 2]).dist = 3 / 4 ∧ (st.link 1 ![2, 2]).flag = 8 ∧
    (st'.link 1 ![2, 2]).dist = 1 / 4 ∧ (st'.link 1 ![2, 2]).flag = 7 := by
  refine ⟨(build boxGrid [thinWall, blockBehind]).get (by decide +kernel),
    (build boxGrid [blockBehind, thinWall]).get (by decide +kernel), boxGrid_wf,
    rect_sound (by norm_num) (by norm_num) _ _, rect_sound (by norm_num) (by norm_num) _ _,
    (Option.some_get _).symm, (Option.some_get _).symm, by decide +kernel, by decide +kernel,
    by decide +kernel, ?_, by decide +kernel, by decide +kernel, by decide +kernel,
    by decide +kernel⟩
  exact Or.inr ⟨thinWall, by simp, by decide +kernel, by norm_num⟩

end Pylbm.Domain
