import Verif.Domain.Library
/-!
# Where the distance of a link comes from
-/
set_option linter.unusedSectionVars false
namespace Pylbm.Domain
open Round Storage DomainSpec

variable {K : Type} [Field K] [LinearOrder K] [IsStrictOrderedRing K] {dim nv : Nat} [FloorRing K]

/-- The distance, the label and the normal of a link are those of the first face of the box met by
the link, or those of an element met by the link (the opposite of the vector which `distance`
returns, domain.py 618-620). -/
def Origin (g : Grid K dim nv) (elems : List (Elem K dim)) (k : Fin nv) (c : Cell dim)
    (L : Link K dim) : Prop :=
  (∃ f, FirstFace g.n g.Active (g.inner c) (g.vel k) f L.dist ∧ L.flag = g.label f.ax f.upper ∧
    L.normal = outward f) ∨
  ∃ e ∈ elems, 0 < L.dist ∧ L.dist = e.alpha (g.cellCentre c) (fun j => g.dx * (g.vel k j : K)) ∧
    L.flag = e.border (g.cellCentre c) (fun j => g.dx * (g.vel k j : K)) ∧
    L.normal = fun i => -e.normvect (g.cellCentre c) (fun j => g.dx * (g.vel k j : K)) i

/-- Outside of the interior, the links are the initial ones. -/
theorem build_link_outside {g : Grid K dim nv} (hg : g.WF) {elems : List (Elem K dim)}
    (he : ∀ e ∈ elems, e.Sound) {st : State K dim nv} (h : build g elems = some st)
    {c : Cell dim} (hc : ¬ g.Interior c) (k : Fin nv) : (st.link k c).dist = 999 ∧
      (st.link k c).flag = 999 := by
  obtain ⟨s0, s1, h0, h1, rfl⟩ := build_some h
  have key : ∀ (l : List (Elem K dim)) (s : State K dim nv), (∀ e ∈ l, e.Sound) →
      l.foldlM (addElem g) s0 = some s → (s.link k c) = ⟨999, 999, fun _ => 0⟩ := by
    intro l
    induction l using List.reverseRecOn with
    | nil =>
      intro s _ hs
      simp only [List.foldlM_nil, Option.pure_def, Option.some.injEq] at hs
      subst hs
      rw [(addInit_spec g s0 h0).2 k c, if_neg hc, valin_cast]; simp [valin]
    | append_singleton l e ih =>
      intro s hl hs
      have hs' := hs
      rw [List.foldlM_append] at hs
      simp only [List.foldlM_cons, List.foldlM_nil, Option.pure_def, Option.bind_eq_bind,
        Option.bind_eq_some_iff] at hs
      obtain ⟨s2, hs2, s3, hs3, e3⟩ := hs
      simp only [Option.some.injEq] at e3
      subst e3
      have hio : s3.ioo c = valout := by
        rw [fold_ioo hg (l ++ [e]) hl s0 s3 (addInit_spec g s0 h0).1 hs', if_neg (fun h => hc h.1)]
      have hes := hl e (by simp)
      rw [(addElem_spec hg hes s2 s3 hs3).2 k c, ← ih s2 (fun e' h' => hl e' (by simp [h'])) hs2]
      split_ifs with hv
      · obtain ⟨-, hv⟩ := hv
        have hneg : ∃ j, nmax g e j < 0 := by
          by_contra hno
          push Not at hno
          apply hc
          intro j
          have h1 := view_range hv j
          exact ⟨h1.2.1, (view_pos hv j (lt_of_le_of_ne (hno j) (Ne.symm h1.2.2.2))).2⟩
        obtain ⟨j, hj⟩ := hneg
        rcases elemLink_cases e (s3.ioo c)
          (decide (s3.ioo (fun j => c j + g.vel k j) = valout)) (g.point c)
          (fun j => g.dx * (g.vel k j : K)) (s2.link k c) with
            ⟨-, e2, -⟩ | ⟨-, -, ⟨-, -, e2⟩ | ⟨-, e2⟩⟩ | ⟨e1, -⟩
        · exact absurd e2 (alpha_of_neg hg hes hv hj k)
        · rw [hio] at e2; exact absurd e2 (by simp [valin, valout])
        · rw [not_inside_of_neg hg hes hv hj] at e2; exact absurd e2 (by simp)
        · exact e1
      · rfl
  have := key elems s1 he h1
  unfold clean
  simp only [this, valin_cast]
  split_ifs <;> simp [valin]

/-- Every distance which is set comes from the box or from an element, with the matching label and
normal. -/
theorem build_origin {g : Grid K dim nv} (hg : g.WF) {elems : List (Elem K dim)}
    (he : ∀ e ∈ elems, e.Sound) {st : State K dim nv} (h : build g elems = some st)
    (c : Cell dim) (k : Fin nv) (hd : (st.link k c).dist ≠ 999) :
    g.Interior c ∧ Origin g elems k c (st.link k c) := by
  have hc : g.Interior c := by
    by_contra hc
    exact hd (build_link_outside hg he h hc k).1
  refine ⟨hc, ?_⟩
  obtain ⟨s0, s1, h0, h1, rfl⟩ := build_some h
  have key : ∀ (l : List (Elem K dim)) (s : State K dim nv), (∀ e ∈ l, e.Sound) →
      l.foldlM (addElem g) s0 = some s → (s.link k c).dist ≠ 999 → Origin g l k c (s.link k c) := by
    intro l
    induction l using List.reverseRecOn with
    | nil =>
      intro s _ hs hd
      simp only [List.foldlM_nil, Option.pure_def, Option.some.injEq] at hs
      subst hs
      rcases C20_box_links g s0 h0 k c hc with ⟨-, hL⟩ | ⟨f, t, hf, hL⟩
      · rw [hL] at hd; exact absurd rfl hd
      · rw [hL]; exact Or.inl ⟨f, hf, rfl, rfl⟩
    | append_singleton l e ih =>
      intro s hl hs hd
      rw [List.foldlM_append] at hs
      simp only [List.foldlM_cons, List.foldlM_nil, Option.pure_def, Option.bind_eq_bind,
        Option.bind_eq_some_iff] at hs
      obtain ⟨s2, hs2, s3, hs3, e3⟩ := hs
      simp only [Option.some.injEq] at e3
      subst e3
      have mono : ∀ L, Origin g l k c L → Origin g (l ++ [e]) k c L := by
        rintro L (hL | ⟨e', he', hL⟩)
        · exact Or.inl hL
        · exact Or.inr ⟨e', by simp [he'], hL⟩
      have ih' := ih s2 (fun e' h' => hl e' (by simp [h'])) hs2
      rw [(addElem_spec hg (hl e (by simp)) s2 s3 hs3).2 k c] at hd ⊢
      split_ifs at hd ⊢ with hv
      · rw [point_eq hg hc] at hd ⊢
        rcases elemLink_cases e (s3.ioo c)
          (decide (s3.ioo (fun j => c j + g.vel k j) = valout)) (g.cellCentre c)
          (fun j => g.dx * (g.vel k j : K)) (s2.link k c) with ⟨e1, e2, -⟩ | ⟨e1, -⟩ | ⟨e1, -⟩
        · rw [e1]; exact Or.inr ⟨e, by simp, e2, rfl, rfl, rfl⟩
        · exact absurd e1 hd
        · rw [e1] at hd ⊢; exact mono _ (ih' hd)
      · exact mono _ (ih' hd)
  unfold clean at hd ⊢
  simp only at hd ⊢
  split_ifs at hd ⊢ with h2
  · rw [valin_cast] at hd; exact absurd rfl hd
  · exact key elems s1 he h1 hd

/-- C65: in a domain built from any list of elements, the distance, the label and the normal of a
link which carries a distance all come from the same wall: the first face of the box which the link
crosses, or one of the elements which the link meets. -/
theorem C65_same_wall (g : Grid K dim nv) (hg : g.WF) (elems : List (Elem K dim))
    (he : ∀ e ∈ elems, e.Sound) (st : State K dim nv) (h : build g elems = some st)
    (c : Cell dim) (k : Fin nv) (hd : (st.link k c).dist ≠ 999) :
    let x := g.cellCentre c
    let v : Fin dim → K := fun j => g.dx * (g.vel k j : K)
    (∃ f, FirstFace g.n g.Active (g.inner c) (g.vel k) f (st.link k c).dist ∧
      (st.link k c).flag = g.label f.ax f.upper ∧ (st.link k c).normal = outward f) ∨
    ∃ e ∈ elems, 0 < e.alpha x v ∧ (st.link k c).dist = e.alpha x v ∧
      (st.link k c).flag = e.border x v ∧ (st.link k c).normal = fun i => -e.normvect x v i := by
  intro x v
  rcases (build_origin hg he h c k hd).2 with ho | ⟨e, h1, h2, h3, h4⟩
  · exact Or.inl ho
  · exact Or.inr ⟨e, h1, by rw [← h3]; exact h2, h3, h4⟩

/-- C65: the normal of a link which carries a distance never points back to the fluid cell, as soon
as the normals returned by the elements do not point along the direction of the link. -/
theorem C65_normal_outward (g : Grid K dim nv) (hg : g.WF) (elems : List (Elem K dim))
    (he : ∀ e ∈ elems, e.Sound)
    (hn : ∀ e ∈ elems, ∀ x v, 0 < e.alpha x v → ∑ j, e.normvect x v j * v j ≤ 0)
    (st : State K dim nv) (h : build g elems = some st)
    (c : Cell dim) (hc : g.Interior c) (k : Fin nv) (hd : (st.link k c).dist ≠ 999) :
    0 ≤ ∑ j, (st.link k c).normal j * (g.dx * (g.vel k j : K)) := by
  rcases C65_same_wall g hg elems he st h c k hd with ⟨f, h1, -, h2⟩ | ⟨e, h1, h2, -, -, h3⟩
  · rw [h2]
    have hsum : ∑ j, (outward f j : K) * (g.dx * (g.vel k j : K)) =
        (if f.upper then 1 else -1) * (g.dx * (g.vel k f.ax : K)) := by
      rw [Finset.sum_eq_single f.ax]
      · simp [outward]
      · intro j _ hj
        simp [outward, hj]
      · simp
    rw [hsum]
    obtain ⟨h3, h4, h5⟩ := h1.2.1
    have hin := hc f.ax
    have hi0 : (0 : K) ≤ (g.inner c f.ax : K) := by
      unfold Grid.inner; exact_mod_cast (by omega : (0 : Int) ≤ c f.ax - g.h f.ax)
    have hi1 : (g.inner c f.ax : K) + 1 ≤ (g.n f.ax : K) := by
      unfold Grid.inner; exact_mod_cast (by omega : c f.ax - g.h f.ax + 1 ≤ (g.n f.ax : Int))
    have hdx := hg.dx
    unfold facePos at h5
    by_cases hu : f.upper
    · simp only [hu, if_true] at h5 ⊢
      have hv : (0 : K) < (g.vel k f.ax : K) := by
        by_contra hv
        push Not at hv
        have := mul_nonpos_of_nonneg_of_nonpos h3.le hv
        linarith
      rw [one_mul]
      exact (mul_pos hdx hv).le
    · simp only [hu, Bool.false_eq_true, if_false] at h5 ⊢
      have hv : (g.vel k f.ax : K) < 0 := by
        by_contra hv
        push Not at hv
        have := mul_nonneg h3.le hv
        linarith
      have := mul_neg_of_pos_of_neg hdx hv
      linarith
  · rw [h3]
    have := hn e h1 _ _ h2
    simp only [neg_mul, Finset.sum_neg_distrib]
    linarith

end Pylbm.Domain
