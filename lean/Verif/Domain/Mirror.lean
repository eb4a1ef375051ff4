import Verif.Domain.Decompose
import Mathlib.Tactic.LinearCombination
/-!
# The domain of a mirrored geometry is the mirrored domain (C86)
-/
set_option linter.unusedSectionVars false
namespace Pylbm.Domain
open Round Storage DomainSpec

variable {K : Type} [Field K] [LinearOrder K] [IsStrictOrderedRing K] {dim nv : Nat} [FloorRing K]

/-! ## Specification -/

/-- A vector with the components of the directions `fl` reversed. -/
def mirrorVec {R : Type} [Neg R] (fl : Fin dim → Bool) (v : Fin dim → R) : Fin dim → R :=
  fun j => if fl j then -v j else v j

/-- The mirror image of a point in the box of the grid, in the directions `fl`. -/
def Grid.mirrorPoint (g : Grid K dim nv) (fl : Fin dim → Bool) (x : Fin dim → K) : Fin dim → K :=
  fun j => if fl j then 2 * g.lo j + g.dx * g.N j - x j else x j

/-- The mirror image of a cell of the arrays. -/
def Grid.mirrorCell (g : Grid K dim nv) (fl : Fin dim → Bool) (c : Cell dim) : Cell dim :=
  fun j => if fl j then (g.total j : Int) - 1 - c j else c j

/-- The box with the labels of its faces exchanged. -/
def Grid.mirror (g : Grid K dim nv) (fl : Fin dim → Bool) : Grid K dim nv :=
  { g with userLabel := fun j side => g.userLabel j (if fl j then !side else side) }

/-- The mirror image of an element. -/
structure Elem.Mirrored (g : Grid K dim nv) (fl : Fin dim → Bool) (e e' : Elem K dim) : Prop where
  isFluid : e'.isFluid = e.isFluid
  inside : ∀ x, e'.inside (g.mirrorPoint fl x) = e.inside x
  alpha : ∀ x v, e'.alpha (g.mirrorPoint fl x) (mirrorVec fl v) = e.alpha x v
  border : ∀ x v, e'.border (g.mirrorPoint fl x) (mirrorVec fl v) = e.border x v
  normvect : ∀ x v, e'.normvect (g.mirrorPoint fl x) (mirrorVec fl v) = mirrorVec fl (e.normvect x v)

/-- The mirror image of the entries of a link. -/
def mirrorLink (fl : Fin dim → Bool) (L : Link K dim) : Link K dim := ⟨L.dist, L.flag, mirrorVec fl L.normal⟩

/-! ## Lemmas -/

theorem forall₂_snoc {A B : Type} {R : A → B → Prop} {e : A} : ∀ (l : List A) (l' : List B),
    List.Forall₂ R (l ++ [e]) l' → ∃ l2 e2, List.Forall₂ R l l2 ∧ R e e2 ∧ l' = l2 ++ [e2]
  | [], l', h => by
    cases h with
    | cons p q => cases q; exact ⟨[], _, .nil, p, rfl⟩
  | a :: l, l', h => by
    cases h with
    | cons p q =>
      obtain ⟨l2, e2, h1, h2, rfl⟩ := forall₂_snoc l _ q
      exact ⟨_ :: l2, e2, .cons p h1, h2, rfl⟩

section
variable {g : Grid K dim nv} {fl : Fin dim → Bool}

theorem mirror_wf (hg : g.WF) : (g.mirror fl).WF := ⟨hg.dx, hg.region, hg.halo⟩

theorem mirror_interior (c : Cell dim) : (g.mirror fl).Interior (g.mirrorCell fl c) ↔ g.Interior c := by
  unfold Grid.Interior Grid.mirrorCell Grid.mirror Grid.total Grid.n
  refine forall_congr' fun j => ?_
  simp only
  split <;> push_cast <;> omega

theorem mirror_centre (h0 : ∀ j, g.r0 j = 0) (h1 : ∀ j, g.r1 j = g.N j) (c : Cell dim) :
    (g.mirror fl).cellCentre (g.mirrorCell fl c) = g.mirrorPoint fl (g.cellCentre c) := by
  funext j
  unfold Grid.cellCentre Grid.mirrorCell Grid.mirror Grid.mirrorPoint Grid.total Grid.n centre
  simp only [h0, h1, Nat.sub_zero]
  split
  · push_cast; ring
  · rfl

theorem mirror_target (π : Fin nv → Fin nv) (hπ : ∀ k, g.vel (π k) = mirrorVec fl (g.vel k)) (k : Fin nv) (c : Cell dim) :
    (g.mirror fl).target (π k) (g.mirrorCell fl c) = g.mirrorCell fl (g.target k c) := by
  funext j
  unfold Grid.target Grid.mirrorCell Grid.mirror
  simp only [hπ, mirrorVec]
  split <;> ring

theorem mirror_crossing (h0 : ∀ j, g.r0 j = 0) (h1 : ∀ j, g.r1 j = g.N j) (π : Fin nv → Fin nv)
    (hπ : ∀ k, g.vel (π k) = mirrorVec fl (g.vel k)) (ax : Fin dim) (k : Fin nv) (c : Cell dim) :
    crossing (g.mirror fl) ax (π k) (g.mirrorCell fl c) =
      (crossing g ax k c).map fun p => (p.1, p.2.1, if fl ax then -p.2.2 else p.2.2) := by
  have hv : (g.mirror fl).vel (π k) ax = if fl ax then -g.vel k ax else g.vel k ax := by
    show g.vel (π k) ax = _
    rw [hπ]; rfl
  unfold crossing
  simp only [hv]
  unfold Grid.label Grid.mirrorCell Grid.mirror Grid.n Grid.total Grid.n
  simp only [h0, h1, ne_eq, not_true_eq_false, if_false, if_true, Nat.sub_zero, Bool.true_eq_false]
  cases hf : fl ax with
  | false =>
    simp only [Bool.false_eq_true, if_false]
    split
    · split <;> rfl
    · split
      · split <;> rfl
      · rfl
  | true =>
    simp only [if_true, Bool.not_true, Bool.not_false, Left.neg_neg_iff, Left.neg_pos_iff]
    rcases lt_trichotomy (g.vel k ax) 0 with h | h | h
    · have h' : ¬ 0 < g.vel k ax := by omega
      simp only [h, h', true_and, false_and, if_false]
      split
      · have e : ((g.N ax : Int) ≤ ((g.N ax + 2 * g.h ax : Nat) : Int) - 1 - c ax - g.h ax + -g.vel k ax) ↔
            (c ax - (g.h ax : Int) + g.vel k ax < 0) := by push_cast; omega
        simp only [e]
        split
        · simp only [Option.map_some, Option.some.injEq, Prod.mk.injEq, neg_neg, and_true]
          have : (g.vel k ax : K) ≠ 0 := by exact_mod_cast h.ne
          push_cast
          field_simp
          ring
        · rfl
      · rfl
    · simp only [h, lt_irrefl, false_and, if_false, Option.map_none]
    · have h' : ¬ g.vel k ax < 0 := by omega
      simp only [h, h', true_and, false_and, if_false]
      split
      · have e : (((g.N ax + 2 * g.h ax : Nat) : Int) - 1 - c ax - g.h ax + -g.vel k ax < 0) ↔
            ((g.N ax : Int) ≤ c ax - (g.h ax : Int) + g.vel k ax) := by push_cast; omega
        simp only [e]
        split
        · simp only [Option.map_some, Option.some.injEq, Prod.mk.injEq, and_true]
          have : (g.vel k ax : K) ≠ 0 := by exact_mod_cast h.ne'
          push_cast
          field_simp
          ring
        · rfl
      · rfl

theorem mirror_upd (ax : Fin dim) (d : K) (lab : Int) (sgn : K) (L : Link K dim) :
    upd ax d lab (if fl ax then -sgn else sgn) (mirrorLink fl L) = mirrorLink fl (upd ax d lab sgn L) := by
  unfold upd mirrorLink
  simp only
  split
  · simp only [Link.mk.injEq, true_and]
    funext j
    unfold mirrorVec
    split_ifs with h1 h2 h3 h4 h5 h6 <;> simp_all
  · rfl

theorem mirror_axisUpd (h0 : ∀ j, g.r0 j = 0) (h1 : ∀ j, g.r1 j = g.N j) (π : Fin nv → Fin nv)
    (hπ : ∀ k, g.vel (π k) = mirrorVec fl (g.vel k)) (ax : Fin dim) (k : Fin nv) (c : Cell dim) (L : Link K dim) :
    axisUpd (g.mirror fl) ax (π k) (g.mirrorCell fl c) (mirrorLink fl L) = mirrorLink fl (axisUpd g ax k c L) := by
  unfold axisUpd
  rw [mirror_crossing h0 h1 π hπ]
  cases crossing g ax k c with
  | none => rfl
  | some p => exact mirror_upd ax p.1 p.2.1 p.2.2 L

theorem mirror_vec_mul (dx : K) (v : Fin dim → Int) :
    (fun j => dx * ((mirrorVec fl v j : Int) : K)) = mirrorVec fl fun j => dx * (v j : K) := by
  funext j
  unfold mirrorVec
  split
  · push_cast; ring
  · rfl

theorem mirror_elemLink {e e' : Elem K dim} (he : e.Mirrored g fl e') (ioo : Int) (out : Bool) (x v : Fin dim → K)
    (L : Link K dim) : elemLink e' ioo out (g.mirrorPoint fl x) (mirrorVec fl v) (mirrorLink fl L) =
      mirrorLink fl (elemLink e ioo out x v L) := by
  unfold elemLink
  simp only [he.isFluid, he.inside, he.alpha, he.border, he.normvect]
  have hn : (fun j => -mirrorVec fl (e.normvect x v) j) = mirrorVec fl fun j => -e.normvect x v j := by
    funext j
    unfold mirrorVec
    split <;> rfl
  rw [hn]
  unfold mirrorLink
  simp only
  split_ifs <;> simp_all

theorem mirror_material {l l' : List (Elem K dim)} (h : List.Forall₂ (Elem.Mirrored g fl) l l') (x : Fin dim → K) :
    material (regions l') (g.mirrorPoint fl x) = material (regions l) x ∧
      (regions l').any (fun r => r.2 (g.mirrorPoint fl x)) = (regions l).any fun r => r.2 x := by
  induction h with
  | nil => exact ⟨rfl, rfl⟩
  | cons he _ ih =>
    obtain ⟨i1, i2⟩ := ih
    simp only [regions, List.map_cons, material, List.any_cons] at i1 i2 ⊢
    simp only [i1, i2, he.inside, he.isFluid, and_self]

end

/-! ## Property -/

/-- **C86, domain.** On one process: the mirror image of the elements in the box with the labels of the faces exchanged
gives the mirror image of the fluid map and of all the links of the cells (distances, labels and normals), for any
list of solid and fluid elements, in any directions and with any velocities which have this symmetry. -/
theorem C86_domain (g : Grid K dim nv) (hg : g.WF) (h0 : ∀ j, g.r0 j = 0) (h1 : ∀ j, g.r1 j = g.N j)
    (fl : Fin dim → Bool) (π : Fin nv → Fin nv) (hπ : ∀ k, g.vel (π k) = mirrorVec fl (g.vel k))
    (elems elems' : List (Elem K dim)) (hm : List.Forall₂ (Elem.Mirrored g fl) elems elems')
    (he : ∀ e ∈ elems, e.Sound) (he' : ∀ e ∈ elems', e.Sound) (st st' : State K dim nv) (h : build g elems = some st)
    (h' : build (g.mirror fl) elems' = some st') (c : Cell dim) (hc : g.Interior c) :
    st'.ioo (g.mirrorCell fl c) = st.ioo c ∧
    ∀ k, st'.link (π k) (g.mirrorCell fl c) = mirrorLink fl (st.link k c) := by
  obtain ⟨s0, s1, a0, a1, rfl⟩ := build_some h
  obtain ⟨S0, S1, b0, b1, rfl⟩ := build_some h'
  have hG := mirror_wf (fl := fl) hg
  have hC := (mirror_interior (fl := fl) c).2 hc
  have hio : ∀ (l l' : List (Elem K dim)) (s S : State K dim nv), (∀ e ∈ l, e.Sound) → (∀ e ∈ l', e.Sound) →
      List.Forall₂ (Elem.Mirrored g fl) l l' → l.foldlM (addElem g) s0 = some s →
      l'.foldlM (addElem (g.mirror fl)) S0 = some S → ∀ t, S.ioo (g.mirrorCell fl t) = s.ioo t := by
    intro l l' s S hl hl' hll hs hS t
    rw [fold_ioo hg l hl s0 s (addInit_spec g s0 a0).1 hs,
      fold_ioo hG l' hl' S0 S (addInit_spec (g.mirror fl) S0 b0).1 hS]
    by_cases hI : g.Interior t
    · have hI' := (mirror_interior (fl := fl) t).2 hI
      rw [point_eq hg hI, point_eq hG hI', mirror_centre h0 h1, (mirror_material hll _).1]
      simp [hI, hI']
    · have hI' : ¬ (g.mirror fl).Interior (g.mirrorCell fl t) := fun h => hI ((mirror_interior t).1 h)
      simp [hI, hI']
  have hlk : ∀ (l l' : List (Elem K dim)) (s S : State K dim nv), (∀ e ∈ l, e.Sound) → (∀ e ∈ l', e.Sound) →
      List.Forall₂ (Elem.Mirrored g fl) l l' → l.foldlM (addElem g) s0 = some s →
      l'.foldlM (addElem (g.mirror fl)) S0 = some S → ∀ k,
      S.link (π k) (g.mirrorCell fl c) = mirrorLink fl (s.link k c) := by
    intro l
    induction l using List.reverseRecOn with
    | nil =>
      intro l' s S _ _ hll hs hS k
      cases hll
      simp only [List.foldlM_nil, Option.pure_def, Option.some.injEq] at hs hS
      subst hs; subst hS
      rw [(addInit_spec g s0 a0).2 k c, (addInit_spec (g.mirror fl) S0 b0).2 (π k) (g.mirrorCell fl c), if_pos hc,
        if_pos hC]
      have key : ∀ (axes : List (Fin dim)) (L : Link K dim),
          axes.foldl (fun L ax => axisUpd (g.mirror fl) ax (π k) (g.mirrorCell fl c) L) (mirrorLink fl L) =
            mirrorLink fl (axes.foldl (fun L ax => axisUpd g ax k c L) L) := by
        intro axes
        induction axes with
        | nil => intro L; rfl
        | cons a axes ih => intro L; rw [List.foldl_cons, List.foldl_cons, mirror_axisUpd h0 h1 π hπ, ih]
      have e : (⟨(valin : K), valin, fun _ => 0⟩ : Link K dim) = mirrorLink fl ⟨(valin : K), valin, fun _ => 0⟩ := by
        unfold mirrorLink mirrorVec
        simp
      rw [e, key, ← e]
    | append_singleton l e ih =>
      intro l' s S hl hl' hll hs hS k
      have hs' := hs
      have hS' := hS
      obtain ⟨l2, e2, hl2, he2, rfl⟩ : ∃ l2 e2, List.Forall₂ (Elem.Mirrored g fl) l l2 ∧ e.Mirrored g fl e2 ∧
          l' = l2 ++ [e2] := by
        exact forall₂_snoc l l' hll
      rw [List.foldlM_append] at hs hS
      simp only [List.foldlM_cons, List.foldlM_nil, Option.pure_def, Option.bind_eq_bind,
        Option.bind_eq_some_iff] at hs hS
      obtain ⟨s2, hs2, s3, hs3, e3⟩ := hs
      obtain ⟨S2, hS2, S3, hS3, E3⟩ := hS
      simp only [Option.some.injEq] at e3 E3
      subst e3; subst E3
      have hl1 : ∀ e ∈ l, e.Sound := fun e' h' => hl e' (by simp [h'])
      have hl1' : ∀ e ∈ l2, e.Sound := fun e' h' => hl' e' (by simp [h'])
      rw [addElem_link hg (hl e (by simp)) (linkInv_fold hg l hl1 s0 s2 a0 hs2) hs3 k hc,
        addElem_link hG (hl' e2 (by simp)) (linkInv_fold hG l2 hl1' S0 S2 b0 hS2) hS3 (π k) hC,
        ih l2 s2 S2 hl1 hl1' hl2 hs2 hS2 k, hio _ _ s3 S3 hl hl' hll hs' hS' c, mirror_target π hπ,
        hio _ _ s3 S3 hl hl' hll hs' hS' _, mirror_centre h0 h1]
      have hz : (∃ j, (g.mirror fl).vel (π k) j ≠ 0) ↔ ∃ j, g.vel k j ≠ 0 := by
        refine exists_congr fun j => ?_
        show g.vel (π k) j ≠ 0 ↔ _
        rw [hπ]
        unfold mirrorVec
        split <;> simp
      have hvv : (fun j => (g.mirror fl).dx * (((g.mirror fl).vel (π k) j : Int) : K)) =
          mirrorVec fl fun j => g.dx * (g.vel k j : K) := by
        rw [← mirror_vec_mul]
        show (fun j => g.dx * ((g.vel (π k) j : Int) : K)) = _
        rw [hπ]
      rw [hvv, mirror_elemLink he2]
      by_cases hzz : ∃ j, g.vel k j ≠ 0
      · rw [if_pos hzz, if_pos (hz.2 hzz)]
      · rw [if_neg hzz, if_neg (fun h => hzz (hz.1 h))]
  have hioc := hio elems elems' s1 S1 he he' hm a1 b1 c
  refine ⟨hioc, fun k => ?_⟩
  have := hlk elems elems' s1 S1 he he' hm a1 b1 k
  unfold clean
  simp only
  rw [this, hioc]
  unfold mirrorLink mirrorVec
  simp only
  split <;> simp

end Pylbm.Domain
