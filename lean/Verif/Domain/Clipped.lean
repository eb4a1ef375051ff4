import Verif.Domain.WallLinks
/-!
# Elements which their bounds do not contain: properties C21 and C65

The bounds of the parallelepipeds and of the triangular cylinders are too small (C29), and so are those of tall round
cylinders. `Domain` looks at the cells of a window around the bounds only: the element is cut by its window, and this
is all: the cells of the window are right, and the links which carry a distance lead to its walls.
-/
set_option linter.unusedSectionVars false
namespace Pylbm.Domain
open Round Storage DomainSpec Geometry GeometrySpec

section any
variable {K : Type} [Field K] [LinearOrder K] [IsStrictOrderedRing K] {dim nv : Nat} [FloorRing K]

/-! ## Specification -/

/-- The elements as regions cut by their windows. -/
def cutRegions (g : Grid K dim nv) (elems : List (Elem K dim)) : List (Bool × (Cell dim → Bool)) :=
  elems.map fun e => (e.isFluid, fun c => decide (InView g e c) && e.inside (g.cellCentre c))

/-- The point is at most the width of the halo outside of the bounds of the element. -/
def Elem.Near (g : Grid K dim nv) (e : Elem K dim) (x : Fin dim → K) : Prop :=
  ∀ j, e.bl j - g.h j * g.dx ≤ x j ∧ x j ≤ e.ur j + g.h j * g.dx

/-! ## Proofs -/

/-- One velocity of any element: each link is kept or computed from the element. -/
theorem elemVel_weak (g : Grid K dim nv) (e : Elem K dim) (k : Fin nv) (st st' : State K dim nv)
    (h : elemVel g e k st = some st') : st'.ioo = st.ioo ∧ ∀ k' c, st'.link k' c = st.link k' c ∨
      ∃ out, st'.link k' c =
        elemLink e (st.ioo c) out (g.point c) (fun j => g.dx * (g.vel k' j : K)) (st.link k' c) := by
  have hl : ∀ m, (elemLinks g e k m st).ioo = st.ioo ∧ ∀ k' c, (elemLinks g e k m st).link k' c = st.link k' c ∨
      ∃ out, (elemLinks g e k m st).link k' c =
        elemLink e (st.ioo c) out (g.point c) (fun j => g.dx * (g.vel k' j : K)) (st.link k' c) := by
    intro m
    refine ⟨rfl, fun k' c => ?_⟩
    unfold elemLinks
    simp only
    split
    · next hk =>
      obtain ⟨rfl, -⟩ := hk
      exact Or.inr ⟨_, rfl⟩
    · exact Or.inl rfl
  unfold elemVel at h
  split_ifs at h
  all_goals
    simp only [Option.some.injEq] at h
    subst h
    first
    | exact hl _
    | exact ⟨rfl, fun _ _ => Or.inl rfl⟩

/-- Several velocities: a link is kept or computed from the element, several times for the velocities which occur
several times. -/
theorem fold_weak {P : Link K dim → Prop} (g : Grid K dim nv) (e : Elem K dim) (l : List (Fin nv))
    (st st' : State K dim nv) (h : l.foldlM (fun st k => elemVel g e k st) st = some st') (k : Fin nv) (c : Cell dim)
    (hP : ∀ ioo out L, P L → P (elemLink e ioo out (g.point c) (fun j => g.dx * (g.vel k j : K)) L))
    (h0 : P (st.link k c)) : st'.ioo = st.ioo ∧ P (st'.link k c) := by
  induction l generalizing st with
  | nil =>
    simp only [List.foldlM_nil, Option.pure_def, Option.some.injEq] at h
    subst h
    exact ⟨rfl, h0⟩
  | cons k' l ih =>
    simp only [List.foldlM_cons, Option.bind_eq_bind, Option.bind_eq_some_iff] at h
    obtain ⟨s, hs, h⟩ := h
    obtain ⟨a, b⟩ := elemVel_weak g e k' st s hs
    obtain ⟨a', b'⟩ := ih s h (by
      rcases b k c with b | ⟨out, b⟩
      · rw [b]; exact h0
      · rw [b]; exact hP _ _ _ h0)
    exact ⟨a'.trans a, b'⟩

theorem fold_ioo_weak (g : Grid K dim nv) (e : Elem K dim) (l : List (Fin nv))
    (st st' : State K dim nv) (h : l.foldlM (fun st k => elemVel g e k st) st = some st') : st'.ioo = st.ioo := by
  induction l generalizing st with
  | nil =>
    simp only [List.foldlM_nil, Option.pure_def, Option.some.injEq] at h
    subst h
    rfl
  | cons k' l ih =>
    simp only [List.foldlM_cons, Option.bind_eq_bind, Option.bind_eq_some_iff] at h
    obtain ⟨s, hs, h⟩ := h
    exact (ih s h).trans (elemVel_weak g e k' st s hs).1

/-- C21 (any elements): an interior cell is fluid exactly when the last element which contains its centre, among those
whose window contains the cell, is a fluid one (or there is none). -/
theorem C21_windows (g : Grid K dim nv) (hg : g.WF) (elems : List (Elem K dim)) (st : State K dim nv)
    (h : build g elems = some st) (c : Cell dim) (hc : g.Interior c) :
    st.ioo c = if material (cutRegions g elems) c = true then 999 else -1 := by
  obtain ⟨s0, s1, h0, h1, rfl⟩ := build_some h
  change s1.ioo c = _
  have key : ∀ (l : List (Elem K dim)) (s : State K dim nv), l.foldlM (addElem g) s0 = some s →
      s.ioo c = if material (cutRegions g l) c = true then 999 else -1 := by
    intro l
    induction l using List.reverseRecOn with
    | nil =>
      intro s hs
      simp only [List.foldlM_nil, Option.pure_def, Option.some.injEq] at hs
      subst hs
      rw [(addInit_spec g s0 h0).1]
      simp [initState, hc, cutRegions, material, valin]
    | append_singleton l e ih =>
      intro s hs
      rw [List.foldlM_append] at hs
      simp only [List.foldlM_cons, List.foldlM_nil, Option.pure_def, Option.bind_eq_bind,
        Option.bind_eq_some_iff] at hs
      obtain ⟨s2, hs2, s3, hs3, e3⟩ := hs
      simp only [Option.some.injEq] at e3
      subst e3
      rw [fold_ioo_weak g e _ _ _ hs3]
      unfold elemIoo
      simp only
      rw [ih s2 hs2, point_eq hg hc]
      rw [show cutRegions g (l ++ [e]) = cutRegions g l ++
        [(e.isFluid, fun c => decide (InView g e c) && e.inside (g.cellCentre c))] by simp [cutRegions], material_append]
      by_cases hi : InView g e c ∧ e.inside (g.cellCentre c) = true
      · have hb : (decide (InView g e c) && e.inside (g.cellCentre c)) = true := by simp [hi.1, hi.2]
        rw [if_pos hi, hb, if_pos rfl]
        cases e.isFluid <;> simp [valin, valout]
      · have hb : (decide (InView g e c) && e.inside (g.cellCentre c)) = false := by
          rw [← Bool.not_eq_true]
          simpa using hi
        rw [if_neg hi, hb]
        rfl
  exact key elems s1 h1

/-- The window contains all the interior cells which are at most the width of the halo outside of the bounds. -/
theorem inView_of_near {g : Grid K dim nv} (hg : g.WF) {e : Elem K dim} {c : Cell dim} (hc : g.Interior c)
    (h : e.Near g (g.cellCentre c)) : InView g e c := by
  intro j
  have hcj := hc j
  have hb := h j
  rw [← point_eq hg hc] at hb
  unfold Grid.point at hb
  have hr := Grid.interior_range hc j
  rw [coord_sub hg j hr.1 hr.2] at hb
  have h1 : trunc ((e.bl j - g.coord j 0) / g.dx) ≤ c j + g.h j := by
    apply trunc_le_of_le
    rw [div_le_iff₀ hg.dx]
    push_cast
    linarith [hb.1]
  have h2 : c j - g.h j ≤ trunc ((e.ur j - g.coord j 0) / g.dx) := by
    apply le_trunc_of_le
    rw [le_div_iff₀ hg.dx]
    push_cast
    linarith [hb.2]
  have h3 : nmin g e j ≤ c j := by unfold nmin; omega
  have h4 : c j < nmax g e j := by unfold nmax; omega
  have h6 : (g.h j : Int) ≤ nmin g e j := le_max_left _ _
  unfold sliceBound Grid.total
  rw [if_neg (by omega), if_neg (by omega)]
  omega

/-- C21 (partial, any elements): a cell is fluid or solid as the geometry says, as soon as its centre is at most the
width of the halo outside of the bounds of the elements which contain it. What is missing is false:
`C29_domain_negation`. -/
theorem C21_near_partial (g : Grid K dim nv) (hg : g.WF) (elems : List (Elem K dim)) (st : State K dim nv)
    (h : build g elems = some st) (c : Cell dim) (hc : g.Interior c)
    (hn : ∀ e ∈ elems, e.inside (g.cellCentre c) = true → e.Near g (g.cellCentre c)) :
    st.ioo c = if material (regions elems) (g.cellCentre c) = true then 999 else -1 := by
  rw [C21_windows g hg elems st h c hc]
  have key : ∀ l : List (Elem K dim), (∀ e ∈ l, e.inside (g.cellCentre c) = true → e.Near g (g.cellCentre c)) →
      material (cutRegions g l) c = material (regions l) (g.cellCentre c) := by
    intro l
    induction l using List.reverseRecOn with
    | nil => intro _; rfl
    | append_singleton l e ih =>
      intro hl
      rw [show cutRegions g (l ++ [e]) = cutRegions g l ++
          [(e.isFluid, fun c => decide (InView g e c) && e.inside (g.cellCentre c))] by simp [cutRegions],
        show regions (l ++ [e]) = regions l ++ [(e.isFluid, e.inside)] by simp [regions],
        material_append, material_append, ih (fun e' h' => hl e' (by simp [h']))]
      by_cases hi : e.inside (g.cellCentre c) = true
      · rw [hi, decide_eq_true (inView_of_near hg hc (hl e (by simp) hi))]
        rfl
      · rw [Bool.not_eq_true] at hi
        rw [hi, Bool.and_false]
  rw [key elems hn]

/-- C65 (any elements): in a domain built from any list of elements, whatever their bounds, the distance, the label and
the normal of a link of an interior cell which carries a distance all come from the same wall: the first face of the box
which the link crosses, or one of the elements which the link meets. -/
theorem C65_any_bounds (g : Grid K dim nv) (hg : g.WF) (elems : List (Elem K dim)) (st : State K dim nv)
    (h : build g elems = some st) (c : Cell dim) (hc : g.Interior c) (k : Fin nv) (hd : (st.link k c).dist ≠ 999) :
    let x := g.cellCentre c
    let v : Fin dim → K := fun j => g.dx * (g.vel k j : K)
    (∃ f, FirstFace g.n g.Active (g.inner c) (g.vel k) f (st.link k c).dist ∧
      (st.link k c).flag = g.label f.ax f.upper ∧ (st.link k c).normal = outward f) ∨
    ∃ e ∈ elems, 0 < e.alpha x v ∧ (st.link k c).dist = e.alpha x v ∧
      (st.link k c).flag = e.border x v ∧ (st.link k c).normal = fun i => -e.normvect x v i := by
  intro x v
  suffices hO : Origin g elems k c (st.link k c) by
    rcases hO with ho | ⟨e, h1, h2, h3, h4⟩
    · exact Or.inl ho
    · exact Or.inr ⟨e, h1, by rw [← h3]; exact h2, h3, h4⟩
  obtain ⟨s0, s1, h0, h1, rfl⟩ := build_some h
  have key : ∀ (l : List (Elem K dim)) (s : State K dim nv), l.foldlM (addElem g) s0 = some s →
      (s.link k c).dist = 999 ∨ Origin g l k c (s.link k c) := by
    intro l
    induction l using List.reverseRecOn with
    | nil =>
      intro s hs
      simp only [List.foldlM_nil, Option.pure_def, Option.some.injEq] at hs
      subst hs
      rcases C20_box_links g s0 h0 k c hc with ⟨-, hL⟩ | ⟨f, t, hf, hL⟩
      · rw [hL]; exact Or.inl rfl
      · rw [hL]; exact Or.inr (Or.inl ⟨f, hf, rfl, rfl⟩)
    | append_singleton l e ih =>
      intro s hs
      rw [List.foldlM_append] at hs
      simp only [List.foldlM_cons, List.foldlM_nil, Option.pure_def, Option.bind_eq_bind,
        Option.bind_eq_some_iff] at hs
      obtain ⟨s2, hs2, s3, hs3, e3⟩ := hs
      simp only [Option.some.injEq] at e3
      subst e3
      refine (fold_weak (P := fun L => L.dist = 999 ∨ Origin g (l ++ [e]) k c L) g e _ _ _ hs3 k c ?_ ?_).2
      · intro ioo out L hL
        rw [point_eq hg hc]
        rcases elemLink_cases e ioo out (g.cellCentre c) (fun j => g.dx * (g.vel k j : K)) L with
          ⟨e1, e2, -⟩ | ⟨e1, -⟩ | ⟨e1, -⟩
        · rw [e1]; exact Or.inr (Or.inr ⟨e, by simp, e2, rfl, rfl, rfl⟩)
        · exact Or.inl e1
        · rw [e1]; exact hL
      · change (s2.link k c).dist = 999 ∨ _
        rcases ih s2 hs2 with h | h | ⟨e', he', h⟩
        · exact Or.inl h
        · exact Or.inr (Or.inl h)
        · exact Or.inr (Or.inr ⟨e', by simp [he'], h⟩)
  unfold clean at hd ⊢
  simp only at hd ⊢
  split_ifs at hd ⊢ with h2
  · rw [valin_cast] at hd; exact absurd rfl hd
  · exact (key elems s1 h1).resolve_left hd

/-- C21 (parallelepipeds and triangular cylinders, partial): the points of a cylinder whose half height `w` has
components of at most twice the width of the halo are all near enough to its bounds, so that a domain with such solids
has the right cells (`C21_near_partial`). What is missing, higher ones, is false: `C29_domain_negation`. -/
theorem C21_cylinder_partial {nv : Nat} (g : Grid K 3 nv) (c : Cyl K) (hdet : inner3 c.v1 (cross c.v2 c.w) ≠ 0)
    (C : Set (K × K)) (hB : c.base.OK unitSquare C ∨ c.base.OK unitTriangle C) (fluid : Bool)
    (hs : |c.w.1| ≤ 2 * (g.h 0 * g.dx) ∧ |c.w.2.1| ≤ 2 * (g.h 1 * g.dx) ∧ |c.w.2.2| ≤ 2 * (g.h 2 * g.dx))
    (x : Fin 3 → K) (hx : (cylinderElem c c.cornerBounds fluid).inside x = true) :
    (cylinderElem c c.cornerBounds fluid).Near g x := by
  obtain ⟨h1, h2, h3, h4, h5, h6⟩ := C29_cylinder_enlarged_partial c hdet C hB (x 0, x 1, x 2) hx
  obtain ⟨s1, s2, s3⟩ := hs
  simp only [Cyl.bounds] at h1 h2 h3 h4 h5 h6
  intro j
  fin_cases j
  · change (c.bounds c.cornerBounds).1.1 - (g.h 0 : K) * g.dx ≤ x 0 ∧ x 0 ≤ (c.bounds c.cornerBounds).2.1 + (g.h 0 : K) * g.dx
    simp only [Cyl.bounds]
    exact ⟨by linarith, by linarith⟩
  · change (c.bounds c.cornerBounds).1.2.1 - (g.h 1 : K) * g.dx ≤ x 1 ∧ x 1 ≤ (c.bounds c.cornerBounds).2.2.1 + (g.h 1 : K) * g.dx
    simp only [Cyl.bounds]
    exact ⟨by linarith, by linarith⟩
  · change (c.bounds c.cornerBounds).1.2.2 - (g.h 2 : K) * g.dx ≤ x 2 ∧ x 2 ≤ (c.bounds c.cornerBounds).2.2.2 + (g.h 2 : K) * g.dx
    simp only [Cyl.bounds]
    exact ⟨by linarith, by linarith⟩

end any

/-! ## All the solids of the library, with their labels -/

section bodies

/-- The cylinders of the library (cylinder.py 219-566): on a disc or an ellipse, on a triangle, parallelepipeds. -/
inductive Prism where
  | round (center v1 v2 w : V3) (l0 lb lt : Int)
  | triangle (center v1 v2 w : V3) (l0 l1 l2 lb lt : Int)
  | box (point v0 v1 v2 : V3) (l0 l1 l2 l3 lb lt : Int)

/-- Axes which span the space. -/
def Prism.Regular : Prism → Prop
  | .round _ v1 v2 w _ _ _ => inner3 v1 (cross v2 w) ≠ 0
  | .triangle _ v1 v2 w _ _ _ _ _ => inner3 v1 (cross v2 w) ≠ 0
  | .box _ v0 v1 v2 _ _ _ _ _ _ => inner3 v0 (cross v1 v2) ≠ 0

/-- The point is on the part of the surface which has the label `l`, up to `1e-16` of the height (cylinder.py 166-169)
for the bottom and the top. The labels of the sides of a triangle are those of the sides along `v1`, along `v2` and of
the third one; those of a parallelepiped of the sides which contain the point and `v0`, the point and `v1`, then of the
one opposite to the second and of the one opposite to the first; the last labels are those of the bottom and the top. -/
def Prism.WallAt : Prism → V3 → Int → Prop
  | .round c v1 v2 w l0 lb lt, y, l => ∃ a b d, y = comb3 c v1 v2 w a b d ∧ a ^ 2 + b ^ 2 ≤ 1 ∧
      ((l = lb ∧ |d + 1| ≤ 1 / 10 ^ 16) ∨ (l = lt ∧ |d - 1| ≤ 1 / 10 ^ 16) ∨
       (l = l0 ∧ a ^ 2 + b ^ 2 = 1 ∧ |d| ≤ 1))
  | .triangle c v1 v2 w l0 l1 l2 lb lt, y, l => ∃ a b d, y = comb3 c v1 v2 w a b d ∧ 0 ≤ a ∧ 0 ≤ b ∧ a + b ≤ 1 ∧
      ((l = lb ∧ |d + 1| ≤ 1 / 10 ^ 16) ∨ (l = lt ∧ |d - 1| ≤ 1 / 10 ^ 16) ∨
       (|d| ≤ 1 ∧ ((l = l0 ∧ b = 0) ∨ (l = l1 ∧ a = 0) ∨ (l = l2 ∧ a + b = 1))))
  | .box p v0 v1 v2 l0 l1 l2 l3 lb lt, y, l => ∃ a b e, y = comb3 p v0 v1 v2 a b e ∧ 0 ≤ a ∧ a ≤ 1 ∧ 0 ≤ b ∧ b ≤ 1 ∧
      ((l = lb ∧ |e| ≤ 1 / 10 ^ 16) ∨ (l = lt ∧ |e - 1| ≤ 1 / 10 ^ 16) ∨
       (0 ≤ e ∧ e ≤ 1 ∧ ((l = l0 ∧ b = 0) ∨ (l = l1 ∧ a = 0) ∨ (l = l2 ∧ a = 1) ∨ (l = l3 ∧ b = 1))))

/-- `CylinderTriangle`, cylinder.py 486-494. -/
noncomputable def triangleCyl (center v1 v2 w : V3) (l0 l1 l2 lb lt : Int) : Cyl ℝ :=
  ⟨center, v1, v2, w, baseTriangle edgeNormal l0 l1 l2, lb, lt⟩

/-- The solid as an element of the domain, with the bounds of the code. -/
noncomputable def Prism.elem (s : Prism) (fluid : Bool) : Elem ℝ 3 :=
  match s with
  | .round c v1 v2 w l0 lb lt =>
    cylinderElem (roundCyl c v1 v2 w l0 lb lt) (roundCyl c v1 v2 w l0 lb lt).ellipseBounds fluid
  | .triangle c v1 v2 w l0 l1 l2 lb lt =>
    cylinderElem (triangleCyl c v1 v2 w l0 l1 l2 lb lt) (triangleCyl c v1 v2 w l0 l1 l2 lb lt).cornerBounds fluid
  | .box p v0 v1 v2 l0 l1 l2 l3 lb lt => parallelepipedElem edgeNormal p v0 v1 v2 l0 l1 l2 l3 lb lt fluid

theorem Cyl.coords_self (c : Cyl ℝ) (hc : inner3 c.v1 (cross c.v2 c.w) ≠ 0) (y : V3) :
    y = comb3 c.center c.v1 c.v2 c.w (c.coords y).1 (c.coords y).2.1 (c.coords y).2.2 :=
  (Cyl.coords_comb c hc y _ _ _).1 rfl

/-- What a cylinder says of a link which meets it. -/
theorem Prism.elem_wall (s : Prism) (hs : s.Regular) (fluid : Bool) (x v : Fin 3 → ℝ)
    (h : 0 < (s.elem fluid).alpha x v) :
    let a := (s.elem fluid).alpha x v
    a ≤ 1 ∧ s.WallAt (x 0 + a * v 0, x 1 + a * v 1, x 2 + a * v 2) ((s.elem fluid).border x v) := by
  cases s with
  | round c v1 v2 w l0 lb lt =>
    obtain ⟨h1, h2, h3⟩ := Cyl.hit_label (roundCyl c v1 v2 w l0 lb lt) _ _ (baseDisc_ok l0) _
      (baseDisc_labelled l0) (x 0, x 1, x 2) (v 0, v 1, v 2) 1 (by norm_num) h
    have hy := Cyl.coords_self (roundCyl c v1 v2 w l0 lb lt) hs
      (along3 (x 0, x 1, x 2) (v 0, v 1, v 2) ((roundCyl c v1 v2 w l0 lb lt).distance (x 0, x 1, x 2) (v 0, v 1, v 2) 1).alpha)
    refine ⟨h1, _, _, _, hy, by simpa [disc] using h2, ?_⟩
    rcases h3 with h3 | h3 | ⟨s, hs', h3, h4, h5⟩
    · exact Or.inl h3
    · exact Or.inr (Or.inl h3)
    · rw [List.mem_singleton] at hs'
      subst hs'
      exact Or.inr (Or.inr ⟨h3, by simpa [circle] using h4, h5⟩)
  | triangle c v1 v2 w l0 l1 l2 lb lt =>
    obtain ⟨h1, h2, h3⟩ := Cyl.hit_label (triangleCyl c v1 v2 w l0 l1 l2 lb lt) _ _ (baseTriangle_ok edgeNormal l0 l1 l2) _
      (baseTriangle_labelled edgeNormal l0 l1 l2) (x 0, x 1, x 2) (v 0, v 1, v 2) 1 (by norm_num) h
    obtain ⟨k1, k2, k3⟩ := h2
    have hy := Cyl.coords_self (triangleCyl c v1 v2 w l0 l1 l2 lb lt) hs (along3 (x 0, x 1, x 2) (v 0, v 1, v 2)
      ((triangleCyl c v1 v2 w l0 l1 l2 lb lt).distance (x 0, x 1, x 2) (v 0, v 1, v 2) 1).alpha)
    refine ⟨h1, _, _, _, hy, k1, k2, k3, ?_⟩
    rcases h3 with h3 | h3 | ⟨s, hs', h3, h4, h5⟩
    · exact Or.inl h3
    · exact Or.inr (Or.inl h3)
    · refine Or.inr (Or.inr ⟨h5, ?_⟩)
      simp only [List.mem_cons, List.not_mem_nil, or_false] at hs'
      rcases hs' with rfl | rfl | rfl
      · exact Or.inl ⟨h3, h4⟩
      · exact Or.inr (Or.inl ⟨h3, h4⟩)
      · exact Or.inr (Or.inr ⟨h3, h4⟩)
  | box p v0 v1 v2 l0 l1 l2 l3 lb lt =>
    set c := parallelepiped edgeNormal p v0 v1 v2 l0 l1 l2 l3 lb lt with hc
    obtain ⟨h1, h2, h3⟩ := Cyl.hit_label c _ _ (baseParallelogram_ok edgeNormal l0 l1 l2 l3) _
      (baseParallelogram_labelled edgeNormal l0 l1 l2 l3) (x 0, x 1, x 2) (v 0, v 1, v 2) 1 (by norm_num) h
    obtain ⟨⟨k1, k2⟩, k3, k4⟩ := h2
    have hy := Cyl.coords_self c (parallelepiped_det edgeNormal p v0 v1 v2 l0 l1 l2 l3 lb lt hs)
      (along3 (x 0, x 1, x 2) (v 0, v 1, v 2) (c.distance (x 0, x 1, x 2) (v 0, v 1, v 2) 1).alpha)
    set q := c.coords (along3 (x 0, x 1, x 2) (v 0, v 1, v 2) (c.distance (x 0, x 1, x 2) (v 0, v 1, v 2) 1).alpha) with hq
    refine ⟨h1, q.1, q.2.1, (1 + q.2.2) / 2, ?_, k1, k2, k3, k4, ?_⟩
    · refine Eq.trans hy ?_
      rw [hc]
      unfold parallelepiped comb3
      refine Prod.ext ?_ (Prod.ext ?_ ?_) <;> (simp only; ring)
    · have e1 : |(1 + q.2.2) / 2| = |q.2.2 + 1| / 2 := by
        rw [abs_div, abs_of_pos (by norm_num : (0 : ℝ) < 2), add_comm]
      have e2 : |(1 + q.2.2) / 2 - 1| = |q.2.2 - 1| / 2 := by
        rw [show (1 + q.2.2) / 2 - 1 = (q.2.2 - 1) / 2 by ring, abs_div, abs_of_pos (by norm_num : (0 : ℝ) < 2)]
      rcases h3 with ⟨h3, h4⟩ | ⟨h3, h4⟩ | ⟨s, hs', h3, h4, h5⟩
      · refine Or.inl ⟨h3, ?_⟩
        rw [e1]
        have := abs_nonneg (q.2.2 + 1)
        linarith
      · refine Or.inr (Or.inl ⟨h3, ?_⟩)
        rw [e2]
        have := abs_nonneg (q.2.2 - 1)
        linarith
      · have h6 := abs_le.1 h5
        refine Or.inr (Or.inr ⟨by linarith, by linarith, ?_⟩)
        simp only [List.mem_cons, List.not_mem_nil, or_false] at hs'
        rcases hs' with rfl | rfl | rfl | rfl
        · exact Or.inl ⟨h3, h4⟩
        · exact Or.inr (Or.inl ⟨h3, h4⟩)
        · exact Or.inr (Or.inr (Or.inl ⟨h3, h4⟩))
        · exact Or.inr (Or.inr (Or.inr ⟨h3, h4⟩))

/-- C65 (all the cylinders of the library, the parallelepipeds among them, whatever their bounds): in a domain built from
any list of them, a link of an interior cell which carries a distance leads to the first face of the box which it
crosses, with the label and the outward normal of this face, or to a point of the surface of one of the solids, at most
one link away, with the label of this part of the surface. (The normals of the cylinders are not normal, C60.) -/
theorem C65_cylinders {nv : Nat} (g : Grid ℝ 3 nv) (hg : g.WF) (solids : List (Prism × Bool))
    (hs : ∀ s ∈ solids, s.1.Regular) (st : State ℝ 3 nv) (h : build g (solids.map fun s => s.1.elem s.2) = some st)
    (c : Cell 3) (hc : g.Interior c) (k : Fin nv) (hd : (st.link k c).dist ≠ 999) :
    let x := g.cellCentre c
    let v : Fin 3 → ℝ := fun j => g.dx * (g.vel k j : ℝ)
    let L := st.link k c
    (∃ f, FirstFace g.n g.Active (g.inner c) (g.vel k) f L.dist ∧ L.flag = g.label f.ax f.upper ∧
      L.normal = outward f) ∨
    ∃ s ∈ solids, 0 < L.dist ∧ L.dist ≤ 1 ∧
      s.1.WallAt (x 0 + L.dist * v 0, x 1 + L.dist * v 1, x 2 + L.dist * v 2) L.flag := by
  intro x v L
  rcases C65_any_bounds g hg _ st h c hc k hd with hf | ⟨e, he, h1, h2, h3, -⟩
  · exact Or.inl hf
  · obtain ⟨s, hs', rfl⟩ := List.mem_map.1 he
    obtain ⟨k1, k2⟩ := Prism.elem_wall s.1 (hs s hs') s.2 _ _ h1
    refine Or.inr ⟨s, hs', by rw [h2]; exact h1, by rw [h2]; exact k1, ?_⟩
    rw [h2, h3]
    exact k2

end bodies

/-- C59 is false for the parallelepipeds: the cells of this one are all solid, but the fluid cell above its top is outside
of the window, so that its link to the solid carries neither a distance nor a label and no boundary condition is applied
there. -/
theorem C59_parallelepiped_negation : ∃ (p v0 v1 v2 : ℚ × ℚ × ℚ) (st : State ℚ 3 7),
    inner3 v0 (cross v1 v2) ≠ 0 ∧ shaftGrid.WF ∧
    build shaftGrid [parallelepipedElem (fun _ w => w) p v0 v1 v2 0 0 0 0 0 0 false] = some st ∧
    (∀ c, shaftGrid.Interior c → (st.ioo c = -1 ↔
      (shaftGrid.cellCentre c 0, shaftGrid.cellCentre c 1, shaftGrid.cellCentre c 2) ∈ box p v0 v1 v2)) ∧
    ∃ c k, shaftGrid.Interior c ∧ shaftGrid.Interior (shaftGrid.target k c) ∧ st.ioo c = 999 ∧
      st.ioo (shaftGrid.target k c) = -1 ∧ (st.link k c).dist = 999 ∧ (st.link k c).flag = 999 := by
  refine ⟨(0, 0, 0), (1, 0, 0), (0, 1, 0), (0, 0, 4),
    (build shaftGrid [parallelepipedElem (fun _ w => w) (0, 0, 0) (1, 0, 0) (0, 1, 0) (0, 0, 4)
      0 0 0 0 0 0 false]).get (by decide +kernel), by decide +kernel, shaftGrid_wf,
    (Option.some_get _).symm, fun c hc => ?_, ![1, 1, 5], 6, by decide +kernel, by decide +kernel, by decide +kernel,
    by decide +kernel, by decide +kernel, by decide +kernel⟩
  have hin : ∀ x : Fin 3 → ℚ,
      (parallelepipedElem (fun _ w => w) (0, 0, 0) (1, 0, 0) (0, 1, 0) (0, 0, 4) 0 0 0 0 0 0 false).inside x = true ↔
      (x 0, x 1, x 2) ∈ box ((0, 0, 0) : ℚ × ℚ × ℚ) (1, 0, 0) (0, 1, 0) (0, 0, 4) := fun x =>
    C28_parallelepiped_inside _ _ _ _ _ 0 0 0 0 0 0 (by decide +kernel) _
  rw [← hin, C21_near_partial shaftGrid shaftGrid_wf _ _ (Option.some_get _).symm c hc]
  · simp [regions, material, parallelepipedElem, cylinderElem, spatial]
  · intro e he hx
    rw [List.mem_singleton] at he
    subst he
    exact C21_cylinder_partial shaftGrid _ (by decide +kernel) _ (Or.inl (baseParallelogram_ok _ 0 0 0 0)) false
      ⟨by decide +kernel, by decide +kernel, by decide +kernel⟩ _ hx

/-! ## Cases -/

/-- Cases for `C65_any_bounds` and `C21_windows`: a link which leads to the top. -/
example : ∃ st : State ℚ 3 7,
    build shaftGrid [parallelepipedElem (fun _ w => w) (0, 0, 0) (1, 0, 0) (0, 1, 0) (0, 0, 2) 10 11 12 13 14 15 false] =
      some st ∧ shaftGrid.Interior ![1, 1, 3] ∧ (st.link 6 ![1, 1, 3]).dist ≠ 999 ∧ (st.link 6 ![1, 1, 3]).flag = 15 :=
  ⟨(build shaftGrid [parallelepipedElem (fun _ w => w) (0, 0, 0) (1, 0, 0) (0, 1, 0) (0, 0, 2)
    10 11 12 13 14 15 false]).get (by decide +kernel), (Option.some_get _).symm, by decide +kernel, by decide +kernel,
    by decide +kernel⟩

/-- A case for `C21_cylinder_partial`: a parallelepiped of height 4 with one cell of halo. -/
example (x : Fin 3 → ℚ)
    (hx : (parallelepipedElem (fun _ w => w) (0, 0, 0) (1, 0, 0) (0, 1, 0) (0, 0, 4) 1 1 1 1 1 1 false).inside x = true) :
    (parallelepipedElem (fun _ w => w) (0, 0, 0) (1, 0, 0) (0, 1, 0) (0, 0, 4) 1 1 1 1 1 1 false).Near shaftGrid x :=
  C21_cylinder_partial shaftGrid _ (by decide +kernel) _ (Or.inl (baseParallelogram_ok _ 1 1 1 1)) false
    ⟨by decide +kernel, by decide +kernel, by decide +kernel⟩ x hx

/-- A case for `C21_near_partial`: this parallelepiped in the column. -/
example : ∃ st : State ℚ 3 7,
    build shaftGrid [parallelepipedElem (fun _ w => w) (0, 0, 0) (1, 0, 0) (0, 1, 0) (0, 0, 4) 1 1 1 1 1 1 false] =
      some st ∧ st.ioo ![1, 1, 4] = -1 ∧ st.ioo ![1, 1, 5] = 999 :=
  ⟨(build shaftGrid [parallelepipedElem (fun _ w => w) (0, 0, 0) (1, 0, 0) (0, 1, 0) (0, 0, 4)
    1 1 1 1 1 1 false]).get (by decide +kernel), (Option.some_get _).symm, by decide +kernel, by decide +kernel⟩

end Pylbm.Domain
