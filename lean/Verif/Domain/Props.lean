import Verif.Domain.Elements
/-!
# Properties C21–C23, C59: fluid/solid map and boundary links
-/
set_option linter.unusedSectionVars false
namespace Pylbm.Domain
open Round Storage DomainSpec

variable {K : Type} [Field K] [LinearOrder K] [IsStrictOrderedRing K] {dim nv : Nat} [FloorRing K]

theorem material_append {P : Type} (l : List (Bool × (P → Bool))) (b : Bool) (m : P → Bool) (x : P) :
    material (l ++ [(b, m)]) x = if m x then b else material l x := by
  induction l with
  | nil => simp [material]
  | cons r l ih =>
    simp only [List.cons_append, material, List.any_append, List.any_cons, List.any_nil,
      Bool.or_false]
    rw [ih]
    by_cases h : m x = true
    · simp [h]
    · rw [Bool.not_eq_true] at h
      simp only [h, Bool.or_false, Bool.false_eq_true, if_false]

/-- The list of elements as the specification sees it. -/
def regions (elems : List (Elem K dim)) : List (Bool × ((Fin dim → K) → Bool)) :=
  elems.map fun e => (e.isFluid, e.inside)

theorem fold_ioo {g : Grid K dim nv} (hg : g.WF) (elems : List (Elem K dim))
    (he : ∀ e ∈ elems, e.Sound) (st0 st : State K dim nv) (h0 : st0.ioo = (initState g).ioo)
    (h : elems.foldlM (addElem g) st0 = some st) (c : Cell dim) :
    st.ioo c = if g.Interior c ∧ material (regions elems) (g.point c) = true then valin
      else valout := by
  induction elems using List.reverseRecOn generalizing st with
  | nil =>
    simp only [List.foldlM_nil, Option.pure_def, Option.some.injEq] at h
    subst h
    rw [h0]; simp [initState, regions, material]
  | append_singleton l e ih =>
    rw [List.foldlM_append] at h
    simp only [List.foldlM_cons, List.foldlM_nil, Option.pure_def, Option.bind_eq_bind,
      Option.bind_eq_some_iff] at h
    obtain ⟨s1, h1, s2, h2, h3⟩ := h
    simp only [Option.some.injEq] at h3
    subst h3
    have hs := (addElem_spec hg (he e (by simp)) s1 s2 h2).1 c
    rw [hs, ih (fun e' h' => he e' (by simp [h'])) s1 h1]
    have : regions (l ++ [e]) = regions l ++ [(e.isFluid, e.inside)] := by simp [regions]
    rw [this, material_append]
    by_cases hc : g.Interior c <;> by_cases hi : e.inside (g.point c) = true <;> simp [hc, hi]

omit [IsStrictOrderedRing K] in
theorem build_some {g : Grid K dim nv} {elems : List (Elem K dim)} {st : State K dim nv}
    (h : build g elems = some st) : ∃ s0 s1, addInit g = some s0 ∧
      elems.foldlM (addElem g) s0 = some s1 ∧ st = clean s1 := by
  unfold build at h
  simp only [Option.bind_eq_bind, Option.bind_eq_some_iff, Option.pure_def, Option.some.injEq] at h
  obtain ⟨s0, h0, s1, h1, h2⟩ := h
  exact ⟨s0, s1, h0, h1, h2.symm⟩

/-- Centre of a cell of the array with halo, in the coordinates of the user. -/
def Grid.cellCentre (g : Grid K dim nv) (c : Cell dim) : Fin dim → K :=
  fun j => centre (g.lo j) g.dx ((g.r0 j : Int) + c j - g.h j)

theorem point_eq {g : Grid K dim nv} (hg : g.WF) {c : Cell dim} (hc : g.Interior c) :
    g.point c = g.cellCentre c := by
  funext j
  exact coord_eq hg j (Grid.interior_range hc j).1 (Grid.interior_range hc j).2

/-- C21: in a domain built from any list of elements, an interior cell is fluid exactly when the
last element which contains its centre is a fluid one (or no element contains it); all the other
cells are outside. -/
theorem C21_fluid_map (g : Grid K dim nv) (hg : g.WF) (elems : List (Elem K dim))
    (he : ∀ e ∈ elems, e.Sound) (st : State K dim nv) (h : build g elems = some st)
    (c : Cell dim) :
    st.ioo c = if g.Interior c ∧ material (regions elems) (g.cellCentre c) = true then 999
      else -1 := by
  obtain ⟨s0, s1, h0, h1, rfl⟩ := build_some h
  have := fold_ioo hg elems he s0 s1 (addInit_spec g s0 h0).1 h1 c
  change s1.ioo c = _
  rw [this]
  by_cases hc : g.Interior c
  · rw [point_eq hg hc]; rfl
  · simp [hc, valout]

/-- C22: `clean` on a domain with positive distances resets all the links of the solid cells,
leaves the other ones, and is idempotent. -/
theorem C22_clean (st : State K dim nv) (hpos : ∀ k c, 0 < (st.link k c).dist) :
    (∀ c, (clean st).ioo c = st.ioo c) ∧
    (∀ k c, st.ioo c = -1 → (clean st).link k c = ⟨999, 999, fun _ => 0⟩) ∧
    (∀ k c, st.ioo c ≠ -1 → (clean st).link k c = st.link k c) ∧
    clean (clean st) = clean st := by
  have h1 : ∀ k c, st.ioo c = -1 → (clean st).link k c = ⟨999, 999, fun _ => 0⟩ := by
    intro k c hc
    unfold clean
    simp only
    rw [if_pos ⟨hpos k c, hc⟩]
    simp [valin]
  have h2 : ∀ k c, st.ioo c ≠ -1 → (clean st).link k c = st.link k c := by
    intro k c hc
    unfold clean
    simp only
    rw [if_neg (fun h => hc h.2)]
  refine ⟨fun c => rfl, h1, h2, ?_⟩
  have : ∀ k c, (clean (clean st)).link k c = (clean st).link k c := by
    intro k c
    by_cases hc : st.ioo c = -1
    · rw [h1 k c hc]
      unfold clean
      simp only [valin, valout]
      split_ifs <;> simp_all
    · rw [h2 k c hc]
      have : (clean (clean st)).link k c = if 0 < ((clean st).link k c).dist ∧ st.ioo c = valout
        then ⟨(valin : K), valin, fun _ => 0⟩ else (clean st).link k c := rfl
      rw [this, if_neg (fun h => hc h.2), h2 k c hc]
  have h3 : (clean (clean st)).link = (clean st).link := by funext k c; exact this k c
  calc clean (clean st) = ⟨(clean (clean st)).ioo, (clean (clean st)).link⟩ := rfl
    _ = ⟨(clean st).ioo, (clean st).link⟩ := by rw [h3]; rfl
    _ = clean st := rfl

example : ∃ st : State ℚ 1 1, (∀ k c, 0 < (st.link k c).dist) ∧ st.ioo (fun _ => 0) = -1 ∧
    (st.link 0 (fun _ => 0)).flag = 4 :=
  ⟨⟨fun _ => -1, fun _ _ => ⟨1 / 2, 4, fun _ => 0⟩⟩, fun _ _ => by norm_num, rfl, rfl⟩

/-- The cell reached from `c` with the velocity `k`. -/
def Grid.target (g : Grid K dim nv) (k : Fin nv) (c : Cell dim) : Cell dim :=
  fun j => c j + g.vel k j

/-- A label that a link may carry: the one of a face of the box or of the border of an element. -/
def LabelOf (g : Grid K dim nv) (elems : List (Elem K dim)) (lab : Int) : Prop :=
  (∃ f, g.Active f ∧ lab = g.label f.ax f.upper) ∨ ∃ e ∈ elems, ∃ x v, 0 < e.alpha x v ∧ lab = e.border x v

/-- Invariant of the construction. -/
structure LinkInv (g : Grid K dim nv) (elems : List (Elem K dim)) (st : State K dim nv) : Prop where
  out : ∀ c k, g.Interior c → st.ioo c = valin → (st.link k c).dist ≠ 999 →
    st.ioo (g.target k c) = valout
  range : ∀ k c, (st.link k c).dist ≠ 999 → 0 < (st.link k c).dist ∧ (st.link k c).dist ≤ 1 ∧
    LabelOf g elems (st.link k c).flag
  reset : ∀ k c, (st.link k c).dist = 999 → (st.link k c).flag = 999
  zero : ∀ k c, (∀ j, g.vel k j = 0) → (st.link k c).dist = 999

theorem valin_cast : ((valin : Int) : K) = 999 := by simp [valin]

/-- The three possible results of the update of a link. -/
theorem elemLink_cases (e : Elem K dim) (ioo : Int) (out : Bool) (x v : Fin dim → K)
    (L : Link K dim) :
    let indFluid := if e.isFluid then e.inside x else !e.inside x
    (elemLink e ioo out x v L = ⟨e.alpha x v, e.border x v, fun j => -e.normvect x v j⟩ ∧
      0 < e.alpha x v ∧ indFluid = true ∧ out = true) ∨
    ((elemLink e ioo out x v L).dist = 999 ∧ (elemLink e ioo out x v L).flag = 999 ∧
      ((e.isFluid = true ∧ out = false ∧ ioo = valin) ∨
        (e.isFluid = false ∧ e.inside x = true))) ∨
    (elemLink e ioo out x v L = L ∧ ¬ (e.isFluid = true ∧ out = false ∧ ioo = valin) ∧
      ¬ (e.isFluid = false ∧ e.inside x = true) ∧
      (0 < e.alpha x v → indFluid = true → out = true →
        if e.isFluid then L.dist ≠ 999 else L.dist ≤ e.alpha x v)) := by
  intro indFluid
  unfold elemLink
  have hv : ((valin : Int) : K) = 999 := valin_cast
  simp only [hv]
  cases hf : e.isFluid with
  | true =>
    simp only [if_true, true_and]
    have hI : indFluid = e.inside x := by simp [indFluid, hf]
    rw [hI]
    cases out with
    | false =>
      by_cases hi : ioo = valin
      · simp [hi, valin]
      · simp [hi]
    | true =>
      by_cases ha : 0 < e.alpha x v <;> by_cases hi : e.inside x = true <;>
        by_cases hd : L.dist = 999 <;> by_cases hl : L.dist < e.alpha x v <;>
        simp [ha, hi, hd, hl]
  | false =>
    simp only [Bool.false_eq_true, if_false, false_and, true_and]
    have hI : indFluid = !e.inside x := by simp [indFluid, hf]
    rw [hI]
    by_cases hi : e.inside x = true
    · simp [hi, valin]
    · rw [Bool.not_eq_true] at hi
      cases out with
      | false => simp [hi]
      | true =>
        by_cases ha : 0 < e.alpha x v <;> by_cases hl : e.alpha x v < L.dist <;>
          simp [ha, hl, hi]
        exact Or.inr (not_lt.1 hl)

theorem linkInv_init (g : Grid K dim nv) (st : State K dim nv) (h : addInit g = some st) :
    LinkInv g [] st := by
  obtain ⟨hi, hl⟩ := addInit_spec g st h
  have hcase : ∀ k c, (st.link k c = ⟨999, 999, fun _ => 0⟩) ∨
      (g.Interior c ∧ ∃ f t, FirstFace g.n g.Active (g.inner c) (g.vel k) f t ∧
        st.link k c = ⟨t, g.label f.ax f.upper, outward f⟩) := by
    intro k c
    by_cases hc : g.Interior c
    · rcases C20_box_links g st h k c hc with ⟨_, h1⟩ | h1
      · exact Or.inl h1
      · exact Or.inr ⟨hc, h1⟩
    · left; rw [hl k c, if_neg hc]; simp [valin]
  have hout : ∀ c k, g.Interior c → (st.link k c).dist ≠ 999 →
      st.ioo (g.target k c) = valout := by
    intro c k hc hd
    rcases hcase k c with h1 | ⟨_, f, t, ⟨hA, hX, _⟩, h1⟩
    · rw [h1] at hd; exact absurd rfl hd
    · rw [hi]
      unfold initState
      simp only
      rw [if_neg]
      intro hI
      have h2 := hI f.ax
      have h3 := hc f.ax
      obtain ⟨h4, h5, h6⟩ := hX
      unfold facePos Grid.inner at h6
      unfold Grid.target at h2
      have e1 : (0 : K) ≤ ((c f.ax - g.h f.ax : Int) : K) := by exact_mod_cast (by omega)
      have e2 : ((c f.ax - g.h f.ax : Int) : K) + 1 ≤ (g.n f.ax : K) := by exact_mod_cast (by omega)
      have e3 : (0 : K) ≤ ((c f.ax - g.h f.ax : Int) : K) + (g.vel k f.ax : K) := by
        exact_mod_cast (by omega)
      have e4 : ((c f.ax - g.h f.ax : Int) : K) + (g.vel k f.ax : K) + 1 ≤ (g.n f.ax : K) := by
        exact_mod_cast (by omega)
      split_ifs at h6
      · have hv : (0 : K) ≤ (g.vel k f.ax : K) := by
          by_contra hv
          push Not at hv
          have := mul_neg_of_pos_of_neg h4 hv
          linarith
        have := mul_le_mul_of_nonneg_right h5 hv
        linarith
      · have hv : (g.vel k f.ax : K) ≤ 0 := by
          by_contra hv
          push Not at hv
          have := mul_pos h4 hv
          linarith
        have := mul_le_mul_of_nonpos_right h5 hv
        linarith
  refine ⟨fun c k hc hio hd => hout c k hc hd, fun k c hd => ?_, fun k c hd => ?_, fun k c hz => ?_⟩
  · rcases hcase k c with h1 | ⟨_, f, t, ⟨hA, hX, _⟩, h1⟩
    · rw [h1] at hd; exact absurd rfl hd
    · rw [h1]
      exact ⟨hX.1, hX.2.1, Or.inl ⟨f, hA, rfl⟩⟩
  · rcases hcase k c with h1 | ⟨_, f, t, ⟨hA, hX, _⟩, h1⟩
    · rw [h1]
    · rw [h1] at hd
      have := hX.2.1
      simp only at hd
      rw [hd] at this
      norm_num at this
  · by_contra hd
    by_cases hc : g.Interior c
    · have h1 := hout c k hc hd
      have h2 : g.target k c = c := by funext j; simp [Grid.target, hz j]
      rw [h2, hi] at h1
      simp [initState, hc, valin, valout] at h1
    · rw [hl k c, if_neg hc] at hd
      exact hd (by simp [valin])

theorem LabelOf.mono {g : Grid K dim nv} {l l' : List (Elem K dim)} (h : ∀ e ∈ l, e ∈ l') {lab : Int}
    (hl : LabelOf g l lab) : LabelOf g l' lab := by
  rcases hl with h1 | ⟨e, he, h1⟩
  · exact Or.inl h1
  · exact Or.inr ⟨e, h e he, h1⟩

theorem target_range {g : Grid K dim nv} (hg : g.WF) {c : Cell dim} (hc : g.Interior c)
    (k : Fin nv) (j : Fin dim) : 0 ≤ g.target k c j ∧ g.target k c j < g.total j := by
  have h1 := hc j
  have h2 := abs_le.1 (hg.halo k j)
  unfold Grid.target Grid.total
  omega

theorem linkInv_step {g : Grid K dim nv} (hg : g.WF) {l : List (Elem K dim)} {e : Elem K dim}
    (he : e.Sound) {st st' : State K dim nv} (hinv : LinkInv g l st)
    (h : addElem g st e = some st') : LinkInv g (l ++ [e]) st' := by
  obtain ⟨hi, hl⟩ := addElem_spec hg he st st' h
  have hmono : ∀ lab, LabelOf g l lab → LabelOf g (l ++ [e]) lab :=
    fun lab => LabelOf.mono (fun e h => by simp [h])
  have hrange : ∀ k c, (st'.link k c).dist ≠ 999 → 0 < (st'.link k c).dist ∧
      (st'.link k c).dist ≤ 1 ∧ LabelOf g (l ++ [e]) (st'.link k c).flag := by
    intro k c hd
    rw [hl k c] at hd ⊢
    split_ifs at hd ⊢ with hv
    · rcases elemLink_cases e (st'.ioo c)
        (decide (st'.ioo (fun j => c j + g.vel k j) = valout)) (g.point c)
        (fun j => g.dx * (g.vel k j : K)) (st.link k c) with ⟨h1, h2, -⟩ | ⟨h1, -⟩ | ⟨h1, -⟩
      · rw [h1]
        exact ⟨h2, (he.hit _ _ h2).1, Or.inr ⟨e, by simp, _, _, h2, rfl⟩⟩
      · exact absurd h1 hd
      · rw [h1] at hd ⊢
        have := hinv.range k c hd
        exact ⟨this.1, this.2.1, hmono _ this.2.2⟩
    · have := hinv.range k c hd
      exact ⟨this.1, this.2.1, hmono _ this.2.2⟩
  refine ⟨fun c k hc hio hd => ?_, hrange, fun k c hd => ?_, fun k c hz => ?_⟩
  · -- the target is outside
    by_contra hout
    have hout' : st'.ioo (fun j => c j + g.vel k j) ≠ valout := hout
    by_cases hv : (∃ j, g.vel k j ≠ 0) ∧ InView g e c
    · rw [hl k c, if_pos hv] at hd
      rcases elemLink_cases e (st'.ioo c)
        (decide (st'.ioo (fun j => c j + g.vel k j) = valout)) (g.point c)
        (fun j => g.dx * (g.vel k j : K)) (st.link k c) with ⟨-, -, -, h1⟩ | ⟨h1, -⟩ | ⟨h1, h2, h3, -⟩
      · simp only [decide_eq_true_eq] at h1; exact hout' h1
      · exact hd h1
      · rw [h1] at hd
        have hnf : e.isFluid = false := by
          by_contra hf
          rw [Bool.not_eq_false] at hf
          exact h2 ⟨hf, by simp [hout'], hio⟩
        have hni : ¬ e.inside (g.point c) = true := fun h => h3 ⟨hnf, h⟩
        have hio' : st.ioo c = valin := by
          have := hi c
          rw [if_neg (fun h => hni h.2)] at this
          rw [← this]; exact hio
        have h4 := hinv.out c k hc hio' hd
        apply hout
        rw [hi (g.target k c), hnf, h4]
        simp
    · rw [hl k c, if_neg hv] at hd
      by_cases hz : ∃ j, g.vel k j ≠ 0
      · have hnv : ¬ InView g e c := fun h => hv ⟨hz, h⟩
        have hni : ¬ e.inside (g.point c) = true := fun h => hnv
          (inView_of_bounds hg hc (fun j => Grid.interior_range hc j) (fun j => by simp)
            (fun j => he.inside _ h j))
        have hio' : st.ioo c = valin := by
          have := hi c
          rw [if_neg (fun h => hni h.2)] at this
          rw [← this]; exact hio
        have h4 := hinv.out c k hc hio' hd
        apply hout
        rw [hi (g.target k c), h4]
        have : ¬ (g.Interior (g.target k c) ∧ e.inside (g.point (g.target k c)) = true) := by
          rintro ⟨_, h6⟩
          apply hnv
          refine inView_of_bounds hg hc (target_range hg hc k) (fun j => ?_)
            (fun j => he.inside _ h6 j)
          have := hg.halo k j
          rw [abs_le] at this ⊢
          unfold Grid.target; omega
        rw [if_neg this]
      · push Not at hz
        exact hd (hinv.zero k c hz)
  · rw [hl k c] at hd ⊢
    split_ifs at hd ⊢ with hv
    · rcases elemLink_cases e (st'.ioo c)
        (decide (st'.ioo (fun j => c j + g.vel k j) = valout)) (g.point c)
        (fun j => g.dx * (g.vel k j : K)) (st.link k c) with ⟨h1, h2, -⟩ | ⟨-, h1, -⟩ | ⟨h1, -⟩
      · rw [h1] at hd
        have := (he.hit _ _ h2).1
        simp only at hd
        rw [hd] at this; norm_num at this
      · exact h1
      · rw [h1] at hd ⊢; exact hinv.reset k c hd
    · exact hinv.reset k c hd
  · rw [hl k c, if_neg]
    · exact hinv.zero k c hz
    · rintro ⟨⟨j, hj⟩, _⟩
      exact hj (hz j)

theorem linkInv_fold {g : Grid K dim nv} (hg : g.WF) (elems : List (Elem K dim))
    (he : ∀ e ∈ elems, e.Sound) (s0 st : State K dim nv) (h0 : addInit g = some s0)
    (h : elems.foldlM (addElem g) s0 = some st) : LinkInv g elems st := by
  induction elems using List.reverseRecOn generalizing st with
  | nil =>
    simp only [List.foldlM_nil, Option.pure_def, Option.some.injEq] at h
    subst h
    exact linkInv_init g s0 h0
  | append_singleton l e ih =>
    rw [List.foldlM_append] at h
    simp only [List.foldlM_cons, List.foldlM_nil, Option.pure_def, Option.bind_eq_bind,
      Option.bind_eq_some_iff] at h
    obtain ⟨s1, h1, s2, h2, h3⟩ := h
    simp only [Option.some.injEq] at h3
    subst h3
    exact linkInv_step hg (he e (by simp)) (ih (fun e' h' => he e' (by simp [h'])) s1 h1) h2

theorem LinkInv.pos {g : Grid K dim nv} {elems : List (Elem K dim)} {st : State K dim nv}
    (h : LinkInv g elems st) (k : Fin nv) (c : Cell dim) : 0 < (st.link k c).dist := by
  by_cases hd : (st.link k c).dist = 999
  · rw [hd]; norm_num
  · exact (h.range k c hd).1

/-- C23: in a domain built from any list of elements, a link which carries a distance (the default
value is 999) starts from a fluid cell and leads to a cell which is outside; the distance is in
`(0, 1]` and the label is the one of a face of the box or of an element.  A link without distance
carries no label. -/
theorem C23_flagged_links (g : Grid K dim nv) (hg : g.WF) (elems : List (Elem K dim))
    (he : ∀ e ∈ elems, e.Sound) (st : State K dim nv) (h : build g elems = some st)
    (c : Cell dim) (hc : g.Interior c) (k : Fin nv) :
    ((st.link k c).dist ≠ 999 → st.ioo c = 999 ∧ st.ioo (g.target k c) = -1 ∧
      0 < (st.link k c).dist ∧ (st.link k c).dist ≤ 1 ∧ LabelOf g elems (st.link k c).flag) ∧
    ((st.link k c).dist = 999 → (st.link k c).flag = 999) := by
  obtain ⟨s0, s1, h0, h1, rfl⟩ := build_some h
  have hinv := linkInv_fold hg elems he s0 s1 h0 h1
  obtain ⟨c1, c2, c3, -⟩ := C22_clean s1 hinv.pos
  by_cases hio : s1.ioo c = -1
  · rw [c2 k c hio]; simp
  · rw [c3 k c hio, c1, c1]
    have hio' : s1.ioo c = valin := by
      have := fold_ioo hg elems he s0 s1 (addInit_spec g s0 h0).1 h1 c
      rw [this]
      split_ifs with h2
      · rfl
      · rw [this, if_neg h2] at hio; exact absurd rfl hio
    refine ⟨fun hd => ?_, hinv.reset k c⟩
    obtain ⟨a, b, d⟩ := hinv.range k c hd
    exact ⟨hio', hinv.out c k hc hio' hd, a, b, d⟩

/-- A segment from `x` to `x + v` which enters a solid element, or which leaves a fluid element, is
seen by `distance`. -/
def Elem.Sees (e : Elem K dim) (x v : Fin dim → K) : Prop :=
  if e.isFluid then
    e.inside x = true → e.inside (fun j => x j + v j) = false → 0 < e.alpha x v
  else e.inside x = false → e.inside (fun j => x j + v j) = true → 0 < e.alpha x v

/-- Invariant for the completeness of the links. -/
def Complete (g : Grid K dim nv) (st : State K dim nv) : Prop :=
  ∀ c k, g.Interior c → st.ioo c = valin → g.Interior (g.target k c) →
    st.ioo (g.target k c) = valout → (st.link k c).dist ≠ 999

theorem complete_step {g : Grid K dim nv} (hg : g.WF) {e : Elem K dim} (he : e.Sound)
    (hs : ∀ c k, g.Interior c → e.Sees (g.point c) (fun j => g.dx * (g.vel k j : K)))
    {st st' : State K dim nv} (hinv : Complete g st)
    (h : addElem g st e = some st') : Complete g st' := by
  obtain ⟨hi, hl⟩ := addElem_spec hg he st st' h
  intro c k hc hio ht hout
  have hpt : g.point (g.target k c) = fun j => g.point c j + g.dx * (g.vel k j : K) :=
    point_add hg (fun j => Grid.interior_range hc j) (fun j => target_range hg hc k j)
  have hz : ∃ j, g.vel k j ≠ 0 := by
    by_contra hz
    push Not at hz
    have : g.target k c = c := by funext j; simp [Grid.target, hz j]
    rw [this, hio] at hout
    exact absurd hout (by decide)
  have hclose : ∀ j, |c j - g.target k c j| ≤ g.h j := by
    intro j
    have := hg.halo k j
    rw [abs_le] at this ⊢
    unfold Grid.target; omega
  have hout' : st'.ioo (fun j => c j + g.vel k j) = valout := hout
  have hic := hi c
  have hit := hi (g.target k c)
  simp only [hc, ht, true_and] at hic hit
  by_cases hv : InView g e c
  · rw [hl k c, if_pos ⟨hz, hv⟩]
    rcases elemLink_cases e (st'.ioo c)
      (decide (st'.ioo (fun j => c j + g.vel k j) = valout)) (g.point c)
      (fun j => g.dx * (g.vel k j : K)) (st.link k c) with
        ⟨h1, h2, -⟩ | ⟨-, -, ⟨_, h1, _⟩ | ⟨h1, h2⟩⟩ | ⟨h1, h2, h3, h4⟩
    · rw [h1]
      have := (he.hit _ _ h2).1
      intro hd
      simp only at hd
      rw [hd] at this; norm_num at this
    · simp [hout'] at h1
    · rw [if_pos h2, h1] at hic
      rw [hio] at hic
      exact absurd hic (by decide)
    · rw [h1]
      by_cases hci : e.inside (g.point c) = true
      · -- the cell is inside a fluid element
        have hf : e.isFluid = true := by
          by_contra hf
          exact h3 ⟨by simpa using hf, hci⟩
        have hti : e.inside (g.point (g.target k c)) = false := by
          by_contra hti
          rw [Bool.not_eq_false] at hti
          rw [if_pos hti, hf, hout] at hit
          exact absurd hit (by decide)
        have hsee := hs c k hc
        unfold Elem.Sees at hsee
        rw [if_pos hf, ← hpt] at hsee
        have := h4 (hsee hci hti) (by simp [hf, hci]) (by simp [hout'])
        simpa [hf] using this
      · have hst : st.ioo c = valin := by rw [← hio, hic, if_neg hci]
        by_cases hti : e.inside (g.point (g.target k c)) = true
        · have hf : e.isFluid = false := by
            by_contra hf
            rw [Bool.not_eq_false] at hf
            rw [if_pos hti, hf, hout] at hit
            exact absurd hit (by decide)
          have hsee := hs c k hc
          unfold Elem.Sees at hsee
          rw [if_neg (by simp [hf]), ← hpt] at hsee
          have ha := hsee (by simpa using hci) hti
          have := h4 ha (by simp [hf]; simpa using hci) (by simp [hout'])
          rw [hf] at this
          simp only [Bool.false_eq_true, if_false] at this
          intro hd
          rw [hd] at this
          have := (he.hit _ _ ha).1
          linarith
        · rw [if_neg hti] at hit
          exact hinv c k hc hst ht (hit ▸ hout)
  · have hni : ¬ e.inside (g.point c) = true := fun h => hv
      (inView_of_bounds hg hc (fun j => Grid.interior_range hc j) (fun j => by simp)
        (fun j => he.inside _ h j))
    have hnt : ¬ e.inside (g.point (g.target k c)) = true := fun h => hv
      (inView_of_bounds hg hc (target_range hg hc k) hclose (fun j => he.inside _ h j))
    rw [hl k c, if_neg (fun h => hv h.2)]
    rw [if_neg hni] at hic
    rw [if_neg hnt] at hit
    exact hinv c k hc (hic ▸ hio) ht (hit ▸ hout)

/-- C59 (links between two cells of the local grid): every link from a fluid cell to a solid cell
carries a distance and a label. -/
theorem C59_solid_links_flagged_partial (g : Grid K dim nv) (hg : g.WF) (elems : List (Elem K dim))
    (he : ∀ e ∈ elems, e.Sound)
    (hs : ∀ e ∈ elems, ∀ c k, g.Interior c →
      e.Sees (g.cellCentre c) (fun j => g.dx * (g.vel k j : K)))
    (st : State K dim nv)
    (h : build g elems = some st) (c : Cell dim) (hc : g.Interior c) (k : Fin nv)
    (hf : st.ioo c = 999) (ht : g.Interior (g.target k c)) (hout : st.ioo (g.target k c) = -1) :
    0 < (st.link k c).dist ∧ (st.link k c).dist ≤ 1 ∧ LabelOf g elems (st.link k c).flag := by
  have hd : (st.link k c).dist ≠ 999 := by
    obtain ⟨s0, s1, h0, h1, rfl⟩ := build_some h
    have hinv := linkInv_fold hg elems he s0 s1 h0 h1
    obtain ⟨c1, -, c3, -⟩ := C22_clean s1 hinv.pos
    rw [c1] at hf hout
    rw [c3 k c (by rw [hf]; decide)]
    have key : Complete g s1 := by
      clear hinv c1 c3 hf hout h
      induction elems using List.reverseRecOn generalizing s1 with
      | nil =>
        simp only [List.foldlM_nil, Option.pure_def, Option.some.injEq] at h1
        subst h1
        intro c k _ _ ht hout
        rw [(addInit_spec g s0 h0).1] at hout
        simp [initState, ht, valin, valout] at hout
      | append_singleton l e ih =>
        rw [List.foldlM_append] at h1
        simp only [List.foldlM_cons, List.foldlM_nil, Option.pure_def, Option.bind_eq_bind,
          Option.bind_eq_some_iff] at h1
        obtain ⟨s2, h2, s3, h3, h4⟩ := h1
        simp only [Option.some.injEq] at h4
        subst h4
        exact complete_step hg (he e (by simp))
          (fun c k hc => by rw [point_eq hg hc]; exact hs e (by simp) c k hc)
          (ih (fun e' h' => he e' (by simp [h'])) (fun e' h' => hs e' (by simp [h'])) s2 h2) h3
    exact key c k hc hf ht hout
  have := ((C23_flagged_links g hg elems he st h c hc k).1 hd)
  exact ⟨this.2.2.1, this.2.2.2⟩

/-- C59 (links through the box): a link of a cell which crosses a face of the box, not an interface,
keeps a distance and a label as long as no solid element contains the cell. -/
theorem C59_box_links_flagged_partial (g : Grid K dim nv) (hg : g.WF) (elems : List (Elem K dim))
    (he : ∀ e ∈ elems, e.Sound) (st : State K dim nv)
    (h : build g elems = some st) (c : Cell dim) (hc : g.Interior c) (k : Fin nv)
    (hns : ∀ e ∈ elems, e.isFluid = false → e.inside (g.cellCentre c) = false)
    (f : Face dim) (t : K) (hA : g.Active f) (hX : Crosses g.n (g.inner c) (g.vel k) f t) :
    st.ioo c = 999 ∧
    0 < (st.link k c).dist ∧ (st.link k c).dist ≤ 1 ∧ LabelOf g elems (st.link k c).flag := by
  obtain ⟨s0, s1, h0, h1, hst⟩ := build_some h
  have hinv := linkInv_fold hg elems he s0 s1 h0 h1
  have key : s1.ioo c = valin ∧ s1.ioo (g.target k c) = valout ∧ (s1.link k c).dist ≠ 999 := by
    clear hinv h hst
    induction elems using List.reverseRecOn generalizing s1 with
    | nil =>
      simp only [List.foldlM_nil, Option.pure_def, Option.some.injEq] at h1
      subst h1
      have hd : (s0.link k c).dist ≠ 999 := by
        rcases C20_box_links g s0 h0 k c hc with ⟨h1, _⟩ | ⟨f', t', ⟨_, h2, _⟩, h1⟩
        · exact absurd hX (h1 f t hA)
        · rw [h1]
          intro hd
          simp only at hd
          have := h2.2.1
          rw [hd] at this; norm_num at this
      have hio : s0.ioo c = valin := by
        rw [(addInit_spec g s0 h0).1]; simp [initState, hc]
      exact ⟨hio, (linkInv_init g s0 h0).out c k hc hio hd, hd⟩
    | append_singleton l e ih =>
      rw [List.foldlM_append] at h1
      simp only [List.foldlM_cons, List.foldlM_nil, Option.pure_def, Option.bind_eq_bind,
        Option.bind_eq_some_iff] at h1
      obtain ⟨s2, h2, s3, h3, h4⟩ := h1
      simp only [Option.some.injEq] at h4
      subst h4
      obtain ⟨i1, i2, i3⟩ := ih (fun e' h' => he e' (by simp [h']))
        (fun e' h' => hns e' (by simp [h'])) s2 h2
      obtain ⟨hi, hl⟩ := addElem_spec hg (he e (by simp)) s2 s3 h3
      have hnt : ¬ g.Interior (g.target k c) := by
        intro hI
        have hd0 : (s0.link k c).dist ≠ 999 ∧ s0.ioo (g.target k c) = valout := by
          have hd : (s0.link k c).dist ≠ 999 := by
            rcases C20_box_links g s0 h0 k c hc with ⟨h1, _⟩ | ⟨f', t', ⟨_, h2, _⟩, h1⟩
            · exact absurd hX (h1 f t hA)
            · rw [h1]
              intro hd
              simp only at hd
              have := h2.2.1
              rw [hd] at this; norm_num at this
          have hio : s0.ioo c = valin := by
            rw [(addInit_spec g s0 h0).1]; simp [initState, hc]
          exact ⟨hd, (linkInv_init g s0 h0).out c k hc hio hd⟩
        rw [(addInit_spec g s0 h0).1] at hd0
        simp [initState, hI, valin, valout] at hd0
      have j1 : s3.ioo c = valin := by
        rw [hi c]
        split_ifs with h5 h6
        · rfl
        · have := hns e (by simp) (by simpa using h6)
          rw [point_eq hg hc] at h5
          rw [this] at h5; exact absurd h5.2 (by simp)
        · exact i1
      have j2 : s3.ioo (g.target k c) = valout := by
        rw [hi, if_neg (fun h => hnt h.1)]; exact i2
      refine ⟨j1, j2, ?_⟩
      rw [hl k c]
      split_ifs with hv
      · rcases elemLink_cases e (s3.ioo c)
          (decide (s3.ioo (fun j => c j + g.vel k j) = valout)) (g.point c)
          (fun j => g.dx * (g.vel k j : K)) (s2.link k c) with
            ⟨h1, h2, -⟩ | ⟨-, -, ⟨_, h1, _⟩ | ⟨h1, h2⟩⟩ | ⟨h1, -⟩
        · rw [h1]
          have := ((he e (by simp)).hit _ _ h2).1
          intro hd
          simp only at hd
          rw [hd] at this; norm_num at this
        · have j2' : s3.ioo (fun j => c j + g.vel k j) = valout := j2
          simp [j2'] at h1
        · have := hns e (by simp) h1
          rw [point_eq hg hc, this] at h2
          exact absurd h2 (by simp)
        · rw [h1]; exact i3
      · exact i3
  have hd : (st.link k c).dist ≠ 999 := by
    rw [hst, (C22_clean s1 hinv.pos).2.2.1 k c (by rw [key.1]; decide)]
    exact key.2.2
  have := ((C23_flagged_links g hg elems he st h c hc k).1 hd)
  exact ⟨this.1, this.2.2.1, this.2.2.2⟩

end Pylbm.Domain
