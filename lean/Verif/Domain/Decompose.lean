import Verif.Domain.Witness
/-!
# The domain of a process is the restriction of the whole domain: property C62
-/
set_option linter.unusedSectionVars false
namespace Pylbm.Domain
open Round Storage DomainSpec

variable {K : Type} [Field K] [LinearOrder K] [IsStrictOrderedRing K] {dim nv : Nat} [FloorRing K]

/-- The same grid on one process. -/
def Grid.whole (g : Grid K dim nv) : Grid K dim nv := { g with r0 := fun _ => 0, r1 := g.N }

/-- The cell of the whole array at the place of the cell `c` of the local array. -/
def Grid.global (g : Grid K dim nv) (c : Cell dim) : Cell dim := fun j => c j + g.r0 j

/-- The cell is not beyond an interface between processes. -/
def Grid.Clear (g : Grid K dim nv) (t : Cell dim) : Prop :=
  ∀ j, (g.r0 j ≠ 0 → (g.h j : Int) ≤ t j) ∧ (g.r1 j ≠ g.N j → t j < g.h j + g.n j)

theorem whole_wf {g : Grid K dim nv} (hg : g.WF) : g.whole.WF :=
  ⟨hg.dx, fun _ => Nat.zero_le _, hg.halo⟩

theorem interior_global {g : Grid K dim nv} (hg : g.WF) (hN : ∀ j, g.r1 j ≤ g.N j) {t : Cell dim}
    (ht : g.Clear t) : g.Interior t ↔ g.whole.Interior (g.global t) := by
  unfold Grid.Interior Grid.global Grid.whole Grid.n
  simp only [Nat.sub_zero]
  constructor
  · intro h j
    have := h j; have := hN j; have := hg.region j
    unfold Grid.n at *
    omega
  · intro h j
    have h1 := h j; have h2 := hN j; have h3 := hg.region j
    have h4 := ht j
    unfold Grid.n at *
    by_cases e1 : g.r0 j = 0 <;> by_cases e2 : g.r1 j = g.N j
    · omega
    · have := h4.2 e2; omega
    · have := h4.1 e1; omega
    · have := h4.1 e1; have := h4.2 e2; omega

theorem interior_clear {g : Grid K dim nv} {c : Cell dim} (hc : g.Interior c) : g.Clear c :=
  fun j => ⟨fun _ => (hc j).1, fun _ => (hc j).2⟩

theorem centre_global (g : Grid K dim nv) (c : Cell dim) :
    g.whole.cellCentre (g.global c) = g.cellCentre c := by
  funext j
  unfold Grid.cellCentre Grid.global Grid.whole
  simp only
  congr 1
  push_cast; ring

theorem crossing_global {g : Grid K dim nv} (hg : g.WF) (hN : ∀ j, g.r1 j ≤ g.N j) (ax : Fin dim)
    (k : Fin nv) {c : Cell dim} (ht : g.Clear (g.target k c)) :
    crossing g.whole ax k (g.global c) = crossing g ax k c := by
  have h1 := ht ax
  have h2 := hN ax
  have h3 := hg.region ax
  unfold Grid.target at h1
  unfold crossing Grid.label Grid.n
  simp only [Grid.whole, Grid.global, ne_eq, not_true_eq_false, if_false, if_true, Nat.sub_zero,
    Bool.true_eq_false]
  unfold Grid.n at h1
  by_cases hv : g.vel k ax < 0
  · have hv' : ¬ 0 < g.vel k ax := by omega
    simp only [hv, hv', true_and, false_and, if_false]
    by_cases e1 : g.r0 ax = 0
    · simp only [e1, not_true_eq_false, if_false, Nat.cast_zero, add_zero]
    · simp only [e1, not_false_eq_true, if_true, not_true_eq_false, if_false]
      have := h1.1 e1
      split_ifs <;> first | rfl | omega
  · simp only [hv, false_and, if_false]
    by_cases hv' : 0 < g.vel k ax
    · simp only [hv', true_and]
      by_cases e2 : g.r1 ax = g.N ax
      · simp only [e2, not_true_eq_false, if_false]
        have e3 : ((g.N ax : Int) ≤ c ax + (g.r0 ax : Int) - g.h ax + g.vel k ax) ↔
            (((g.N ax - g.r0 ax : Nat) : Int) ≤ c ax - g.h ax + g.vel k ax) := by omega
        have e4 : ((g.N ax : K) - 1 - ((c ax + (g.r0 ax : Int) - g.h ax : Int) : K) + 1 / 2) =
            (((g.N ax - g.r0 ax : Nat) : K) - 1 - ((c ax - g.h ax : Int) : K) + 1 / 2) := by
          rw [Nat.cast_sub (by omega)]; push_cast; ring
        simp only [e3, e4]
      · simp only [e2, not_false_eq_true, if_true, not_true_eq_false, if_false]
        have := h1.2 e2
        split_ifs <;> first | rfl | omega
    · simp only [hv', false_and, if_false]

/-- Outside of its view, an element would not change the link either. -/
theorem addElem_link {g : Grid K dim nv} (hg : g.WF) {l : List (Elem K dim)} {e : Elem K dim}
    (he : e.Sound) {st st' : State K dim nv} (hinv : LinkInv g l st)
    (h : addElem g st e = some st') (k : Fin nv) {c : Cell dim} (hc : g.Interior c) :
    st'.link k c = if ∃ j, g.vel k j ≠ 0 then
      elemLink e (st'.ioo c) (decide (st'.ioo (g.target k c) = valout)) (g.cellCentre c)
        (fun j => g.dx * (g.vel k j : K)) (st.link k c) else st.link k c := by
  have hinv' := linkInv_step hg he hinv h
  have hl := (addElem_spec hg he st st' h).2 k c
  by_cases hz : ∃ j, g.vel k j ≠ 0
  · by_cases hv : InView g e c
    · rw [hl, if_pos ⟨hz, hv⟩, if_pos hz, point_eq hg hc]; rfl
    · have hl' : st'.link k c = st.link k c := by rw [hl, if_neg (fun h => hv h.2)]
      rw [if_pos hz, hl']
      have hni : e.inside (g.cellCentre c) = false := by
        rw [← Bool.not_eq_true]
        intro hi
        rw [← point_eq hg hc] at hi
        exact hv (inView_of_bounds hg hc (fun j => Grid.interior_range hc j) (fun j => by simp)
          (fun j => he.inside _ hi j))
      have hna : ¬ 0 < e.alpha (g.cellCentre c) (fun j => g.dx * (g.vel k j : K)) := by
        intro ha
        obtain ⟨ha1, hb⟩ := he.hit _ _ ha
        set α := e.alpha (g.cellCentre c) (fun j => g.dx * (g.vel k j : K)) with hα
        apply hv
        intro j
        have hcj := hc j
        have hr := Grid.interior_range hc j
        have hbj := hb j
        rw [← point_eq hg hc] at hbj
        unfold Grid.point at hbj
        rw [coord_sub hg j hr.1 hr.2] at hbj
        have hvel := abs_le.1 (hg.halo k j)
        have w1 : -(g.h j : K) ≤ (g.vel k j : K) := by exact_mod_cast hvel.1
        have w2 : (g.vel k j : K) ≤ (g.h j : K) := by exact_mod_cast hvel.2
        have w0 : (0 : K) ≤ (g.h j : K) := Nat.cast_nonneg _
        have u1 : α * (g.vel k j : K) ≤ (g.h j : K) := by
          calc α * (g.vel k j : K) ≤ α * (g.h j : K) := mul_le_mul_of_nonneg_left w2 ha.le
            _ ≤ 1 * (g.h j : K) := mul_le_mul_of_nonneg_right ha1 w0
            _ = _ := one_mul _
        have u2 : -(g.h j : K) ≤ α * (g.vel k j : K) := by
          have : α * -(g.h j : K) ≤ α * (g.vel k j : K) := mul_le_mul_of_nonneg_left w1 ha.le
          have h5 : α * (g.h j : K) ≤ 1 * (g.h j : K) := mul_le_mul_of_nonneg_right ha1 w0
          linarith
        have h1 : trunc ((e.bl j - g.coord j 0) / g.dx) ≤ c j + g.h j := by
          apply trunc_le_of_le
          rw [div_le_iff₀ hg.dx]
          have := mul_le_mul_of_nonneg_left u1 hg.dx.le
          push_cast
          linarith [hbj.1]
        have h2 : c j - g.h j ≤ trunc ((e.ur j - g.coord j 0) / g.dx) := by
          apply le_trunc_of_le
          rw [le_div_iff₀ hg.dx]
          have := mul_le_mul_of_nonneg_left u2 hg.dx.le
          push_cast
          linarith [hbj.2]
        have h3 : nmin g e j ≤ c j := by unfold nmin; omega
        have h4 : c j < nmax g e j := by unfold nmax; omega
        have h5 : nmax g e j ≤ g.h j + g.n j := min_le_left _ _
        have h6 : (g.h j : Int) ≤ nmin g e j := le_max_left _ _
        unfold sliceBound Grid.total
        rw [if_neg (by omega), if_neg (by omega)]
        omega
      rcases elemLink_cases e (st'.ioo c) (decide (st'.ioo (g.target k c) = valout))
        (g.cellCentre c) (fun j => g.dx * (g.vel k j : K)) (st.link k c) with
          ⟨-, h1, -⟩ | ⟨h1, h2, ⟨hf, hout, hio⟩ | ⟨_, h3⟩⟩ | ⟨h1, -⟩
      · exact absurd h1 hna
      · have hd : (st.link k c).dist = 999 := by
          by_contra hd
          rw [← hl'] at hd
          have := hinv'.out c k hc hio hd
          simp [this] at hout
        have hfl : (st.link k c).flag = 999 := by
          rw [← hl'] at hd ⊢; exact hinv'.reset k c hd
        unfold elemLink
        simp only [hf, hout, hio, hni, if_true, valin_cast, Bool.not_false, and_self, Bool.and_false,
          Bool.false_and]
        cases hL : st.link k c with
        | mk d f n =>
          rw [hL] at hd hfl
          simp only at hd hfl
          simp [hd, hfl, valin]
      · rw [hni] at h3; exact absurd h3 (by simp)
      · exact h1.symm
  · rw [hl, if_neg (fun h => hz h.1), if_neg hz]

/-- C62 (links which do not go through an interface between processes): the state of an interior
cell, and its links which do not lead beyond an interface, are those of the same cell in the domain
built on one process from the same elements. -/
theorem C62_restriction_partial (g : Grid K dim nv) (hg : g.WF) (hN : ∀ j, g.r1 j ≤ g.N j)
    (elems : List (Elem K dim)) (he : ∀ e ∈ elems, e.Sound) (st ST : State K dim nv)
    (h : build g elems = some st) (H : build g.whole elems = some ST) (c : Cell dim)
    (hc : g.Interior c) :
    st.ioo c = ST.ioo (g.global c) ∧
    ∀ k, g.Clear (g.target k c) → st.link k c = ST.link k (g.global c) := by
  obtain ⟨s0, s1, h0, h1, rfl⟩ := build_some h
  obtain ⟨S0, S1, H0, H1, rfl⟩ := build_some H
  have hG := whole_wf hg
  -- the map
  have hio : ∀ (l : List (Elem K dim)) (s S : State K dim nv), (∀ e ∈ l, e.Sound) →
      l.foldlM (addElem g) s0 = some s → l.foldlM (addElem g.whole) S0 = some S →
      ∀ t, g.Clear t → s.ioo t = S.ioo (g.global t) := by
    intro l s S hl hs hS t ht
    rw [fold_ioo hg l hl s0 s (addInit_spec g s0 h0).1 hs,
      fold_ioo hG l hl S0 S (addInit_spec g.whole S0 H0).1 hS]
    have e1 := interior_global hg hN ht
    by_cases hI : g.Interior t
    · rw [point_eq hg hI, point_eq hG (e1.1 hI), centre_global]
      simp [hI, e1.1 hI]
    · have hI' : ¬ g.whole.Interior (g.global t) := fun h => hI (e1.2 h)
      simp [hI, hI']
  -- the links
  have hlk : ∀ (l : List (Elem K dim)) (s S : State K dim nv), (∀ e ∈ l, e.Sound) →
      l.foldlM (addElem g) s0 = some s → l.foldlM (addElem g.whole) S0 = some S →
      ∀ k, g.Clear (g.target k c) → s.link k c = S.link k (g.global c) := by
    intro l
    induction l using List.reverseRecOn with
    | nil =>
      intro s S _ hs hS k hk
      simp only [List.foldlM_nil, Option.pure_def, Option.some.injEq] at hs hS
      subst hs; subst hS
      rw [(addInit_spec g s0 h0).2 k c, (addInit_spec g.whole S0 H0).2 k (g.global c), if_pos hc,
        if_pos ((interior_global hg hN (interior_clear hc)).1 hc)]
      congr 1
      funext L ax
      unfold axisUpd
      rw [crossing_global hg hN ax k hk]
    | append_singleton l e ih =>
      intro s S hl hs hS k hk
      have hs' := hs
      have hS' := hS
      rw [List.foldlM_append] at hs hS
      simp only [List.foldlM_cons, List.foldlM_nil, Option.pure_def, Option.bind_eq_bind,
        Option.bind_eq_some_iff] at hs hS
      obtain ⟨s2, hs2, s3, hs3, e3⟩ := hs
      obtain ⟨S2, hS2, S3, hS3, E3⟩ := hS
      simp only [Option.some.injEq] at e3 E3
      subst e3; subst E3
      have hl' : ∀ e ∈ l, e.Sound := fun e' h' => hl e' (by simp [h'])
      have hcI := (interior_global hg hN (interior_clear hc)).1 hc
      rw [addElem_link hg (hl e (by simp)) (linkInv_fold hg l hl' s0 s2 h0 hs2) hs3 k hc,
        addElem_link hG (hl e (by simp)) (linkInv_fold hG l hl' S0 S2 H0 hS2) hS3 k hcI,
        ih s2 S2 hl' hs2 hS2 k hk, hio _ s3 S3 hl hs' hS' c (interior_clear hc),
        hio _ s3 S3 hl hs' hS' _ hk, centre_global]
      have ht : g.whole.target k (g.global c) = g.global (g.target k c) := by
        funext j
        unfold Grid.target Grid.global Grid.whole
        simp only; ring
      rw [ht]; rfl
  have hioc := hio elems s1 S1 he h1 H1 c (interior_clear hc)
  refine ⟨hioc, fun k hk => ?_⟩
  have := hlk elems s1 S1 he h1 H1 k hk
  unfold clean
  simp only
  rw [this, hioc]

/-- The regions beyond the interfaces are at least as wide as the halo. -/
def Grid.Wide (g : Grid K dim nv) : Prop :=
  ∀ j, (g.r0 j ≠ 0 → g.h j ≤ g.r0 j) ∧ (g.r1 j ≠ g.N j → g.r1 j + g.h j ≤ g.N j)

theorem crossing_wide {g : Grid K dim nv} (hg : g.WF) (hN : ∀ j, g.r1 j ≤ g.N j) (hw : g.Wide)
    (ax : Fin dim) (k : Fin nv) {c : Cell dim} (hc : g.Interior c) :
    crossing g.whole ax k (g.global c) = crossing g ax k c := by
  have h1 := hw ax
  have h2 := hN ax
  have h3 := hg.region ax
  have h4 := hc ax
  have h5 := abs_le.1 (hg.halo k ax)
  unfold crossing Grid.label Grid.n
  simp only [Grid.whole, Grid.global, ne_eq, not_true_eq_false, if_false, if_true, Nat.sub_zero,
    Bool.true_eq_false]
  unfold Grid.n at h4
  by_cases hv : g.vel k ax < 0
  · have hv' : ¬ 0 < g.vel k ax := by omega
    simp only [hv, hv', true_and, false_and, if_false]
    by_cases e1 : g.r0 ax = 0
    · simp only [e1, not_true_eq_false, if_false, Nat.cast_zero, add_zero]
    · simp only [e1, not_false_eq_true, if_true, not_true_eq_false, if_false]
      have := h1.1 e1
      split_ifs <;> first | rfl | omega
  · simp only [hv, false_and, if_false]
    by_cases hv' : 0 < g.vel k ax
    · simp only [hv', true_and]
      by_cases e2 : g.r1 ax = g.N ax
      · simp only [e2, not_true_eq_false, if_false]
        have e3 : ((g.N ax : Int) ≤ c ax + (g.r0 ax : Int) - g.h ax + g.vel k ax) ↔
            (((g.N ax - g.r0 ax : Nat) : Int) ≤ c ax - g.h ax + g.vel k ax) := by omega
        have e4 : ((g.N ax : K) - 1 - ((c ax + (g.r0 ax : Int) - g.h ax : Int) : K) + 1 / 2) =
            (((g.N ax - g.r0 ax : Nat) : K) - 1 - ((c ax - g.h ax : Int) : K) + 1 / 2) := by
          rw [Nat.cast_sub (by omega)]; push_cast; ring
        simp only [e3, e4]
      · simp only [e2, not_false_eq_true, if_true, not_true_eq_false, if_false]
        have := h1.2 e2
        split_ifs <;> first | rfl | omega
    · simp only [hv', false_and, if_false]

/-- A link which does not meet the element: only the reset may change it. -/
theorem elemLink_away (e : Elem K dim) (ioo : Int) (out : Bool) (x v : Fin dim → K) (L : Link K dim)
    (ha : ¬ 0 < e.alpha x v) : elemLink e ioo out x v L =
      if (e.isFluid = true ∧ out = false ∧ ioo = valin) ∨ (e.isFluid = false ∧ e.inside x = true) then
        { L with dist := 999, flag := 999 } else L := by
  unfold elemLink
  simp only [ha, decide_false, Bool.false_and, valin_cast]
  cases e.isFluid <;> cases out <;> by_cases h : ioo = valin <;> cases e.inside x <;> simp [h, valin]

/-- C62 (links through an interface): all the links of an interior cell are those of the same cell in the
domain built on one process, if the neighbours are at least as wide as the halo and no element is met by a
link which leads beyond an interface.  Missing: elements met by such links, see `C62_negation`. -/
theorem C62_away_partial (g : Grid K dim nv) (hg : g.WF) (hN : ∀ j, g.r1 j ≤ g.N j) (hw : g.Wide)
    (elems : List (Elem K dim)) (he : ∀ e ∈ elems, e.Sound) (st ST : State K dim nv)
    (h : build g elems = some st) (H : build g.whole elems = some ST) (c : Cell dim)
    (hc : g.Interior c) (k : Fin nv)
    (haway : g.Clear (g.target k c) ∨
      ∀ e ∈ elems, e.alpha (g.cellCentre c) (fun j => g.dx * (g.vel k j : K)) ≤ 0) :
    st.link k c = ST.link k (g.global c) := by
  by_cases hcl : g.Clear (g.target k c)
  · exact (C62_restriction_partial g hg hN elems he st ST h H c hc).2 k hcl
  have ha := haway.resolve_left hcl
  have hioc := (C62_restriction_partial g hg hN elems he st ST h H c hc).1
  obtain ⟨s0, s1, h0, h1, rfl⟩ := build_some h
  obtain ⟨S0, S1, H0, H1, rfl⟩ := build_some H
  have hG := whole_wf hg
  have hcI := (interior_global hg hN (interior_clear hc)).1 hc
  have htn : ¬ g.Interior (g.target k c) := fun hI => hcl (interior_clear hI)
  have ht : g.whole.target k (g.global c) = g.global (g.target k c) := by
    funext j
    unfold Grid.target Grid.global Grid.whole
    simp only; ring
  have hio : ∀ (l : List (Elem K dim)) (s S : State K dim nv), (∀ e ∈ l, e.Sound) →
      l.foldlM (addElem g) s0 = some s → l.foldlM (addElem g.whole) S0 = some S →
      s.ioo c = S.ioo (g.global c) ∧ s.ioo (g.target k c) = valout ∧
      (¬ g.whole.Interior (g.global (g.target k c)) → S.ioo (g.global (g.target k c)) = valout) := by
    intro l s S hl hs hS
    have f1 := fold_ioo hg l hl s0 s (addInit_spec g s0 h0).1 hs
    have f2 := fold_ioo hG l hl S0 S (addInit_spec g.whole S0 H0).1 hS
    refine ⟨?_, ?_, fun hn => ?_⟩
    · rw [f1, f2, point_eq hg hc, point_eq hG hcI, centre_global]
      simp [hc, hcI]
    · rw [f1, if_neg (fun h => htn h.1)]
    · rw [f2, if_neg (fun h => hn h.1)]
  have hlk : ∀ (l : List (Elem K dim)) (s S : State K dim nv), (∀ e ∈ l, e ∈ elems) →
      l.foldlM (addElem g) s0 = some s → l.foldlM (addElem g.whole) S0 = some S →
      s.link k c = S.link k (g.global c) ∧
      (((S.link k (g.global c)).dist = 999 ∧ (S.link k (g.global c)).flag = 999) ∨
        ¬ g.whole.Interior (g.global (g.target k c))) := by
    intro l
    induction l using List.reverseRecOn with
    | nil =>
      intro s S _ hs hS
      simp only [List.foldlM_nil, Option.pure_def, Option.some.injEq] at hs hS
      subst hs; subst hS
      constructor
      · rw [(addInit_spec g s0 h0).2 k c, (addInit_spec g.whole S0 H0).2 k (g.global c), if_pos hc,
          if_pos hcI]
        congr 1
        funext L ax
        unfold axisUpd
        rw [crossing_wide hg hN hw ax k hc]
      · have hinv := linkInv_init g.whole S0 H0
        by_cases hd : (S0.link k (g.global c)).dist = 999
        · exact Or.inl ⟨hd, hinv.reset _ _ hd⟩
        · right
          have hi := (addInit_spec g.whole S0 H0).1
          have := hinv.out (g.global c) k hcI (by rw [hi]; simp [initState, hcI]) hd
          rw [ht, hi] at this
          intro hI
          simp [initState, hI, valin, valout] at this
    | append_singleton l e ih =>
      intro s S hl hs hS
      have hs' := hs
      have hS' := hS
      rw [List.foldlM_append] at hs hS
      simp only [List.foldlM_cons, List.foldlM_nil, Option.pure_def, Option.bind_eq_bind,
        Option.bind_eq_some_iff] at hs hS
      obtain ⟨s2, hs2, s3, hs3, e3⟩ := hs
      obtain ⟨S2, hS2, S3, hS3, E3⟩ := hS
      simp only [Option.some.injEq] at e3 E3
      subst e3; subst E3
      have hl' : ∀ e ∈ l, e ∈ elems := fun e' h' => hl e' (by simp [h'])
      have hls : ∀ e ∈ l, e.Sound := fun e' h' => he e' (hl' e' h')
      have hel := hl e (by simp)
      obtain ⟨i1, i2⟩ := ih s2 S2 hl' hs2 hS2
      obtain ⟨j1, j2, j3⟩ := hio _ s3 S3 (fun e' h' => he e' (hl e' h')) hs' hS'
      have hae : ¬ 0 < e.alpha (g.cellCentre c) (fun j => g.dx * (g.vel k j : K)) := not_lt.2 (ha e hel)
      have A1 := addElem_link hg (he e hel) (linkInv_fold hg l hls s0 s2 h0 hs2) hs3 k hc
      have A2 := addElem_link hG (he e hel) (linkInv_fold hG l hls S0 S2 H0 hS2) hS3 k hcI
      rw [ht, centre_global] at A2
      rw [elemLink_away _ _ _ _ _ _ hae] at A1
      change _ = if ∃ j, g.vel k j ≠ 0 then elemLink e _ _ _ (fun j => g.dx * (g.vel k j : K)) _ else _ at A2
      rw [elemLink_away _ _ _ _ _ _ hae] at A2
      rw [j2] at A1
      rw [A1, A2, i1, j1]
      rcases i2 with ⟨d1, d2⟩ | hn
      · have hL : ({ S2.link k (g.global c) with dist := 999, flag := 999 } : Link K dim) =
            S2.link k (g.global c) := by
          cases hL : S2.link k (g.global c) with
          | mk d f n => rw [hL] at d1 d2; simp only at d1 d2; rw [d1, d2]
        rw [hL]
        simp [d1, d2]
      · rw [j3 hn]
        exact ⟨rfl, Or.inr hn⟩
  have := (hlk elems s1 S1 (fun _ h => h) h1 H1).1
  unfold clean at hioc ⊢
  simp only at hioc ⊢
  rw [this, hioc]

/-- The left half of `boxGrid`, on two processes. -/
def halfGrid : Grid ℚ 2 5 := { boxGrid with r1 := ![2, 3] }

/-- A case for C62. -/
example : ∃ st ST, build halfGrid [obstacle] = some st ∧ build halfGrid.whole [obstacle] = some ST ∧
    halfGrid.WF ∧ (∀ j, halfGrid.r1 j ≤ halfGrid.N j) ∧ halfGrid.Interior ![1, 2] ∧
    halfGrid.Clear (halfGrid.target 1 ![1, 2]) ∧ (st.link 1 ![1, 2]).flag = 7 := by
  refine ⟨(build halfGrid [obstacle]).get (by decide +kernel),
    (build halfGrid.whole [obstacle]).get (by decide +kernel), (Option.some_get _).symm,
    (Option.some_get _).symm, ⟨by decide +kernel, by decide +kernel, by decide +kernel⟩,
    by decide +kernel, by decide +kernel, by unfold Grid.Clear; decide +kernel, by decide +kernel⟩

/-- A case for `C62_away_partial`: the obstacle is not met by the links through the interface. -/
example : ∃ st ST, build halfGrid [obstacle] = some st ∧ build halfGrid.whole [obstacle] = some ST ∧
    halfGrid.WF ∧ halfGrid.Wide ∧ halfGrid.Interior ![2, 3] ∧
    ¬ halfGrid.Clear (halfGrid.target 1 ![2, 3]) ∧
    obstacle.alpha (halfGrid.cellCentre ![2, 3]) (fun j => halfGrid.dx * (halfGrid.vel 1 j : ℚ)) ≤ 0 := by
  refine ⟨(build halfGrid [obstacle]).get (by decide +kernel),
    (build halfGrid.whole [obstacle]).get (by decide +kernel), (Option.some_get _).symm,
    (Option.some_get _).symm, ⟨by decide +kernel, by decide +kernel, by decide +kernel⟩,
    by unfold Grid.Wide; decide +kernel, by decide +kernel, by unfold Grid.Clear; decide +kernel,
    by decide +kernel⟩

/-- C62 is false for links through an interface: a thin element between two cells of different
processes contains no cell, so the whole domain has no distance there; the domain of the process
has one. -/
theorem C62_negation : ∃ (e : Elem ℚ 2) (st ST : State ℚ 2 5), halfGrid.WF ∧ e.Sound ∧
    build halfGrid [e] = some st ∧ build halfGrid.whole [e] = some ST ∧
    halfGrid.Interior ![2, 2] ∧ (st.link 1 ![2, 2]).dist = 1 / 4 ∧ (st.link 1 ![2, 2]).flag = 7 ∧
    (ST.link 1 (halfGrid.global ![2, 2])).dist = 999 := by
  refine ⟨rect (7 / 4) (9 / 4) 0 3 7 false,
    (build halfGrid [rect (7 / 4) (9 / 4) 0 3 7 false]).get (by decide +kernel),
    (build halfGrid.whole [rect (7 / 4) (9 / 4) 0 3 7 false]).get (by decide +kernel),
    ⟨by decide +kernel, by decide +kernel, by decide +kernel⟩,
    rect_sound (by norm_num) (by norm_num) _ _, (Option.some_get _).symm,
    (Option.some_get _).symm, by decide +kernel, by decide +kernel, by decide +kernel,
    by decide +kernel⟩

end Pylbm.Domain
