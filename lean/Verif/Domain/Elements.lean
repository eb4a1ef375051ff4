import Verif.Domain.Box
/-!
# Lemmas on `__add_elem`
-/

set_option linter.unusedSectionVars false
namespace Pylbm.Domain
open Round Storage DomainSpec

variable {K : Type} [Field K] [LinearOrder K] [IsStrictOrderedRing K] {dim nv : Nat}

/-- Hypotheses on the grid: positive step, regions, and halo as wide as the velocities. -/
structure Grid.WF (g : Grid K dim nv) : Prop where
  dx : 0 < g.dx
  region : ∀ j, g.r0 j ≤ g.r1 j
  halo : ∀ k j, |g.vel k j| ≤ g.h j

/-- The box returned by `get_bounds` contains the element, and a positive distance is a fraction
of the step at which the ray meets a point of this box. -/
structure Elem.Sound (e : Elem K dim) : Prop where
  inside : ∀ x, e.inside x = true → ∀ j, e.bl j ≤ x j ∧ x j ≤ e.ur j
  hit : ∀ x v, 0 < e.alpha x v → e.alpha x v ≤ 1 ∧
    ∀ j, e.bl j ≤ x j + e.alpha x v * v j ∧ x j + e.alpha x v * v j ≤ e.ur j

omit [IsStrictOrderedRing K] in
theorem Grid.interior_range {g : Grid K dim nv} {c : Cell dim} (hc : g.Interior c) (j : Fin dim) :
    0 ≤ c j ∧ c j < g.total j := by
  have := hc j
  unfold Grid.total
  omega

theorem coord_eq {g : Grid K dim nv} (hg : g.WF) (j : Fin dim) {i : Int} (h0 : 0 ≤ i)
    (h1 : i < g.total j) : g.coord j i = centre (g.lo j) g.dx ((g.r0 j : Int) + i - g.h j) := by
  unfold Grid.coord
  rw [coordsHalo_getElem? (g.lo j) g.dx (hg.region j)
    (by unfold Grid.total Grid.n at h1; omega)]
  simp only [Option.getD_some]
  rw [Int.toNat_of_nonneg h0]

theorem coord_sub {g : Grid K dim nv} (hg : g.WF) (j : Fin dim) {i : Int} (h0 : 0 ≤ i)
    (h1 : i < g.total j) : g.coord j i = g.coord j 0 + g.dx * (i : K) := by
  rw [coord_eq hg j h0 h1, coord_eq hg j le_rfl (by omega)]
  unfold centre
  push_cast; ring

theorem point_add {g : Grid K dim nv} (hg : g.WF) {c : Cell dim} {k : Fin nv}
    (hc : ∀ j, 0 ≤ c j ∧ c j < g.total j)
    (ht : ∀ j, 0 ≤ c j + g.vel k j ∧ c j + g.vel k j < g.total j) :
    g.point (fun j => c j + g.vel k j) = fun j => g.point c j + g.dx * (g.vel k j : K) := by
  funext j
  unfold Grid.point
  rw [coord_sub hg j (ht j).1 (ht j).2, coord_sub hg j (hc j).1 (hc j).2]
  push_cast; ring

variable [FloorRing K]

omit [IsStrictOrderedRing K] in
theorem view_range {g : Grid K dim nv} {e : Elem K dim} {c : Cell dim} (hv : InView g e c)
    (j : Fin dim) : nmin g e j ≤ c j ∧ (g.h j : Int) ≤ c j ∧ c j < g.total j ∧ nmax g e j ≠ 0 := by
  have h1 := hv j
  have h2 : (g.h j : Int) ≤ nmin g e j := le_max_left _ _
  unfold sliceBound at h1
  unfold Grid.total at *
  split_ifs at h1 <;> omega

omit [IsStrictOrderedRing K] in
theorem view_pos {g : Grid K dim nv} {e : Elem K dim} {c : Cell dim} (hv : InView g e c)
    (j : Fin dim) (hp : 0 < nmax g e j) : c j < nmax g e j ∧ c j < g.h j + g.n j := by
  have h1 := hv j
  have h2 : nmax g e j ≤ g.h j + g.n j := min_le_left _ _
  unfold sliceBound at h1
  split_ifs at h1 <;> omega

theorem inView_of_bounds {g : Grid K dim nv} (hg : g.WF) {e : Elem K dim} {c t : Cell dim}
    (hc : g.Interior c) (ht : ∀ j, 0 ≤ t j ∧ t j < g.total j) (hct : ∀ j, |c j - t j| ≤ g.h j)
    (hb : ∀ j, e.bl j ≤ g.point t j ∧ g.point t j ≤ e.ur j) : InView g e c := by
  intro j
  have hcj := hc j
  have htj := ht j
  have hd := abs_le.1 (hct j)
  have hbj := hb j
  unfold Grid.point at hbj
  rw [coord_sub hg j htj.1 htj.2] at hbj
  have h1 : trunc ((e.bl j - g.coord j 0) / g.dx) ≤ t j := by
    apply trunc_le_of_le
    rw [div_le_iff₀ hg.dx]; linarith [hbj.1]
  have h2 : t j ≤ trunc ((e.ur j - g.coord j 0) / g.dx) := by
    apply le_trunc_of_le
    rw [le_div_iff₀ hg.dx]; linarith [hbj.2]
  have h3 : nmin g e j ≤ c j := by
    unfold nmin; omega
  have h4 : c j < nmax g e j := by
    unfold nmax; omega
  have h5 : nmax g e j ≤ g.h j + g.n j := min_le_left _ _
  have h6 : (g.h j : Int) ≤ nmin g e j := le_max_left _ _
  unfold sliceBound Grid.total
  rw [if_neg (by omega), if_neg (by omega)]
  omega

/-- A point of the box of the element not too far on the left of the grid prevents the end of the
slice from being negative. -/
theorem nmax_pos {g : Grid K dim nv} (hg : g.WF) {e : Elem K dim} (j : Fin dim)
    (ht : 0 < g.total j) (y : K) (hy : y ≤ e.ur j) (hb : g.coord j 0 - g.dx * (g.h j : K) ≤ y) :
    0 < nmax g e j := by
  have h1 : -(g.h j : Int) ≤ trunc ((e.ur j - g.coord j 0) / g.dx) := by
    apply le_trunc_of_le
    rw [le_div_iff₀ hg.dx]
    push_cast; linarith
  unfold nmax
  unfold Grid.total at ht
  omega

theorem not_inside_of_neg {g : Grid K dim nv} (hg : g.WF) {e : Elem K dim} (he : e.Sound)
    {c : Cell dim} (hv : InView g e c) {j : Fin dim} (hn : nmax g e j < 0) :
    e.inside (g.point c) = false := by
  by_contra hi
  rw [Bool.not_eq_false] at hi
  have hr := view_range hv j
  have := nmax_pos hg (e := e) j (by omega) (g.point c j) (he.inside _ hi j).2 (by
    unfold Grid.point
    rw [coord_sub hg j (by omega) hr.2.2.1]
    have h1 : (0 : K) ≤ (c j : K) := by exact_mod_cast (by omega : (0 : Int) ≤ c j)
    have h2 := mul_nonneg hg.dx.le h1
    have h3 : (0 : K) ≤ g.dx * (g.h j : K) := mul_nonneg hg.dx.le (Nat.cast_nonneg _)
    linarith)
  omega

theorem alpha_of_neg {g : Grid K dim nv} (hg : g.WF) {e : Elem K dim} (he : e.Sound)
    {c : Cell dim} (hv : InView g e c) {j : Fin dim} (hn : nmax g e j < 0) (k : Fin nv) :
    ¬ 0 < e.alpha (g.point c) (fun j => g.dx * (g.vel k j : K)) := by
  intro ha
  have hr := view_range hv j
  obtain ⟨h1, hbnd⟩ := he.hit _ _ ha
  have := nmax_pos hg (e := e) j (by omega) _ (hbnd j).2 (by
    unfold Grid.point
    rw [coord_sub hg j (by omega) hr.2.2.1]
    have h1 : (0 : K) ≤ (c j : K) := by exact_mod_cast (by omega : (0 : Int) ≤ c j)
    have h2 := mul_nonneg hg.dx.le h1
    have h4 : (-(g.h j : K)) ≤ (g.vel k j : K) := by
      exact_mod_cast (abs_le.1 (hg.halo k j)).1
    set a := e.alpha (g.point c) (fun j => g.dx * (g.vel k j : K)) with hadef
    have ha' : 0 < a := ha
    have ha1 : a ≤ 1 := by assumption
    have h5 : -(g.dx * (g.h j : K)) ≤ g.dx * (g.vel k j : K) := by
      have := mul_le_mul_of_nonneg_left h4 hg.dx.le
      linarith
    have h6 : 0 ≤ g.dx * (g.h j : K) := mul_nonneg hg.dx.le (Nat.cast_nonneg _)
    have h7 : -(g.dx * (g.h j : K)) ≤ a * (g.dx * (g.vel k j : K)) := by
      have e1 := mul_le_mul_of_nonneg_left h5 ha'.le
      have e2 := mul_le_mul_of_nonneg_right ha1 h6
      linarith
    change g.coord j 0 - g.dx * (g.h j : K) ≤ g.coord j 0 + g.dx * (c j : K) +
      a * (g.dx * (g.vel k j : K))
    linarith)
  omega

/-- C21, one element: exactly the interior cells inside the element change. -/
theorem elemIoo_spec {g : Grid K dim nv} (hg : g.WF) {e : Elem K dim} (he : e.Sound)
    (st : State K dim nv) (c : Cell dim) : (elemIoo g e st).ioo c =
      if g.Interior c ∧ e.inside (g.point c) = true then (if e.isFluid then valin else valout)
      else st.ioo c := by
  unfold elemIoo
  simp only
  apply if_congr _ rfl rfl
  constructor
  · rintro ⟨hv, hi⟩
    refine ⟨fun j => ?_, hi⟩
    have hr := view_range hv j
    have hp : 0 < nmax g e j := by
      by_contra hn
      have := not_inside_of_neg hg he hv (j := j) (by omega)
      rw [this] at hi; exact absurd hi (by simp)
    exact ⟨hr.2.1, (view_pos hv j hp).2⟩
  · rintro ⟨hc, hi⟩
    refine ⟨inView_of_bounds hg hc (fun j => Grid.interior_range hc j) (fun j => by simp)
      (fun j => he.inside _ hi j), hi⟩

omit [IsStrictOrderedRing K] in
/-- In a non empty view, the shifted slice either is the shift of the view or is empty, and the
second case requires a negative end of slice. -/
theorem viewSize_cases {g : Grid K dim nv} {e : Elem K dim} {c : Cell dim} (hv : InView g e c)
    (j : Fin dim) {s : Int} (hs : |s| ≤ g.h j) :
    0 < viewSize g e j 0 ∧
    ((viewSize g e j s = viewSize g e j 0 ∧
        (sliceBound (g.total j) (nmin g e j + s) : Int) =
          sliceBound (g.total j) (nmin g e j) + s) ∨
      (viewSize g e j s = 0 ∧ nmax g e j < 0)) := by
  have h1 := hv j
  have h2 := view_range hv j
  have h3 : (g.h j : Int) ≤ nmin g e j := le_max_left _ _
  have h4 := abs_le.1 hs
  have h5 : nmax g e j ≤ g.h j + g.n j := min_le_left _ _
  unfold viewSize
  rw [add_zero, add_zero]
  generalize nmin g e j = a at *
  generalize nmax g e j = b at *
  unfold sliceBound Grid.total at *
  rcases lt_or_ge b 0 with hb | hb
  · rw [if_pos hb, if_neg (by omega)] at h1
    rw [if_pos hb, if_neg (show ¬ a < 0 by omega), if_neg (show ¬ a + s < 0 by omega)]
    rcases lt_or_ge (b + s) 0 with hbs | hbs
    · rw [if_pos hbs]; omega
    · rw [if_neg (by omega)]; omega
  · rw [if_neg (by omega), if_neg (by omega)] at h1
    rw [if_neg (show ¬ b < 0 by omega), if_neg (show ¬ a < 0 by omega),
      if_neg (show ¬ a + s < 0 by omega), if_neg (show ¬ b + s < 0 by omega)]
    omega

/-- One velocity of one element, on every cell. -/
theorem elemVel_spec {g : Grid K dim nv} (hg : g.WF) {e : Elem K dim} (he : e.Sound) (k : Fin nv)
    (st st' : State K dim nv) (h : elemVel g e k st = some st') :
    st'.ioo = st.ioo ∧ ∀ k' c, st'.link k' c =
      if k' = k then
        (if (∃ j, g.vel k j ≠ 0) ∧ InView g e c then
          elemLink e (st.ioo c) (decide (st.ioo (fun j => c j + g.vel k j) = valout))
            (g.point c) (fun j => g.dx * (g.vel k j : K)) (st.link k' c)
        else st.link k' c)
      else st.link k' c := by
  unfold elemVel at h
  by_cases hz : ∀ j, g.vel k j = 0
  · rw [if_pos hz] at h
    simp only [Option.some.injEq] at h
    subst h
    refine ⟨rfl, fun k' c => ?_⟩
    have : ¬ ∃ j, g.vel k j ≠ 0 := by push Not; exact hz
    simp [this]
  rw [if_neg hz] at h
  have hz' : ∃ j, g.vel k j ≠ 0 := by push Not at hz; exact hz
  simp only [hz', true_and]
  by_cases hsz : ∀ j, viewSize g e j (g.vel k j) = viewSize g e j 0
  · rw [if_pos hsz] at h
    simp only [Option.some.injEq] at h
    subst h
    refine ⟨rfl, fun k' c => ?_⟩
    unfold elemLinks
    simp only [if_true]
    by_cases hk : k' = k
    · subst hk
      by_cases hv : InView g e c
      · simp only [hv, and_true, if_true]
        have : shifted g e (g.vel k') c = fun j => c j + g.vel k' j := by
          funext j
          unfold shifted
          obtain ⟨h0, ⟨_, h2⟩ | ⟨h1, _⟩⟩ := viewSize_cases hv j (hg.halo k' j)
          · rw [h2]; ring
          · have := hsz j; omega
        rw [this]
      · simp [hv]
    · simp [hk]
  rw [if_neg hsz] at h
  have hno : (∃ j, viewSize g e j 0 = 0) → ∀ c, ¬ InView g e c := by
    rintro ⟨j, hj⟩ c hv
    have := (viewSize_cases hv j (hg.halo k j)).1
    omega
  by_cases hf : e.isFluid = true
  · rw [if_pos hf] at h
    split_ifs at h with hb
    simp only [Option.some.injEq] at h
    subst h
    refine ⟨rfl, fun k' c => ?_⟩
    simp [hno hb.2 c]
  rw [if_neg hf] at h
  rw [Bool.not_eq_true] at hf
  by_cases hs0 : ∃ j, viewSize g e j (g.vel k j) = 0
  · rw [if_pos hs0] at h
    simp only [Option.some.injEq] at h
    subst h
    refine ⟨rfl, fun k' c => ?_⟩
    unfold elemLinks
    simp only
    by_cases hk : k' = k
    · subst hk
      by_cases hv : InView g e c
      · simp only [hv, and_true, if_true]
        obtain ⟨j, hj⟩ := hs0
        obtain ⟨h0, ⟨h1, _⟩ | ⟨_, h1⟩⟩ := viewSize_cases hv j (hg.halo k' j)
        · omega
        · have hi := not_inside_of_neg hg he hv h1
          have ha := alpha_of_neg hg he hv h1 k'
          unfold elemLink
          simp [hf, hi, ha]
      · simp [hv]
    · simp [hk]
  · rw [if_neg hs0] at h
    split_ifs at h with hb
    simp only [Option.some.injEq] at h
    subst h
    refine ⟨rfl, fun k' c => ?_⟩
    simp [hno hb.2 c]

/-- One element, on every cell. -/
theorem addElem_spec {g : Grid K dim nv} (hg : g.WF) {e : Elem K dim} (he : e.Sound)
    (st st' : State K dim nv) (h : addElem g st e = some st') :
    (∀ c, st'.ioo c = if g.Interior c ∧ e.inside (g.point c) = true then
        (if e.isFluid then valin else valout) else st.ioo c) ∧
    ∀ k c, st'.link k c =
      if (∃ j, g.vel k j ≠ 0) ∧ InView g e c then
        elemLink e (st'.ioo c) (decide (st'.ioo (fun j => c j + g.vel k j) = valout))
          (g.point c) (fun j => g.dx * (g.vel k j : K)) (st.link k c)
      else st.link k c := by
  unfold addElem at h
  obtain ⟨hi, hl⟩ := foldVel (fun st k => elemVel g e k st) State.ioo State.link
    (fun k c L => if (∃ j, g.vel k j ≠ 0) ∧ InView g e c then
        elemLink e ((elemIoo g e st).ioo c)
          (decide ((elemIoo g e st).ioo (fun j => c j + g.vel k j) = valout))
          (g.point c) (fun j => g.dx * (g.vel k j : K)) L
      else L) (elemIoo g e st).ioo
    (by
      intro s k s' hio hs
      obtain ⟨a, b⟩ := elemVel_spec hg he k s s' hs
      refine ⟨a.trans hio, fun k' c => ?_⟩
      rw [b k' c, hio]
      by_cases hk : k' = k
      · subst hk; simp
      · simp [hk])
    _ (List.nodup_finRange nv) _ st' rfl h
  refine ⟨fun c => ?_, fun k c => ?_⟩
  · rw [hi, elemIoo_spec hg he]
  · rw [hl k c, if_pos (List.mem_finRange k), hi]
    rfl

end Pylbm.Domain
