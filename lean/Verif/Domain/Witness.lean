import Verif.Domain.Library
/-!
# Concrete domains: cases meeting the hypotheses of C21, C23, C59, and counterexamples (C59, C61)
-/
set_option linter.unusedSectionVars false
namespace Pylbm.Domain
open Round Storage DomainSpec Geometry GeometrySpec

/-- The box `[0, 4] × [0, 3]` with step 1 on one process, five velocities, labels 1 to 4. -/
def boxGrid : Grid ℚ 2 5 where
  lo := ![0, 0]
  dx := 1
  N := ![4, 3]
  r0 := ![0, 0]
  r1 := ![4, 3]
  h := ![1, 1]
  vel := ![![0, 0], ![1, 0], ![0, 1], ![-1, 0], ![0, -1]]
  userLabel := fun j s => if s then 2 * (j : Int) + 2 else 2 * (j : Int) + 1

theorem boxGrid_wf : boxGrid.WF :=
  ⟨by decide +kernel, by decide +kernel, by decide +kernel⟩

/-- The rectangle `[a, b] × [c, d]`. -/
def rect (a b c d : ℚ) (lab : Int) (fluid : Bool) : Elem ℚ 2 :=
  parallelogramElem (fun _ w => w) ⟨(a, c), (b - a, 0), (0, d - c)⟩ lab lab lab lab fluid

theorem rect_sound {a b c d : ℚ} (h1 : a < b) (h2 : c < d) (lab : Int) (fluid : Bool) :
    (rect a b c d lab fluid).Sound :=
  parallelogramElem_sound _ _ (by
    simp only [mul_zero, sub_zero]
    exact mul_ne_zero (by linarith) (by linarith)) _ _ _ _ _

theorem rect_sees {a b c d : ℚ} (h1 : a < b) (h2 : c < d) (lab : Int) (x v : Fin 2 → ℚ) :
    (rect a b c d lab false).Sees x v :=
  parallelogramElem_sees _ _ (by
    simp only [mul_zero, sub_zero]
    exact mul_ne_zero (by linarith) (by linarith)) _ _ _ _ _ _ _ (by simp)

/-- A solid square of label 7 around the centre of the cell (2, 2) of the array with halo. -/
def obstacle : Elem ℚ 2 := rect (5 / 4) (7 / 4) (5 / 4) (7 / 4) 7 false

/-- A case for C21, C23 and C59: the domain is built, the cell (2, 2) is solid, its neighbour on the
left is fluid and has the distance 3/4 with label 7; the links through the box have distance 1/2. -/
example : ∃ st, build boxGrid [obstacle] = some st ∧ boxGrid.Interior ![1, 2] ∧
    st.ioo ![1, 2] = 999 ∧ boxGrid.target 1 ![1, 2] = ![2, 2] ∧ st.ioo ![2, 2] = -1 ∧
    (st.link 1 ![1, 2]).dist = 3 / 4 ∧ (st.link 1 ![1, 2]).flag = 7 ∧
    (st.link 3 ![1, 2]).dist = 1 / 2 ∧ (st.link 3 ![1, 2]).flag = 1 := by
  refine ⟨(build boxGrid [obstacle]).get (by decide +kernel), (Option.some_get _).symm, ?_⟩
  decide +kernel

example : (∀ e ∈ [obstacle], e.Sound) ∧ ∀ e ∈ [obstacle], ∀ c k, boxGrid.Interior c →
    e.Sees (boxGrid.cellCentre c) (fun j => boxGrid.dx * (boxGrid.vel k j : ℚ)) := by
  simp only [List.mem_singleton, forall_eq]
  exact ⟨rect_sound (by norm_num) (by norm_num) _ _,
    fun c k _ => rect_sees (by norm_num) (by norm_num) _ _ _⟩

/-- C59 is false (1): a cell which is covered by a solid element and opened again by a fluid one has
lost its links through the faces of the box: the cell is fluid, the link leads out of the box through
a face labelled by the user, and no distance is stored. -/
theorem C59_reopened_negation : ∃ (elems : List (Elem ℚ 2)) (st : State ℚ 2 5) (c : Cell 2)
    (k : Fin 5) (f : Face 2) (t : ℚ), boxGrid.WF ∧ (∀ e ∈ elems, e.Sound) ∧
    build boxGrid elems = some st ∧ boxGrid.Interior c ∧ boxGrid.Active f ∧
    Crosses boxGrid.n (boxGrid.inner c) (boxGrid.vel k) f t ∧ st.ioo c = 999 ∧
    (st.link k c).dist = 999 := by
  refine ⟨[rect (-10) 10 (-10) 10 7 false, rect (-10) 10 (-10) 10 8 true],
    (build boxGrid [rect (-10) 10 (-10) 10 7 false, rect (-10) 10 (-10) 10 8 true]).get
      (by decide +kernel), ![1, 2], 3, ⟨0, false⟩, 1 / 2, boxGrid_wf, ?_,
    (Option.some_get _).symm, by decide +kernel, by unfold Grid.Active; decide +kernel,
    by unfold Crosses; decide +kernel, by decide +kernel, by decide +kernel⟩
  intro e he
  simp only [List.mem_cons, List.not_mem_nil, or_false] at he
  rcases he with rfl | rfl <;> exact rect_sound (by norm_num) (by norm_num) _ _

/-- C59 is false (2): a fluid element whose side goes through the centre of a cell: the link which
leaves it from this cell is not seen, so a link from a fluid cell to a solid one carries no
distance. -/
theorem C59_on_border_negation : ∃ (elems : List (Elem ℚ 2)) (st : State ℚ 2 5) (c : Cell 2)
    (k : Fin 5), boxGrid.WF ∧ (∀ e ∈ elems, e.Sound) ∧
    build boxGrid elems = some st ∧ boxGrid.Interior c ∧ boxGrid.Interior (boxGrid.target k c) ∧
    st.ioo c = 999 ∧ st.ioo (boxGrid.target k c) = -1 ∧ (st.link k c).dist = 999 := by
  refine ⟨[rect (-10) 10 (-10) 10 7 false, rect (3 / 2) 3 (-10) 10 8 true],
    (build boxGrid [rect (-10) 10 (-10) 10 7 false, rect (3 / 2) 3 (-10) 10 8 true]).get
      (by decide +kernel), ![2, 2], 3, boxGrid_wf, ?_,
    (Option.some_get _).symm, by decide +kernel, by decide +kernel,
    by decide +kernel, by decide +kernel, by decide +kernel⟩
  intro e he
  simp only [List.mem_cons, List.not_mem_nil, or_false] at he
  rcases he with rfl | rfl <;> exact rect_sound (by norm_num) (by norm_num) _ _

/-- The box of `boxGrid` with periodic faces in the first direction. -/
def periodicGrid : Grid ℚ 2 5 :=
  { boxGrid with userLabel := fun j s => if j = 0 then -1 else if s then 4 else 3 }

/-- C59 is false (3): a solid element which touches a periodic face. The last cell of the row is fluid, its
neighbour through the periodic face is the first cell of the row (arrays of width 4), which is solid; the link
only carries the label -1 of the face: no boundary condition applies to it. -/
theorem C59_periodic_negation : ∃ (e : Elem ℚ 2) (st : State ℚ 2 5) (c c' : Cell 2) (k : Fin 5),
    periodicGrid.WF ∧ e.Sound ∧ build periodicGrid [e] = some st ∧
    periodicGrid.Interior c ∧ periodicGrid.Interior c' ∧
    (∀ j, ∃ q : Int, periodicGrid.target k c j = c' j + q * periodicGrid.n j ∧ (q ≠ 0 → j = 0)) ∧
    st.ioo c = 999 ∧ st.ioo c' = -1 ∧ (st.link k c).flag = -1 := by
  refine ⟨rect 0 1 (-10) 10 7 false, (build periodicGrid [rect 0 1 (-10) 10 7 false]).get
      (by decide +kernel), ![4, 2], ![1, 2], 1,
    ⟨by decide +kernel, by decide +kernel, by decide +kernel⟩, rect_sound (by norm_num) (by norm_num) _ _,
    (Option.some_get _).symm, by decide +kernel, by decide +kernel, ?_, by decide +kernel, by decide +kernel,
    by decide +kernel⟩
  intro j
  refine ⟨if j = 0 then 1 else 0, ?_⟩
  revert j
  decide +kernel

/-- C61 is false: an element which lies on the left of the box, at a distance of two to three cells,
makes the construction fail (shapes of the slices differ), although it contains no cell. -/
theorem C61_negation : ∃ (e : Elem ℚ 2), boxGrid.WF ∧ e.Sound ∧
    (∀ c, boxGrid.Interior c → e.inside (boxGrid.cellCentre c) = false) ∧
    (∃ st, build boxGrid [] = some st) ∧ build boxGrid [e] = none := by
  refine ⟨rect (-4) (-5 / 2) 0 3 7 true, boxGrid_wf, rect_sound (by norm_num) (by norm_num) _ _, ?_,
    ⟨(build boxGrid []).get (by decide +kernel), (Option.some_get _).symm⟩, ?_⟩
  · intro c hc
    by_contra hi
    rw [Bool.not_eq_false] at hi
    have h1 := (rect_sound (a := -4) (b := -5 / 2) (c := 0) (d := 3) (by norm_num) (by norm_num) 7
      true).inside _ hi 0
    have h2 : (0 : ℚ) ≤ boxGrid.cellCentre c 0 := by
      have h3 := (hc 0).1
      have h4 : (1 : Int) ≤ c 0 := h3
      have h5 : (1 : ℚ) ≤ (c 0 : ℚ) := by exact_mod_cast h4
      have h6 : boxGrid.cellCentre c 0 = 0 + 1 * ((((0 : Nat) : Int) + c 0 - ((1 : Nat) : Int) : Int) + 1 / 2 : ℚ) := rfl
      rw [h6]; push_cast; linarith
    have h7 : (rect (-4) (-5 / 2) 0 3 7 true).ur 0 = -5 / 2 := by decide +kernel
    rw [h7] at h1
    linarith [h1.2]
  · have : (build boxGrid [rect (-4) (-5 / 2) 0 3 7 true]).isNone = true := by decide +kernel
    exact Option.isNone_iff_eq_none.1 this

section total
variable {K : Type} [Field K] [LinearOrder K] [IsStrictOrderedRing K] {dim nv : Nat} [FloorRing K]

theorem layers_total (g : Grid K dim nv) (hn : ∀ k j, |g.vel k j| ≤ g.n j) (ax : Fin dim)
    (k : Fin nv) (st : State K dim nv) : ∃ st', layers g ax k st = some st' := by
  have key : ∀ (l : List Nat) (st : State K dim nv) (f : Nat → State K dim nv → State K dim nv),
      (∀ i ∈ l, i < g.n ax) →
      ∃ st', l.foldlM (fun st i => if i < g.n ax then some (f i st) else none) st = some st' := by
    intro l
    induction l with
    | nil => intro st f _; exact ⟨st, rfl⟩
    | cons a l ih =>
      intro st f h
      obtain ⟨st', h'⟩ := ih (f a st) f (fun i hi => h i (by simp [hi]))
      refine ⟨st', ?_⟩
      rw [List.foldlM_cons, if_pos (h a (by simp))]
      exact h'
  have h1 := abs_le.1 (hn k ax)
  unfold layers
  simp only
  split_ifs
  · exact key _ st (fun i st => layer g ax k i (-((i : K) + 1 / 2) / (g.vel k ax : K))
      (g.label ax false) (-1) st) (fun i hi => by have := List.mem_range.1 hi; omega)
  · exact key _ st (fun i st => layer g ax k (g.n ax - 1 - i) (((i : K) + 1 / 2) / (g.vel k ax : K))
      (g.label ax true) 1 st) (fun i hi => by have := List.mem_range.1 hi; omega)
  · exact ⟨st, rfl⟩

theorem foldlM_total {α σ : Type} (f : σ → α → Option σ) (h : ∀ s a, ∃ s', f s a = some s')
    (l : List α) (s : σ) : ∃ s', l.foldlM f s = some s' := by
  induction l generalizing s with
  | nil => exact ⟨s, rfl⟩
  | cons a l ih =>
    obtain ⟨s1, h1⟩ := h s a
    obtain ⟨s2, h2⟩ := ih s1
    exact ⟨s2, by rw [List.foldlM_cons, h1]; exact h2⟩

theorem elemVel_total {g : Grid K dim nv} (hg : g.WF) (e : Elem K dim)
    (he : ∀ j, g.lo j + g.dx * (g.r0 j : K) ≤ e.ur j) (k : Fin nv) (st : State K dim nv) :
    ∃ st', elemVel g e k st = some st' := by
  have hsz : ∀ j, viewSize g e j (g.vel k j) = viewSize g e j 0 := by
    intro j
    have h1 := abs_le.1 (hg.halo k j)
    have h2 : (g.h j : Int) ≤ nmin g e j := le_max_left _ _
    have h3 : nmax g e j ≤ g.h j + g.n j := min_le_left _ _
    by_cases ht : g.total j = 0
    · unfold viewSize sliceBound
      rw [ht]; split_ifs <;> omega
    have h4 : (g.h j : Int) ≤ nmax g e j := by
      have : (0 : Int) ≤ trunc ((e.ur j - g.coord j 0) / g.dx) + 1 := by
        have h5 : ((-1 : Int)) ≤ trunc ((e.ur j - g.coord j 0) / g.dx) := by
          apply le_trunc_of_le
          rw [le_div_iff₀ hg.dx, coord_eq hg j le_rfl (by omega)]
          unfold centre
          have h6 := he j
          have h7 : (0 : K) ≤ g.dx * (g.h j : K) := mul_nonneg hg.dx.le (Nat.cast_nonneg _)
          have h8 := hg.dx
          push_cast
          linarith
        omega
      unfold nmax
      omega
    unfold viewSize sliceBound Grid.total
    split_ifs <;> omega
  unfold elemVel
  split_ifs
  · exact ⟨_, rfl⟩
  · exact ⟨_, rfl⟩

/-- C61 (elements which do not end before the local box on some axis): the construction does not
fail, for any number of elements inside, across or beyond the box, whenever the velocities are not
larger than the local box. -/
theorem C61_build_total_partial (g : Grid K dim nv) (hg : g.WF) (hn : ∀ k j, |g.vel k j| ≤ g.n j)
    (elems : List (Elem K dim)) (he : ∀ e ∈ elems, ∀ j, g.lo j + g.dx * (g.r0 j : K) ≤ e.ur j) :
    ∃ st, build g elems = some st := by
  obtain ⟨s0, h0⟩ : ∃ s0, addInit g = some s0 :=
    foldlM_total _ (fun st ax => foldlM_total _ (fun st k => layers_total g hn ax k st) _ _) _ _
  have h1 : ∀ (l : List (Elem K dim)) (s : State K dim nv), (∀ e ∈ l, e ∈ elems) →
      ∃ s', l.foldlM (addElem g) s = some s' := by
    intro l
    induction l with
    | nil => intro s _; exact ⟨s, rfl⟩
    | cons e l ih =>
      intro s hl
      obtain ⟨s1, h1⟩ := foldlM_total (fun st k => elemVel g e k st)
        (fun st k => elemVel_total hg e (he e (hl e (by simp))) k st) (List.finRange nv)
        (elemIoo g e s)
      obtain ⟨s2, h2⟩ := ih s1 (fun e' h' => hl e' (by simp [h']))
      refine ⟨s2, ?_⟩
      rw [List.foldlM_cons]
      have : addElem g s e = some s1 := h1
      rw [this]; exact h2
  obtain ⟨s1, h1⟩ := h1 elems s0 (fun e h => h)
  exact ⟨clean s1, by unfold build; rw [h0]; simp [h1]⟩

example : (∀ k j, |boxGrid.vel k j| ≤ boxGrid.n j) ∧
    ∀ e ∈ [obstacle, rect 3 20 (-3) 1 2 true], ∀ j, boxGrid.lo j + boxGrid.dx * (boxGrid.r0 j : ℚ) ≤ e.ur j := by
  decide +kernel

end total

end Pylbm.Domain
