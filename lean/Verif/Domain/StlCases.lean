import Verif.Domain.Stl
/-!
# Cases for C87: a tetrahedron in a box
-/
set_option linter.unusedSectionVars false
namespace Pylbm.Domain
open Round Storage DomainSpec Stl

/-- No coordinate plane, no edge of the tetrahedron seen along an axis, and not its oblique face. -/
structure Generic (x : Pt ℚ) : Prop where
  c0 : x 0 ≠ 0
  c1 : x 1 ≠ 0
  c2 : x 2 ≠ 0
  e01 : x 0 + x 1 ≠ 1
  e02 : x 0 + x 2 ≠ 1
  e12 : x 1 + x 2 ≠ 1
  f : x 0 + x 1 + x 2 ≠ 1

theorem clear_tetra {x : Pt ℚ} (h : Generic x) (d : Fin 3) : Stl.Clear tetra x d := by
  obtain ⟨c0, c1, c2, e01, e02, e12, f⟩ := h
  intro t ht s hs hin
  obtain ⟨α, β, γ, h1, h2, h3, h4, h5⟩ := hin
  have p0 := h5 0
  have p1 := h5 1
  have p2 := h5 2
  simp only [tetra, List.mem_cons, List.not_mem_nil, or_false] at ht
  have pos : ∀ {a : ℚ}, 0 ≤ a → a ≠ 0 → 0 < a := fun a b => lt_of_le_of_ne a (Ne.symm b)
  rcases ht with rfl | rfl | rfl | rfl <;> fin_cases d <;> simp [along, unit] at p0 p1 p2 <;>
    first
    | exact absurd p0 c0
    | exact absurd p1 c1
    | exact absurd p2 c2
    | (refine ⟨pos hs fun e => ?_, ⟨α, β, γ, pos h1 fun e => ?_, pos h2 fun e => ?_, pos h3 fun e => ?_, h4, h5⟩, ?_⟩ <;>
        first
        | (simp [detA, det3, unit])
        | (first
            | exact c0 (by linarith) | exact c1 (by linarith) | exact c2 (by linarith)
            | exact e01 (by linarith) | exact e02 (by linarith) | exact e12 (by linarith)
            | exact f (by linarith)))

/-- Clear half lines are enough for C72. -/
theorem good_of_clear {K : Type} [Field K] [LinearOrder K] [IsStrictOrderedRing K] {m : Mesh K} {x : Pt K}
    (h : ∀ d, Stl.Clear m x d) : GoodPoint m x := by
  by_cases h2 : Meets m x 2
  · exact Or.inr ⟨2, h2, h 2, fun d' hd => absurd hd (by fin_cases d' <;> decide)⟩
  by_cases h1 : Meets m x 1
  · refine Or.inr ⟨1, h1, h 1, fun d' hd => ?_⟩
    fin_cases d'
    · exact absurd hd (by decide)
    · exact absurd hd (by decide)
    · exact h2
  by_cases h0 : Meets m x 0
  · refine Or.inr ⟨0, h0, h 0, fun d' hd => ?_⟩
    fin_cases d'
    · exact absurd hd (by decide)
    · exact h1
    · exact h2
  · refine Or.inl fun d => ?_
    fin_cases d
    · exact h0
    · exact h1
    · exact h2

/-- Two cells in each direction, the box `[-1/5, 4/5]³`, labels 10 to 15. -/
def meshGrid : Grid ℚ 3 7 where
  lo := ![-1/5, -1/5, -1/5]
  dx := 1/2
  N := ![2, 2, 2]
  r0 := ![0, 0, 0]
  r1 := ![2, 2, 2]
  h := ![1, 1, 1]
  vel := ![![0, 0, 0], ![1, 0, 0], ![0, 1, 0], ![0, 0, 1], ![-1, 0, 0], ![0, -1, 0], ![0, 0, -1]]
  userLabel := fun ax up => 10 + 2 * ax.val + if up then 1 else 0

theorem meshGrid_wf : meshGrid.WF := ⟨by decide +kernel, by decide +kernel, by decide +kernel⟩

theorem meshGrid_point {c : Cell 3} (hc : ∀ j, 0 ≤ c j ∧ c j < meshGrid.total j) (j : Fin 3) :
    meshGrid.point c j = (10 * (c j : ℚ) - 9) / 20 := by
  unfold Grid.point
  rw [coord_sub meshGrid_wf j (hc j).1 (hc j).2]
  have h0 : meshGrid.coord j 0 = -9/20 := by revert j; decide +kernel
  have h1 : meshGrid.dx = 1/2 := rfl
  rw [h0, h1]; ring

theorem meshGrid_generic {c : Cell 3} (hc : ∀ j, 0 ≤ c j ∧ c j < meshGrid.total j) : Generic (meshGrid.point c) := by
  constructor <;> simp only [meshGrid_point hc] <;> intro h
  all_goals first
    | (have h' : (10 * c 0 : ℚ) = 9 := by linarith
       have : (10 * c 0 : Int) = 9 := by exact_mod_cast h'
       omega)
    | (have h' : (10 * c 1 : ℚ) = 9 := by linarith
       have : (10 * c 1 : Int) = 9 := by exact_mod_cast h'
       omega)
    | (have h' : (10 * c 2 : ℚ) = 9 := by linarith
       have : (10 * c 2 : Int) = 9 := by exact_mod_cast h'
       omega)
    | (have h' : (10 * c 0 + 10 * c 1 : ℚ) = 38 := by linarith
       have : (10 * c 0 + 10 * c 1 : Int) = 38 := by exact_mod_cast h'
       omega)
    | (have h' : (10 * c 0 + 10 * c 2 : ℚ) = 38 := by linarith
       have : (10 * c 0 + 10 * c 2 : Int) = 38 := by exact_mod_cast h'
       omega)
    | (have h' : (10 * c 1 + 10 * c 2 : ℚ) = 38 := by linarith
       have : (10 * c 1 + 10 * c 2 : Int) = 38 := by exact_mod_cast h'
       omega)
    | (have h' : (10 * c 0 + 10 * c 1 + 10 * c 2 : ℚ) = 47 := by linarith
       have : (10 * c 0 + 10 * c 1 + 10 * c 2 : Int) = 47 := by exact_mod_cast h'
       omega)

/-- The tetrahedron as a solid part with the label 3. -/
def tetraItem : Item ℚ := .mesh (inner tetra) tetra 3

theorem tetraItem_ok : tetraItem.Ok meshGrid :=
  ⟨tetra_bounds, fun _ hc => good_of_clear (clear_tetra (meshGrid_generic hc))⟩

theorem tetraItem_transverse (c : Cell 3) (k : Fin 7) (hc : meshGrid.Interior c) :
    tetraItem.Transverse (meshGrid.cellCentre c) (fun j => meshGrid.dx * (meshGrid.vel k j : ℚ)) := by
  have hr : ∀ j, 0 ≤ c j ∧ c j < meshGrid.total j := fun j => by
    have := hc j; unfold Grid.total; omega
  obtain ⟨c0, c1, c2, e01, e02, e12, f⟩ := meshGrid_generic hr
  rw [point_eq meshGrid_wf hc] at *
  generalize meshGrid.cellCentre c = x at *
  constructor
  · intro t ht hin
    obtain ⟨α, β, γ, h1, h2, h3, h4, h5⟩ := hin
    have p0 := h5 0
    have p1 := h5 1
    have p2 := h5 2
    simp only [tetra, List.mem_cons, List.not_mem_nil, or_false] at ht
    rcases ht with rfl | rfl | rfl | rfl <;> simp at p0 p1 p2 <;>
      first
      | exact c0 p0 | exact c1 p1 | exact c2 p2 | exact f (by linarith)
  · intro t ht hd s hs hs1 hin
    obtain ⟨α, β, γ, h1, h2, h3, h4, h5⟩ := hin
    have p0 := h5 0
    have p1 := h5 1
    have p2 := h5 2
    simp only [tetra, List.mem_cons, List.not_mem_nil, or_false] at ht
    rcases ht with rfl | rfl | rfl | rfl <;> fin_cases k <;>
      simp [detA, det3, meshGrid] at hd <;> simp [along, meshGrid] at p0 p1 p2 <;>
      first
      | exact c0 p0 | exact c1 p1 | exact c2 p2 | exact f (by linarith)

/-- The domain computed by the code. -/
def tetraDomain : Option (State ℚ 3 7) := build meshGrid ([tetraItem].map (Item.code 1000))

/-- `C87_links_partial` on the tetrahedron: the link from the cell `(2, 2, 1)` (centre `(11/20, 11/20, 1/20)`, fluid) to
the cell `(1, 2, 1)`. -/
example : ∃ st, tetraDomain = some st ∧ st.ioo ![2, 2, 1] = 999 ∧
    st.ioo ![1, 2, 1] = -1 ∧ 0 < (st.link 4 ![2, 2, 1]).dist ∧ (st.link 4 ![2, 2, 1]).dist ≤ 1 ∧
    (st.link 4 ![2, 2, 1]).flag = 3 := by
  have hs : tetraDomain = some (tetraDomain.get (by decide +kernel)) := (Option.some_get _).symm
  have hok : ∀ it ∈ [tetraItem], it.Ok meshGrid := by
    intro it h; rw [List.mem_singleton.1 h]; exact tetraItem_ok
  have h1 : (tetraDomain.get (by decide +kernel)).ioo ![2, 2, 1] = 999 := by decide +kernel
  have h2 : (tetraDomain.get (by decide +kernel)).ioo ![1, 2, 1] = -1 := by decide +kernel
  have ht : meshGrid.target 4 ![2, 2, 1] = ![1, 2, 1] := by decide +kernel
  have := C87_links_partial meshGrid meshGrid_wf [tetraItem] hok (fun it h c k hc => by
    rw [List.mem_singleton.1 h]; exact tetraItem_transverse c k hc) 1000 (by norm_num) _ hs ![2, 2, 1]
    (by decide +kernel) 4 h1 (by decide +kernel) (by rw [ht]; exact h2)
  exact ⟨_, hs, h1, h2, this.1, this.2.1, by decide +kernel⟩

/-- The same cells, from the region: `C87_fluid_map`. -/
example (st : State ℚ 3 7) (h : tetraDomain = some st) : st.ioo ![1, 2, 1] = -1 := by
  have hok : ∀ it ∈ [tetraItem], it.Ok meshGrid := by
    intro it h; rw [List.mem_singleton.1 h]; exact tetraItem_ok
  rw [C87_fluid_map meshGrid meshGrid_wf [tetraItem] hok 1000 (by norm_num) st h, if_neg]
  rintro ⟨-, hm⟩
  have hin : inner tetra (meshGrid.cellCentre ![1, 2, 1]) := by
    have e : meshGrid.cellCentre ![1, 2, 1] = ![1/20, 11/20, 1/20] := by decide +kernel
    rw [e, inner_tetra]
    simp; norm_num
  simp [regions, material, tetraItem, Item.ideal, regionElem, hin] at hm

/-- A tetrahedron four times as large: it extends beyond the box. -/
def bigTetra : Mesh ℚ :=
  [(⟨![4, 0, 0], ![0, 4, 0], ![0, 0, 4]⟩, ![1, 1, 1]),
   (⟨![0, 0, 0], ![0, 4, 0], ![4, 0, 0]⟩, ![0, 0, -1]),
   (⟨![0, 0, 0], ![4, 0, 0], ![0, 0, 4]⟩, ![0, -1, 0]),
   (⟨![0, 0, 0], ![0, 0, 4], ![0, 4, 0]⟩, ![-1, 0, 0])]

/-- The box with the large tetrahedron as a fluid part. -/
def bigDomain : Option (State ℚ 3 7) := build meshGrid [stlElem bigTetra 3 true 1000]

/-- `C87_box_label_negation`: the links of the cell `(2, 2, 2)` through the face `x = 4/5`, whose label is 11. -/
example : ∃ st0 st, build meshGrid [] = some st0 ∧ bigDomain = some st ∧ (st0.link 1 ![2, 2, 2]).flag = 11 ∧
    (st0.link 1 ![2, 2, 2]).dist = 1/2 ∧ (st.link 1 ![2, 2, 2]).dist = 1000 ∧ (st.link 1 ![2, 2, 2]).flag = -1 := by
  have hs : bigDomain = some (bigDomain.get (by decide +kernel)) := (Option.some_get _).symm
  have e : meshGrid.cellCentre ![2, 2, 2] = ![11/20, 11/20, 11/20] := by decide +kernel
  have := C87_box_label_negation meshGrid meshGrid_wf [] (by simp) bigTetra 3 1000 (by norm_num) _ hs ![2, 2, 2]
    (by decide +kernel) 1 (by decide +kernel) (by decide +kernel) (by decide +kernel) (by
      rintro t s ⟨ht, hd, h0, hin⟩
      rw [e] at hin
      obtain ⟨α, β, γ, h1, h2, h3, h4, h5⟩ := hin
      have p0 := h5 0
      have p1 := h5 1
      have p2 := h5 2
      simp only [bigTetra, List.mem_cons, List.not_mem_nil, or_false] at ht
      rcases ht with rfl | rfl | rfl | rfl <;> simp [along, meshGrid] at p0 p1 p2 <;> linarith)
  exact ⟨(build meshGrid []).get (by decide +kernel), _, (Option.some_get _).symm, hs, by decide +kernel,
    by decide +kernel, this.1, this.2.1⟩

end Pylbm.Domain
