import Verif.Domain.MirrorSolids
import Verif.Domain.Witness
/-!
# Cases for the mirrored solids (C86)
-/
namespace Pylbm.Domain
open Round Storage DomainSpec Geometry GeometrySpec

/-- A box of 8 × 6 × 6 cells of side 1/2 with the six velocities of the axes and the rest, different labels on the six
faces. -/
noncomputable def roomGrid : Grid ℝ 3 7 where
  lo := ![-1, 0, 0]
  dx := 1 / 2
  N := ![8, 6, 6]
  r0 := ![0, 0, 0]
  r1 := ![8, 6, 6]
  h := fun _ => 1
  vel := ![![0, 0, 0], ![1, 0, 0], ![-1, 0, 0], ![0, 1, 0], ![0, -1, 0], ![0, 0, 1], ![0, 0, -1]]
  userLabel := fun j side => 2 * (j : Int) + (if side then 1 else 0)

theorem roomGrid_wf : roomGrid.WF := by
  refine ⟨by norm_num [roomGrid], fun j => ?_, fun k j => ?_⟩
  · fin_cases j <;> simp [roomGrid]
  · fin_cases k <;> fin_cases j <;> simp [roomGrid]

/-- A ball removed from the room, and an ellipsoid with inclined axes added inside it. -/
noncomputable def roomSolids : List (Solid × Bool) :=
  [(.sphere ⟨(1 / 2, 1, 3 / 2), 3 / 4⟩ 7, false),
   (.ellipsoid ⟨(1 / 2, 1, 1), (1 / 4, 1 / 4, 0), (-1 / 8, 1 / 8, 0), (0, 0, 1 / 2)⟩ 8, true)]

theorem roomSolids_valid : ∀ s ∈ roomSolids, s.1.Valid := by
  intro s hs
  simp only [roomSolids, List.mem_cons, List.not_mem_nil, or_false] at hs
  rcases hs with rfl | rfl
  · norm_num [Solid.Valid]
  · refine ⟨?_, ?_, ?_, ?_⟩ <;> norm_num [triple, inner3]

/-- The hypotheses of `C86_space` hold for this room mirrored in the first and third directions: both constructions
succeed, the velocities are exchanged. -/
example : roomGrid.WF ∧ (∀ j, roomGrid.r0 j = 0) ∧ (∀ j, roomGrid.r1 j = roomGrid.N j) ∧
    (∀ k, roomGrid.vel (![0, 2, 1, 3, 4, 6, 5] k) = mirrorVec ![true, false, true] (roomGrid.vel k)) ∧
    (∀ s ∈ roomSolids, s.1.Valid) ∧
    (∃ st, build roomGrid (roomSolids.map fun s => s.1.elem s.2) = some st) ∧
    ∃ st', build (roomGrid.mirror ![true, false, true]) (roomSolids.map fun s =>
      (s.1.mirror ![true, false, true] fun j => 2 * roomGrid.lo j + roomGrid.dx * roomGrid.N j).elem s.2) = some st' := by
  have hn : ∀ (lab : Fin 3 → Bool → Int) (k : Fin 7) (j : Fin 3),
      |({ roomGrid with userLabel := lab } : Grid ℝ 3 7).vel k j| ≤ ({ roomGrid with userLabel := lab } : Grid ℝ 3 7).n j := by
    intro lab k j
    fin_cases k <;> fin_cases j <;> simp [roomGrid, Grid.n]
  refine ⟨roomGrid_wf, fun j => by fin_cases j <;> simp [roomGrid], fun j => by fin_cases j <;> simp [roomGrid],
    fun k => ?_, roomSolids_valid, ?_, ?_⟩
  · funext j
    fin_cases k <;> fin_cases j <;> simp [roomGrid, mirrorVec]
  · refine C61_build_total_partial roomGrid roomGrid_wf (hn roomGrid.userLabel) _ ?_
    intro e he j
    simp only [roomSolids, List.map_cons, List.map_nil, List.mem_cons, List.not_mem_nil, or_false] at he
    rcases he with rfl | rfl
    · fin_cases j <;>
        norm_num [roomGrid, Solid.elem, sphereElem, spatial, Sphere.bounds]
    · have h0 : ∀ x, 0 ≤ Real.sqrt x := Real.sqrt_nonneg
      have h : (0 : ℝ) ≤ max (max √(inner3 (1 / 4, 1 / 4, 0) (1 / 4, 1 / 4, 0)) √(inner3 (-1 / 8, 1 / 8, 0) (-1 / 8, 1 / 8, 0)))
          √(inner3 (0, 0, 1 / 2) ((0 : ℝ), (0 : ℝ), (1 / 2 : ℝ))) := le_max_of_le_right (h0 _)
      simp only [Solid.elem, ellipsoidElem, spatial, Ellipsoid.bounds]
      generalize max (max √(inner3 (1 / 4, 1 / 4, 0) (1 / 4, 1 / 4, 0)) √(inner3 (-1 / 8, 1 / 8, 0) (-1 / 8, 1 / 8, 0)))
          √(inner3 (0, 0, 1 / 2) ((0 : ℝ), (0 : ℝ), (1 / 2 : ℝ))) = r at h ⊢
      fin_cases j <;> simp [roomGrid] <;> linarith
  · refine C61_build_total_partial _ (mirror_wf roomGrid_wf) (hn _) _ ?_
    intro e he j
    simp only [roomSolids, List.map_cons, List.map_nil, List.mem_cons, List.not_mem_nil, or_false] at he
    rcases he with rfl | rfl
    · fin_cases j <;>
        simp [roomGrid, Grid.mirror, Solid.mirror, mirP3, Solid.elem, sphereElem, spatial, Sphere.bounds] <;> norm_num
    · simp only [Solid.mirror, Solid.elem, ellipsoidElem, spatial, Ellipsoid.bounds, inner3_mirror]
      have h0 : ∀ x, 0 ≤ Real.sqrt x := Real.sqrt_nonneg
      have h : (0 : ℝ) ≤ max (max √(inner3 (1 / 4, 1 / 4, 0) (1 / 4, 1 / 4, 0)) √(inner3 (-1 / 8, 1 / 8, 0) (-1 / 8, 1 / 8, 0)))
          √(inner3 (0, 0, 1 / 2) ((0 : ℝ), (0 : ℝ), (1 / 2 : ℝ))) := le_max_of_le_right (h0 _)
      generalize max (max √(inner3 (1 / 4, 1 / 4, 0) (1 / 4, 1 / 4, 0)) √(inner3 (-1 / 8, 1 / 8, 0) (-1 / 8, 1 / 8, 0)))
          √(inner3 (0, 0, 1 / 2) ((0 : ℝ), (0 : ℝ), (1 / 2 : ℝ))) = r at h ⊢
      fin_cases j <;> simp [roomGrid, Grid.mirror, mirP3] <;> linarith

end Pylbm.Domain
