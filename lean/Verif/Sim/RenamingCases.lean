import Verif.Sim.Renaming
import Verif.Sim.PoiseuilleCases
/-!
# C113: cases and counterexamples
-/

namespace Pylbm.Sim
open Scheme Halo SchemeSpec Matrix HaloSpec Mpi Boundary

/-- The boundary conditions of `demo/2D/Poiseuille.py`, lines 96-104: the label 0 is the wall, 1 the outlet (`NeumannX`),
2 the inlet.  The imposed values are replaced by 0. -/
def duct : WallData ℚ 2 sten9 where
  elems := []
  els := []
  dico := fun l => if l = 1 then some [(0, .neumannAxis 0)] else some [(0, .bouzidiBounceBack)]
  ψ := fun _ _ _ _ => 0

/-- The labels of the faces, `"label": [2, 1, 0, 0]` (line 62). -/
def ductLab : Fin 2 → Bool → Int := fun j side => if j = 0 then (if side then 1 else 2) else 0

/-- The numbers of the wall and of the outlet are exchanged. -/
def exchange01 : Equiv.Perm Int := Equiv.swap 0 1

theorem exchange01_renaming : Renaming exchange01 := ⟨by decide, by decide, by decide⟩

theorem duct_wf : duct.WF ductLab where
  sten := sten9_wf
  sound := by intro e he; cases he
  labels := by intro e he; cases he
  dict := by
    intro l ms h
    simp only [duct] at h
    split at h <;> (cases h; simp)
  no999 := by simp [duct]
  noFace := by decide

/-- Populations of the 3 × 3 cells: only the population (1, -1) of the cell (1, 0) is not 0. -/
def oneJet : Arr ℚ 9 2 := fun y k => if y 0 = 1 ∧ y 1 = 0 ∧ k = 8 then 1 else 0

/-- The population of velocity (-1, 1) which enters the cell (2, 0) of the box, at the corner of the outlet and of the
wall. -/
def cornerValue (D : WallData ℚ 2 sten9) (lab : Fin 2 → Bool → Int) : Option ℚ :=
  (wallData D ![3, 3] ![1, 1] lab).map fun p =>
    wallBc D ![3, 3] ![1, 1] (fun _ => 0) 1 lab p.2 0 (periodic ![3, 3] oneJet)
      (fun i => (![2, 0] : Fin 2 → Int) i - sten9.vel 6 i) 6

theorem duct_corner : cornerValue duct ductLab = some 1 := by decide +kernel

theorem exchanged_corner : cornerValue (duct.renamed exchange01) (fun j side => exchange01 (ductLab j side)) = some 0 := by
  decide +kernel

/-- **C113, negation.** In the geometry of `demo/2D/Poiseuille.py` (wall 0, outlet 1 with `NeumannX`, inlet 2), using the
number 1 for the wall and 0 for the outlet changes the simulation: from the same populations, one step does not give the
same values in a fluid cell, for any injective collision. -/
theorem C113_negation : ∃ ST J J',
    OnGrid duct (boxGrid ![3, 3] ![1, 1] (fun _ => 0) 1 ductLab sten9) ST J ∧
    OnGrid (duct.renamed exchange01) (boxGrid ![3, 3] ![1, 1] (fun _ => 0) 1 (fun j side => exchange01 (ductLab j side)) sten9)
      (ST.renamed exchange01) J' ∧
    ∀ φ : (Fin 9 → ℚ) → Fin 9 → ℚ, Function.Injective φ →
      lbmStep ![3, 3] sten9.vel φ (wallBc duct ![3, 3] ![1, 1] (fun _ => 0) 1 ductLab J) 0 oneJet ![2, 0] ≠
      lbmStep ![3, 3] sten9.vel φ (wallBc (duct.renamed exchange01) ![3, 3] ![1, 1] (fun _ => 0) 1
        (fun j side => exchange01 (ductLab j side)) J') 0 oneJet ![2, 0] := by
  have h1 := duct_corner
  have h2 := exchanged_corner
  unfold cornerValue at h1 h2
  obtain ⟨⟨ST, J⟩, hJ, h1⟩ := Option.map_eq_some_iff.1 h1
  obtain ⟨⟨ST', J'⟩, hJ', h2⟩ := Option.map_eq_some_iff.1 h2
  have o1 := wallData_onGrid (by decide) hJ
  have o2 := wallData_onGrid (by decide) hJ'
  have e := OnGrid.renamed_state exchange01_renaming o1 o2
  subst e
  refine ⟨ST, J, J', o1, o2, fun φ hφ h => ?_⟩
  have := congrFun (hφ h) 6
  simp only at this h1 h2
  rw [h1, h2] at this
  exact absurd this (by norm_num)

/-- The populations at the corner of the outlet, after the boundary conditions: the one which enters, and the one of the
neighbour along x. -/
def cornerPair (D : WallData ℚ 2 sten9) (lab : Fin 2 → Bool → Int) : Option (ℚ × ℚ) :=
  (wallData D ![3, 3] ![1, 1] lab).map fun p =>
    let f' := boundaryCondition sten9 (withValues sten9 (boxGrid ![3, 3] ![1, 1] (fun _ => 0) 1 lab sten9) D.ψ p.2 0)
      (fun k X => periodic ![3, 3] oneJet (fun i => X i - 1) k)
    (f' 6 ![4, 0], f' 6 ![3, 0])

/-- **C113, negation for the outlet.** With the numbers exchanged, the zero derivative at the outlet does not hold at the
corner. -/
theorem C113_outlet_negation : ∃ ST J,
    OnGrid (duct.renamed exchange01) (boxGrid ![3, 3] ![1, 1] (fun _ => 0) 1 (fun j side => exchange01 (ductLab j side)) sten9)
      ST J ∧
    ∃ (f : Dist ℚ 2 9) (it : Item ℚ 2 9), (.neumannAxis 0, it) ∈ flat sten9 (withValues sten9
        (boxGrid ![3, 3] ![1, 1] (fun _ => 0) 1 (fun j side => exchange01 (ductLab j side)) sten9)
        (duct.renamed exchange01).ψ J 0) ∧
      let f' := boundaryCondition sten9 (withValues sten9
        (boxGrid ![3, 3] ![1, 1] (fun _ => 0) 1 (fun j side => exchange01 (ductLab j side)) sten9)
        (duct.renamed exchange01).ψ J 0) f
      f' it.k it.cell ≠ f' it.k fun i => it.cell i + if i = 0 then sten9.vel it.k i else 0 := by
  have h1 : cornerPair (duct.renamed exchange01) (fun j side => exchange01 (ductLab j side)) = some (0, 1) := by
    decide +kernel
  have h2 : (wallData (duct.renamed exchange01) ![3, 3] ![1, 1] (fun j side => exchange01 (ductLab j side))).map (fun (p : Domain.State ℚ 2 9 × List (Method 2 × List (Entry ℚ 2 9))) =>
      decide (∃ q ∈ entries sten9 p.2, q.1 = .neumannAxis 0 ∧ q.2.k = 6 ∧ q.2.cell = ![4, 0])) = some true := by
    decide +kernel
  unfold cornerPair at h1
  obtain ⟨⟨ST, J⟩, hJ, h1⟩ := Option.map_eq_some_iff.1 h1
  rw [hJ, Option.map_some, Option.some.injEq, decide_eq_true_eq] at h2
  obtain ⟨q, hq, hq1, hq2, hq3⟩ := h2
  refine ⟨ST, J, wallData_onGrid (by decide) hJ, fun k X => periodic ![3, 3] oneJet (fun i => X i - 1) k,
    ⟨q.2, fun _ => 0⟩, ?_, ?_⟩
  · rw [mem_withValues]
    refine ⟨?_, rfl⟩
    rw [← hq1]; exact hq
  · intro f' h
    simp only [Prod.mk.injEq] at h1
    have hc : (fun i => q.2.cell i + if i = 0 then sten9.vel q.2.k i else 0) = (![3, 0] : Fin 2 → Int) := by
      rw [hq2, hq3]; decide
    change f' q.2.k q.2.cell = f' q.2.k (fun i => q.2.cell i + if i = 0 then sten9.vel q.2.k i else 0) at h
    rw [hc, hq2, hq3] at h
    exact absurd (h1.1.symm.trans (h.trans h1.2)) (by norm_num)

/-- A case for `C113_outlet`: the corner of the outlet in the demo. -/
theorem outlet_case (f : Dist ℚ 2 9) : ∃ ST J,
    OnGrid duct (boxGrid ![3, 3] ![1, 1] (fun _ => 0) 1 ductLab sten9) ST J ∧
    let f' := boundaryCondition sten9 (withValues sten9 (boxGrid ![3, 3] ![1, 1] (fun _ => 0) 1 ductLab sten9) duct.ψ J 0) f
    f' 6 ![4, 0] = f' 6 ![3, 0] := by
  have h2 : (wallData duct ![3, 3] ![1, 1] ductLab).map (fun (p : Domain.State ℚ 2 9 × List (Method 2 × List (Entry ℚ 2 9))) =>
      decide ((∃ q ∈ entries sten9 p.2, q.1 = .neumannAxis 0 ∧ q.2.k = 6 ∧ q.2.cell = ![4, 0]) ∧
        (∀ q ∈ entries sten9 p.2, q.1 = .neumannAxis 0 ∨ q.1 = .bouzidiBounceBack) ∧
        ∃ q ∈ entries sten9 p.2, q.1 = .bouzidiBounceBack ∧ q.2.label < 1)) = some true := by
    decide +kernel
  obtain ⟨⟨ST, J⟩, hJ, h2⟩ := Option.map_eq_some_iff.1 h2
  rw [decide_eq_true_eq] at h2
  obtain ⟨⟨q, hq, hq1, hq2, hq3⟩, hcl, q', hq', hq1', hq2'⟩ := h2
  have ho := wallData_onGrid (by decide) hJ
  refine ⟨ST, J, ho, ?_⟩
  intro f'
  have key := C113_outlet (g := boxGrid ![3, 3] ![1, 1] (fun _ => 0) 1 ductLab sten9) duct_wf ho 0 1 (by decide)
    (by decide : ∀ i side, ductLab i side = 1 → i = 0) (by simp [duct]) (by
      intro l ms h p hp
      simp only [duct] at h
      split at h
      · cases h; simp_all
      · cases h
        rename_i hl
        simp only [List.mem_singleton] at hp
        simp [hp, hl]) 0 f ⟨q.2, fun _ => 0⟩ ((mem_withValues _ _ _ _ _ _ _).2 ⟨by rw [← hq1]; exact hq, rfl⟩)
    (Or.inr (by
      intro r hr hrm
      have hr' := ((mem_withValues _ _ _ _ _ _ _).1 hr).1
      refine ⟨(q'.1, ⟨q'.2, fun _ => 0⟩), (mem_withValues _ _ _ _ _ _ _).2 ⟨hq', rfl⟩, ?_, hq2'⟩
      rcases hcl _ hr' with h | h
      · exact absurd h hrm
      · exact hq1'.trans h.symm))
  have hc : (fun i => q.2.cell i + if i = 0 then sten9.vel q.2.k i else 0) = (![3, 0] : Fin 2 → Int) := by
    rw [hq2, hq3]; decide
  change f' q.2.k q.2.cell = f' q.2.k (fun i => q.2.cell i + if i = 0 then sten9.vel q.2.k i else 0) at key
  rw [hc, hq2, hq3] at key
  exact key

/-- A case for `C113_runs_partial`: giving the number 7 to the inlet of the demo keeps the order of the labels. -/
example (S : Kernel ℚ 9 3 2) (a : Algo) (Q : Proc gridC → Setup ℚ 9 3 2 2) :
    FluidRun (duct.renamed (Equiv.swap 2 7)) gridC (fun _ => 0) 1 (fun j side => Equiv.swap 2 7 (ductLab j side)) S a Q ↔
      FluidRun duct gridC (fun _ => 0) 1 ductLab S a Q := by
  refine C113_runs_partial ⟨by decide, by decide, by decide⟩ duct gridC _ _ ductLab duct_wf (fun c => Or.inr ?_) S a Q
  have h : ∀ c : Proc gridC, ∀ a ∈ listOfLabels (procGrid gridC (fun _ => (0 : ℚ)) 1 ductLab sten9 c) [],
      ∀ b ∈ listOfLabels (procGrid gridC (fun _ => (0 : ℚ)) 1 ductLab sten9 c) [], a ≤ b →
      Equiv.swap 2 7 a ≤ Equiv.swap 2 7 b := by decide +kernel
  exact h c

/-- A case for `C113_one_cell`: bounce-back on all the faces, any numbers. -/
example (π : Equiv.Perm Int) (hπ : Renaming π) (S : Kernel ℚ 9 3 2) (a : Algo) :
    FluidRun (atRest9.renamed π) gridC (fun _ => 0) 1 (fun j side => π (wallsFirst j side)) S a
      (plateSetup atRest9 wallsFirst S a gridC) := by
  refine (C113_one_cell hπ atRest9 gridC _ _ wallsFirst atRest9_wf (by
    intro l ms hl p hp
    simp only [atRest9] at hl
    cases hl
    simp only [List.mem_singleton] at hp
    rw [hp]; trivial) S a _).2 ?_
  exact plate_run atRest9 wallsFirst S a gridC ((large_iff gridC).2 (by decide)) (by decide) rfl (by decide +kernel)

end Pylbm.Sim
