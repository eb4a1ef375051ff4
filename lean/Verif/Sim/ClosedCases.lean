import Verif.Sim.Cycle
import Mathlib.Analysis.SpecialFunctions.Trigonometric.Basic
import Verif.Sim.ImagesCases
import Verif.Sim.LineCases
import Mathlib.Tactic.FinCases
/-!
# C121: D1Q3 in a tube with walls
-/

set_option linter.unusedSectionVars false

namespace Pylbm.Sim
open Scheme Halo SchemeSpec Matrix HaloSpec Mpi Boundary

/-- D1Q3 for the diffusion: the moments 1, X, X²; the density is conserved, the equilibrium of X² is `α ρ`. -/
noncomputable def heatR (α r₁ r₂ : ℝ) : Kernel ℝ 3 1 0 where
  M := !![1, 1, 1; 0, 1, -1; 0, 1, 1]
  invM := !![1, 0, -1; 0, 1 / 2, 1 / 2; 0, -1 / 2, 1 / 2]
  Tu := fun _ => 1
  Tmu := fun _ => 1
  EQ := ![fun w => w 0, fun _ => 0, fun w => α * w 0]
  s := ![fun _ => 0, fun _ => r₁, fun _ => r₂]
  consm := ![0]
  relVel := none
  source := fun _ => none
  dt := 1

theorem heatR_conserved (α r₁ r₂ : ℝ) (i : Fin 3) : Conserved (heatR α r₁ r₂) i ↔ i = 0 := by
  constructor
  · rintro ⟨l, rfl⟩
    fin_cases l
    rfl
  · rintro rfl
    exact ⟨0, rfl⟩

theorem heatR_damped (α r₁ r₂ : ℝ) (hα : 0 < α ∧ α < 1) (h₁ : 0 < r₁ ∧ r₁ < 2) (h₂ : 0 < r₂ ∧ r₂ < 2) :
    Damped (heatR α r₁ r₂) ![1 - α, α / 2, α / 2] !![1; 0; α] 0 ![0, r₁, r₂] ![1 - α, α / 2, α / 2] := by
  obtain ⟨a0, a1⟩ := hα
  have n0 : Conserved (heatR α r₁ r₂) 0 := (heatR_conserved α r₁ r₂ 0).2 rfl
  have n1 : ¬ Conserved (heatR α r₁ r₂) 1 := fun h => absurd ((heatR_conserved α r₁ r₂ 1).1 h) (by decide)
  have n2 : ¬ Conserved (heatR α r₁ r₂) 2 := fun h => absurd ((heatR_conserved α r₁ r₂ 2).1 h) (by decide)
  refine ⟨⟨?_, ?_, ?_, ?_, ?_⟩, ?_, ?_, fun _ => rfl, rfl, ?_, ?_, ?_⟩
  · intro i w
    fin_cases i <;> simp [heatR]
  · intro i w
    fin_cases i <;> simp [heatR]
  · intro j
    fin_cases j
    · show 0 < 1 - α; linarith
    · show 0 < α / 2; linarith
    · show 0 < α / 2; linarith
  · intro i hi
    fin_cases i
    · exact absurd n0 hi
    · exact ⟨h₁.1.le, h₁.2.le⟩
    · exact ⟨h₂.1.le, h₂.2.le⟩
  · have hd0 : ∀ j, deviation (heatR α r₁ r₂) !![1; 0; α] 0 j = 1 := by
      intro j
      unfold deviation
      rw [if_pos n0]
      fin_cases j <;> rfl
    have hd1 : deviation (heatR α r₁ r₂) !![1; 0; α] 1 = ![0, 1, -1] := by
      funext j
      unfold deviation
      rw [if_neg n1]
      fin_cases j <;> simp [heatR]
    have hd2 : deviation (heatR α r₁ r₂) !![1; 0; α] 2 = ![-α, 1 - α, 1 - α] := by
      funext j
      unfold deviation
      rw [if_neg n2]
      fin_cases j <;> simp [heatR]
    intro i i' hii
    fin_cases i <;> fin_cases i' <;> first
      | exact absurd rfl hii
      | (simp only [Fin.zero_eta, Fin.mk_one, Fin.reduceFinMk, hd0, hd1, hd2, Fin.sum_univ_three, Matrix.cons_val]
         ring)
  · intro j w
    fin_cases j
    rfl
  · ext i j
    fin_cases i <;> fin_cases j <;> simp [heatR, Matrix.mul_apply, Fin.sum_univ_three] <;> norm_num
  · intro i hi
    fin_cases i
    · exact absurd n0 hi
    · exact h₁
    · exact h₂
  · intro i
    fin_cases i <;> simp [heatR, Matrix.mulVec, dotProduct, Fin.sum_univ_three]
    ring
  · intro j
    fin_cases j
    · show 1 - α ≠ 0; linarith
    · show α / 2 ≠ 0; linarith
    · show α / 2 ≠ 0; linarith

/-- The equilibrium of a density. -/
theorem heatR_equilibrium (α r₁ r₂ ρ : ℝ) : AtEquilibrium (heatR α r₁ r₂) ![ρ * (1 - α), ρ * α / 2, ρ * α / 2] := by
  intro i
  fin_cases i <;> simp [heatR, Matrix.mulVec, dotProduct, Fin.sum_univ_three]
  ring

/-- A tube with bounce-back at both ends, or with anti bounce-back and the value 0. -/
noncomputable def tube (anti : Bool) : WallData ℝ 1 sten3 where
  elems := []
  els := []
  dico := fun _ => some [(0, if anti then .antiBounceBack else .bounceBack)]
  ψ := fun _ _ _ _ => 0

/-- Four cells, two processes. -/
def gridTube : Grid 1 := ⟨![4], ![2], fun _ => 1, by decide⟩

/-- The domain and the entries on a grid. -/
noncomputable def tubeData (anti : Bool) (g : Domain.Grid ℝ 1 3) :
    Option (Domain.State ℝ 1 3 × List (Method 1 × List (Entry ℝ 1 3))) := do
  let st ← Domain.build g (tube anti).elems
  let I ← instances sten3 g.total st.link (listOfLabels g (tube anti).els) (tube anti).dico
  return (st, I)

theorem tubeData_one (anti : Bool) :
    (tubeData anti (boxGrid gridTube.N gridTube.w (fun _ => (0 : ℝ)) 1 wallsLine sten3)).isSome = true := by
  revert anti
  decide +kernel

theorem tubeData_proc (anti : Bool) (c : Proc gridTube) :
    (tubeData anti (procGrid gridTube (fun _ => (0 : ℝ)) 1 wallsLine sten3 c)).isSome = true := by
  revert anti c
  decide +kernel

theorem tube_onGrid {anti : Bool} {g : Domain.Grid ℝ 1 3} {st I} (hg : g.WF) (hv : g.vel = sten3.uvel) (h : tubeData anti g = some (st, I)) :
    OnGrid (tube anti) g st I := by
  unfold tubeData at h
  simp only [Option.bind_eq_bind, Option.bind_eq_some_iff, Option.pure_def, Option.some.injEq, Prod.mk.injEq] at h
  obtain ⟨st', h1, I', h2, rfl, rfl⟩ := h
  exact ⟨hg, hv, h1, h2⟩

theorem tube_wf (anti : Bool) : (tube anti).WF wallsLine where
  sten := sten3_wf
  sound := by intro e he; cases he
  labels := by intro e he; cases he
  dict := by intro l ms h; simp only [tube] at h; cases h; simp
  no999 := by simp [tube]
  noFace := by decide

theorem tube_chamber {anti : Bool} {st I}
    (h : tubeData anti (boxGrid gridTube.N gridTube.w (fun _ => (0 : ℝ)) 1 wallsLine sten3) = some (st, I)) :
    Chamber (tube anti) gridTube.N gridTube.w (fun _ => 0) 1 wallsLine st I (fun _ => true)
      (fun _ _ => if anti then -1 else 1) where
  wf := tube_wf anti
  onGrid := tube_onGrid ⟨one_pos, fun _ => Nat.zero_le _, by decide⟩ rfl h
  empty := rfl
  els := by simp [tube]
  axial := ⟨by decide +kernel, by decide +kernel⟩
  walls := by intro i _; revert i; decide
  periods := by intro i h; cases h
  methods := by
    intro l ms hl j
    simp only [tube] at hl
    cases hl
    exact ⟨_, List.mem_singleton.2 rfl⟩
  sign := fun _ _ => by cases anti <;> simp
  same := fun _ _ => rfl
  mirror := by
    intro i _ side ms hms j m hm _
    simp only [tube] at hms
    cases hms
    have hm' := (Prod.mk.injEq _ _ _ _ ▸ List.mem_singleton.1 hm : _ ∧ _).2
    refine ⟨?_, fun t x _ => imposed_zero m⟩
    rw [hm']
    cases anti <;> rfl

/-- The setup of a process, with the values `ψ` on the walls. -/
noncomputable def tubeSetup (anti : Bool) (ψ : Int → ℝ → (Fin 1 → ℝ) → Fin 3 → ℝ) (S : Kernel ℝ 3 1 0) (a : Algo) (c : Proc gridTube) : Setup ℝ 3 1 0 1 where
  S := S
  vel := sten3.vel
  backend := .c
  cfg := ⟨a, true, false, false⟩
  fluid := fun _ => true
  Lin := (cells 1 (size gridTube c)).map fun x i => x i + gridTube.w i
  Lfull := cells 1 fun i => size gridTube c i + 2 * gridTube.w i
  bc := fun t A => match tubeData anti (procGrid gridTube (fun _ => 0) 1 wallsLine sten3 c) with
    | none => A
    | some p => toArr (boundaryCondition sten3 (withValues sten3 (procGrid gridTube (fun _ => 0) 1 wallsLine sten3 c) ψ p.2 t)
        (toDist A))

theorem gridTube_large : ∀ c i, gridTube.w i ≤ size gridTube c i := (large_iff gridTube).2 (by decide)

theorem tube_run (anti : Bool) (ψ : Int → ℝ → (Fin 1 → ℝ) → Fin 3 → ℝ) (S : Kernel ℝ 3 1 0) (a : Algo) :
    FluidRun (otherValues (tube anti) ψ) gridTube (fun _ => 0) 1 wallsLine S a (tubeSetup anti ψ S a) where
  walls :=
    { large := gridTube_large
      onGrid := by
        intro c
        obtain ⟨⟨st, I⟩, hp⟩ := Option.isSome_iff_exists.1 (tubeData_proc anti c)
        refine ⟨st, I, ?_, fun t A => by simp only [tubeSetup, hp]; rfl⟩
        exact otherValues_onGrid (tube_onGrid (procGrid_wf gridTube _ _ one_pos _ _ (by decide) c) rfl hp) ψ
      away := by
        intro c x _ k
        right
        intro e he
        cases he }
  scheme := fun _ => rfl
  vel := fun _ => rfl
  algo := fun _ => rfl
  fluid := fun c hc => absurd hc (by simp [tubeSetup])
  nodup := fun c => by
    refine List.Nodup.map ?_ (cells_nodup _)
    intro x y h
    funext i
    have := congrFun h i
    simpa using this
  loops := fun c x => by
    simp only [tubeSetup, List.mem_map, mem_cells, Owned]
    constructor
    · rintro ⟨y, hy, rfl⟩ i
      have := hy i
      show (gridTube.w i : Int) ≤ y i + gridTube.w i ∧ y i + (gridTube.w i : Int) < _
      constructor <;> omega
    · intro h
      refine ⟨fun i => x i - gridTube.w i, fun i => ?_, by funext i; ring⟩
      have := h i
      show 0 ≤ x i - (gridTube.w i : Int) ∧ x i - (gridTube.w i : Int) < _
      constructor <;> omega
  split := fun c => by simp [tubeSetup]

/-- The diffusion does not see the mirror, nor the sign. -/
theorem heatR_mirrors (α r₁ r₂ ε : ℝ) (hε : ε = 1 ∨ ε = -1) (alg : Algo) (i : Fin 1) (f : Fin 3 → ℝ) :
    collide (heatR α r₁ r₂) alg (reflectCell sten3 (fun _ _ => ε) (fun a => decide (a = i)) f) =
      reflectCell sten3 (fun _ _ => ε) (fun a => decide (a = i)) (collide (heatR α r₁ r₂) alg f) := by
  have hP : ∀ f : Fin 3 → ℝ, reflectCell sten3 (fun _ _ => ε) (fun a => decide (a = i)) f =
      (!![ε, 0, 0; 0, 0, ε; 0, ε, 0] : Matrix (Fin 3) (Fin 3) ℝ) *ᵥ f := by
    intro f
    funext j
    rw [reflect_one]
    fin_cases i
    fin_cases j <;> simp [Matrix.mulVec, dotProduct, Fin.sum_univ_three, Sten.vel]
  have hne : ε ≠ 0 := by rcases hε with rfl | rfl <;> norm_num
  rw [hP, hP]
  refine C114_collision _ (fun j w => by fin_cases j; rfl) ?_ (fun _ => rfl) rfl alg _ !![ε, 0, 0; 0, -ε, 0; 0, 0, ε] ?_ ?_ ?_ f
  · ext i j
    fin_cases i <;> fin_cases j <;> simp [heatR, Matrix.mul_apply, Fin.sum_univ_three] <;> norm_num
  · ext i j
    fin_cases i <;> fin_cases j <;> simp [heatR, Matrix.mul_apply, Fin.sum_univ_three]
  · intro m i
    fin_cases i <;> simp [heatR, Matrix.mulVec, dotProduct, Fin.sum_univ_three]
    ring
  · intro m i l h
    fin_cases i <;> fin_cases l <;> simp_all [heatR]

/-- A case for `C121_closed`: four cells on two processes. The density tends to its mean. -/
example (α r₁ r₂ : ℝ) (hα : 0 < α ∧ α < 1) (h₁ : 0 < r₁ ∧ r₁ < 2) (h₂ : 0 < r₂ ∧ r₂ < 2) (a : Algo) (A : Arr ℝ 3 1) :
    (∀ k, ∃ σ, PRun gridTube (tubeSetup false (fun _ _ _ _ => 0) (heatR α r₁ r₂) a) (fun _ => startWith 3 0 1 A) k σ) ∧
    ∃ q C ρ : ℝ, q < 1 ∧ ∀ k σ, PRun gridTube (tubeSetup false (fun _ _ _ _ => 0) (heatR α r₁ r₂) a) (fun _ => startWith 3 0 1 A) k σ →
      ∀ c x, Owned (size gridTube c) gridTube.w x → ((σ c).arr x 0 - ρ * (1 - α)) ^ 2 ≤ C * q ^ k := by
  refine ⟨fun k => C42_run_exists (by omega) gridTube gridTube_large _ _ k, ?_⟩
  obtain ⟨⟨st, I⟩, hp⟩ := Option.isSome_iff_exists.1 (tubeData_one false)
  obtain ⟨q, -, h1, h⟩ := C121_closed (by omega) (by decide) (tube_chamber hp) (tube_run false (fun _ _ _ _ => 0) (heatR α r₁ r₂) a)
    (show ∀ j : Fin 1, ((![0] : Fin 1 → Fin 3) j : Nat) < 1 by decide) (heatR_damped α r₁ r₂ hα h₁ h₂)
    (fun i _ f => heatR_mirrors α r₁ r₂ 1 (.inl rfl) a i f) (fun j => by fin_cases j <;> rfl)
    (connects_rest _ _ 0 (by decide) (by decide))
  set T := ∑ c : Proc gridTube, ∑ x ∈ inner (size gridTube c) gridTube.w,
    ((heatR α r₁ r₂).M *ᵥ A x) ((heatR α r₁ r₂).consm 0) with hT
  obtain ⟨C, hC⟩ := h (fun _ => startWith 3 0 1 A) (fun c => ⟨show (0 : Fin 2) ≠ 1 by decide, rfl, rfl, rfl⟩) _
    (heatR_equilibrium α r₁ r₂ (T / 4)) (by
      have h4 : ((∏ i, gridTube.N i : ℕ) : ℝ) = 4 := by
        rw [show (∏ i, gridTube.N i : ℕ) = 4 from by decide]
        norm_num
      rw [h4]
      refine hT.symm.trans ?_
      simp [heatR, Matrix.mulVec, dotProduct, Fin.sum_univ_three]
      ring)
  exact ⟨q, C, T / 4, h1, fun k σ hr c x hx => hC k σ hr c x 0 hx⟩

/-- A case for `C121_absorbing`: the same tube with the density 0 imposed at both ends. The density tends to 0. -/
example (α r₁ r₂ : ℝ) (hα : 0 < α ∧ α < 1) (h₁ : 0 < r₁ ∧ r₁ < 2) (h₂ : 0 < r₂ ∧ r₂ < 2) (a : Algo) (A : Arr ℝ 3 1) :
    (∀ k, ∃ σ, PRun gridTube (tubeSetup true (fun _ _ _ _ => 0) (heatR α r₁ r₂) a) (fun _ => startWith 3 0 1 A) k σ) ∧
    ∃ q C : ℝ, q < 1 ∧ ∀ k σ, PRun gridTube (tubeSetup true (fun _ _ _ _ => 0) (heatR α r₁ r₂) a) (fun _ => startWith 3 0 1 A) k σ →
      ∀ c x j, Owned (size gridTube c) gridTube.w x → ((σ c).arr x j) ^ 2 ≤ C * q ^ k := by
  refine ⟨fun k => C42_run_exists (by omega) gridTube gridTube_large _ _ k, ?_⟩
  obtain ⟨⟨st, I⟩, hp⟩ := Option.isSome_iff_exists.1 (tubeData_one true)
  obtain ⟨q, -, h1, h⟩ := C121_absorbing (ε := fun _ => -1) (by omega) (by decide) (tube_chamber hp) (tube_run true (fun _ _ _ _ => 0) (heatR α r₁ r₂) a)
    (show ∀ j : Fin 1, ((![0] : Fin 1 → Fin 3) j : Nat) < 1 by decide) (heatR_damped α r₁ r₂ hα h₁ h₂)
    (fun i _ f => heatR_mirrors α r₁ r₂ (-1) (.inr rfl) a i f) (fun j => by fin_cases j <;> rfl)
    (connects_rest _ _ 0 (by decide) (by decide)) ⟨0, rfl, rfl⟩
  obtain ⟨C, hC⟩ := h (fun _ => startWith 3 0 1 A) (fun c => ⟨show (0 : Fin 2) ≠ 1 by decide, rfl, rfl, rfl⟩) 0
    (fun i => by fin_cases i <;> simp [heatR]) (by simp)
  exact ⟨q, C, h1, fun k σ hr c x j hx => by simpa using hC k σ hr c x j hx⟩

/-- A case for `C121_forget`: any values imposed at the ends of the tube, which may change with time; two initial values. -/
example (α r₁ r₂ : ℝ) (hα : 0 < α ∧ α < 1) (h₁ : 0 < r₁ ∧ r₁ < 2) (h₂ : 0 < r₂ ∧ r₂ < 2) (a : Algo)
    (ψ : Int → ℝ → (Fin 1 → ℝ) → Fin 3 → ℝ) :
    ∃ q : ℝ, q < 1 ∧ ∀ A A' : Arr ℝ 3 1, ∃ C : ℝ, ∀ k σ σ',
      PRun gridTube (tubeSetup true ψ (heatR α r₁ r₂) a) (fun _ => startWith 3 0 1 A) k σ →
      PRun gridTube (tubeSetup true ψ (heatR α r₁ r₂) a) (fun _ => startWith 3 0 1 A') k σ' →
      ∀ c x j, Owned (size gridTube c) gridTube.w x → ((σ c).arr x j - (σ' c).arr x j) ^ 2 ≤ C * q ^ k := by
  obtain ⟨⟨st, I⟩, hp⟩ := Option.isSome_iff_exists.1 (tubeData_one true)
  have hcomb : Combines (heatR α r₁ r₂) 1 (-1) := C90_schemes _ (fun i _ => ![1, 0, α] i) 0 0 0
    (fun i w => by fin_cases i <;> simp [heatR]) (fun i _ _ => by fin_cases i <;> rfl) (fun q hq => by cases hq) (fun i q hq => by cases hq) _ _
    (.inr ⟨rfl, rfl⟩)
  obtain ⟨q, -, h1, h⟩ := C121_forget (D := otherValues (tube true) ψ) (ε := fun _ => -1) (by omega) (by decide) (tube_chamber hp)
    (show ∀ j : Fin 1, ((![0] : Fin 1 → Fin 3) j : Nat) < 1 by decide) (heatR_damped α r₁ r₂ hα h₁ h₂) hcomb
    (fun i _ f => heatR_mirrors α r₁ r₂ (-1) (.inr rfl) a i f) (fun j => by fin_cases j <;> rfl)
    (connects_rest _ _ 0 (by decide) (by decide))
  refine ⟨q, h1, fun A A' => ?_⟩
  obtain ⟨G, hG⟩ := C15_global_array_exists gridTube fun _ => A
  obtain ⟨G', hG'⟩ := C15_global_array_exists gridTube fun _ => A'
  obtain ⟨C, hC⟩ := h gridTube gridTube rfl rfl rfl rfl _ _ (tube_run true ψ _ a) (tube_run true ψ _ a)
    (fun _ => startWith 3 0 1 A) (fun _ => startWith 3 0 1 A') (fun c => ⟨show (0 : Fin 2) ≠ 1 by decide, rfl, rfl, rfl⟩)
    (fun c => ⟨show (0 : Fin 2) ≠ 1 by decide, rfl, rfl, rfl⟩) G G' hG hG' (.inl ⟨0, rfl, rfl⟩)
  exact ⟨C, fun k σ σ' hr hr' c x j hx => hC k σ σ' hr hr' c x c x hx hx rfl j⟩

/-- A case for `C121_steady`: values at the ends of the tube which do not change with time. -/
example (α r₁ r₂ : ℝ) (hα : 0 < α ∧ α < 1) (h₁ : 0 < r₁ ∧ r₁ < 2) (h₂ : 0 < r₂ ∧ r₂ < 2) (a : Algo)
    (v : Int → (Fin 1 → ℝ) → Fin 3 → ℝ) :
    ∃ (q : ℝ) (F : Arr ℝ 3 1), q < 1 ∧ ∀ A : Arr ℝ 3 1, ∃ C : ℝ, ∀ k σ,
      PRun gridTube (tubeSetup true (fun l _ => v l) (heatR α r₁ r₂) a) (fun _ => startWith 3 0 1 A) k σ →
      ∀ c x j, Owned (size gridTube c) gridTube.w x →
        ((σ c).arr x j - F (globalPos (first gridTube c) gridTube.w x) j) ^ 2 ≤ C * q ^ k := by
  obtain ⟨⟨st, I⟩, hp⟩ := Option.isSome_iff_exists.1 (tubeData_one true)
  have hcomb : Combines (heatR α r₁ r₂) 1 (-1) := C90_schemes _ (fun i _ => ![1, 0, α] i) 0 0 0
    (fun i w => by fin_cases i <;> simp [heatR]) (fun i _ _ => by fin_cases i <;> rfl) (fun q hq => by cases hq)
    (fun i q hq => by cases hq) _ _ (.inr ⟨rfl, rfl⟩)
  obtain ⟨q, F, -, h1, h⟩ := C121_steady (D := otherValues (tube true) fun l _ => v l) (ε := fun _ => -1) (by omega) (by decide)
    (tube_chamber hp) (show ∀ j : Fin 1, ((![0] : Fin 1 → Fin 3) j : Nat) < 1 by decide) (heatR_damped α r₁ r₂ hα h₁ h₂) hcomb
    (fun i _ f => heatR_mirrors α r₁ r₂ (-1) (.inr rfl) a i f) (fun j => by fin_cases j <;> rfl)
    (connects_rest _ _ 0 (by decide) (by decide)) ⟨0, rfl, rfl⟩ (fun _ _ => rfl)
  refine ⟨q, F, h1, fun A => ?_⟩
  obtain ⟨C, hC⟩ := h gridTube rfl rfl _ (tube_run true (fun l _ => v l) _ a) (fun _ => startWith 3 0 1 A)
    (fun c => ⟨show (0 : Fin 2) ≠ 1 by decide, rfl, rfl, rfl⟩)
  exact ⟨C, fun k σ hr c x j hx => (hC k σ hr c x hx).1 j⟩

/-- A case for `C121_cycle`: the values `A cos (2 π t / 3)` at the ends of the tube, with the period of three steps. -/
example (α r₁ r₂ A : ℝ) (hα : 0 < α ∧ α < 1) (h₁ : 0 < r₁ ∧ r₁ < 2) (h₂ : 0 < r₂ ∧ r₂ < 2) (a : Algo) :
    ∃ (q : ℝ) (F : Nat → Arr ℝ 3 1), q < 1 ∧ (∀ k, F (k + 3) = F k) ∧ ∀ B : Arr ℝ 3 1, ∃ C : ℝ, ∀ k σ,
      PRun gridTube (tubeSetup true (fun _ t _ _ => A * Real.cos (2 * Real.pi / 3 * t)) (heatR α r₁ r₂) a)
        (fun _ => startWith 3 0 1 B) k σ →
      ∀ c x j, Owned (size gridTube c) gridTube.w x →
        ((σ c).arr x j - F k (globalPos (first gridTube c) gridTube.w x) j) ^ 2 ≤ C * q ^ k := by
  obtain ⟨⟨st, I⟩, hp⟩ := Option.isSome_iff_exists.1 (tubeData_one true)
  have hcomb : Combines (heatR α r₁ r₂) 1 (-1) := C90_schemes _ (fun i _ => ![1, 0, α] i) 0 0 0
    (fun i w => by fin_cases i <;> simp [heatR]) (fun i _ _ => by fin_cases i <;> rfl) (fun q hq => by cases hq)
    (fun i q hq => by cases hq) _ _ (.inr ⟨rfl, rfl⟩)
  obtain ⟨q, F, -, h1, hF, h⟩ := C121_cycle (D := otherValues (tube true) fun _ t _ _ => A * Real.cos (2 * Real.pi / 3 * t))
    (ε := fun _ => -1) (by omega) (by decide) (tube_chamber hp) (show ∀ j : Fin 1, ((![0] : Fin 1 → Fin 3) j : Nat) < 1 by decide)
    (heatR_damped α r₁ r₂ hα h₁ h₂) hcomb (fun i _ f => heatR_mirrors α r₁ r₂ (-1) (.inr rfl) a i f)
    (fun j => by fin_cases j <;> rfl) (connects_rest _ _ 0 (by decide) (by decide)) ⟨0, rfl, rfl⟩ (p := 3) (by omega) (by
      intro l t
      funext x j
      show A * Real.cos (2 * Real.pi / 3 * (t + (3 : ℕ) * (1 : ℝ))) = A * Real.cos (2 * Real.pi / 3 * t)
      rw [show 2 * Real.pi / 3 * (t + (3 : ℕ) * (1 : ℝ)) = 2 * Real.pi / 3 * t + 2 * Real.pi by push_cast; ring, Real.cos_add_two_pi])
  refine ⟨q, F, h1, hF, fun B => ?_⟩
  obtain ⟨C, hC⟩ := h gridTube rfl rfl _ (tube_run true _ _ a) (fun _ => startWith 3 0 1 B)
    (fun c => ⟨show (0 : Fin 2) ≠ 1 by decide, rfl, rfl, rfl⟩)
  exact ⟨C, fun k σ hr c x j hx => hC k σ hr c x hx j⟩

end Pylbm.Sim
