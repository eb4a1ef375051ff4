import Verif.Stability.Monotone
import Mathlib.Analysis.SpecialFunctions.Trigonometric.Deriv
import Mathlib.Analysis.SpecialFunctions.Trigonometric.DerivHyp
/-!
# C67: a case for the theorems on nonlinear schemes
-/
namespace Pylbm.Stability
open Matrix Sim Scheme Halo SchemeSpec HaloSpec Mpi
open scoped ContDiff

/-- D1Q2 for Burgers' equation, equilibrium `w ^ 2 / 2`, relaxation parameter `1/2`. -/
noncomputable def slowBurgers : Kernel ℝ (1 + 1) 1 0 where
  M := !![1, 1; 1, -1]
  invM := !![1 / 2, 1 / 2; 1 / 2, -1 / 2]
  Tu := fun _ => 1
  Tmu := fun _ => 1
  EQ := ![fun w => w 0, fun w => w 0 ^ 2 / 2]
  s := ![fun _ => 0, fun _ => 1 / 2]
  consm := ![0]
  relVel := none
  source := fun _ => none
  dt := 1

/-- The velocities. -/
def pm : Fin (1 + 1) → Cell 1 := fun j _ => ![1, -1] j

/-- A small wave on a constant state, moving with the velocity of the constant state. -/
noncomputable def smallWave (ε t : ℝ) (x : Fin 1 → ℝ) (_ : Fin 1) : ℝ := 1 / 4 + ε * Real.sin (2 * Real.pi * (x 0 - t / 4))

theorem slowBurgers_inv : slowBurgers.invM * slowBurgers.M = 1 := by
  ext i j
  fin_cases i <;> fin_cases j <;> simp [slowBurgers, Matrix.mul_apply, Fin.sum_univ_two] <;> norm_num

theorem slowBurgers_eq (j : Fin 1) (w : Fin 1 → ℝ) : slowBurgers.EQ (slowBurgers.consm j) w = w j := by
  fin_cases j; rfl

theorem slowBurgers_collide (g : Fin (1 + 1) → ℝ) : collide slowBurgers .pull g =
    ![g 0 / 2 + (g 0 + g 1 + (g 0 + g 1) ^ 2 / 2) / 4, g 1 / 2 + (g 0 + g 1 - (g 0 + g 1) ^ 2 / 2) / 4] := by
  rw [collide_eq slowBurgers .pull slowBurgers_eq (fun _ => rfl) rfl, collision]
  funext i
  fin_cases i <;>
  · simp [relaxed, slowBurgers, Matrix.mulVec, dotProduct, Fin.sum_univ_two, Function.comp]
    ring

theorem slowBurgers_contracts : Contracts ![Set.Ioo (-1 / 4) (3 / 4), Set.Ioo (-3 / 4) (1 / 4)] (collide slowBurgers .pull) := by
  have hw : ∀ g : Fin (1 + 1) → ℝ, Within ![Set.Ioo (-1 / 4) (3 / 4), Set.Ioo (-3 / 4) (1 / 4)] g →
      ((-1 / 4 < g 0 ∧ g 0 < 3 / 4) ∧ -3 / 4 < g 1 ∧ g 1 < 1 / 4) := fun g hg => ⟨hg 0, hg 1⟩
  constructor
  · intro g hg
    obtain ⟨⟨a, b⟩, c, d⟩ := hw g hg
    rw [slowBurgers_collide]
    set w := g 0 + g 1 with hw
    have h1 : -1 < w := by linarith
    have h2 : w < 1 := by linarith
    intro j
    fin_cases j
    · change _ ∈ Set.Ioo _ _
      simp only [Fin.zero_eta, Matrix.cons_val_zero]
      constructor <;> nlinarith
    · change _ ∈ Set.Ioo _ _
      simp only [Fin.mk_one, Matrix.cons_val_one, Matrix.cons_val_fin_one]
      constructor <;> nlinarith
  · intro g g' hg hg'
    obtain ⟨⟨a, b⟩, c, d⟩ := hw g hg
    obtain ⟨⟨a', b'⟩, c', d'⟩ := hw g' hg'
    rw [slowBurgers_collide, slowBurgers_collide, Fin.sum_univ_two, Fin.sum_univ_two]
    simp only [Matrix.cons_val_zero, Matrix.cons_val_one, Matrix.cons_val_fin_one]
    set k := (g 0 + g 1 + (g' 0 + g' 1)) / 2 with hk
    have hk1 : |k| ≤ 1 := by rw [abs_le]; constructor <;> (rw [hk]; linarith)
    obtain ⟨k1, k2⟩ := abs_le.1 hk1
    set D := g 0 + g 1 - (g' 0 + g' 1) with hD
    have e0 : g 0 / 2 + (g 0 + g 1 + (g 0 + g 1) ^ 2 / 2) / 4 - (g' 0 / 2 + (g' 0 + g' 1 + (g' 0 + g' 1) ^ 2 / 2) / 4) =
        (g 0 - g' 0) / 2 + D * ((1 + k) / 4) := by rw [hk, hD]; ring
    have e1 : g 1 / 2 + (g 0 + g 1 - (g 0 + g 1) ^ 2 / 2) / 4 - (g' 1 / 2 + (g' 0 + g' 1 - (g' 0 + g' 1) ^ 2 / 2) / 4) =
        (g 1 - g' 1) / 2 + D * ((1 - k) / 4) := by rw [hk, hD]; ring
    rw [e0, e1]
    have t0 : |(g 0 - g' 0) / 2 + D * ((1 + k) / 4)| ≤ |g 0 - g' 0| / 2 + |D| * ((1 + k) / 4) := by
      refine (abs_add_le _ _).trans (le_of_eq ?_)
      rw [abs_div, abs_mul, abs_of_pos (by norm_num : (0 : ℝ) < 2), abs_of_nonneg (by linarith : 0 ≤ (1 + k) / 4)]
    have t1 : |(g 1 - g' 1) / 2 + D * ((1 - k) / 4)| ≤ |g 1 - g' 1| / 2 + |D| * ((1 - k) / 4) := by
      refine (abs_add_le _ _).trans (le_of_eq ?_)
      rw [abs_div, abs_mul, abs_of_pos (by norm_num : (0 : ℝ) < 2), abs_of_nonneg (by linarith : 0 ≤ (1 - k) / 4)]
    have tD : |D| ≤ |g 0 - g' 0| + |g 1 - g' 1| := by
      have : D = (g 0 - g' 0) + (g 1 - g' 1) := by rw [hD]; ring
      rw [this]
      exact abs_add_le _ _
    nlinarith

theorem partialAt_line (h : ℝ → ℝ) (x : Fin 1 → ℝ) : partialAt (fun y => h (y 0)) 0 x = _root_.deriv h (x 0) := by
  simp [partialAt]

theorem slowBurgers_lambda : lambdaMat slowBurgers.M slowBurgers.invM 1 pm (0 : Fin 1) =
    (!![0, 1; 1, 0] : Matrix (Fin (1 + 1)) (Fin (1 + 1)) ℝ) := by
  ext i j
  rw [lambdaMat, Matrix.mul_apply, Fin.sum_univ_two, Matrix.mul_diagonal, Matrix.mul_diagonal]
  fin_cases i <;> fin_cases j <;> simp [slowBurgers, pm] <;> norm_num

theorem slowBurgers_flux (w : Fin 1 → ℝ) :
    coeffOrder1 (lambdaMat slowBurgers.M slowBurgers.invM 1 pm) (fun w i => slowBurgers.EQ (Fin.natAdd 1 i) w) 0 w 0 =
      w 0 ^ 2 / 2 := by
  simp only [coeffOrder1, slowBurgers_lambda, blockA, blockB]
  simp [Matrix.mulVec, dotProduct, Fin.natAdd, Fin.castAdd, slowBurgers]

theorem slowBurgers_jac (w : Fin 1 → ℝ) : jacobian (fun w i => slowBurgers.EQ (Fin.natAdd 1 i) w) w = !![w 0] := by
  ext i c
  fin_cases i; fin_cases c
  have : partialAt (fun w : Fin 1 → ℝ => w 0 ^ 2 / 2) 0 w = w 0 := by
    rw [partialAt_line (fun r => r ^ 2 / 2) w]
    have : HasDerivAt (fun r : ℝ => r ^ 2 / 2) (2 * w 0 / 2) (w 0) := by
      have := (hasDerivAt_pow 2 (w 0)).div_const 2
      simpa using this
    rw [this.deriv]
    ring
  exact this

theorem slowBurgers_printed (w : Fin 1 → ℝ) (ε : ℝ) : printedB (lambdaMat slowBurgers.M slowBurgers.invM 1 pm)
    (jacobian (fun w i => slowBurgers.EQ (Fin.natAdd 1 i) w) w) (fun i => slowBurgers.s (Fin.natAdd 1 i) w) ε 0 0 0 0 =
      3 / 2 * ε * (1 - w 0 ^ 2) := by
  rw [slowBurgers_jac]
  simp only [printedB, coeffOrder2, sigmaMat, phi1, gamma1, blockA, blockB, blockC, blockD, slowBurgers_lambda, Matrix.mul_apply,
    Finset.univ_unique, Finset.sum_singleton, Matrix.smul_apply, Matrix.sub_apply, Matrix.add_apply,
    Matrix.neg_apply, Matrix.submatrix_apply]
  simp [Fin.natAdd, Fin.castAdd, slowBurgers]
  ring

theorem smallWave_solves : SolvesPrinted slowBurgers pm 1 Set.univ smallWave := by
  refine ⟨1, one_pos, 2 * Real.pi + 33 * Real.pi ^ 2, fun ε h0 h1 t _ x b => ?_⟩
  fin_cases b
  set u : ℝ → ℝ := fun y => 1 / 4 + ε * Real.sin (2 * Real.pi * (y - t / 4)) with hu
  set y := x 0 with hy
  set θ := 2 * Real.pi * (y - t / 4) with hθ
  have hlin : ∀ y, HasDerivAt (fun y => 2 * Real.pi * (y - t / 4)) (2 * Real.pi) y := fun y => by
    simpa using ((hasDerivAt_id y).sub_const (t / 4)).const_mul (2 * Real.pi)
  have hu' : ∀ y, HasDerivAt u (ε * (2 * Real.pi) * Real.cos (2 * Real.pi * (y - t / 4))) y := fun y => by
    have h2 : HasDerivAt u (ε * (Real.cos (2 * Real.pi * (y - t / 4)) * (2 * Real.pi))) y :=
      ((Real.hasDerivAt_sin _).comp y (hlin y)).const_mul ε |>.const_add (1 / 4)
    rwa [show ε * (Real.cos (2 * Real.pi * (y - t / 4)) * (2 * Real.pi)) =
      ε * (2 * Real.pi) * Real.cos (2 * Real.pi * (y - t / 4)) by ring] at h2
  have d1 : _root_.deriv (fun t' => smallWave ε t' x 0) t = -(ε * (2 * Real.pi) * Real.cos θ) / 4 := by
    have hl : HasDerivAt (fun t : ℝ => 2 * Real.pi * (y - t / 4)) (-(2 * Real.pi) / 4) t := by
      have h2 : HasDerivAt (fun t : ℝ => 2 * Real.pi * (y - t / 4)) (2 * Real.pi * -(1 / 4)) t :=
        (((hasDerivAt_id t).div_const 4).const_sub y).const_mul (2 * Real.pi)
      rwa [show 2 * Real.pi * -(1 / 4) = -(2 * Real.pi) / 4 by ring] at h2
    have := ((Real.hasDerivAt_sin _).comp t hl).const_mul ε |>.const_add (1 / 4)
    change _root_.deriv (fun t' : ℝ => 1 / 4 + ε * Real.sin (2 * Real.pi * (y - t' / 4))) t = _
    have h2 := this.deriv
    have h3 : _root_.deriv (fun t' : ℝ => 1 / 4 + ε * Real.sin (2 * Real.pi * (y - t' / 4))) t =
      ε * (Real.cos (2 * Real.pi * (y - t / 4)) * (-(2 * Real.pi) / 4)) := h2
    rw [h3]
    ring
  have d2 : partialAt (fun z => coeffOrder1 (lambdaMat slowBurgers.M slowBurgers.invM 1 pm)
      (fun w i => slowBurgers.EQ (Fin.natAdd 1 i) w) 0 (smallWave ε t z) 0) 0 x = u y * (ε * (2 * Real.pi) * Real.cos θ) := by
    simp only [slowBurgers_flux]
    refine (partialAt_line (fun r => u r ^ 2 / 2) x).trans ?_
    have := ((hu' y).pow 2).div_const 2
    have h2 : _root_.deriv (fun r => u r ^ 2 / 2) y = _ := this.deriv
    rw [h2]
    ring
  have d3 : ∀ z : Fin 1 → ℝ, partialAt (fun z => smallWave ε t z 0) 0 z =
      ε * (2 * Real.pi) * Real.cos (2 * Real.pi * (z 0 - t / 4)) := by
    intro z
    change partialAt (fun z => u (z 0)) 0 z = _
    rw [partialAt_line, (hu' _).deriv]
  have d4 : partialAt (fun z => ∑ c, printedB (lambdaMat slowBurgers.M slowBurgers.invM 1 pm)
      (jacobian (fun w i => slowBurgers.EQ (Fin.natAdd 1 i) w) (smallWave ε t z))
      (fun i => slowBurgers.s (Fin.natAdd 1 i) (smallWave ε t z)) ε 0 0 0 c * partialAt (fun z => smallWave ε t z c) 0 z) 0 x =
      3 / 2 * ε * ((1 - u y ^ 2) * (-(ε * (2 * Real.pi) ^ 2 * Real.sin θ)) - 2 * u y * (ε * (2 * Real.pi) * Real.cos θ) ^ 2) := by
    simp only [Finset.univ_unique, Finset.sum_singleton]
    have : (fun z : Fin 1 → ℝ => printedB (lambdaMat slowBurgers.M slowBurgers.invM 1 pm)
      (jacobian (fun w i => slowBurgers.EQ (Fin.natAdd 1 i) w) (smallWave ε t z))
      (fun i => slowBurgers.s (Fin.natAdd 1 i) (smallWave ε t z)) ε 0 0 0 default *
        partialAt (fun z => smallWave ε t z default) 0 z) =
        fun z => (fun r => 3 / 2 * ε * (1 - u r ^ 2) * (ε * (2 * Real.pi) * Real.cos (2 * Real.pi * (r - t / 4)))) (z 0) := by
      funext z
      have e1 := slowBurgers_printed (smallWave ε t z) ε
      have e2 := d3 z
      change printedB _ _ _ ε 0 0 0 0 * partialAt (fun z => smallWave ε t z 0) 0 z = _
      rw [e1, e2]
      rfl
    rw [this]
    refine (partialAt_line (fun r => 3 / 2 * ε * (1 - u r ^ 2) * (ε * (2 * Real.pi) *
      Real.cos (2 * Real.pi * (r - t / 4)))) x).trans ?_
    have hc := ((Real.hasDerivAt_cos _).comp y (hlin y)).const_mul (ε * (2 * Real.pi))
    have hb := (((hu' y).pow 2).const_sub 1).const_mul (3 / 2 * ε)
    have h2 : _root_.deriv (fun r => 3 / 2 * ε * (1 - u r ^ 2) * (ε * (2 * Real.pi) * Real.cos (2 * Real.pi * (r - t / 4)))) y = _ :=
      (hb.mul hc).deriv
    rw [h2]
    simp only [Function.comp, Pi.pow_apply, hθ]
    push_cast
    ring
  unfold residual
  simp only [Fin.zero_eta, Finset.univ_unique, Finset.sum_singleton]
  change |_root_.deriv (fun t' => smallWave ε t' x 0) t + partialAt (fun z => coeffOrder1 _ _ 0 (smallWave ε t z) 0) 0 x -
    partialAt (fun z => _) 0 x| ≤ _
  simp only [Finset.univ_unique, Finset.sum_singleton] at d4
  rw [d1, d2]
  refine (congrArg (fun r => |_ - r|) d4).le.trans ?_
  have hs := abs_le.1 (Real.abs_sin_le_one θ)
  have hc := abs_le.1 (Real.abs_cos_le_one θ)
  have huy : u y = 1 / 4 + ε * Real.sin θ := rfl
  have hpi := Real.pi_pos
  rw [huy]
  set σ := Real.sin θ
  set κ := Real.cos θ
  have key : -(ε * (2 * Real.pi) * κ) / 4 + (1 / 4 + ε * σ) * (ε * (2 * Real.pi) * κ) -
      3 / 2 * ε * ((1 - (1 / 4 + ε * σ) ^ 2) * (-(ε * (2 * Real.pi) ^ 2 * σ)) - 2 * (1 / 4 + ε * σ) * (ε * (2 * Real.pi) * κ) ^ 2) =
      (2 * Real.pi * (σ * κ) + Real.pi ^ 2 * (6 * ((1 - (1 / 4 + ε * σ) ^ 2) * σ) +
        12 * (ε * ((1 / 4 + ε * σ) * κ ^ 2)))) * ε ^ 2 := by ring
  change |-(ε * (2 * Real.pi) * κ) / 4 + (1 / 4 + ε * σ) * (ε * (2 * Real.pi) * κ) -
      3 / 2 * ε * ((1 - (1 / 4 + ε * σ) ^ 2) * (-(ε * (2 * Real.pi) ^ 2 * σ)) - 2 * (1 / 4 + ε * σ) * (ε * (2 * Real.pi) * κ) ^ 2)| ≤ _
  rw [key, abs_mul, abs_of_nonneg (by positivity : (0 : ℝ) ≤ ε ^ 2)]
  refine mul_le_mul_of_nonneg_right ?_ (by positivity)
  have aσ : |σ| ≤ 1 := abs_le.2 hs
  have aκ : |κ| ≤ 1 := abs_le.2 hc
  have aε : |ε| ≤ 1 := by rw [abs_of_pos h0]; exact h1.le
  have mul1 : ∀ {a b : ℝ} {A B : ℝ}, |a| ≤ A → |b| ≤ B → |a * b| ≤ A * B := by
    intro a b A B h1 h2
    rw [abs_mul]
    exact mul_le_mul h1 h2 (abs_nonneg _) ((abs_nonneg _).trans h1)
  have aεσ : |ε * σ| ≤ 1 := by simpa using mul1 aε aσ
  have au : |1 / 4 + ε * σ| ≤ 5 / 4 := by
    refine (abs_add_le _ _).trans ?_
    rw [abs_of_pos (by norm_num : (0 : ℝ) < 1 / 4)]
    linarith
  have au2 : |1 - (1 / 4 + ε * σ) ^ 2| ≤ 3 := by
    have h2 := abs_le.1 au
    rw [abs_le]
    constructor <;> nlinarith
  have a1 := mul1 au2 aσ
  have aκ2 : |κ ^ 2| ≤ 1 := by rw [sq]; simpa using mul1 aκ aκ
  have a2 := mul1 aε (mul1 au aκ2)
  have a3 : |σ * κ| ≤ 1 := by simpa using mul1 aσ aκ
  have hp2 : |Real.pi ^ 2| = Real.pi ^ 2 := abs_of_pos (by positivity)
  have hp : |2 * Real.pi| = 2 * Real.pi := abs_of_pos (by positivity)
  have a4 : |6 * ((1 - (1 / 4 + ε * σ) ^ 2) * σ) + 12 * (ε * ((1 / 4 + ε * σ) * κ ^ 2))| ≤ 33 := by
    have b1 := abs_le.1 a1
    have b2 := abs_le.1 a2
    rw [abs_le]
    constructor <;> linarith
  have a5 := mul1 hp.le a3
  have a6 := mul1 hp2.le a4
  refine (abs_add_le _ _).trans ?_
  linarith

/-- The hypotheses of `C67_truncation`, `C67_nonlinear_convergence` and `C67_start_at_equilibrium` hold for Burgers'
equation and the small wave. -/
example (T : ℝ) (hT : 0 ≤ T) : ∃ ε₀ > (0 : ℝ), ∃ C : ℝ, ∀ ε : ℝ, 0 < ε → ε ≤ ε₀ → ∀ N : Fin 1 → Nat, (∀ i, N i * (1 * ε) = 1) →
    ∀ k : Nat, k * ε ≤ T → ∀ b, ∑ y ∈ box N, |(slowBurgers.M *ᵥ lbmRun N pm (collide slowBurgers .pull) (fun _ H => H) ε
      (fun y => slowBurgers.invM *ᵥ fun i => slowBurgers.EQ i (smallWave ε 0 fun l => 1 * ε * y l)) k y) (slowBurgers.consm b) -
        smallWave ε (k * ε) (fun l => 1 * ε * y l) b| ≤ (box N).card * (C * ε) := by
  refine C67_start_at_equilibrium slowBurgers .pull (by intro j; fin_cases j; rfl) slowBurgers_eq (fun _ => rfl) rfl
    slowBurgers_inv Set.univ isOpen_univ ?_ ?_ ?_ pm 1 one_pos (fun _ => 1) smallWave ?_ (fun _ _ _ => Set.mem_univ _) ?_
    Set.univ isOpen_univ smallWave_solves ![Set.Ioo (-1 / 4) (3 / 4), Set.Ioo (-3 / 4) (1 / 4)] ?_ slowBurgers_contracts ?_ T hT
    (Set.subset_univ _)
  · intro i
    fin_cases i
    change ContDiffOn ℝ ∞ (fun w : Fin 1 → ℝ => w 0 ^ 2 / 2) _
    exact (((contDiff_apply ℝ ℝ (0 : Fin 1)).pow 2).div_const 2).contDiffOn
  · intro i
    fin_cases i
    change ContDiffOn ℝ ∞ (fun _ : Fin 1 → ℝ => (1 / 2 : ℝ)) _
    exact contDiffOn_const
  · intro i w _
    fin_cases i
    change (1 / 2 : ℝ) ≠ 0
    norm_num
  · refine contDiff_pi.2 fun _ => ?_
    change ContDiff ℝ ∞ fun p : ℝ × ℝ × (Fin 1 → ℝ) => 1 / 4 + p.1 * Real.sin (2 * Real.pi * (p.2.2 0 - p.2.1 / 4))
    fun_prop
  · intro ε t k x
    funext b
    simp only [smallWave]
    have : 2 * Real.pi * (x 0 + k 0 * 1 - t / 4) = 2 * Real.pi * (x 0 - t / 4) + k 0 * (2 * Real.pi) := by ring
    rw [this, Real.sin_add_int_mul_two_pi]
  · intro j
    fin_cases j
    · exact isOpen_Ioo
    · exact isOpen_Ioo
  · intro t _ x j
    have h : ∀ i, slowBurgers.EQ i (smallWave 0 t x) = ![1 / 4, 1 / 32] i := by
      intro i
      fin_cases i <;> simp [slowBurgers, smallWave] <;> norm_num
    simp only [h]
    fin_cases j
    · change (slowBurgers.invM *ᵥ fun i => ![1 / 4, 1 / 32] i) 0 ∈ Set.Ioo _ _
      simp [slowBurgers, Matrix.mulVec, dotProduct, Fin.sum_univ_two]
      norm_num
    · change (slowBurgers.invM *ᵥ fun i => ![1 / 4, 1 / 32] i) 1 ∈ Set.Ioo _ _
      simp [slowBurgers, Matrix.mulVec, dotProduct, Fin.sum_univ_two]
      norm_num

end Pylbm.Stability
