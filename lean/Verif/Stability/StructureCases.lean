import Verif.Stability.MonotoneCases
import Verif.Stability.Structure
/-!
# C67: a case for the theorems with linearised stability
-/
namespace Pylbm.Stability
open Matrix Sim Scheme Halo SchemeSpec HaloSpec Mpi
open scoped ContDiff

/-- D1Q2 for Burgers' equation, equilibrium `w ^ 2 / 2`, relaxation parameter `3/2`: the collision is not monotone. -/
noncomputable def fastBurgers : Kernel ℝ (1 + 1) 1 0 where
  M := !![1, 1; 1, -1]
  invM := !![1 / 2, 1 / 2; 1 / 2, -1 / 2]
  Tu := fun _ => 1
  Tmu := fun _ => 1
  EQ := ![fun w => w 0, fun w => w 0 ^ 2 / 2]
  s := ![fun _ => 0, fun _ => 3 / 2]
  consm := ![0]
  relVel := none
  source := fun _ => none
  dt := 1

/-- A small wave on a constant state, of bounded amplitude for all `ε`. -/
noncomputable def tameWave (ε t : ℝ) (x : Fin 1 → ℝ) (_ : Fin 1) : ℝ :=
  1 / 4 + ε / (1 + ε ^ 2) * Real.sin (2 * Real.pi * (x 0 - t / 4))

theorem fastBurgers_inv : fastBurgers.invM * fastBurgers.M = 1 := by
  ext i j
  fin_cases i <;> fin_cases j <;> simp [fastBurgers, Matrix.mul_apply, Fin.sum_univ_two] <;> norm_num

theorem fastBurgers_eq (j : Fin 1) (w : Fin 1 → ℝ) : fastBurgers.EQ (fastBurgers.consm j) w = w j := by
  fin_cases j; rfl

theorem fastBurgers_collide (g : Fin (1 + 1) → ℝ) : collide fastBurgers .pull g =
    ![-g 0 / 2 + 3 / 4 * (g 0 + g 1 + (g 0 + g 1) ^ 2 / 2), -g 1 / 2 + 3 / 4 * (g 0 + g 1 - (g 0 + g 1) ^ 2 / 2)] := by
  rw [collide_eq fastBurgers .pull fastBurgers_eq (fun _ => rfl) rfl, collision]
  funext i
  fin_cases i <;>
  · simp [relaxed, fastBurgers, Matrix.mulVec, dotProduct, Fin.sum_univ_two, Function.comp]
    ring

theorem fastBurgers_lambda : lambdaMat fastBurgers.M fastBurgers.invM 1 pm (0 : Fin 1) =
    (!![0, 1; 1, 0] : Matrix (Fin (1 + 1)) (Fin (1 + 1)) ℝ) := by
  ext i j
  rw [lambdaMat, Matrix.mul_apply, Fin.sum_univ_two, Matrix.mul_diagonal, Matrix.mul_diagonal]
  fin_cases i <;> fin_cases j <;> simp [fastBurgers, pm] <;> norm_num

theorem fastBurgers_flux (w : Fin 1 → ℝ) :
    coeffOrder1 (lambdaMat fastBurgers.M fastBurgers.invM 1 pm) (fun w i => fastBurgers.EQ (Fin.natAdd 1 i) w) 0 w 0 =
      w 0 ^ 2 / 2 := by
  simp only [coeffOrder1, fastBurgers_lambda, blockA, blockB]
  simp [Matrix.mulVec, dotProduct, Fin.natAdd, Fin.castAdd, fastBurgers]

theorem fastBurgers_jac (w : Fin 1 → ℝ) : jacobian (fun w i => fastBurgers.EQ (Fin.natAdd 1 i) w) w = !![w 0] := by
  ext i c
  fin_cases i; fin_cases c
  have : partialAt (fun w : Fin 1 → ℝ => w 0 ^ 2 / 2) 0 w = w 0 := by
    rw [partialAt_line (fun r => r ^ 2 / 2) w]
    have : HasDerivAt (fun r : ℝ => r ^ 2 / 2) (2 * w 0 / 2) (w 0) := by
      have := (hasDerivAt_pow 2 (w 0)).div_const 2
      simpa using this
    rw [this.deriv]
    ring
  exact this

theorem fastBurgers_printed (w : Fin 1 → ℝ) (ε : ℝ) : printedB (lambdaMat fastBurgers.M fastBurgers.invM 1 pm)
    (jacobian (fun w i => fastBurgers.EQ (Fin.natAdd 1 i) w) w) (fun i => fastBurgers.s (Fin.natAdd 1 i) w) ε 0 0 0 0 =
      1 / 6 * ε * (1 - w 0 ^ 2) := by
  rw [fastBurgers_jac]
  simp only [printedB, coeffOrder2, sigmaMat, phi1, gamma1, blockA, blockB, blockC, blockD, fastBurgers_lambda, Matrix.mul_apply,
    Finset.univ_unique, Finset.sum_singleton, Matrix.smul_apply, Matrix.sub_apply, Matrix.add_apply,
    Matrix.neg_apply, Matrix.submatrix_apply]
  simp [Fin.natAdd, Fin.castAdd, fastBurgers]
  ring

theorem tame_bound {ε a b σ κ : ℝ} (h0 : 0 < ε) (h1 : ε < 1) (hab : a = ε * b) (hb0 : 0 < b) (hb1 : b ≤ 1) (aσ : |σ| ≤ 1)
    (aκ : |κ| ≤ 1) :
    |-(a * (2 * Real.pi) * κ) / 4 + (1 / 4 + a * σ) * (a * (2 * Real.pi) * κ) -
      1 / 6 * ε * ((1 - (1 / 4 + a * σ) ^ 2) * (-(a * (2 * Real.pi) ^ 2 * σ)) - 2 * (1 / 4 + a * σ) * (a * (2 * Real.pi) * κ) ^ 2)| ≤
      (2 * Real.pi + 33 * Real.pi ^ 2) * ε ^ 2 := by
  have key : -(a * (2 * Real.pi) * κ) / 4 + (1 / 4 + a * σ) * (a * (2 * Real.pi) * κ) -
      1 / 6 * ε * ((1 - (1 / 4 + a * σ) ^ 2) * (-(a * (2 * Real.pi) ^ 2 * σ)) - 2 * (1 / 4 + a * σ) * (a * (2 * Real.pi) * κ) ^ 2) =
      (2 * Real.pi * (b * (b * (σ * κ))) + Real.pi ^ 2 * (2 / 3 * (b * ((1 - (1 / 4 + a * σ) ^ 2) * σ)) +
        4 / 3 * (b * (a * ((1 / 4 + a * σ) * κ ^ 2))))) * ε ^ 2 := by
    generalize hU : 1 / 4 + a * σ = U
    rw [show -(a * (2 * Real.pi) * κ) / 4 + U * (a * (2 * Real.pi) * κ) = a * (2 * Real.pi) * κ * (a * σ) by rw [← hU]; ring]
    have e1 : a * (2 * Real.pi) * κ * (a * σ) = 2 * Real.pi * (b * (b * (σ * κ))) * ε ^ 2 := by rw [hab]; ring
    rw [e1]
    have e2 : 1 / 6 * ε * ((1 - U ^ 2) * (-(a * (2 * Real.pi) ^ 2 * σ)) - 2 * U * (a * (2 * Real.pi) * κ) ^ 2) =
        -(Real.pi ^ 2 * (2 / 3 * (b * ((1 - U ^ 2) * σ)) + 4 / 3 * (b * (a * (U * κ ^ 2)))) * ε ^ 2) := by
      have : (a * (2 * Real.pi) * κ) ^ 2 = ε * b * a * (2 * Real.pi) ^ 2 * κ ^ 2 := by rw [← hab]; ring
      rw [this]
      have : 1 / 6 * ε * ((1 - U ^ 2) * (-(a * (2 * Real.pi) ^ 2 * σ)) - 2 * U * (ε * b * a * (2 * Real.pi) ^ 2 * κ ^ 2)) =
        1 / 6 * ε * ((1 - U ^ 2) * (-(ε * b * (2 * Real.pi) ^ 2 * σ)) - 2 * U * (ε * b * a * (2 * Real.pi) ^ 2 * κ ^ 2)) := by
        rw [← hab]
      rw [this]
      ring
    rw [e2]
    ring
  rw [key, abs_mul, abs_of_nonneg (by positivity : (0 : ℝ) ≤ ε ^ 2)]
  refine mul_le_mul_of_nonneg_right ?_ (by positivity)
  have hpi := Real.pi_pos
  have ab : |b| ≤ 1 := by rw [abs_of_pos hb0]; exact hb1
  have mul1 : ∀ {a b : ℝ} {A B : ℝ}, |a| ≤ A → |b| ≤ B → |a * b| ≤ A * B := by
    intro a b A B h1 h2
    rw [abs_mul]
    exact mul_le_mul h1 h2 (abs_nonneg _) ((abs_nonneg _).trans h1)
  have aε : |ε| ≤ 1 := by rw [abs_of_pos h0]; exact h1.le
  have aa : |a| ≤ 1 := by rw [hab]; simpa using mul1 aε ab
  have aaσ : |a * σ| ≤ 1 := by simpa using mul1 aa aσ
  have au : |1 / 4 + a * σ| ≤ 5 / 4 := by
    refine (abs_add_le _ _).trans ?_
    rw [abs_of_pos (by norm_num : (0 : ℝ) < 1 / 4)]
    linarith
  have au2 : |1 - (1 / 4 + a * σ) ^ 2| ≤ 3 := by
    have h2 := abs_le.1 au
    rw [abs_le]
    constructor <;> nlinarith
  have a1 := mul1 ab (mul1 au2 aσ)
  have aκ2 : |κ ^ 2| ≤ 1 := by rw [sq]; simpa using mul1 aκ aκ
  have a2 := mul1 ab (mul1 aa (mul1 au aκ2))
  have a3 : |b * (b * (σ * κ))| ≤ 1 := by simpa using mul1 ab (mul1 ab (mul1 aσ aκ))
  have hp2 : |Real.pi ^ 2| = Real.pi ^ 2 := abs_of_pos (by positivity)
  have hp : |2 * Real.pi| = 2 * Real.pi := abs_of_pos (by positivity)
  have a4 : |2 / 3 * (b * ((1 - (1 / 4 + a * σ) ^ 2) * σ)) + 4 / 3 * (b * (a * ((1 / 4 + a * σ) * κ ^ 2)))| ≤ 33 := by
    have b1 := abs_le.1 a1
    have b2 := abs_le.1 a2
    rw [abs_le]
    constructor <;> linarith
  have a5 := mul1 hp.le a3
  have a6 := mul1 hp2.le a4
  refine (abs_add_le _ _).trans ?_
  linarith

theorem tameWave_solves : SolvesPrinted fastBurgers pm 1 Set.univ tameWave := by
  refine ⟨1, one_pos, 2 * Real.pi + 33 * Real.pi ^ 2, fun ε h0 h1 t _ x b => ?_⟩
  fin_cases b
  set a : ℝ := ε / (1 + ε ^ 2) with ha
  set u : ℝ → ℝ := fun y => 1 / 4 + a * Real.sin (2 * Real.pi * (y - t / 4)) with hu
  set y := x 0 with hy
  set θ := 2 * Real.pi * (y - t / 4) with hθ
  have hlin : ∀ y, HasDerivAt (fun y => 2 * Real.pi * (y - t / 4)) (2 * Real.pi) y := fun y => by
    simpa using ((hasDerivAt_id y).sub_const (t / 4)).const_mul (2 * Real.pi)
  have hu' : ∀ y, HasDerivAt u (a * (2 * Real.pi) * Real.cos (2 * Real.pi * (y - t / 4))) y := fun y => by
    have h2 : HasDerivAt u (a * (Real.cos (2 * Real.pi * (y - t / 4)) * (2 * Real.pi))) y :=
      ((Real.hasDerivAt_sin _).comp y (hlin y)).const_mul a |>.const_add (1 / 4)
    rwa [show a * (Real.cos (2 * Real.pi * (y - t / 4)) * (2 * Real.pi)) =
      a * (2 * Real.pi) * Real.cos (2 * Real.pi * (y - t / 4)) by ring] at h2
  have d1 : _root_.deriv (fun t' => tameWave ε t' x 0) t = -(a * (2 * Real.pi) * Real.cos θ) / 4 := by
    have hl : HasDerivAt (fun t : ℝ => 2 * Real.pi * (y - t / 4)) (-(2 * Real.pi) / 4) t := by
      have h2 : HasDerivAt (fun t : ℝ => 2 * Real.pi * (y - t / 4)) (2 * Real.pi * -(1 / 4)) t :=
        (((hasDerivAt_id t).div_const 4).const_sub y).const_mul (2 * Real.pi)
      rwa [show 2 * Real.pi * -(1 / 4) = -(2 * Real.pi) / 4 by ring] at h2
    have := ((Real.hasDerivAt_sin _).comp t hl).const_mul a |>.const_add (1 / 4)
    change _root_.deriv (fun t' : ℝ => 1 / 4 + a * Real.sin (2 * Real.pi * (y - t' / 4))) t = _
    have h2 := this.deriv
    have h3 : _root_.deriv (fun t' : ℝ => 1 / 4 + a * Real.sin (2 * Real.pi * (y - t' / 4))) t =
      a * (Real.cos (2 * Real.pi * (y - t / 4)) * (-(2 * Real.pi) / 4)) := h2
    rw [h3]
    ring
  have d2 : partialAt (fun z => coeffOrder1 (lambdaMat fastBurgers.M fastBurgers.invM 1 pm)
      (fun w i => fastBurgers.EQ (Fin.natAdd 1 i) w) 0 (tameWave ε t z) 0) 0 x = u y * (a * (2 * Real.pi) * Real.cos θ) := by
    simp only [fastBurgers_flux]
    refine (partialAt_line (fun r => u r ^ 2 / 2) x).trans ?_
    have := ((hu' y).pow 2).div_const 2
    have h2 : _root_.deriv (fun r => u r ^ 2 / 2) y = _ := this.deriv
    rw [h2]
    ring
  have d3 : ∀ z : Fin 1 → ℝ, partialAt (fun z => tameWave ε t z 0) 0 z =
      a * (2 * Real.pi) * Real.cos (2 * Real.pi * (z 0 - t / 4)) := by
    intro z
    change partialAt (fun z => u (z 0)) 0 z = _
    rw [partialAt_line, (hu' _).deriv]
  have d4 : partialAt (fun z => ∑ c, printedB (lambdaMat fastBurgers.M fastBurgers.invM 1 pm)
      (jacobian (fun w i => fastBurgers.EQ (Fin.natAdd 1 i) w) (tameWave ε t z))
      (fun i => fastBurgers.s (Fin.natAdd 1 i) (tameWave ε t z)) ε 0 0 0 c * partialAt (fun z => tameWave ε t z c) 0 z) 0 x =
      1 / 6 * ε * ((1 - u y ^ 2) * (-(a * (2 * Real.pi) ^ 2 * Real.sin θ)) - 2 * u y * (a * (2 * Real.pi) * Real.cos θ) ^ 2) := by
    simp only [Finset.univ_unique, Finset.sum_singleton]
    have : (fun z : Fin 1 → ℝ => printedB (lambdaMat fastBurgers.M fastBurgers.invM 1 pm)
      (jacobian (fun w i => fastBurgers.EQ (Fin.natAdd 1 i) w) (tameWave ε t z))
      (fun i => fastBurgers.s (Fin.natAdd 1 i) (tameWave ε t z)) ε 0 0 0 default *
        partialAt (fun z => tameWave ε t z default) 0 z) =
        fun z => (fun r => 1 / 6 * ε * (1 - u r ^ 2) * (a * (2 * Real.pi) * Real.cos (2 * Real.pi * (r - t / 4)))) (z 0) := by
      funext z
      have e1 := fastBurgers_printed (tameWave ε t z) ε
      have e2 := d3 z
      change printedB _ _ _ ε 0 0 0 0 * partialAt (fun z => tameWave ε t z 0) 0 z = _
      rw [e1, e2]
      rfl
    rw [this]
    refine (partialAt_line (fun r => 1 / 6 * ε * (1 - u r ^ 2) * (a * (2 * Real.pi) *
      Real.cos (2 * Real.pi * (r - t / 4)))) x).trans ?_
    have hc := ((Real.hasDerivAt_cos _).comp y (hlin y)).const_mul (a * (2 * Real.pi))
    have hb := (((hu' y).pow 2).const_sub 1).const_mul (1 / 6 * ε)
    have h2 : _root_.deriv (fun r => 1 / 6 * ε * (1 - u r ^ 2) * (a * (2 * Real.pi) * Real.cos (2 * Real.pi * (r - t / 4)))) y = _ :=
      (hb.mul hc).deriv
    rw [h2]
    simp only [Function.comp, Pi.pow_apply, hθ]
    push_cast
    ring
  unfold residual
  simp only [Fin.zero_eta, Finset.univ_unique, Finset.sum_singleton]
  change |_root_.deriv (fun t' => tameWave ε t' x 0) t + partialAt (fun z => coeffOrder1 _ _ 0 (tameWave ε t z) 0) 0 x -
    partialAt (fun z => _) 0 x| ≤ _
  simp only [Finset.univ_unique, Finset.sum_singleton] at d4
  rw [d1, d2]
  refine (congrArg (fun r => |_ - r|) d4).le.trans ?_
  refine tame_bound (b := 1 / (1 + ε ^ 2)) h0 h1 (by rw [ha]; ring) (by positivity) ?_ (Real.abs_sin_le_one θ) (Real.abs_cos_le_one θ)
  rw [div_le_one (by positivity)]
  nlinarith [sq_nonneg ε]

/-- The quadratic forms. -/
noncomputable def weights (w : Fin 1 → ℝ) : Matrix (Fin (1 + 1)) (Fin (1 + 1)) ℝ := !![(1 + w 0)⁻¹, 0; 0, (1 - w 0)⁻¹]

/-- The states below the velocity of the scheme. -/
def subsonic : Set (Fin 1 → ℝ) := {w | -1 < w 0 ∧ w 0 < 1}

theorem subsonic_open : IsOpen subsonic :=
  (isOpen_lt continuous_const (continuous_apply 0)).inter (isOpen_lt (continuous_apply 0) continuous_const)

theorem fastBurgers_eqSmooth (i : Fin 1) : ContDiffOn ℝ ∞ (fastBurgers.EQ (Fin.natAdd 1 i)) subsonic := by
  fin_cases i
  change ContDiffOn ℝ ∞ (fun w : Fin 1 → ℝ => w 0 ^ 2 / 2) _
  exact (((contDiff_apply ℝ ℝ (0 : Fin 1)).pow 2).div_const 2).contDiffOn

theorem fastBurgers_sSmooth (i : Fin 1) : ContDiffOn ℝ ∞ (fastBurgers.s (Fin.natAdd 1 i)) subsonic := by
  fin_cases i
  change ContDiffOn ℝ ∞ (fun _ : Fin 1 → ℝ => (3 / 2 : ℝ)) _
  exact contDiffOn_const

theorem fastBurgers_deriv (w : Fin 1 → ℝ) (hw : w ∈ subsonic) (v : Fin (1 + 1) → ℝ) :
    fderiv ℝ (collide fastBurgers .pull) (fastBurgers.invM *ᵥ fun i => fastBurgers.EQ i w) v =
      ![-v 0 / 2 + 3 / 4 * (1 + w 0) * (v 0 + v 1), -v 1 / 2 + 3 / 4 * (1 - w 0) * (v 0 + v 1)] := by
  set p := fastBurgers.invM *ᵥ fun i => fastBurgers.EQ i w with hp
  have p0 : p 0 = w 0 / 2 + w 0 ^ 2 / 4 := by
    simp [hp, fastBurgers, Matrix.mulVec, dotProduct]
    ring
  have p1 : p 1 = w 0 / 2 - w 0 ^ 2 / 4 := by
    simp [hp, fastBurgers, Matrix.mulVec, dotProduct]
    ring
  clear_value p
  have hmom : (fun j => (fastBurgers.M *ᵥ p) (fastBurgers.consm j)) = w := by
    funext j
    fin_cases j
    simp [fastBurgers, Matrix.mulVec, dotProduct, Fin.sum_univ_two, p0, p1]
  have hopen : IsOpen {g : Fin (1 + 1) → ℝ | (fun j => (fastBurgers.M *ᵥ g) (fastBurgers.consm j)) ∈ subsonic} := by
    refine subsonic_open.preimage (continuous_pi fun j => ?_)
    simp only [Matrix.mulVec, dotProduct]
    fun_prop
  have hd : DifferentiableAt ℝ (collide fastBurgers .pull) p := by
    refine ((collide_smooth fastBurgers .pull (by intro j; fin_cases j; rfl) fastBurgers_eq (fun _ => rfl) rfl subsonic
      fastBurgers_eqSmooth fastBurgers_sSmooth).contDiffAt (hopen.mem_nhds ?_)).differentiableAt (by simp)
    rw [Set.mem_ofPred_eq, hmom]
    exact hw
  have hl : HasDerivAt (fun t : ℝ => p + t • v) v 0 := by
    simpa using ((hasDerivAt_id (0 : ℝ)).smul_const v).const_add p
  have hf : HasFDerivAt (collide fastBurgers .pull) (fderiv ℝ (collide fastBurgers .pull) p) (p + (0 : ℝ) • v) := by
    rw [zero_smul, add_zero]
    exact hd.hasFDerivAt
  have h1 := hf.comp_hasDerivAt 0 hl
  refine h1.unique ?_
  have hx : ∀ i, HasDerivAt (fun t : ℝ => p i + t * v i) (v i) 0 := fun i => by
    simpa using ((hasDerivAt_id (0 : ℝ)).mul_const (v i)).const_add (p i)
  have hcomp : (collide fastBurgers .pull ∘ fun t : ℝ => p + t • v) = fun t =>
      ![-(p 0 + t * v 0) / 2 + 3 / 4 * ((p 0 + t * v 0) + (p 1 + t * v 1) + ((p 0 + t * v 0) + (p 1 + t * v 1)) ^ 2 / 2),
        -(p 1 + t * v 1) / 2 + 3 / 4 * ((p 0 + t * v 0) + (p 1 + t * v 1) - ((p 0 + t * v 0) + (p 1 + t * v 1)) ^ 2 / 2)] := by
    funext t
    rw [Function.comp_apply, fastBurgers_collide]
    rfl
  rw [hcomp, hasDerivAt_pi]
  have hsum := (hx 0).add (hx 1)
  have hs : p 0 + p 1 = w 0 := by rw [p0, p1]; ring
  intro i
  fin_cases i
  · have := ((hx 0).neg.div_const 2).add ((hsum.add ((hsum.pow 2).div_const 2)).const_mul (3 / 4))
    refine this.congr_deriv ?_
    simp [hs]
    ring
  · have := ((hx 1).neg.div_const 2).add ((hsum.sub ((hsum.pow 2).div_const 2)).const_mul (3 / 4))
    refine this.congr_deriv ?_
    simp [hs]
    ring

theorem form_weights (w : Fin 1 → ℝ) (v : Fin (1 + 1) → ℝ) :
    form (weights w) v = (1 + w 0)⁻¹ * (v 0 * v 0) + (1 - w 0)⁻¹ * (v 1 * v 1) := by
  simp [form, weights, Fin.sum_univ_two]

theorem fastBurgers_structured : Structured fastBurgers .pull pm subsonic weights := by
  refine ⟨fun i j => ?_, fun w hw i j hij => ?_, fun w hw v hv => ?_, fun w hw v => ?_⟩
  · have h1 : ContDiffOn ℝ ∞ (fun w : Fin 1 → ℝ => (1 + w 0)⁻¹) subsonic :=
      (contDiff_const.add (contDiff_apply ℝ ℝ (0 : Fin 1))).contDiffOn.inv fun w hw => by
        have := hw.1
        linarith
    have h2 : ContDiffOn ℝ ∞ (fun w : Fin 1 → ℝ => (1 - w 0)⁻¹) subsonic :=
      (contDiff_const.sub (contDiff_apply ℝ ℝ (0 : Fin 1))).contDiffOn.inv fun w hw => by
        have := hw.2
        linarith
    fin_cases i <;> fin_cases j
    · exact h1
    · exact contDiffOn_const
    · exact contDiffOn_const
    · exact h2
  · fin_cases i <;> fin_cases j
    · exact absurd rfl hij
    · rfl
    · rfl
    · exact absurd rfl hij
  · obtain ⟨h1, h2⟩ := hw
    rw [form_weights]
    have i1 : 0 < (1 + w 0)⁻¹ := inv_pos.2 (by linarith)
    have i2 : 0 < (1 - w 0)⁻¹ := inv_pos.2 (by linarith)
    have : v 0 ≠ 0 ∨ v 1 ≠ 0 := by
      by_contra h
      push Not at h
      refine hv (funext fun i => ?_)
      fin_cases i
      · exact h.1
      · exact h.2
    rcases this with h | h
    · have := mul_pos i1 (mul_self_pos.2 h)
      have := mul_nonneg i2.le (mul_self_nonneg (v 1))
      linarith
    · have := mul_pos i2 (mul_self_pos.2 h)
      have := mul_nonneg i1.le (mul_self_nonneg (v 0))
      linarith
  · rw [fastBurgers_deriv w hw, form_weights, form_weights]
    obtain ⟨h1, h2⟩ := hw
    have i1 : 0 < 1 + w 0 := by linarith
    have i2 : 0 < 1 - w 0 := by linarith
    simp only [Matrix.cons_val_zero, Matrix.cons_val_one, Matrix.cons_val_fin_one]
    rw [← sub_nonneg]
    have : (1 + w 0)⁻¹ * (v 0 * v 0) + (1 - w 0)⁻¹ * (v 1 * v 1) -
        ((1 + w 0)⁻¹ * ((-v 0 / 2 + 3 / 4 * (1 + w 0) * (v 0 + v 1)) * (-v 0 / 2 + 3 / 4 * (1 + w 0) * (v 0 + v 1))) +
          (1 - w 0)⁻¹ * ((-v 1 / 2 + 3 / 4 * (1 - w 0) * (v 0 + v 1)) * (-v 1 / 2 + 3 / 4 * (1 - w 0) * (v 0 + v 1)))) =
        3 / 2 * (v 0 - (1 + w 0) * (v 0 + v 1) / 2) ^ 2 / ((1 + w 0) * (1 - w 0)) := by
      field_simp
      ring
    rw [this]
    positivity

theorem tameWave_subsonic (ε t : ℝ) (x : Fin 1 → ℝ) : tameWave ε t x ∈ subsonic := by
  have h1 : |ε / (1 + ε ^ 2)| ≤ 1 / 2 := by
    rw [abs_div, abs_of_pos (by positivity : (0 : ℝ) < 1 + ε ^ 2), div_le_div_iff₀ (by positivity) (by norm_num), ← sq_abs]
    nlinarith [sq_nonneg (|ε| - 1)]
  have h2 := Real.abs_sin_le_one (2 * Real.pi * (x 0 - t / 4))
  have h3 : |ε / (1 + ε ^ 2) * Real.sin (2 * Real.pi * (x 0 - t / 4))| ≤ 1 / 2 * 1 := by
    rw [abs_mul]
    exact mul_le_mul h1 h2 (abs_nonneg _) (by norm_num)
  obtain ⟨a, b⟩ := abs_le.1 h3
  change -1 < tameWave ε t x 0 ∧ tameWave ε t x 0 < 1
  unfold tameWave
  constructor <;> linarith

/-- The hypotheses of `C67_linear_stability` and `C67_one_dimension` hold for Burgers' equation with a relaxation parameter
for which the collision is not monotone. -/
example : ∃ f : ℝ → ℝ → (Fin 1 → ℝ) → Fin (1 + 1) → ℝ, SmoothIn f ∧
    (∀ ε t x b, (fastBurgers.M *ᵥ f ε t x) (fastBurgers.consm b) = tameWave ε t x b) ∧
    (∀ t x i, (fastBurgers.M *ᵥ f 0 t x) i = fastBurgers.EQ i (tameWave 0 t x)) ∧
    ∀ T, Set.Icc 0 T ⊆ Set.univ → ∀ D : ℝ, ∃ ε₀ > (0 : ℝ), ∃ C : ℝ, ∀ ε, 0 < ε → ε ≤ ε₀ → ∀ N : Fin 1 → Nat,
      (∀ i : Fin 1, N i * (1 * ε) = (fun _ => 1 : Fin 1 → ℝ) i) → ∀ G : Arr ℝ (1 + 1) 1,
        sqgap N G (fun y => f ε 0 fun l => 1 * ε * y l) ≤ D * ((box N).card * ε ^ 4) → ∀ k : Nat, k * ε ≤ T →
          sqgap N (lbmRun N pm (collide fastBurgers .pull) (fun _ H => H) ε G k) (fun y => f ε (k * ε) fun l => 1 * ε * y l) ≤
            C * ((box N).card * ε ^ 4) ∧ ∀ y ∈ box N, ∀ j,
              |lbmRun N pm (collide fastBurgers .pull) (fun _ H => H) ε G k y j - f ε (k * ε) (fun i => 1 * ε * y i) j| ≤ ε := by
  refine C67_one_dimension fastBurgers .pull (by intro j; fin_cases j; rfl) fastBurgers_eq (fun _ => rfl) rfl
    fastBurgers_inv subsonic subsonic_open fastBurgers_eqSmooth fastBurgers_sSmooth ?_ pm 1 one_pos (fun _ => 1) tameWave ?_
    tameWave_subsonic ?_ Set.univ isOpen_univ tameWave_solves weights fastBurgers_structured
  · intro i w _
    fin_cases i
    change (3 / 2 : ℝ) ≠ 0
    norm_num
  · refine contDiff_pi.2 fun _ => ?_
    change ContDiff ℝ ∞ fun p : ℝ × ℝ × (Fin 1 → ℝ) => 1 / 4 + p.1 / (1 + p.1 ^ 2) * Real.sin (2 * Real.pi * (p.2.2 0 - p.2.1 / 4))
    have hq : ContDiff ℝ ∞ fun p : ℝ × ℝ × (Fin 1 → ℝ) => p.1 / (1 + p.1 ^ 2) :=
      contDiff_fst.div (by fun_prop) fun p => by positivity
    refine contDiff_const.add (hq.mul ?_)
    fun_prop
  · intro ε t k x
    funext b
    simp only [tameWave]
    have : 2 * Real.pi * (x 0 + k 0 * 1 - t / 4) = 2 * Real.pi * (x 0 - t / 4) + k 0 * (2 * Real.pi) := by ring
    rw [this, Real.sin_add_int_mul_two_pi]

end Pylbm.Stability
