import Verif.Stability.Wave
import Verif.Stability.OrderTwo
import Mathlib.Analysis.Calculus.Deriv.Add
import Mathlib.Analysis.SpecialFunctions.ExpDeriv
/-!
# C67: the equivalent equation
-/
set_option linter.unusedSectionVars false
namespace Pylbm.Stability
open Matrix Sim Scheme Halo SchemeSpec HaloSpec Mpi

variable {nc m d dim : Nat}

/-! ## Model -/

section Model
variable {K : Type} [Field K]

/-- `Lambda[d]`, equivalent_equation.py 44-50: `M * (LA * diag(v_d)) * invM`. -/
def lambdaMat (M invM : Matrix (Fin (nc + m)) (Fin (nc + m)) K) (la : K) (vel : Fin (nc + m) → Cell dim)
    (i : Fin dim) : Matrix (Fin (nc + m)) (Fin (nc + m)) K :=
  M * diagonal (fun k => la * (vel k i : K)) * invM

/-- The blocks `A`, `B`, `C`, `D` of `lambda_`, equivalent_equation.py 59-64 and 79-81. -/
def blockA (X : Matrix (Fin (nc + m)) (Fin (nc + m)) K) : Matrix (Fin nc) (Fin nc) K :=
  X.submatrix (Fin.castAdd m) (Fin.castAdd m)

@[inherit_doc blockA]
def blockB (X : Matrix (Fin (nc + m)) (Fin (nc + m)) K) : Matrix (Fin nc) (Fin m) K :=
  X.submatrix (Fin.castAdd m) (Fin.natAdd nc)

@[inherit_doc blockA]
def blockC (X : Matrix (Fin (nc + m)) (Fin (nc + m)) K) : Matrix (Fin m) (Fin nc) K :=
  X.submatrix (Fin.natAdd nc) (Fin.castAdd m)

@[inherit_doc blockA]
def blockD (X : Matrix (Fin (nc + m)) (Fin (nc + m)) K) : Matrix (Fin m) (Fin m) K :=
  X.submatrix (Fin.natAdd nc) (Fin.natAdd nc)

/-- `sigma`, equivalent_equation.py 53-54. -/
def sigmaMat (s : Fin m → K) : Matrix (Fin m) (Fin m) K :=
  diagonal (fun i => 1 / s i) - (1 / 2 : K) • 1

/-- `coeff_order1[d]`, equivalent_equation.py 66, as a function of the conserved moments; `eq` is
`EQ[nconsm:]`.  Simplification: `alltogether` (rewriting, and `nsimplify` of the floats) is the identity. -/
def coeffOrder1 (Lam : Fin dim → Matrix (Fin (nc + m)) (Fin (nc + m)) K) (eq : (Fin nc → K) → Fin m → K)
    (i : Fin dim) (u : Fin nc → K) : Fin nc → K :=
  blockA (Lam i) *ᵥ u + blockB (Lam i) *ᵥ eq u

/-- Coefficient of the derivative of the conserved moments in the direction `i` in `gamma_1`,
equivalent_equation.py 68-69 (`doit` applies the chain rule); `jac` is the jacobian of `EQ[nconsm:]` at the
value of the conserved moments. -/
def gamma1 (Lam : Fin dim → Matrix (Fin (nc + m)) (Fin (nc + m)) K) (jac : Matrix (Fin m) (Fin nc) K)
    (i : Fin dim) : Matrix (Fin nc) (Fin nc) K :=
  blockA (Lam i) + blockB (Lam i) * jac

/-- The same for `phi1`, equivalent_equation.py 71-74. -/
def phi1 (Lam : Fin dim → Matrix (Fin (nc + m)) (Fin (nc + m)) K) (jac : Matrix (Fin m) (Fin nc) K)
    (i : Fin dim) : Matrix (Fin m) (Fin nc) K :=
  -blockC (Lam i) - blockD (Lam i) * jac

/-- `coeff_order2[d][i]`, equivalent_equation.py 76-101: the coefficients of the derivatives in the
direction `i` in `B * sigma * (phi1 + jac * gamma_1)`. -/
def coeffOrder2 (Lam : Fin dim → Matrix (Fin (nc + m)) (Fin (nc + m)) K) (jac : Matrix (Fin m) (Fin nc) K)
    (s : Fin m → K) (l i : Fin dim) : Matrix (Fin nc) (Fin nc) K :=
  blockB (Lam l) * sigmaMat s * (phi1 Lam jac i + jac * gamma1 Lam jac i)

/-- The coefficients `B_ij` of the equation printed by `__str__`, equivalent_equation.py 138-149:
`- Delta_t * coeff_order2`. -/
def printedB (Lam : Fin dim → Matrix (Fin (nc + m)) (Fin (nc + m)) K) (jac : Matrix (Fin m) (Fin nc) K)
    (s : Fin m → K) (dt : K) (l i : Fin dim) : Matrix (Fin nc) (Fin nc) K :=
  (-dt) • coeffOrder2 Lam jac s l i

end Model

/-! ## Specification -/

/-- Partial derivative in the direction `i`. -/
noncomputable def partialAt (g : (Fin dim → ℝ) → ℝ) (i : Fin dim) (x : Fin dim → ℝ) : ℝ :=
  _root_.deriv (fun r => g (Function.update x i r)) (x i)

/-- `U` solves the system `∂_t U + Σ_i ∂_i F_i(U) = Σ_ij ∂_i (B_ij ∂_j U)` printed by
`EquivalentEquation`. -/
def SolvesEquation (F : Fin dim → (Fin nc → ℝ) → Fin nc → ℝ)
    (B : Fin dim → Fin dim → Matrix (Fin nc) (Fin nc) ℝ) (U : ℝ → (Fin dim → ℝ) → Fin nc → ℝ) : Prop :=
  ∀ t x b, _root_.deriv (fun t' => U t' x b) t + ∑ i, partialAt (fun y => F i (U t y) b) i x =
    ∑ i, ∑ j, partialAt (fun y => ∑ c, B i j b c * partialAt (fun z => U t z c) j y) i x

/-- `e^{i ξ·x}`. -/
noncomputable def phase (ξ x : Fin dim → ℝ) : ℂ := Complex.exp (Complex.I * ∑ l, (x l : ℂ) * ξ l)

/-- A finite sum of plane waves with the amplitudes `α` and the wave vectors `ξ`. -/
noncomputable def waveSum {r : Nat} (ξ : Fin r → Fin dim → ℝ) (α : Fin r → Fin nc → ℂ) (x : Fin dim → ℝ)
    (b : Fin nc) : ℝ :=
  ∑ q, (α q b * phase (ξ q) x).re

/-! ## Derivatives of plane waves -/

theorem phase_norm (ξ x : Fin dim → ℝ) : ‖phase ξ x‖ = 1 := by
  unfold phase
  have : Complex.I * ∑ l, (x l : ℂ) * ξ l = ((∑ l, x l * ξ l : ℝ) : ℂ) * Complex.I := by
    push_cast; ring
  rw [this, Complex.norm_exp_ofReal_mul_I]

theorem phase_update (ξ x : Fin dim → ℝ) (i : Fin dim) (r : ℝ) :
    phase ξ (Function.update x i r) = phase ξ x * Complex.exp (Complex.I * (((r - x i : ℝ) : ℂ) * ξ i)) := by
  unfold phase
  rw [← Complex.exp_add, ← mul_add]
  congr 2
  rw [← Finset.add_sum_erase _ _ (Finset.mem_univ i), ← Finset.add_sum_erase _ (fun l => (x l : ℂ) * ξ l)
    (Finset.mem_univ i)]
  have : ∑ l ∈ Finset.univ.erase i, ((Function.update x i r l : ℝ) : ℂ) * ξ l =
      ∑ l ∈ Finset.univ.erase i, (x l : ℂ) * ξ l := by
    refine Finset.sum_congr rfl (fun l hl => ?_)
    rw [Function.update_of_ne (Finset.ne_of_mem_erase hl)]
  rw [this, Function.update_self]
  push_cast
  ring

theorem hasDerivAt_re {g : ℝ → ℂ} {g' : ℂ} {t : ℝ} (h : HasDerivAt g g' t) :
    HasDerivAt (fun r => (g r).re) g'.re t := by
  exact (Complex.reCLM.hasFDerivAt (x := g t)).comp_hasDerivAt t h

theorem partial_wave {r : Nat} (ξ : Fin r → Fin dim → ℝ) (c : Fin r → ℂ) (i : Fin dim) (x : Fin dim → ℝ) :
    partialAt (fun y => ∑ q, (c q * phase (ξ q) y).re) i x =
      ∑ q, (c q * (Complex.I * ξ q i) * phase (ξ q) x).re := by
  unfold partialAt
  refine HasDerivAt.deriv ?_
  have h1 : ∀ q, HasDerivAt (fun s : ℝ => (c q * phase (ξ q) (Function.update x i s)).re)
      ((c q * (Complex.I * ξ q i) * phase (ξ q) x).re) (x i) := by
    intro q
    refine hasDerivAt_re ?_
    simp only [phase_update]
    have h2 : HasDerivAt (fun s : ℝ => Complex.I * (((s - x i : ℝ) : ℂ) * ξ q i)) (Complex.I * ξ q i) (x i) := by
      have h3 : HasDerivAt (fun s : ℝ => ((s - x i : ℝ) : ℂ)) 1 (x i) := by
        have := ((hasDerivAt_id (x i)).sub_const (x i)).ofReal_comp
        simpa using this
      have := (h3.mul_const (ξ q i : ℂ)).const_mul Complex.I
      simpa using this
    have h4 := (h2.cexp.const_mul (phase (ξ q) x)).const_mul (c q)
    refine h4.congr_deriv ?_
    simp
    ring
  exact HasDerivAt.fun_sum (fun q _ => h1 q)

theorem wave_solves {r : Nat} (Fm : Fin dim → Matrix (Fin nc) (Fin nc) ℝ)
    (B : Fin dim → Fin dim → Matrix (Fin nc) (Fin nc) ℝ) (ξ : Fin r → Fin dim → ℝ)
    (Z : Fin r → Matrix (Fin nc) (Fin nc) ℂ)
    (hZ : ∀ q, Z q = (-Complex.I) • ∑ i, (ξ q i : ℂ) • (Fm i).map Complex.ofReal -
      ∑ i, ∑ j, ((ξ q i * ξ q j : ℝ) : ℂ) • (B i j).map Complex.ofReal)
    (α : ℝ → Fin r → Fin nc → ℂ)
    (hα : ∀ q b t, HasDerivAt (fun t => α t q b) ((Z q *ᵥ α t q) b) t) :
    SolvesEquation (fun i u => Fm i *ᵥ u) B (fun t x => waveSum ξ (α t) x) := by
  intro t x b
  have ht : _root_.deriv (fun t' => waveSum ξ (α t') x b) t = ∑ q, ((Z q *ᵥ α t q) b * phase (ξ q) x).re := by
    refine HasDerivAt.deriv ?_
    unfold waveSum
    exact HasDerivAt.fun_sum (fun q _ => hasDerivAt_re ((hα q b t).mul_const _))
  have hlin : ∀ (A : Matrix (Fin nc) (Fin nc) ℝ) (β : Fin r → Fin nc → ℂ) (y : Fin dim → ℝ),
      ∑ c, A b c * waveSum ξ β y c = ∑ q, ((A.map Complex.ofReal *ᵥ β q) b * phase (ξ q) y).re := by
    intro A β y
    unfold waveSum
    simp only [Finset.mul_sum]
    rw [Finset.sum_comm]
    refine Finset.sum_congr rfl (fun q _ => ?_)
    simp only [Matrix.mulVec, dotProduct, Matrix.map_apply, Finset.sum_mul, Complex.re_sum]
    refine Finset.sum_congr rfl (fun c _ => ?_)
    rw [mul_assoc, Complex.re_ofReal_mul]
  have hF : ∀ i, partialAt (fun y => (Fm i *ᵥ waveSum ξ (α t) y) b) i x =
      ∑ q, (((Fm i).map Complex.ofReal *ᵥ α t q) b * (Complex.I * ξ q i) * phase (ξ q) x).re := by
    intro i
    have : (fun y => (Fm i *ᵥ waveSum ξ (α t) y) b) =
        fun y => ∑ q, (((Fm i).map Complex.ofReal *ᵥ α t q) b * phase (ξ q) y).re := by
      funext y
      exact hlin (Fm i) (α t) y
    rw [this, partial_wave]
  have hB : ∀ i j, partialAt (fun y => ∑ c, B i j b c * partialAt (fun z => waveSum ξ (α t) z c) j y) i x =
      ∑ q, (((B i j).map Complex.ofReal *ᵥ fun c => α t q c * (Complex.I * ξ q j)) b * (Complex.I * ξ q i) *
        phase (ξ q) x).re := by
    intro i j
    have : (fun y => ∑ c, B i j b c * partialAt (fun z => waveSum ξ (α t) z c) j y) =
        fun y => ∑ q, (((B i j).map Complex.ofReal *ᵥ fun c => α t q c * (Complex.I * ξ q j)) b *
          phase (ξ q) y).re := by
      funext y
      rw [← hlin (B i j) (fun q c => α t q c * (Complex.I * ξ q j)) y]
      refine Finset.sum_congr rfl (fun c _ => ?_)
      congr 1
      unfold waveSum
      exact partial_wave ξ (fun q => α t q c) j y
    rw [this, partial_wave]
  simp only [ht, hF, hB]
  have s1 : ∀ g : Fin dim → Fin r → ℝ, ∑ i, ∑ q, g i q = ∑ q, ∑ i, g i q := fun g => Finset.sum_comm
  have s2 : ∀ g : Fin dim → Fin dim → Fin r → ℝ, ∑ i, ∑ j, ∑ q, g i j q = ∑ q, ∑ i, ∑ j, g i j q := by
    intro g
    rw [← s1]
    exact Finset.sum_congr rfl (fun i _ => s1 _)
  rw [s1, s2, ← Finset.sum_add_distrib]
  refine Finset.sum_congr rfl (fun q _ => ?_)
  simp only [← Complex.re_sum, ← Complex.add_re]
  congr 1
  have e1 : ∀ i j, ((B i j).map Complex.ofReal *ᵥ fun c => α t q c * (Complex.I * ξ q j)) b =
      (Complex.I * ξ q j) * ((B i j).map Complex.ofReal *ᵥ α t q) b := by
    intro i j
    simp only [Matrix.mulVec, dotProduct, Finset.mul_sum]
    exact Finset.sum_congr rfl (fun c _ => by ring)
  have e2 : (Z q *ᵥ α t q) b = -Complex.I * ∑ i, (ξ q i : ℂ) * ((Fm i).map Complex.ofReal *ᵥ α t q) b -
      ∑ i, ∑ j, ((ξ q i * ξ q j : ℝ) : ℂ) * ((B i j).map Complex.ofReal *ᵥ α t q) b := by
    rw [hZ q, sub_mulVec, smul_mulVec]
    simp only [Matrix.sum_mulVec, smul_mulVec, Pi.sub_apply, Pi.smul_apply, Finset.sum_apply, smul_eq_mul]
  rw [e2]
  simp only [e1]
  rw [sub_mul, Finset.mul_sum, Finset.sum_mul, Finset.sum_mul, sub_add_eq_add_sub, ← Finset.sum_add_distrib,
    sub_eq_iff_eq_add, ← Finset.sum_add_distrib]
  refine Finset.sum_congr rfl (fun i _ => ?_)
  rw [Finset.sum_mul, ← Finset.sum_add_distrib]
  have e3 : ∀ j, Complex.I * (ξ q j : ℂ) * ((B i j).map Complex.ofReal *ᵥ α t q) b * (Complex.I * (ξ q i : ℂ)) *
      phase (ξ q) x + ((ξ q i * ξ q j : ℝ) : ℂ) * ((B i j).map Complex.ofReal *ᵥ α t q) b * phase (ξ q) x = 0 := by
    intro j
    push_cast
    linear_combination (ξ q i : ℂ) * (ξ q j : ℂ) * ((B i j).map Complex.ofReal *ᵥ α t q) b * phase (ξ q) x *
      Complex.I_mul_I
  rw [Finset.sum_eq_zero (fun j _ => e3 j)]
  ring

/-! ## Blocks -/

section Blocks
variable {K : Type} [Field K]

def equilJ (E : Matrix (Fin m) (Fin nc) K) : Matrix (Fin (nc + m)) (Fin nc) K :=
  Matrix.of fun i j => Fin.addCases (fun i => if i = j then 1 else 0) (fun i => E i j) i

def projP : Matrix (Fin nc) (Fin (nc + m)) K :=
  Matrix.of fun i l => Fin.addCases (fun l => if i = l then 1 else 0) (fun _ => 0) l

def inclK : Matrix (Fin (nc + m)) (Fin m) K :=
  Matrix.of fun i j => Fin.addCases (fun _ => 0) (fun i => if i = j then 1 else 0) i

def devQ (E : Matrix (Fin m) (Fin nc) K) : Matrix (Fin m) (Fin (nc + m)) K :=
  Matrix.of fun i l => Fin.addCases (fun l => -E i l) (fun l => if i = l then 1 else 0) l

theorem cast_ne (i : Fin nc) (j : Fin m) : (Fin.castAdd m i = Fin.natAdd nc j) = False := by
  refine eq_false (fun h => ?_)
  have := congrArg Fin.val h
  simp only [Fin.val_castAdd, Fin.val_natAdd] at this
  omega

theorem ne_cast (i : Fin nc) (j : Fin m) : (Fin.natAdd nc j = Fin.castAdd m i) = False := by
  refine eq_false (fun h => ?_)
  rw [eq_comm, cast_ne] at h
  exact h

theorem block_one (E : Matrix (Fin m) (Fin nc) K) :
    equilJ E * projP + inclK * devQ E = (1 : Matrix (Fin (nc + m)) (Fin (nc + m)) K) := by
  ext i j
  refine Fin.addCases (fun i => ?_) (fun i => ?_) i <;> refine Fin.addCases (fun j => ?_) (fun j => ?_) j <;>
    simp [equilJ, projP, inclK, devQ, Matrix.mul_apply, Matrix.one_apply, cast_ne, ne_cast]

theorem block_pJ (E : Matrix (Fin m) (Fin nc) K) : (projP : Matrix (Fin nc) (Fin (nc + m)) K) * equilJ E = 1 := by
  ext i j
  simp [equilJ, projP, Matrix.mul_apply, Matrix.one_apply, Fin.sum_univ_add]

theorem block_qJ (E : Matrix (Fin m) (Fin nc) K) : devQ E * equilJ E = 0 := by
  ext i j
  simp [equilJ, devQ, Matrix.mul_apply, Fin.sum_univ_add]

theorem block_pk :
    (projP : Matrix (Fin nc) (Fin (nc + m)) K) * (inclK : Matrix (Fin (nc + m)) (Fin m) K) = 0 := by
  ext i j
  simp [inclK, projP, Matrix.mul_apply, Fin.sum_univ_add]

theorem block_qk (E : Matrix (Fin m) (Fin nc) K) :
    devQ E * (inclK : Matrix (Fin (nc + m)) (Fin m) K) = 1 := by
  ext i j
  simp [inclK, devQ, Matrix.mul_apply, Matrix.one_apply, Fin.sum_univ_add]

theorem block_pXJ (E : Matrix (Fin m) (Fin nc) K) (X : Matrix (Fin (nc + m)) (Fin (nc + m)) K) :
    projP * X * equilJ E = blockA X + blockB X * E := by
  ext i j
  simp [equilJ, projP, blockA, blockB, Matrix.mul_apply, Fin.sum_univ_add]

theorem block_pXk (X : Matrix (Fin (nc + m)) (Fin (nc + m)) K) :
    (projP : Matrix (Fin nc) (Fin (nc + m)) K) * X * (inclK : Matrix (Fin (nc + m)) (Fin m) K) = blockB X := by
  ext i j
  simp [inclK, projP, blockB, Matrix.mul_apply, Fin.sum_univ_add]

theorem block_qXJ (E : Matrix (Fin m) (Fin nc) K) (X : Matrix (Fin (nc + m)) (Fin (nc + m)) K) :
    devQ E * X * equilJ E = blockC X + blockD X * E - E * (blockA X + blockB X * E) := by
  have h : devQ E * X = (Matrix.of fun i l => X (Fin.natAdd nc i) l) -
      E * (Matrix.of fun i l => X (Fin.castAdd m i) l) := by
    ext i l
    simp [devQ, Matrix.mul_apply, Fin.sum_univ_add]
    ring
  rw [h, Matrix.sub_mul, Matrix.mul_assoc]
  congr 1
  · ext i j
    simp [equilJ, blockC, blockD, Matrix.mul_apply, Fin.sum_univ_add]
  · congr 1
    ext i j
    simp [equilJ, blockA, blockB, Matrix.mul_apply, Fin.sum_univ_add]

theorem relaxMat_block (E : Matrix (Fin m) (Fin nc) K) (s : Fin (nc + m) → K) :
    relaxMat s (equilJ E) = equilJ E * projP +
      inclK * diagonal (fun i => 1 - s (Fin.natAdd nc i)) * devQ E := by
  ext i j
  unfold relaxMat
  refine Fin.addCases (fun i => ?_) (fun i => ?_) i <;> refine Fin.addCases (fun j => ?_) (fun j => ?_) j <;>
    simp [equilJ, projP, inclK, devQ, Matrix.mul_apply, Matrix.one_apply, Matrix.diagonal_apply,
      cast_ne, ne_cast]
  · ring
  · by_cases h : i = j
    · subst h; simp
    · simp [h]

end Blocks

/-! ## The theorem -/

theorem map_mul' {α β γ : Type} [Fintype β] (A : Matrix α β ℝ) (B : Matrix β γ ℝ) :
    (A * B).map Complex.ofReal = A.map Complex.ofReal * B.map Complex.ofReal := by
  ext i j
  simp [Matrix.mul_apply]

theorem equilJ_map (E : Matrix (Fin m) (Fin nc) ℝ) :
    (equilJ E).map Complex.ofReal = equilJ (E.map Complex.ofReal) := by
  ext i j
  refine Fin.addCases (fun i => ?_) (fun i => ?_) i
  · by_cases h : i = j <;> simp [equilJ, h]
  · simp [equilJ]

theorem devQ_map (E : Matrix (Fin m) (Fin nc) ℝ) :
    (devQ E).map Complex.ofReal = devQ (E.map Complex.ofReal) := by
  ext i j
  refine Fin.addCases (fun j => ?_) (fun j => ?_) j
  · simp [devQ]
  · by_cases h : i = j <;> simp [devQ, h]

theorem projP_map : (projP : Matrix (Fin nc) (Fin (nc + m)) ℝ).map Complex.ofReal = projP := by
  ext i j
  refine Fin.addCases (fun j => ?_) (fun j => ?_) j
  · by_cases h : i = j <;> simp [projP, h]
  · simp [projP]

theorem inclK_map : (inclK : Matrix (Fin (nc + m)) (Fin m) ℝ).map Complex.ofReal = inclK := by
  ext i j
  refine Fin.addCases (fun i => ?_) (fun i => ?_) i
  · simp [inclK]
  · by_cases h : i = j <;> simp [inclK, h]

section Gen
open scoped Matrix.Norms.Operator

theorem hasDerivAt_amp (Z : Matrix (Fin nc) (Fin nc) ℂ) (a : Fin nc → ℂ) (b : Fin nc) (t : ℝ) :
    HasDerivAt (fun t : ℝ => (NormedSpace.exp ((t : ℂ) • Z) *ᵥ a) b)
      ((Z *ᵥ (NormedSpace.exp ((t : ℂ) • Z) *ᵥ a)) b) t := by
  have h1 : HasDerivAt (fun u : ℝ => NormedSpace.exp (u • Z)) (Z * NormedSpace.exp (t • Z)) t :=
    _root_.hasDerivAt_exp_smul_const' (𝕂 := ℝ) Z t
  let ℓ : Matrix (Fin nc) (Fin nc) ℂ →ₗ[ℝ] ℂ :=
    { toFun := fun A => (A *ᵥ a) b
      map_add' := fun A B => by rw [add_mulVec]; rfl
      map_smul' := fun r A => by rw [smul_mulVec]; rfl }
  have h2 := (ℓ.toContinuousLinearMap.hasFDerivAt (x := NormedSpace.exp (t • Z))).comp_hasDerivAt t h1
  have h3 : ∀ u : ℝ, (u : ℂ) • Z = u • Z := fun u => Complex.coe_smul u Z
  simp only [h3]
  have h4 : (Z *ᵥ (NormedSpace.exp (t • Z) *ᵥ a)) b = ((Z * NormedSpace.exp (t • Z)) *ᵥ a) b := by
    rw [mulVec_mulVec]
  rw [h4]
  exact h2

/-- The transport of the moments of a wave over a time step. -/
noncomputable def transportMat (M invM : Matrix (Fin (nc + m)) (Fin (nc + m)) ℝ) (θ : Fin (nc + m) → ℝ) (τ : ℝ) :
    Matrix (Fin (nc + m)) (Fin (nc + m)) ℂ :=
  M.map Complex.ofReal * diagonal (fun k => Complex.exp (-(Complex.I * (τ * θ k)))) * invM.map Complex.ofReal

noncomputable def generator (M invM : Matrix (Fin (nc + m)) (Fin (nc + m)) ℝ) (θ : Fin (nc + m) → ℝ) :
    Matrix (Fin (nc + m)) (Fin (nc + m)) ℂ :=
  M.map Complex.ofReal * diagonal (fun k => -(Complex.I * θ k)) * invM.map Complex.ofReal

theorem transport_big (M invM : Matrix (Fin (nc + m)) (Fin (nc + m)) ℝ) (hinv : invM * M = 1)
    (θ : Fin (nc + m) → ℝ) (τ0 : ℝ) :
    Big τ0 3 (fun τ => transportMat M invM θ τ - 1 - (τ : ℂ) • generator M invM θ -
      ((τ : ℂ) ^ 2 * (1 / 2)) • (generator M invM θ * generator M invM θ)) := by
  have hinv1 : invM.map Complex.ofReal * M.map Complex.ofReal = 1 := by
    rw [← map_mul', hinv]; ext i j; by_cases h : i = j <;> simp [Matrix.one_apply, h]
  have hinv2 : M.map Complex.ofReal * invM.map Complex.ofReal = 1 := mul_eq_one_comm.1 hinv1
  set rk : ℝ → Fin (nc + m) → ℂ := fun τ k => Complex.exp (-(Complex.I * (τ * θ k))) - 1 -
    (τ : ℂ) * -(Complex.I * θ k) - ((τ : ℂ) ^ 2 * (1 / 2)) * (-(Complex.I * θ k) * -(Complex.I * θ k)) with hrk
  have hd : Big τ0 3 (fun τ => diagonal (rk τ)) := by
    refine ⟨∑ k, |θ k| ^ 3 * Real.exp (τ0 * |θ k|), by positivity, fun τ h0 h1 => ?_⟩
    rw [linfty_opNorm_diagonal, pi_norm_le_iff_of_nonneg (by positivity)]
    intro k
    have hk : ‖rk τ k‖ ≤ |θ k| ^ 3 * Real.exp (τ0 * |θ k|) * τ ^ 3 := by
      have h2 := Complex.norm_exp_sub_sum_le_norm_mul_exp (-(Complex.I * (τ * θ k))) 3
      have h3 : ‖-(Complex.I * ((τ : ℂ) * θ k))‖ = τ * |θ k| := by
        rw [norm_neg, norm_mul, norm_mul, Complex.norm_I, Complex.norm_real, Complex.norm_real,
          Real.norm_of_nonneg h0.le, Real.norm_eq_abs, one_mul]
      rw [h3] at h2
      have h4 : Complex.exp (-(Complex.I * (τ * θ k))) -
          ∑ l ∈ Finset.range 3, (-(Complex.I * ((τ : ℂ) * θ k))) ^ l / (l.factorial : ℂ) = rk τ k := by
        simp only [hrk, Finset.sum_range_succ, Finset.sum_range_zero, Nat.factorial]
        push_cast
        ring
      rw [h4] at h2
      have h5 : Real.exp (τ * |θ k|) ≤ Real.exp (τ0 * |θ k|) :=
        Real.exp_le_exp.2 (mul_le_mul_of_nonneg_right h1 (abs_nonneg _))
      calc _ ≤ (τ * |θ k|) ^ 3 * Real.exp (τ * |θ k|) := h2
        _ ≤ (τ * |θ k|) ^ 3 * Real.exp (τ0 * |θ k|) := mul_le_mul_of_nonneg_left h5 (by positivity)
        _ = _ := by ring
    refine hk.trans (mul_le_mul_of_nonneg_right ?_ (by positivity))
    exact Finset.single_le_sum (f := fun k => |θ k| ^ 3 * Real.exp (τ0 * |θ k|))
      (fun k _ => by positivity) (Finset.mem_univ k)
  have hb := ((Big.const (τ0 := τ0) (M.map Complex.ofReal)).mul hd).mul (Big.const (invM.map Complex.ofReal))
  rw [show 0 + 3 + 0 = 3 by rfl] at hb
  refine hb.congr (fun τ => ?_)
  have hGG : generator M invM θ * generator M invM θ = M.map Complex.ofReal *
      diagonal (fun k => -(Complex.I * θ k) * -(Complex.I * θ k)) * invM.map Complex.ofReal := by
    unfold generator
    calc _ = M.map Complex.ofReal * diagonal (fun k => -(Complex.I * (θ k : ℂ))) *
          (invM.map Complex.ofReal * M.map Complex.ofReal) * diagonal (fun k => -(Complex.I * (θ k : ℂ))) *
          invM.map Complex.ofReal := by simp only [Matrix.mul_assoc]
      _ = _ := by rw [hinv1, Matrix.mul_one, Matrix.mul_assoc (M.map Complex.ofReal), diagonal_mul_diagonal]
  have hdiag : diagonal (rk τ) = diagonal (fun k => Complex.exp (-(Complex.I * (τ * θ k)))) - 1 -
      (τ : ℂ) • diagonal (fun k => -(Complex.I * (θ k : ℂ))) -
      ((τ : ℂ) ^ 2 * (1 / 2)) • diagonal (fun k => -(Complex.I * (θ k : ℂ)) * -(Complex.I * θ k)) := by
    rw [← diagonal_smul, ← diagonal_smul, ← diagonal_one, diagonal_sub, diagonal_sub, diagonal_sub]
    rfl
  rw [hGG, hdiag]
  simp only [Matrix.mul_sub, Matrix.sub_mul, Matrix.mul_one, hinv2, Matrix.mul_smul, Matrix.smul_mul]
  rfl

end Gen

theorem generator_eq (M invM : Matrix (Fin (nc + m)) (Fin (nc + m)) ℝ) (la : ℝ)
    (vel : Fin (nc + m) → Cell dim) (ξ : Fin dim → ℝ) :
    generator M invM (fun k => la * ∑ l, (vel k l : ℝ) * ξ l) =
      (-Complex.I) • ∑ i, (ξ i : ℂ) • (lambdaMat M invM la vel i).map Complex.ofReal := by
  unfold generator lambdaMat
  have h1 : diagonal (fun k => -(Complex.I * ((la * ∑ l, (vel k l : ℝ) * ξ l : ℝ) : ℂ))) =
      (-Complex.I) • ∑ i, (ξ i : ℂ) • (diagonal (fun k => la * (vel k i : ℝ))).map Complex.ofReal := by
    ext k k'
    by_cases h : k = k'
    · subst h
      simp only [Matrix.smul_apply, Matrix.sum_apply, diagonal_apply_eq, Matrix.map_apply, smul_eq_mul]
      push_cast
      rw [Finset.mul_sum, Finset.mul_sum, Finset.mul_sum, ← Finset.sum_neg_distrib]
      exact Finset.sum_congr rfl (fun l _ => by ring)
    · simp only [Matrix.smul_apply, Matrix.sum_apply, diagonal_apply_ne _ h, Matrix.map_apply, smul_eq_mul,
        Complex.ofReal_zero, mul_zero, Finset.sum_const_zero]
  rw [h1]
  simp only [map_mul', Matrix.mul_smul, Matrix.smul_mul, Matrix.mul_sum, Matrix.sum_mul]

theorem sigmaMat_map (s : Fin m → ℝ) : (sigmaMat s).map Complex.ofReal =
    diagonal (fun i => ((1 / s i - 1 / 2 : ℝ) : ℂ)) := by
  ext i j
  by_cases h : i = j
  · subst h; simp [sigmaMat]
  · simp [sigmaMat, h]

/-- The second order matrix of the waves is the one of the printed equation. -/
theorem generator_printed (M invM : Matrix (Fin (nc + m)) (Fin (nc + m)) ℝ) (la : ℝ)
    (vel : Fin (nc + m) → Cell dim) (ξ : Fin dim → ℝ) (E : Matrix (Fin m) (Fin nc) ℝ) (s : Fin m → ℝ) (τ : ℝ)
    (L : Matrix (Fin (nc + m)) (Fin (nc + m)) ℂ)
    (hL : L = (-Complex.I) • ∑ i, (ξ i : ℂ) • (lambdaMat M invM la vel i).map Complex.ofReal) :
    (projP : Matrix (Fin nc) (Fin (nc + m)) ℂ) * L * equilJ (E.map Complex.ofReal) + (τ : ℂ) •
        ((projP : Matrix (Fin nc) (Fin (nc + m)) ℂ) * L * (inclK : Matrix (Fin (nc + m)) (Fin m) ℂ) *
        diagonal (fun i => ((1 / s i - 1 / 2 : ℝ) : ℂ)) * (devQ (E.map Complex.ofReal) * L * equilJ (E.map Complex.ofReal))) =
      (-Complex.I) • ∑ i, (ξ i : ℂ) • (blockA (lambdaMat M invM la vel i) +
        blockB (lambdaMat M invM la vel i) * E).map Complex.ofReal -
      ∑ i, ∑ j, ((ξ i * ξ j : ℝ) : ℂ) • (printedB (lambdaMat M invM la vel) E s τ i j).map Complex.ofReal := by
  set Lam := lambdaMat M invM la vel with hLam
  have e1 : (projP : Matrix (Fin nc) (Fin (nc + m)) ℂ) * L * equilJ (E.map Complex.ofReal) =
      (-Complex.I) • ∑ i, (ξ i : ℂ) • (blockA (Lam i) + blockB (Lam i) * E).map Complex.ofReal := by
    rw [hL]
    simp only [Matrix.mul_smul, Matrix.smul_mul, Matrix.mul_sum, Matrix.sum_mul, block_pXJ]
    congr 1
    refine Finset.sum_congr rfl (fun i _ => ?_)
    rw [Matrix.map_add _ Complex.ofReal_add, map_mul']
    rfl
  have e2 : (projP : Matrix (Fin nc) (Fin (nc + m)) ℂ) * L * (inclK : Matrix (Fin (nc + m)) (Fin m) ℂ) =
      (-Complex.I) • ∑ i, (ξ i : ℂ) • (blockB (Lam i)).map Complex.ofReal := by
    rw [hL]
    simp only [Matrix.mul_smul, Matrix.smul_mul, Matrix.mul_sum, Matrix.sum_mul, block_pXk]
    rfl
  have e3 : devQ (E.map Complex.ofReal) * L * equilJ (E.map Complex.ofReal) =
      Complex.I • ∑ j, (ξ j : ℂ) • (phi1 Lam E j + E * gamma1 Lam E j).map Complex.ofReal := by
    rw [hL]
    simp only [Matrix.mul_smul, Matrix.smul_mul, Matrix.mul_sum, Matrix.sum_mul, block_qXJ]
    rw [neg_smul, ← smul_neg, ← Finset.sum_neg_distrib]
    congr 1
    refine Finset.sum_congr rfl (fun i _ => ?_)
    rw [← smul_neg]
    congr 1
    unfold phi1 gamma1
    rw [Matrix.map_add _ Complex.ofReal_add, map_mul', Matrix.map_add _ Complex.ofReal_add, map_mul',
      Matrix.map_sub _ Complex.ofReal_sub, map_mul']
    have : (-blockC (Lam i)).map Complex.ofReal = -blockC ((Lam i).map Complex.ofReal) := by
      ext a b
      simp [blockC]
    rw [this]
    have b1 : (blockD (Lam i)).map Complex.ofReal = blockD ((Lam i).map Complex.ofReal) := rfl
    have b2 : (blockA (Lam i)).map Complex.ofReal = blockA ((Lam i).map Complex.ofReal) := rfl
    have b3 : (blockB (Lam i)).map Complex.ofReal = blockB ((Lam i).map Complex.ofReal) := rfl
    rw [b1, b2, b3]
    abel
  rw [e1, e2, e3, sub_eq_add_neg]
  congr 1
  have e4 : ∀ i j, (printedB Lam E s τ i j).map Complex.ofReal = (-(τ : ℂ)) •
      ((blockB (Lam i)).map Complex.ofReal * diagonal (fun i => ((1 / s i - 1 / 2 : ℝ) : ℂ)) *
        (phi1 Lam E j + E * gamma1 Lam E j).map Complex.ofReal) := by
    intro i j
    unfold printedB coeffOrder2
    rw [← sigmaMat_map, ← map_mul', ← map_mul']
    ext a b
    simp
  simp only [e4, Matrix.smul_mul, Matrix.mul_smul, Matrix.sum_mul, Matrix.mul_sum]
  simp only [Finset.smul_sum, smul_smul, ← Finset.sum_neg_distrib, ← neg_smul]
  rw [Finset.sum_comm]
  refine Finset.sum_congr rfl (fun i _ => Finset.sum_congr rfl (fun j _ => ?_))
  congr 1
  push_cast
  linear_combination (-(τ : ℂ) * ξ i * ξ j) * Complex.I_mul_I

theorem hmom {k k' r : Nat} (ξ : Fin r → Fin dim → ℝ) (A : Matrix (Fin k) (Fin k') ℝ) (β : Fin r → Fin k' → ℂ)
    (y : Fin dim → ℝ) (b : Fin k) :
    (A *ᵥ fun c => waveSum ξ β y c) b = ∑ q, ((A.map Complex.ofReal *ᵥ β q) b * phase (ξ q) y).re := by
  unfold waveSum
  simp only [Matrix.mulVec, dotProduct, Finset.mul_sum]
  rw [Finset.sum_comm]
  refine Finset.sum_congr rfl (fun q _ => ?_)
  simp only [Matrix.map_apply, Finset.sum_mul, Complex.re_sum]
  refine Finset.sum_congr rfl (fun c _ => ?_)
  rw [mul_assoc, Complex.re_ofReal_mul]

theorem run_sum {n r : Nat} (S : Kernel ℝ n nc d) (alg : Algo) (hfront : ∀ j, (S.consm j : Nat) = j)
    (hEQ : ∀ j w, S.EQ (S.consm j) w = w j) (hS : ∀ i, S.source i = none) (hrel : S.relVel = none)
    (E : Matrix (Fin n) (Fin nc) ℝ) (hE : ∀ i w, S.EQ i w = (E *ᵥ w) i)
    (s : Fin n → ℝ) (hs : ∀ i w, S.s i w = s i)
    (N : Fin dim → Nat) (vel : Fin n → Cell dim) (k : Fin r → Fin dim → ℝ) (hk : ∀ q, Compatible N (k q))
    (dt : ℝ) (a : Fin r → Fin n → ℂ) (t : Nat) :
    lbmRun N vel (collide S alg) (fun _ H => H) dt (fun x j => ∑ q, wave (a q) (k q) x j) t =
      fun x j => ∑ q, wave (amplification vel (relaxF S.M S.invM s E) (fun i => -k q i) ^ t *ᵥ a q) (k q) x j := by
  induction t with
  | zero => simp [lbmRun]
  | succ t ih =>
    have hcol : ∀ f, collide S alg f = relaxF S.M S.invM s E *ᵥ f := by
      intro f
      rw [collide_eq S alg hEQ hS hrel, relaxF_mulVec]
      unfold collision
      congr 1
      funext i
      rw [relaxMat_mulVec s E S.consm hfront]
      simp only [relaxed, hs, hE]
      rfl
    funext y j
    rw [lbmRun, lbmStep, ih, hcol]
    have h1 : ∀ (b : Fin r → Fin n → ℂ), periodic N (fun x j => ∑ q, wave (b q) (k q) x j) =
        fun x j => ∑ q, wave (b q) (k q) x j := by
      intro b
      funext x j
      have h2 : ∀ q, wave (b q) (k q) (fun i => x i % N i) j = wave (b q) (k q) x j := by
        intro q
        exact congrFun (congrFun (wave_periodic N (k q) (hk q) (b q)) x) j
      simp only [periodic, h2]
    rw [h1]
    have h3 : (fun j => ∑ q, wave (amplification vel (relaxF S.M S.invM s E) (fun i => -k q i) ^ t *ᵥ a q) (k q)
        (fun i => y i - vel j i) j) = ∑ q, fun j => wave (amplification vel (relaxF S.M S.invM s E)
          (fun i => -k q i) ^ t *ᵥ a q) (k q) (fun i => y i - vel j i) j := by
      funext j
      rw [Finset.sum_apply]
    rw [h3, Matrix.mulVec_sum, Finset.sum_apply]
    refine Finset.sum_congr rfl (fun q _ => ?_)
    rw [linear_wave, pow_succ', ← Matrix.mulVec_mulVec]

theorem projP_mulVec (y : Fin (nc + m) → ℂ) (b : Fin nc) :
    ((projP : Matrix (Fin nc) (Fin (nc + m)) ℂ) *ᵥ y) b = y (Fin.castAdd m b) := by
  simp [projP, Matrix.mulVec, dotProduct, Fin.sum_univ_add]

theorem amplification_moments (M invM : Matrix (Fin (nc + m)) (Fin (nc + m)) ℝ) (hinv : invM * M = 1)
    (E : Matrix (Fin m) (Fin nc) ℝ) (s : Fin (nc + m) → ℝ) (vel : Fin (nc + m) → Cell dim) (la dx : ℝ)
    (hla : 0 < la) (ξ : Fin dim → ℝ) (n : Nat) (y : Fin (nc + m) → ℂ) :
    M.map Complex.ofReal *ᵥ (amplification vel (relaxF M invM s (equilJ E)) (fun i => -(dx * ξ i)) ^ n *ᵥ
      (invM.map Complex.ofReal *ᵥ y)) =
    ((equilJ (E.map Complex.ofReal) * (projP : Matrix (Fin nc) (Fin (nc + m)) ℂ) +
      (inclK : Matrix (Fin (nc + m)) (Fin m) ℂ) * diagonal (fun i => ((1 - s (Fin.natAdd nc i) : ℝ) : ℂ)) *
        devQ (E.map Complex.ofReal)) *
      transportMat M invM (fun k => la * ∑ l, (vel k l : ℝ) * ξ l) (dx / la)) ^ n *ᵥ y := by
  have hinv1 : invM.map Complex.ofReal * M.map Complex.ofReal = 1 := by
    rw [← map_mul', hinv]; ext i j; by_cases h : i = j <;> simp [Matrix.one_apply, h]
  have hinv2 : M.map Complex.ofReal * invM.map Complex.ofReal = 1 := mul_eq_one_comm.1 hinv1
  set θ : Fin (nc + m) → ℝ := fun k => la * ∑ l, (vel k l : ℝ) * ξ l with hθ
  set Dg : Matrix (Fin (nc + m)) (Fin (nc + m)) ℂ :=
    diagonal (fun k => Complex.exp (-(Complex.I * (((dx / la : ℝ) : ℂ) * θ k)))) with hDg
  have hR : (equilJ (E.map Complex.ofReal) * (projP : Matrix (Fin nc) (Fin (nc + m)) ℂ) +
      (inclK : Matrix (Fin (nc + m)) (Fin m) ℂ) * diagonal (fun i => ((1 - s (Fin.natAdd nc i) : ℝ) : ℂ)) *
        devQ (E.map Complex.ofReal)) = (relaxMat s (equilJ E)).map Complex.ofReal := by
    rw [relaxMat_block, Matrix.map_add _ Complex.ofReal_add, map_mul', map_mul', map_mul', equilJ_map, devQ_map,
      projP_map, inclK_map]
    congr 3
    ext i j
    by_cases h : i = j
    · subst h; simp
    · simp [h]
  rw [hR]
  set Rc := (relaxMat s (equilJ E)).map Complex.ofReal with hRc
  have hamp : amplification vel (relaxF M invM s (equilJ E)) (fun i => -(dx * ξ i)) =
      invM.map Complex.ofReal * Rc * M.map Complex.ofReal * Dg := by
    rw [hRc, ← map_mul', ← map_mul']
    ext i k
    rw [hDg, Matrix.mul_diagonal, mul_comm]
    unfold amplification
    simp only [Matrix.of_apply, Matrix.map_apply, relaxF]
    congr 2
    have hla' : (la : ℂ) ≠ 0 := by exact_mod_cast hla.ne'
    rw [← mul_neg]
    congr 1
    simp only [hθ]
    push_cast
    rw [← mul_assoc, div_mul_cancel₀ _ hla', Finset.mul_sum, ← Finset.sum_neg_distrib]
    refine Finset.sum_congr rfl (fun l _ => ?_)
    ring
  rw [hamp]
  have hsemi : SemiconjBy (M.map Complex.ofReal) (invM.map Complex.ofReal * Rc * M.map Complex.ofReal * Dg)
      (Rc * transportMat M invM θ (dx / la)) := by
    unfold SemiconjBy transportMat
    calc _ = (M.map Complex.ofReal * invM.map Complex.ofReal) * Rc * M.map Complex.ofReal * Dg := by
          simp only [Matrix.mul_assoc]
      _ = Rc * M.map Complex.ofReal * Dg * (invM.map Complex.ofReal * M.map Complex.ofReal) := by
          rw [hinv1, hinv2, Matrix.one_mul, Matrix.mul_one]
      _ = _ := by simp only [Matrix.mul_assoc, hDg]
  have h := (hsemi.pow_right n).eq
  rw [mulVec_mulVec, h, mulVec_mulVec, Matrix.mul_assoc, hinv2, Matrix.mul_one]

/-- **C67 (linear equilibria).** The conserved moments computed by the code from a finite sum of plane waves at
equilibrium, on periodic boxes of any size, differ at all times up to `T` by at most `C dx²` from the solution
of the system of equations printed by `EquivalentEquation` for the time step `dt = dx / la`, with the same
initial data: the printed equation is the one which the scheme approximates with order 2, for all the schemes
with linear equilibrium and constant relaxation parameters in `]0, 2[`. -/
theorem C67_second_order (S : Kernel ℝ (nc + m) nc d) (alg : Algo) (hfront : ∀ j, (S.consm j : Nat) = j)
    (hEQ : ∀ j w, S.EQ (S.consm j) w = w j) (hS : ∀ i, S.source i = none) (hrel : S.relVel = none)
    (hinv : S.invM * S.M = 1) (E : Matrix (Fin m) (Fin nc) ℝ)
    (hE : ∀ i w, S.EQ (Fin.natAdd nc i) w = (E *ᵥ w) i) (s : Fin (nc + m) → ℝ) (hs : ∀ i w, S.s i w = s i)
    (hs2 : ∀ i : Fin m, 0 < s (Fin.natAdd nc i) ∧ s (Fin.natAdd nc i) < 2)
    (vel : Fin (nc + m) → Cell dim) (la : ℝ) (hla : 0 < la) {r : Nat} (ξ : Fin r → Fin dim → ℝ)
    (a : Fin r → Fin nc → ℂ) (T dx0 : ℝ) (hT : 0 ≤ T) (hdx0 : 0 < dx0) :
    let Lam := lambdaMat S.M S.invM la vel
    ∃ C, ∀ dx, 0 < dx → dx ≤ dx0 → ∀ N : Fin dim → Nat, (∀ q, Compatible N (fun l => dx * ξ q l)) →
      ∃ α : ℝ → Fin r → Fin nc → ℂ, (∀ q b, Differentiable ℝ (fun t => α t q b)) ∧ α 0 = a ∧
        SolvesEquation (coeffOrder1 Lam fun u => E *ᵥ u)
          (printedB Lam E (fun i => s (Fin.natAdd nc i)) (dx / la)) (fun t x => waveSum ξ (α t) x) ∧
        ∀ n : Nat, n * (dx / la) ≤ T → ∀ (x : Cell dim) (b : Fin nc),
          |(S.M *ᵥ lbmRun N vel (collide S alg) (fun _ H => H) (dx / la)
              (fun y => S.invM *ᵥ fun i => S.EQ i (waveSum ξ a fun l => dx * y l)) n x) (S.consm b) -
            waveSum ξ (α (n * (dx / la))) (fun l => dx * x l) b| ≤ C * dx ^ 2 := by
  intro Lam
  set θ : Fin r → Fin (nc + m) → ℝ := fun q k => la * ∑ l, (vel k l : ℝ) * ξ q l with hθ
  have hcons : ∀ j, S.consm j = Fin.castAdd m j := fun j => Fin.ext (hfront j)
  have hE' : ∀ i w, S.EQ i w = (equilJ E *ᵥ w) i := by
    intro i w
    refine Fin.addCases (fun i => ?_) (fun i => ?_) i
    · rw [← hcons, hEQ, hcons]
      simp [equilJ, Matrix.mulVec, dotProduct]
    · rw [hE]
      simp [equilJ, Matrix.mulVec, dotProduct]
  have hinv1 : S.invM.map Complex.ofReal * S.M.map Complex.ofReal = 1 := by
    rw [← map_mul', hinv]; ext i j; by_cases h : i = j <;> simp [Matrix.one_apply, h]
  have hinv2 : S.M.map Complex.ofReal * S.invM.map Complex.ofReal = 1 := mul_eq_one_comm.1 hinv1
  set Ec := E.map Complex.ofReal with hEc
  have horder := fun q => order_two (transportMat S.M S.invM (θ q)) (generator S.M S.invM (θ q)) (equilJ Ec)
    (projP : Matrix (Fin nc) (Fin (nc + m)) ℂ)
    (inclK : Matrix (Fin (nc + m)) (Fin m) ℂ) (devQ Ec) (fun i => s (Fin.natAdd nc i)) hs2 (block_one Ec) (block_pJ Ec) (block_qJ Ec) block_pk
    (block_qk Ec) (dx0 / la) (div_pos hdx0 hla) (transport_big S.M S.invM hinv (θ q) (dx0 / la)) T hT (a q)
  choose C hC0 hC using horder
  set Z : ℝ → Fin r → Matrix (Fin nc) (Fin nc) ℂ := fun τ q =>
    (projP : Matrix (Fin nc) (Fin (nc + m)) ℂ) * generator S.M S.invM (θ q) * equilJ Ec + (τ : ℂ) •
      ((projP : Matrix (Fin nc) (Fin (nc + m)) ℂ) * generator S.M S.invM (θ q) * (inclK : Matrix (Fin (nc + m)) (Fin m) ℂ) *
        diagonal (fun i => ((1 / s (Fin.natAdd nc i) - 1 / 2 : ℝ) : ℂ)) *
        (devQ Ec * generator S.M S.invM (θ q) * equilJ Ec)) with hZ
  refine ⟨(∑ q, C q) / la ^ 2, fun dx h0 h1 N hN => ?_⟩
  refine ⟨fun t q => NormedSpace.exp ((t : ℂ) • Z (dx / la) q) *ᵥ a q, ?_, ?_, ?_, ?_⟩
  · intro q b t
    exact (hasDerivAt_amp _ _ _ _).differentiableAt
  · funext q
    simp
  · have hF : coeffOrder1 Lam (fun u => E *ᵥ u) = fun i u => (blockA (Lam i) + blockB (Lam i) * E) *ᵥ u := by
      funext i u
      unfold coeffOrder1
      rw [add_mulVec, mulVec_mulVec]
    rw [hF]
    refine wave_solves (fun i => blockA (Lam i) + blockB (Lam i) * E) _ ξ (Z (dx / la)) (fun q => ?_) _
      (fun q b t => hasDerivAt_amp _ _ _ _)
    exact generator_printed S.M S.invM la vel (ξ q) E _ (dx / la) _ (generator_eq S.M S.invM la vel (ξ q))
  · intro n hn x b
    have hτ : dx / la ≤ dx0 / la := div_le_div_of_nonneg_right h1 hla.le
    have hinit : (fun y : Cell dim => S.invM *ᵥ fun i => S.EQ i (waveSum ξ a fun l => dx * y l)) =
        fun y j => ∑ q, wave (S.invM.map Complex.ofReal *ᵥ (equilJ Ec *ᵥ a q)) (fun l => dx * ξ q l) y j := by
      funext y j
      have hw : (fun i => S.EQ i (waveSum ξ a fun l => dx * y l)) = equilJ E *ᵥ waveSum ξ a (fun l => dx * y l) := by
        funext i; exact hE' i _
      rw [hw]
      have hph : ∀ q, Complex.exp (Complex.I * ∑ l, (y l : ℂ) * ((dx * ξ q l : ℝ) : ℂ)) =
          phase (ξ q) (fun l => dx * y l) := by
        intro q
        unfold phase
        congr 2
        refine Finset.sum_congr rfl (fun l _ => ?_)
        push_cast; ring
      simp only [wave, hph, mulVec_mulVec, hEc]
      rw [← equilJ_map, ← map_mul']
      exact hmom _ (S.invM * equilJ E) a _ j
    rw [hinit, run_sum S alg hfront hEQ hS hrel (equilJ E) hE' s hs N vel (fun q l => dx * ξ q l) hN]
    have hph : ∀ q, Complex.exp (Complex.I * ∑ l, (x l : ℂ) * ((dx * ξ q l : ℝ) : ℂ)) =
        phase (ξ q) (fun l => dx * x l) := by
      intro q
      unfold phase
      congr 2
      refine Finset.sum_congr rfl (fun l _ => ?_)
      push_cast; ring
    simp only [wave, hph]
    rw [show (fun j => ∑ q, _) = waveSum ξ _ _ from rfl, hmom]
    unfold waveSum
    rw [← Finset.sum_sub_distrib]
    refine (Finset.abs_sum_le_sum_abs _ _).trans ?_
    rw [div_mul_eq_mul_div, Finset.sum_mul, Finset.sum_div]
    refine Finset.sum_le_sum (fun q _ => ?_)
    have hG := amplification_moments S.M S.invM hinv E s vel la dx hla (ξ q) n (equilJ Ec *ᵥ a q)
    rw [hG, ← Complex.sub_re, ← sub_mul]
    refine (Complex.abs_re_le_norm _).trans ?_
    rw [norm_mul, phase_norm, mul_one]
    have hCq := hC q (dx / la) (div_pos h0 hla) hτ n hn
    rw [div_pow] at hCq
    rw [mul_div_assoc]
    refine le_trans (le_trans (le_of_eq ?_) (norm_le_pi_norm _ b)) hCq
    rw [hcons, Pi.sub_apply]
    congr 2
    exact (projP_mulVec _ b).symm

/-- A case for `C67_second_order`: D1Q2 with the linear equilibrium `w/2` and the relaxation parameter `3/2`. -/
noncomputable def upwind : Kernel ℝ (1 + 1) 1 0 where
  M := !![1, 1; 1, -1]
  invM := !![1 / 2, 1 / 2; 1 / 2, -1 / 2]
  Tu := fun _ => 1
  Tmu := fun _ => 1
  EQ := ![fun w => w 0, fun w => w 0 / 2]
  s := ![fun _ => 0, fun _ => 3 / 2]
  consm := ![0]
  relVel := none
  source := fun _ => none
  dt := 1

example : (∀ j, (upwind.consm j : Nat) = j) ∧ (∀ j w, upwind.EQ (upwind.consm j) w = w j) ∧
    upwind.invM * upwind.M = 1 ∧
    (∀ (i : Fin 1) w, upwind.EQ (Fin.natAdd 1 i) w = ((!![1 / 2] : Matrix (Fin 1) (Fin 1) ℝ) *ᵥ w) i) ∧
    (∀ i w, upwind.s i w = (![0, 3 / 2] : Fin 2 → ℝ) i) ∧
    (∀ i : Fin 1, 0 < (![0, 3 / 2] : Fin 2 → ℝ) (Fin.natAdd 1 i) ∧ (![0, 3 / 2] : Fin 2 → ℝ) (Fin.natAdd 1 i) < 2) ∧
    Compatible (fun _ : Fin 1 => 10) (fun _ => (1 / 10 : ℝ) * (2 * Real.pi)) ∧
    printedB (lambdaMat upwind.M upwind.invM 1 fun j _ => ![1, -1] j) (!![1 / 2] : Matrix (Fin 1) (Fin 1) ℝ)
      (fun i => (![0, 3 / 2] : Fin 2 → ℝ) (Fin.natAdd 1 i)) (1 / 10) (0 : Fin 1) 0 = !![1 / 80] := by
  refine ⟨by intro j; fin_cases j; rfl, by intro j w; fin_cases j; rfl, ?_, ?_, ?_, ?_, ?_, ?_⟩
  · ext i j
    fin_cases i <;> fin_cases j <;> simp [upwind, Matrix.mul_apply, Fin.sum_univ_two] <;> norm_num
  · intro i w
    fin_cases i
    simp [upwind, Matrix.mulVec, dotProduct, Fin.natAdd]
    ring
  · intro i w
    fin_cases i <;> simp [upwind]
  · intro i
    fin_cases i
    constructor <;> simp [Fin.natAdd] <;> norm_num
  · intro i
    exact ⟨1, by push_cast; ring⟩
  · have hL : lambdaMat upwind.M upwind.invM 1 (fun j _ => ![1, -1] j) (0 : Fin 1) =
        (!![0, 1; 1, 0] : Matrix (Fin (1 + 1)) (Fin (1 + 1)) ℝ) := by
      ext i j
      rw [lambdaMat, Matrix.mul_apply, Fin.sum_univ_two, Matrix.mul_diagonal, Matrix.mul_diagonal]
      fin_cases i <;> fin_cases j <;> simp [upwind] <;> norm_num
    ext i j
    fin_cases i; fin_cases j
    simp only [printedB, coeffOrder2, sigmaMat, phi1, gamma1, blockA, blockB, blockC, blockD, hL, Matrix.mul_apply,
      Finset.univ_unique, Finset.sum_singleton, Matrix.smul_apply, Matrix.sub_apply, Matrix.add_apply,
      Matrix.neg_apply, Matrix.submatrix_apply]
    simp [Fin.natAdd, Fin.castAdd]
    norm_num

/-- The same scheme with the source term 1 for the conserved moment and the time step `dt`. -/
noncomputable def sourced (dt : ℝ) : Kernel ℝ (1 + 1) 1 0 where
  toData := upwind.toData
  relVel := none
  source := ![some fun _ => 1, none]
  dt := dt

theorem sourced_collide (dt : ℝ) : collide (sourced dt) .pull 0 = ![11 * dt / 16, 5 * dt / 16] := by
  unfold collide
  rw [prog_eq]
  have hr : List.finRange 2 = [0, 1] := by decide
  funext i
  simp [pullStep, f2mLocal, relaxLocal, restoreLocal, m2fLocal, sourceLocal, front, backIdx, hr, Kernel.run,
    Kernel.exec, sourced, upwind, Kernel.cons, Kernel.dot, Fin.sum_univ_two, Function.update, Matrix.mul_apply]
  fin_cases i <;> simp [vecHead, vecTail] <;> ring

/-- **C67 (negation with a source term).** The source terms are missing in the printed equation
(equivalent_equation.py 18): for this scheme with a source term the printed equation is the same, and the error of
its solutions is not of order 2, already after one time step from zero. -/
theorem C67_source_negation (N : Nat) (C : ℝ) : ∃ dx, 0 < dx ∧ dx ≤ 1 ∧
    ∀ α : ℝ → Fin 1 → Fin 1 → ℂ, (∀ q b, Differentiable ℝ (fun t => α t q b)) → α 0 = 0 →
      SolvesEquation (coeffOrder1 (lambdaMat (sourced dx).M (sourced dx).invM 1 fun j _ => ![1, -1] j)
          fun u => (!![1 / 2] : Matrix (Fin 1) (Fin 1) ℝ) *ᵥ u)
        (printedB (lambdaMat (sourced dx).M (sourced dx).invM 1 fun j _ => ![1, -1] j) !![1 / 2]
          (fun _ => 3 / 2) dx) (fun t (x : Fin 1 → ℝ) => waveSum 0 (α t) x) →
      C * dx ^ 2 < |((sourced dx).M *ᵥ lbmRun (fun _ => N) (fun j _ => ![1, -1] j) (collide (sourced dx) .pull)
          (fun _ H => H) dx (fun y => (sourced dx).invM *ᵥ fun i => (sourced dx).EQ i
            (waveSum (0 : Fin 1 → Fin 1 → ℝ) (0 : Fin 1 → Fin 1 → ℂ) fun l => dx * y l)) 1 0) 0 -
        waveSum 0 (α dx) (fun _ : Fin 1 => 0) 0| := by
  refine ⟨1 / (|C| + 1), by positivity, ?_, ?_⟩
  · rw [div_le_one (by positivity)]
    linarith [abs_nonneg C]
  intro α hα h0 hsol
  set dx := 1 / (|C| + 1) with hdx
  have hpos : 0 < dx := by positivity
  have hw : ∀ t (x : Fin 1 → ℝ) b, waveSum 0 (α t) x b = (α t 0 b).re := by
    intro t x b
    simp [waveSum, phase]
  have hder : ∀ t, _root_.deriv (fun t' => (α t' 0 0).re) t = 0 := by
    intro t
    have := hsol t 0 0
    have hw' : ∀ t, (fun x : Fin 1 → ℝ => waveSum 0 (α t) x) = fun _ b => (α t 0 b).re := by
      intro t; funext x b; exact hw t x b
    simp only [fun t x => congrFun (hw' t) x] at this
    simpa [partialAt] using this
  have hconst : (α dx 0 0).re = 0 := by
    have hd : Differentiable ℝ (fun t => (α t 0 0).re) := fun t =>
      (Complex.reCLM.differentiableAt.comp t (hα 0 0 t))
    have := is_const_of_deriv_eq_zero hd hder dx 0
    rw [this, h0]
    simp
  rw [hw, hconst, sub_zero]
  have hinit : (fun y : Cell 1 => (sourced dx).invM *ᵥ fun i => (sourced dx).EQ i
      (waveSum (0 : Fin 1 → Fin 1 → ℝ) (0 : Fin 1 → Fin 1 → ℂ) fun l => dx * y l)) = fun _ => 0 := by
    funext y i
    have : (fun i => (sourced dx).EQ i (waveSum (0 : Fin 1 → Fin 1 → ℝ) (0 : Fin 1 → Fin 1 → ℂ) fun l => dx * y l)) = 0 := by
      funext i
      fin_cases i <;> simp [sourced, upwind, waveSum]
    rw [this]
    simp
  rw [hinit]
  have hrun : lbmRun (fun _ => N) (fun j _ => ![1, -1] j) (collide (sourced dx) .pull)
      (fun _ H => H) dx (fun _ : Cell 1 => 0) 1 0 = ![11 * dx / 16, 5 * dx / 16] := by
    rw [← sourced_collide]
    rfl
  rw [hrun]
  have : ((sourced dx).M *ᵥ ![11 * dx / 16, 5 * dx / 16]) 0 = dx := by
    simp [sourced, upwind, Matrix.mulVec, dotProduct, Fin.sum_univ_two]
    ring
  rw [this, abs_of_pos hpos]
  have h1 : C * dx < 1 := by
    rw [hdx, mul_one_div, div_lt_one (by positivity)]
    linarith [le_abs_self C]
  nlinarith

end Pylbm.Stability
