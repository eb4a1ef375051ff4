import Verif.Stability.Equivalent
import Verif.Stability.StepExpansion
import Mathlib.Analysis.Calculus.Deriv.Pi
/-!
# C67: the equivalent equation of nonlinear schemes
-/
set_option linter.unusedSectionVars false
namespace Pylbm.Stability
open Matrix Sim Scheme Halo SchemeSpec HaloSpec Mpi
open scoped ContDiff

variable {nc m d dim : Nat}

/-! ## Specification -/

/-- The matrix of the partial derivatives of `eq` at `w`. -/
noncomputable def jacobian (eq : (Fin nc → ℝ) → Fin m → ℝ) (w : Fin nc → ℝ) : Matrix (Fin m) (Fin nc) ℝ :=
  Matrix.of fun i c => partialAt (fun w => eq w i) c w

/-- What is missing for `U` to solve the system `∂_t U + Σ_i ∂_i F_i(U) = Σ_ij ∂_i (B_ij(U) ∂_j U)`. -/
noncomputable def residual (F : Fin dim → (Fin nc → ℝ) → Fin nc → ℝ)
    (B : (Fin nc → ℝ) → Fin dim → Fin dim → Matrix (Fin nc) (Fin nc) ℝ) (U : ℝ → (Fin dim → ℝ) → Fin nc → ℝ)
    (t : ℝ) (x : Fin dim → ℝ) (b : Fin nc) : ℝ :=
  _root_.deriv (fun t' => U t' x b) t + ∑ i, partialAt (fun y => F i (U t y) b) i x -
    ∑ i, ∑ j, partialAt (fun y => ∑ c, B (U t y) i j b c * partialAt (fun z => U t z c) j y) i x

/-- The functions `W ε` solve for the times in `J`, up to a remainder of order `ε ^ 2`, the equation printed for the
scheme `S` with `Delta_t = ε`; the first and second order terms are those of `EquivalentEquation`. -/
def SolvesPrinted (S : Kernel ℝ (nc + m) nc d) (vel : Fin (nc + m) → Cell dim) (la : ℝ) (J : Set ℝ)
    (W : ℝ → ℝ → (Fin dim → ℝ) → Fin nc → ℝ) : Prop :=
  ∃ ε₁ : ℝ, 0 < ε₁ ∧ ∃ C : ℝ, ∀ ε : ℝ, 0 < ε → ε < ε₁ → ∀ t ∈ J, ∀ x b,
    |residual (coeffOrder1 (lambdaMat S.M S.invM la vel) fun w i => S.EQ (Fin.natAdd nc i) w)
      (fun w => printedB (lambdaMat S.M S.invM la vel) (jacobian (fun w i => S.EQ (Fin.natAdd nc i) w) w)
        (fun i => S.s (Fin.natAdd nc i) w) ε) (W ε) t x b| ≤ C * ε ^ 2

/-- A smooth function of `ε`, `t`, `x`. -/
def SmoothIn {k : Nat} (g : ℝ → ℝ → (Fin dim → ℝ) → Fin k → ℝ) : Prop :=
  ContDiff ℝ ∞ fun p : ℝ × ℝ × (Fin dim → ℝ) => g p.1 p.2.1 p.2.2

/-- Periodic with the periods `L i`. -/
def HasPeriods {α : Type} (L : Fin dim → ℝ) (g : (Fin dim → ℝ) → α) : Prop :=
  ∀ (k : Fin dim → ℤ) x, g (fun i => x i + k i * L i) = g x

/-! ## Evaluation -/

section Eval
variable {X : Type} [NormedAddCommGroup X] [NormedSpace ℝ X]

/-- Value at a point. -/
def evS (p : ℝ × X) : SF X →ₐ[ℝ] ℝ where
  toFun g := (g : ℝ × X → ℝ) p
  map_one' := rfl
  map_mul' _ _ := rfl
  map_zero' := rfl
  map_add' _ _ := rfl
  commutes' _ := rfl

theorem evS_ext {g h : SF X} (H : ∀ p, evS p g = evS p h) : g = h := Subtype.ext (funext H)

theorem evS_shift (p : ℝ × X) (u : X) (g : SF X) : evS p (shiftS u g) = evS (p.1, p.2 + p.1 • u) g := rfl

theorem evS_trans (p : ℝ × X) (a : X) (g : SF X) : evS p (transS a g) = evS (p.1, p.2 + a) g := rfl

theorem evS_eps (p : ℝ × X) : evS p epsS = p.1 := rfl

end Eval

/-- The space of the times and positions. -/
abbrev TX (dim : Nat) : Type := ℝ × (Fin dim → ℝ)

/-- Derivative in the space direction `i`. -/
noncomputable def dxS (i : Fin dim) : SF (TX dim) →ₗ[ℝ] SF (TX dim) := derS (0, 0, Pi.single i 1)

/-- Derivative in time. -/
noncomputable def dtS : SF (TX dim) →ₗ[ℝ] SF (TX dim) := derS (0, 1, 0)

theorem evS_dx (g : SF (TX dim)) (i : Fin dim) (ε t : ℝ) (x : Fin dim → ℝ) :
    partialAt (fun y => evS (ε, t, y) g) i x = evS (ε, t, x) (dxS i g) := by
  unfold partialAt
  have h1 : HasFDerivAt (g : ℝ × TX dim → ℝ) (fderiv ℝ (g : ℝ × TX dim → ℝ) (ε, t, x)) (ε, t, x) :=
    (smoothAlg_diff g _).hasFDerivAt
  have h2 : HasDerivAt (fun r : ℝ => ((ε, t, Function.update x i r) : ℝ × TX dim)) (0, 0, Pi.single i 1) (x i) :=
    (hasDerivAt_const _ _).prodMk ((hasDerivAt_const _ _).prodMk (hasDerivAt_update x i (x i)))
  have h3 : ((ε, t, Function.update x i (x i)) : ℝ × TX dim) = (ε, t, x) := by rw [Function.update_eq_self]
  rw [← h3] at h1
  have := (h1.comp_hasDerivAt (x i) h2).deriv
  rw [h3] at this
  exact this

theorem evS_dt (g : SF (TX dim)) (ε t : ℝ) (x : Fin dim → ℝ) :
    _root_.deriv (fun t' => evS (ε, t', x) g) t = evS (ε, t, x) (dtS g) := by
  have h1 : HasFDerivAt (g : ℝ × TX dim → ℝ) (fderiv ℝ (g : ℝ × TX dim → ℝ) (ε, t, x)) (ε, t, x) :=
    (smoothAlg_diff g _).hasFDerivAt
  have h2 : HasDerivAt (fun r : ℝ => ((ε, r, x) : ℝ × TX dim)) (0, 1, 0) t :=
    (hasDerivAt_const _ _).prodMk ((hasDerivAt_id t).prodMk (hasDerivAt_const _ _))
  exact (h1.comp_hasDerivAt t h2).deriv

theorem derS_dir (v : Fin dim → ℝ) (g : SF (TX dim)) : derS (0, 0, v) g = ∑ i, v i • dxS i g := by
  apply evS_ext
  intro p
  simp only [map_sum, map_smul]
  set ℓ : (Fin dim → ℝ) →ₗ[ℝ] ℝ := (fderiv ℝ (g : ℝ × TX dim → ℝ) p).toLinearMap ∘ₗ
    LinearMap.inr ℝ ℝ (TX dim) ∘ₗ LinearMap.inr ℝ ℝ (Fin dim → ℝ) with hℓ
  change ℓ v = ∑ i, v i • ℓ (Pi.single i 1)
  conv_lhs => rw [← Finset.univ_sum_single v]
  rw [map_sum]
  refine Finset.sum_congr rfl fun i _ => ?_
  rw [← map_smul, ← Pi.single_smul, smul_eq_mul, mul_one]

/-! ## The operator of the transport and the printed coefficients -/

/-- The displacements of the populations during the time `ε`, divided by `ε`. -/
def disp (la : ℝ) (vel : Fin (nc + m) → Cell dim) (k : Fin (nc + m)) : TX dim := (0, fun l => -(la * (vel k l : ℝ)))

theorem genS_lambda (M invM : Matrix (Fin (nc + m)) (Fin (nc + m)) ℝ) (la : ℝ) (vel : Fin (nc + m) → Cell dim)
    (μ : Fin (nc + m) → SF (TX dim)) (r : Fin (nc + m)) :
    genS (fun i j => M i j) (fun i j => invM i j) (disp la vel) μ r =
      ∑ i, ∑ j, lambdaMat M invM la vel i r j • dxS i (μ j) := by
  have h : ∀ i j, lambdaMat M invM la vel i r j = ∑ k, M r k * (la * (vel k i : ℝ)) * invM k j := by
    intro i j
    rw [lambdaMat, Matrix.mul_apply]
    refine Finset.sum_congr rfl fun k _ => ?_
    rw [Matrix.mul_diagonal]
  simp only [h, Finset.sum_smul, genS, popS]
  have h1 : ∀ k : Fin (nc + m), derS ((0 : ℝ), disp la vel k) (∑ j, invM k j • μ j) =
      -∑ i, ∑ j, ((la * (vel k i : ℝ)) * invM k j) • dxS i (μ j) := by
    intro k
    unfold disp
    rw [derS_dir, ← Finset.sum_neg_distrib]
    refine Finset.sum_congr rfl fun i _ => ?_
    rw [map_sum, neg_smul, Finset.smul_sum]
    congr 1
    refine Finset.sum_congr rfl fun j _ => ?_
    rw [map_smul, smul_smul]
  simp only [h1, smul_neg, Finset.sum_neg_distrib, neg_neg, Finset.smul_sum, smul_smul]
  rw [Finset.sum_comm]
  refine Finset.sum_congr rfl fun i _ => ?_
  rw [Finset.sum_comm]
  refine Finset.sum_congr rfl fun j _ => Finset.sum_congr rfl fun k _ => ?_
  congr 1
  ring

section Printed
variable (M invM : Matrix (Fin (nc + m)) (Fin (nc + m)) ℝ) (la : ℝ) (vel : Fin (nc + m) → Cell dim)
  (W : Fin nc → SF (TX dim)) (Q : Fin m → SF (TX dim)) (J : Fin m → Fin nc → SF (TX dim)) (s ri : Fin m → SF (TX dim))

/-- The terms with the derivatives in the direction `j`. -/
noncomputable def genJ (j : Fin dim) (r : Fin (nc + m)) : SF (TX dim) :=
  ∑ l, lambdaMat M invM la vel j r l • dxS j (equilS W Q l)

@[inherit_doc genJ]
noncomputable def devJ (j : Fin dim) (n : Fin m) : SF (TX dim) :=
  -genJ M invM la vel W Q j (Fin.natAdd nc n) + ∑ c, J n c * genJ M invM la vel W Q j (Fin.castAdd m c)

@[inherit_doc genJ]
noncomputable def sigJ (j : Fin dim) (n : Fin m) : SF (TX dim) :=
  ri n * devJ M invM la vel W Q J j n - (1 / 2 : ℝ) • devJ M invM la vel W Q J j n

theorem devS_sum (n : Fin m) :
    devS (fun i j => M i j) (fun i j => invM i j) (disp la vel) W Q J n = ∑ j, devJ M invM la vel W Q J j n := by
  simp only [devS, genS_lambda, devJ, Finset.sum_add_distrib, Finset.sum_neg_distrib, Finset.mul_sum]
  congr 1
  rw [Finset.sum_comm]
  refine Finset.sum_congr rfl fun j _ => Finset.sum_congr rfl fun c _ => ?_
  rw [genJ, Finset.mul_sum]

theorem sigS_sum (n : Fin m) :
    sigS (fun i j => M i j) (fun i j => invM i j) (disp la vel) W Q J ri n = ∑ j, sigJ M invM la vel W Q J ri j n := by
  simp only [sigS, devS_sum, sigJ, Finset.mul_sum, Finset.smul_sum, Finset.sum_sub_distrib]

/-- `B_ij` of the printed equation applied to the derivatives. -/
theorem printed_sig (hri : ∀ i, ri i * s i = 1)
    (hJ : ∀ v i, derS v (Q i) = ∑ c, J i c * derS v (W c)) (p : ℝ × TX dim) (i j : Fin dim) (b : Fin nc) :
    ∑ c, printedB (lambdaMat M invM la vel) (Matrix.of fun i c => evS p (J i c)) (fun i => evS p (s i)) p.1 i j b c *
        evS p (dxS j (W c)) =
      evS p (-(epsS * ∑ n, blockB (lambdaMat M invM la vel i) b n • sigJ M invM la vel W Q J ri j n)) := by
  set Lam := lambdaMat M invM la vel with hLam
  set jac : Matrix (Fin m) (Fin nc) ℝ := Matrix.of fun i c => evS p (J i c) with hjac
  have hs : ∀ n, evS p (ri n) = 1 / evS p (s n) := by
    intro n
    have := congrArg (evS p) (hri n)
    rw [map_mul, map_one] at this
    exact eq_one_div_of_mul_eq_one_left this
  set w : Fin nc → ℝ := fun c => evS p (dxS j (W c)) with hw
  have hgen : ∀ r, evS p (genJ M invM la vel W Q j r) = (∑ c, Lam j r (Fin.castAdd m c) * w c) +
      ∑ n, Lam j r (Fin.natAdd nc n) * (jac *ᵥ w) n := by
    intro r
    rw [genJ, map_sum, Fin.sum_univ_add]
    congr 1
    · refine Finset.sum_congr rfl fun c _ => ?_
      rw [equilS_left, map_smul, smul_eq_mul]
    · refine Finset.sum_congr rfl fun n _ => ?_
      rw [equilS_right, map_smul, smul_eq_mul]
      congr 1
      rw [dxS, hJ, map_sum]
      exact Finset.sum_congr rfl fun c _ => map_mul _ _ _
  have e2 : ∀ r : Fin nc, evS p (genJ M invM la vel W Q j (Fin.castAdd m r)) = (gamma1 Lam jac j *ᵥ w) r := by
    intro r
    rw [hgen, gamma1, Matrix.add_mulVec, ← Matrix.mulVec_mulVec]
    rfl
  have e3 : ∀ n, evS p (genJ M invM la vel W Q j (Fin.natAdd nc n)) = -((phi1 Lam jac j *ᵥ w) n) := by
    intro n
    rw [hgen, phi1, Matrix.sub_mulVec, ← Matrix.mulVec_mulVec, Matrix.neg_mulVec]
    simp only [Pi.sub_apply, Pi.neg_apply, neg_sub, sub_neg_eq_add]
    rw [add_comm]
    rfl
  have hdev : ∀ n, evS p (devJ M invM la vel W Q J j n) = ((phi1 Lam jac j + jac * gamma1 Lam jac j) *ᵥ w) n := by
    intro n
    rw [devJ, map_add, map_neg, map_sum]
    simp only [map_mul, e2, e3, neg_neg]
    rw [Matrix.add_mulVec, ← Matrix.mulVec_mulVec]
    rfl
  have hsig : ∀ n, evS p (sigJ M invM la vel W Q J ri j n) =
      (sigmaMat (fun i => evS p (s i)) *ᵥ ((phi1 Lam jac j + jac * gamma1 Lam jac j) *ᵥ w)) n := by
    intro n
    rw [sigJ, map_sub, map_mul, map_smul, smul_eq_mul, hs, hdev, sigmaMat, Matrix.sub_mulVec, Matrix.smul_mulVec,
      Matrix.one_mulVec]
    simp only [Pi.sub_apply, Pi.smul_apply, smul_eq_mul, Matrix.mulVec_diagonal]
  rw [show ∑ c, printedB Lam jac (fun i => evS p (s i)) p.1 i j b c * evS p (dxS j (W c)) =
    (printedB Lam jac (fun i => evS p (s i)) p.1 i j *ᵥ w) b from rfl, printedB, Matrix.smul_mulVec, coeffOrder2,
    ← Matrix.mulVec_mulVec, ← Matrix.mulVec_mulVec, Pi.smul_apply, smul_eq_mul, map_neg, map_mul, evS_eps, map_sum,
    neg_mul]
  simp only [map_smul, smul_eq_mul, hsig]
  rfl

end Printed

/-! ## The data of the theorem -/

section Data
variable {W : ℝ → ℝ → (Fin dim → ℝ) → Fin nc → ℝ}

/-- The conserved moments. -/
def consS (hW : SmoothIn W) (c : Fin nc) : SF (TX dim) :=
  ⟨fun p => W p.1 p.2.1 p.2.2 c, mem_smooth.2 (contDiff_pi.1 hW c)⟩

/-- A function of the conserved moments. -/
def ofCons (hW : SmoothIn W) {Ω : Set (Fin nc → ℝ)} (hΩ : ∀ ε t x, W ε t x ∈ Ω) (f : (Fin nc → ℝ) → ℝ)
    (hf : ContDiffOn ℝ ∞ f Ω) : SF (TX dim) :=
  ⟨fun p => f (W p.1 p.2.1 p.2.2), mem_smooth.2 (hf.comp_contDiff hW fun _ => hΩ _ _ _)⟩

theorem ofCons_der (hW : SmoothIn W) {Ω : Set (Fin nc → ℝ)} (ho : IsOpen Ω) (hΩ : ∀ ε t x, W ε t x ∈ Ω)
    (f : (Fin nc → ℝ) → ℝ) (hf : ContDiffOn ℝ ∞ f Ω) (v : ℝ × TX dim) :
    derS v (ofCons hW hΩ f hf) = ∑ c, ofCons hW hΩ (pd c f) (contDiffOn_pd ho hf c) * derS v (consS hW c) := by
  apply evS_ext
  intro p
  simp only [map_sum, map_mul]
  have h1 : HasFDerivAt f (fderiv ℝ f (W p.1 p.2.1 p.2.2)) (W p.1 p.2.1 p.2.2) :=
    ((hf.contDiffAt (ho.mem_nhds (hΩ _ _ _))).differentiableAt (by simp)).hasFDerivAt
  have h2 : HasFDerivAt (fun p : ℝ × TX dim => W p.1 p.2.1 p.2.2)
      (ContinuousLinearMap.pi fun c => fderiv ℝ (consS hW c : ℝ × TX dim → ℝ) p) p :=
    hasFDerivAt_pi.2 fun c => (smoothAlg_diff (consS hW c) p).hasFDerivAt
  have h3 := (h1.comp p h2).fderiv
  change fderiv ℝ (f ∘ fun p : ℝ × TX dim => W p.1 p.2.1 p.2.2) p v = _
  rw [h3, ContinuousLinearMap.comp_apply, fderiv_pd]
  rfl

theorem partialAt_pd {k : Nat} {f : (Fin k → ℝ) → ℝ} {w : Fin k → ℝ} (hf : DifferentiableAt ℝ f w) (c : Fin k) :
    partialAt f c w = pd c f w := by
  unfold partialAt
  have h1 := hf.hasFDerivAt
  have h3 : Function.update w c (w c) = w := Function.update_eq_self _ _
  rw [← h3] at h1
  have := (h1.comp_hasDerivAt (w c) (hasDerivAt_update w c (w c))).deriv
  rw [h3] at this
  exact this

/-- The equation in the algebra of the smooth functions. -/
theorem equation_form (S : Kernel ℝ (nc + m) nc d) (vel : Fin (nc + m) → Cell dim) (la : ℝ)
    {Ω : Set (Fin nc → ℝ)} (ho : IsOpen Ω) (heq : ∀ i : Fin m, ContDiffOn ℝ ∞ (S.EQ (Fin.natAdd nc i)) Ω)
    (hs : ∀ i : Fin m, ContDiffOn ℝ ∞ (S.s (Fin.natAdd nc i)) Ω) (hW : SmoothIn W) (hΩ : ∀ ε t x, W ε t x ∈ Ω)
    (ri : Fin m → SF (TX dim)) (hri : ∀ i, ri i * ofCons hW hΩ _ (hs i) = 1) (c : Fin nc) (ε t : ℝ) (x : Fin dim → ℝ) :
    evS (ε, t, x) (derS (0, 1, 0) (consS hW c) -
      (-genS (fun i j => S.M i j) (fun i j => S.invM i j) (disp la vel)
        (equilS (consS hW) fun i => ofCons hW hΩ _ (heq i)) (Fin.castAdd m c) +
      epsS * -genS (fun i j => S.M i j) (fun i j => S.invM i j) (disp la vel)
        (incS (sigS (fun i j => S.M i j) (fun i j => S.invM i j) (disp la vel) (consS hW)
          (fun i => ofCons hW hΩ _ (heq i)) (fun i c => ofCons hW hΩ (pd c (S.EQ (Fin.natAdd nc i))) (contDiffOn_pd ho (heq i) c)) ri))
        (Fin.castAdd m c))) =
      residual (coeffOrder1 (lambdaMat S.M S.invM la vel) fun w i => S.EQ (Fin.natAdd nc i) w)
        (fun w => printedB (lambdaMat S.M S.invM la vel) (jacobian (fun w i => S.EQ (Fin.natAdd nc i) w) w)
          (fun i => S.s (Fin.natAdd nc i) w) ε) (W ε) t x c := by
  set Lam := lambdaMat S.M S.invM la vel with hLam
  set Q : Fin m → SF (TX dim) := fun i => ofCons hW hΩ _ (heq i) with hQ
  set J : Fin m → Fin nc → SF (TX dim) := fun i c =>
    ofCons hW hΩ (pd c (S.EQ (Fin.natAdd nc i))) (contDiffOn_pd ho (heq i) c) with hJ
  set sS : Fin m → SF (TX dim) := fun i => ofCons hW hΩ _ (hs i) with hsS
  have hder : ∀ v i, derS v (Q i) = ∑ c, J i c * derS v (consS hW c) := fun v i => ofCons_der hW ho hΩ _ (heq i) v
  unfold residual
  have h1 : _root_.deriv (fun t' => W ε t' x c) t = evS (ε, t, x) (dtS (consS hW c)) := evS_dt (consS hW c) ε t x
  have h2 : ∀ i, partialAt (fun y => coeffOrder1 Lam (fun w i => S.EQ (Fin.natAdd nc i) w) i (W ε t y) c) i x =
      evS (ε, t, x) (genJ S.M S.invM la vel (consS hW) Q i (Fin.castAdd m c)) := by
    intro i
    have e : (fun y => coeffOrder1 Lam (fun w i => S.EQ (Fin.natAdd nc i) w) i (W ε t y) c) =
        fun y => evS (ε, t, y) (∑ l, Lam i (Fin.castAdd m c) l • equilS (consS hW) Q l) := by
      funext y
      rw [map_sum, Fin.sum_univ_add]
      simp only [map_smul, equilS_left, equilS_right, smul_eq_mul]
      rfl
    rw [e, evS_dx, map_sum, genJ]
    simp only [map_smul]
    rfl
  have h3 : ∀ i j, partialAt (fun y => ∑ c', printedB Lam (jacobian (fun w i => S.EQ (Fin.natAdd nc i) w) (W ε t y))
      (fun i => S.s (Fin.natAdd nc i) (W ε t y)) ε i j c c' * partialAt (fun z => W ε t z c') j y) i x =
      evS (ε, t, x) (dxS i (-(epsS * ∑ n, blockB (Lam i) c n • sigJ S.M S.invM la vel (consS hW) Q J ri j n))) := by
    intro i j
    rw [← evS_dx]
    congr 1
    funext y
    rw [← printed_sig S.M S.invM la vel (consS hW) Q J sS ri hri hder (ε, t, y) i j c]
    refine Finset.sum_congr rfl fun c' _ => ?_
    congr 1
    · congr 1
      ext i c
      exact partialAt_pd (((heq i).contDiffAt (ho.mem_nhds (hΩ _ _ _))).differentiableAt (by simp)) c
    · exact evS_dx (consS hW c') j ε t y
  simp only [h1, h2, h3]
  have h4 : ∀ i, ∑ j, evS (ε, t, x) (dxS i (-(epsS * ∑ n, blockB (Lam i) c n • sigJ S.M S.invM la vel (consS hW) Q J ri j n))) =
      -(ε * evS (ε, t, x) (∑ n, blockB (Lam i) c n • dxS i (sigS (fun i j => S.M i j) (fun i j => S.invM i j) (disp la vel)
        (consS hW) Q J ri n))) := by
    intro i
    rw [← map_sum, ← map_sum, Finset.sum_neg_distrib, ← Finset.mul_sum, map_neg, dxS, derS_eps_mul, map_neg, map_mul, evS_eps]
    congr 2
    rw [Finset.sum_comm, map_sum]
    congr 1
    refine Finset.sum_congr rfl fun n _ => ?_
    rw [← Finset.smul_sum, map_smul, sigS_sum]
  simp only [h4]
  change evS (ε, t, x) (dtS (consS hW c) - _) = _
  rw [map_sub, map_add, map_neg, map_mul, map_neg, evS_eps, genS_lambda, genS_lambda, map_sum, map_sum]
  have h5 : ∀ i, evS (ε, t, x) (∑ j, lambdaMat S.M S.invM la vel i (Fin.castAdd m c) j • dxS i (incS (sigS (fun i j => S.M i j)
      (fun i j => S.invM i j) (disp la vel) (consS hW) Q J ri) j)) =
      evS (ε, t, x) (∑ n, blockB (Lam i) c n • dxS i (sigS (fun i j => S.M i j) (fun i j => S.invM i j) (disp la vel)
        (consS hW) Q J ri n)) := by
    intro i
    rw [Fin.sum_univ_add]
    simp only [incS_left, incS_right, map_zero, smul_zero, Finset.sum_const_zero, zero_add]
    rfl
  simp only [h5]
  rw [Finset.sum_neg_distrib, ← Finset.mul_sum]
  simp only [genJ]
  ring

end Data

end Pylbm.Stability
