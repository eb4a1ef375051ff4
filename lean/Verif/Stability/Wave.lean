import Verif.Sim.Global
import Verif.Stability.Tests
import Mathlib.Analysis.Calculus.FDeriv.Pi
import Mathlib.Analysis.Calculus.FDeriv.Mul
import Mathlib.Analysis.Calculus.FDeriv.Comp
import Mathlib.Analysis.Calculus.Deriv.Basic
import Mathlib.Analysis.Calculus.Deriv.Prod
import Mathlib.Analysis.Calculus.Deriv.Mul
import Mathlib.Analysis.Calculus.Deriv.Comp
import Mathlib.Analysis.SpecialFunctions.Complex.Circle
import Mathlib.Topology.Algebra.Module.FiniteDimension
/-!
# C51: the amplification matrix and plane waves
-/

namespace Pylbm.Stability
open Matrix Sim Scheme Halo SchemeSpec HaloSpec Mpi

variable {n nc d dim : Nat}

/-! ## Model -/

/-- `relax_mat_m`, stability.py 54-55: `eye - diag(s)`, then `diag(s) * jacobian` added to the first
columns. -/
def relaxMat {K : Type} [Field K] (s : Fin n → K) (jac : Matrix (Fin n) (Fin nc) K) :
    Matrix (Fin n) (Fin n) K :=
  1 - diagonal s + Matrix.of fun (i k : Fin n) => if h : (k : Nat) < nc then (diagonal s * jac) i ⟨k, h⟩ else 0

/-- `relax_mat_f`, stability.py 62, without relative velocity; with the numerical values of the conserved
moments and of the parameters. -/
def relaxF {K : Type} [Field K] (M invM : Matrix (Fin n) (Fin n) K) (s : Fin n → K)
    (jac : Matrix (Fin n) (Fin nc) K) : Matrix (Fin n) (Fin n) K :=
  invM * relaxMat s jac * M

/-- `relax_mat_f`, stability.py 50-62, with a relative velocity: `jac` is the jacobian of `EQ` (that of
`Tu * EQ` is `Tu * jac`, the relative velocity being a symbol at this moment). -/
def relaxFRel {K : Type} [Field K] (M invM Tu Tmu : Matrix (Fin n) (Fin n) K) (s : Fin n → K)
    (jac : Matrix (Fin n) (Fin nc) K) : Matrix (Fin n) (Fin n) K :=
  invM * (Tmu * relaxMat s (Tu * jac) * Tu) * M

/-- `set_matrix` for the wave vector `ξ`, stability.py 100-104: the column `k` is multiplied by
`exp(i ξ·v_k)`. -/
noncomputable def amplification (vel : Fin n → Cell dim) (R : Matrix (Fin n) (Fin n) ℝ) (ξ : Fin dim → ℝ) :
    Matrix (Fin n) (Fin n) ℂ :=
  Matrix.of fun i k => Complex.exp (Complex.I * ∑ l, (vel k l : ℂ) * ξ l) * R i k

/-! ## Specification -/

/-- The real plane wave with amplitudes `a` and wave vector `k` (in units of the inverse space step). -/
noncomputable def wave (a : Fin n → ℂ) (k : Fin dim → ℝ) : Arr ℝ n dim :=
  fun x j => (a j * Complex.exp (Complex.I * ∑ l, (x l : ℂ) * k l)).re

/-- Wave vectors of the periodic box of sizes `N`. -/
def Compatible (N : Fin dim → Nat) (k : Fin dim → ℝ) : Prop :=
  ∀ i, ∃ m : Int, k i * N i = 2 * Real.pi * m

/-! ## Proofs -/

theorem relaxMat_mulVec {K : Type} [Field K] (s : Fin n → K) (jac : Matrix (Fin n) (Fin nc) K)
    (cons : Fin nc → Fin n) (hfront : ∀ j, (cons j : Nat) = j) (m : Fin n → K) (i : Fin n) :
    (relaxMat s jac *ᵥ m) i = (1 - s i) * m i + s i * ∑ j, jac i j * m (cons j) := by
  unfold relaxMat
  rw [Matrix.add_mulVec, Matrix.sub_mulVec, Matrix.one_mulVec, Pi.add_apply, Pi.sub_apply,
    Matrix.mulVec_diagonal, Finset.mul_sum]
  congr 1
  · ring
  · simp only [Matrix.mulVec, dotProduct, Matrix.of_apply, Matrix.diagonal_mul]
    have h1 : ∀ k : Fin n, (if h : (k : Nat) < nc then s i * jac i ⟨k, h⟩ else 0) * m k =
        ∑ j : Fin nc, if cons j = k then s i * (jac i j * m (cons j)) else 0 := by
      intro k
      split
      · next h =>
        rw [Finset.sum_eq_single (⟨k, h⟩ : Fin nc)]
        · have e : cons ⟨k, h⟩ = k := Fin.ext (hfront _)
          rw [if_pos e, e]; ring
        · intro b _ hb
          rw [if_neg]
          intro e
          apply hb
          apply Fin.ext
          have := hfront b
          rw [e] at this
          exact this.symm
        · simp
      · next h =>
        rw [zero_mul, Finset.sum_eq_zero]
        intro j _
        rw [if_neg]
        intro e
        have := hfront j
        rw [e] at this
        exact h (this ▸ j.2)
    simp only [h1]
    rw [Finset.sum_comm]
    simp

theorem relaxF_mulVec {K : Type} [Field K] (M invM : Matrix (Fin n) (Fin n) K) (s : Fin n → K)
    (jac : Matrix (Fin n) (Fin nc) K) (f : Fin n → K) :
    relaxF M invM s jac *ᵥ f = invM *ᵥ (relaxMat s jac *ᵥ (M *ᵥ f)) := by
  unfold relaxF
  rw [Matrix.mulVec_mulVec, Matrix.mulVec_mulVec, Matrix.mul_assoc]

theorem wave_periodic (N : Fin dim → Nat) (k : Fin dim → ℝ) (hk : Compatible N k) (a : Fin n → ℂ) :
    periodic N (wave a k) = wave a k := by
  funext x j
  unfold periodic wave
  congr 2
  rw [Complex.exp_eq_exp_iff_exists_int]
  choose m hm using hk
  refine ⟨- ∑ l, (x l / N l) * m l, ?_⟩
  push_cast
  rw [Finset.mul_sum, Finset.mul_sum, neg_mul, Finset.sum_mul, ← sub_eq_iff_eq_add', ← Finset.sum_sub_distrib,
    ← Finset.sum_neg_distrib]
  apply Finset.sum_congr rfl
  intro l _
  have h1 : ((x l % N l : Int) : ℂ) = x l - N l * ((x l / N l : Int) : ℂ) := by
    have := Int.emod_add_mul_ediv (x l) (N l)
    have h2 : ((x l % N l : Int) : ℂ) + N l * ((x l / N l : Int) : ℂ) = x l := by exact_mod_cast this
    rw [← h2]; ring
  have h2 : ((k l : ℝ) : ℂ) * N l = 2 * Real.pi * m l := by exact_mod_cast congrArg (fun r : ℝ => (r : ℂ)) (hm l)
  rw [h1]
  linear_combination (-Complex.I * ((x l / N l : Int) : ℂ)) * h2

/-- The linearised step on a plane wave. -/
theorem linear_wave (vel : Fin n → Cell dim) (R : Matrix (Fin n) (Fin n) ℝ) (a : Fin n → ℂ)
    (k : Fin dim → ℝ) (y : Cell dim) :
    R *ᵥ (fun j => wave a k (fun i => y i - vel j i) j) =
      wave (amplification vel R (fun i => -k i) *ᵥ a) k y := by
  funext i
  simp only [Matrix.mulVec, dotProduct, wave, amplification, Matrix.of_apply]
  rw [Finset.sum_mul, Complex.re_sum]
  apply Finset.sum_congr rfl
  intro j _
  rw [← Complex.re_ofReal_mul]
  congr 1
  have : Complex.exp (Complex.I * ∑ l, ((y l - vel j l : Int) : ℂ) * k l) =
      Complex.exp (Complex.I * ∑ l, (vel j l : ℂ) * ((-k l : ℝ) : ℂ)) * Complex.exp (Complex.I * ∑ l, (y l : ℂ) * k l) := by
    rw [← Complex.exp_add, ← mul_add, ← Finset.sum_add_distrib]
    congr 2
    apply Finset.sum_congr rfl
    intro l _
    push_cast; ring
  rw [this]; ring

theorem collide_eq (S : Kernel ℝ n nc d) (a : Algo) (hEQ : ∀ j w, S.EQ (S.consm j) w = w j)
    (hS : ∀ i, S.source i = none) (hrel : S.relVel = none) (f : Fin n → ℝ) :
    collide S a f = collision S.M S.invM S.consm S.EQ S.s f := by
  unfold collide
  rw [prog_eq]
  obtain ⟨h3, h4⟩ := step_collision S hEQ hS f ⟨0, 0, 0⟩
  cases a with
  | base => simp only [hrel, Option.isSome_none]; exact h4
  | pull => simp only [hrel, Option.isSome_none]; exact h3

/-- **C51 (linear equilibria).** For a scheme with linear equilibrium (matrix `E`) and constant relaxation
parameters, `t` time steps of the generated code on a periodic box transform the plane wave of amplitudes `a`
and wave vector `k` in the plane wave of amplitudes `G^t a`, where `G` is the matrix of `Stability` for the
wave vector `-k`. -/
theorem C51_linear (S : Kernel ℝ n nc d) (alg : Algo) (hfront : ∀ j, (S.consm j : Nat) = j)
    (hEQ : ∀ j w, S.EQ (S.consm j) w = w j) (hS : ∀ i, S.source i = none) (hrel : S.relVel = none)
    (E : Matrix (Fin n) (Fin nc) ℝ) (hE : ∀ i w, S.EQ i w = (E *ᵥ w) i)
    (s : Fin n → ℝ) (hs : ∀ i w, S.s i w = s i)
    (N : Fin dim → Nat) (vel : Fin n → Cell dim) (k : Fin dim → ℝ) (hk : Compatible N k) (dt : ℝ)
    (a : Fin n → ℂ) (t : Nat) :
    lbmRun N vel (collide S alg) (fun _ H => H) dt (wave a k) t =
      wave (amplification vel (relaxF S.M S.invM s E) (fun i => -k i) ^ t *ᵥ a) k := by
  induction t with
  | zero => simp [lbmRun]
  | succ t ih =>
    funext y
    rw [lbmRun, lbmStep, ih, wave_periodic N k hk, collide_eq S alg hEQ hS hrel, pow_succ', ← Matrix.mulVec_mulVec,
      ← linear_wave, relaxF_mulVec]
    unfold collision
    congr 1
    funext i
    rw [relaxMat_mulVec s E S.consm hfront]
    simp only [relaxed, hs, hE]
    rfl

/-- Derivative of the relaxation at an equilibrium. -/
theorem relaxed_deriv (cons : Fin nc → Fin n) (hfront : ∀ j, (cons j : Nat) = j) (EQ s : Fin n → (Fin nc → ℝ) → ℝ)
    (m : Fin n → ℝ) (hm : ∀ i, m i = EQ i (m ∘ cons)) (jac : Matrix (Fin n) (Fin nc) ℝ)
    (hjac : ∀ i, HasFDerivAt (EQ i) (∑ j, jac i j • ContinuousLinearMap.proj (R := ℝ) (φ := fun _ : Fin nc => ℝ) j)
      (m ∘ cons))
    (hs : ∀ i, DifferentiableAt ℝ (s i) (m ∘ cons)) :
    HasFDerivAt (relaxed cons EQ s) (Matrix.toLin' (relaxMat (fun i => s i (m ∘ cons)) jac)).toContinuousLinearMap m := by
  rw [hasFDerivAt_pi']
  intro i
  have hc : HasFDerivAt (fun m' : Fin n → ℝ => m' ∘ cons)
      (ContinuousLinearMap.pi fun j => ContinuousLinearMap.proj (R := ℝ) (φ := fun _ : Fin n => ℝ) (cons j)) m :=
    (ContinuousLinearMap.pi fun j => ContinuousLinearMap.proj (R := ℝ) (φ := fun _ : Fin n => ℝ) (cons j)).hasFDerivAt
  have h1 : HasFDerivAt (fun m' : Fin n → ℝ => m' i)
      (ContinuousLinearMap.proj (R := ℝ) (φ := fun _ : Fin n => ℝ) i) m := hasFDerivAt_apply i m
  have hE := (hjac i).comp m hc
  have hS := ((hs i).hasFDerivAt).comp m hc
  have h := ((hasFDerivAt_const (1 : ℝ) m).sub hS |>.mul h1).add (hS.mul hE)
  refine h.congr_fderiv ?_
  ext v
  simp only [Function.comp_apply, _root_.add_apply, _root_.smul_apply,
    _root_.sub_apply, ContinuousLinearMap.comp_apply, _root_.zero_apply, smul_eq_mul,
    LinearMap.coe_toContinuousLinearMap', Matrix.toLin'_apply, ContinuousLinearMap.proj_apply,
    _root_.sum_apply, ContinuousLinearMap.coe_pi', Pi.sub_apply]
  rw [relaxMat_mulVec _ _ cons hfront, ← hm i]
  ring

/-- The derivative of the collision at an equilibrium is the matrix of `Stability`. -/
theorem collision_deriv (M invM : Matrix (Fin n) (Fin n) ℝ) (cons : Fin nc → Fin n) (hfront : ∀ j, (cons j : Nat) = j)
    (EQ s : Fin n → (Fin nc → ℝ) → ℝ) (f : Fin n → ℝ)
    (hm : ∀ i, (M *ᵥ f) i = EQ i ((M *ᵥ f) ∘ cons)) (jac : Matrix (Fin n) (Fin nc) ℝ)
    (hjac : ∀ i, HasFDerivAt (EQ i) (∑ j, jac i j • ContinuousLinearMap.proj (R := ℝ) (φ := fun _ : Fin nc => ℝ) j)
      ((M *ᵥ f) ∘ cons))
    (hs : ∀ i, DifferentiableAt ℝ (s i) ((M *ᵥ f) ∘ cons)) :
    HasFDerivAt (collision M invM cons EQ s)
      (Matrix.toLin' (relaxF M invM (fun i => s i ((M *ᵥ f) ∘ cons)) jac)).toContinuousLinearMap f := by
  have h0 : HasFDerivAt (fun f : Fin n → ℝ => M *ᵥ f) (Matrix.toLin' M).toContinuousLinearMap f :=
    (Matrix.toLin' M).toContinuousLinearMap.hasFDerivAt
  have h1 := relaxed_deriv cons hfront EQ s (M *ᵥ f) hm jac hjac hs
  have h2 : HasFDerivAt (fun g : Fin n → ℝ => invM *ᵥ g) (Matrix.toLin' invM).toContinuousLinearMap
      (relaxed cons EQ s (M *ᵥ f)) := (Matrix.toLin' invM).toContinuousLinearMap.hasFDerivAt
  refine (h2.comp f (h1.comp f h0)).congr_fderiv ?_
  ext v i
  simp only [ContinuousLinearMap.comp_apply, LinearMap.coe_toContinuousLinearMap', Matrix.toLin'_apply]
  rw [relaxF_mulVec]

/-- **C51 (nonlinear equilibria).** Around a uniform equilibrium state `f` (moments equal to their equilibrium
values), the derivative with respect to the size of a plane wave added to the state is, after `t` time steps,
the plane wave of amplitudes `G^t a`, where `G` is the matrix of `Stability` for the wave vector `-k` at the
conserved moments of `f`.  `jac` is the jacobian of the equilibrium at that state; the relaxation parameters may
depend on the conserved moments. -/
theorem C51_linearised (S : Kernel ℝ n nc d) (alg : Algo) (hfront : ∀ j, (S.consm j : Nat) = j)
    (hEQ : ∀ j w, S.EQ (S.consm j) w = w j) (hS : ∀ i, S.source i = none) (hrel : S.relVel = none)
    (hinv : S.invM * S.M = 1) (f : Fin n → ℝ) (w : Fin nc → ℝ) (hw : w = fun j => (S.M *ᵥ f) (S.consm j))
    (hf : ∀ i, (S.M *ᵥ f) i = S.EQ i w)
    (jac : Matrix (Fin n) (Fin nc) ℝ)
    (hjac : ∀ i, HasFDerivAt (S.EQ i) (∑ j, jac i j • ContinuousLinearMap.proj (R := ℝ) (φ := fun _ : Fin nc => ℝ) j) w)
    (hs : ∀ i, DifferentiableAt ℝ (S.s i) w)
    (N : Fin dim → Nat) (vel : Fin n → Cell dim) (k : Fin dim → ℝ) (hk : Compatible N k) (dt : ℝ)
    (a : Fin n → ℂ) (t : Nat) (y : Cell dim) :
    lbmRun N vel (collide S alg) (fun _ H => H) dt (fun _ => f) t = (fun _ => f) ∧
    HasDerivAt (fun ε : ℝ => lbmRun N vel (collide S alg) (fun _ H => H) dt (fun x => f + ε • wave a k x) t y)
      (wave (amplification vel (relaxF S.M S.invM (fun i => S.s i w) jac) (fun i => -k i) ^ t *ᵥ a) k y) 0 := by
  subst hw
  have hfix : collide S alg f = f := by
    rw [collide_eq S alg hEQ hS hrel]
    unfold collision
    have : relaxed S.consm S.EQ S.s (S.M *ᵥ f) = S.M *ᵥ f := by
      funext i
      unfold relaxed
      have := hf i
      change (1 - S.s i ((S.M *ᵥ f) ∘ S.consm)) * (S.M *ᵥ f) i + S.s i ((S.M *ᵥ f) ∘ S.consm) * S.EQ i ((S.M *ᵥ f) ∘ S.consm) = _
      have e : S.EQ i ((S.M *ᵥ f) ∘ S.consm) = (S.M *ᵥ f) i := (hf i).symm
      rw [e]; ring
    rw [this, Matrix.mulVec_mulVec, hinv, Matrix.one_mulVec]
  have hrun : ∀ t, lbmRun N vel (collide S alg) (fun _ H => H) dt (fun _ => f) t = (fun _ => f) := by
    intro t
    induction t with
    | zero => rfl
    | succ t ih =>
      funext y
      rw [lbmRun, lbmStep, ih]
      exact hfix
  refine ⟨hrun t, ?_⟩
  have hcd := collision_deriv S.M S.invM S.consm hfront S.EQ S.s f hf jac hjac hs
  have hcol : collide S alg = collision S.M S.invM S.consm S.EQ S.s := funext (collide_eq S alg hEQ hS hrel)
  induction t generalizing y with
  | zero =>
    simp only [lbmRun, pow_zero, Matrix.one_mulVec]
    have h := ((hasDerivAt_id (0 : ℝ)).smul_const (wave a k y)).const_add f
    simpa using h
  | succ t ih =>
    simp only [lbmRun, lbmStep]
    rw [pow_succ', ← Matrix.mulVec_mulVec, ← linear_wave]
    have hzero : ∀ x : Cell dim, lbmRun N vel (collide S alg) (fun _ H => H) dt (fun x => f + (0 : ℝ) • wave a k x) t x = f := by
      intro x
      have : (fun x => f + (0 : ℝ) • wave a k x) = fun _ => f := by funext x; simp
      rw [this, hrun]
    set g : ℝ → Fin n → ℝ := fun ε j => periodic N
      (lbmRun N vel (collide S alg) (fun _ H => H) dt (fun x => f + ε • wave a k x) t) (fun i => y i - vel j i) j with hg
    have hg0 : g 0 = f := by
      funext j
      simp only [hg, periodic]
      rw [hzero]
    have hgd : HasDerivAt g (fun j => wave (amplification vel (relaxF S.M S.invM (fun i => S.s i (fun j => (S.M *ᵥ f) (S.consm j))) jac)
        (fun i => -k i) ^ t *ᵥ a) k (fun i => y i - vel j i) j) 0 := by
      rw [hasDerivAt_pi]
      intro j
      have h := hasDerivAt_pi.1 (ih (fun i => (y i - vel j i) % N i)) j
      have hp := congrFun (congrFun (wave_periodic N k hk (amplification vel (relaxF S.M S.invM
        (fun i => S.s i (fun j => (S.M *ᵥ f) (S.consm j))) jac) (fun i => -k i) ^ t *ᵥ a)) (fun i => y i - vel j i)) j
      unfold periodic at hp
      rw [hp] at h
      exact h
    have hcd' : HasFDerivAt (collide S alg) (Matrix.toLin' (relaxF S.M S.invM
        (fun i => S.s i ((S.M *ᵥ f) ∘ S.consm)) jac)).toContinuousLinearMap (g 0) := by
      rw [hg0, hcol]; exact hcd
    have := hcd'.comp_hasDerivAt (0 : ℝ) hgd
    exact this

/-- A case for `C51_linear` and `C51_linearised`: D1Q2 for `u_t + (u²/2)_x = 0` and its uniform states
`(w/2 + w²/4, w/2 - w²/4)`. -/
noncomputable def burgers : Kernel ℝ 2 1 0 where
  M := !![1, 1; 1, -1]
  invM := !![1 / 2, 1 / 2; 1 / 2, -1 / 2]
  Tu := fun _ => 1
  Tmu := fun _ => 1
  EQ := ![fun w => w 0, fun w => w 0 ^ 2 / 2]
  s := ![fun _ => 0, fun w => 1 + w 0 / 2]
  consm := ![0]
  relVel := none
  source := fun _ => none
  dt := 1

example (w : ℝ) : (∀ j, (burgers.consm j : Nat) = j) ∧ (∀ j w, burgers.EQ (burgers.consm j) w = w j) ∧
    burgers.invM * burgers.M = 1 ∧
    (fun _ : Fin 1 => w) = (fun j => (burgers.M *ᵥ ![w / 2 + w ^ 2 / 4, w / 2 - w ^ 2 / 4]) (burgers.consm j)) ∧
    (∀ i, (burgers.M *ᵥ ![w / 2 + w ^ 2 / 4, w / 2 - w ^ 2 / 4]) i = burgers.EQ i fun _ => w) ∧
    (∀ i, HasFDerivAt (burgers.EQ i) (∑ j, (!![1; w] : Matrix (Fin 2) (Fin 1) ℝ) i j •
      ContinuousLinearMap.proj (R := ℝ) (φ := fun _ : Fin 1 => ℝ) j) fun _ => w) ∧
    (∀ i, DifferentiableAt ℝ (burgers.s i) fun _ => w) := by
  refine ⟨by intro j; fin_cases j; rfl, by intro j w; fin_cases j; rfl, ?_, ?_, ?_, ?_, ?_⟩
  · ext i j
    fin_cases i <;> fin_cases j <;> simp [burgers, Matrix.mul_apply] <;> norm_num
  · funext j
    fin_cases j
    simp [burgers, Matrix.mulVec, dotProduct]
  · intro i
    fin_cases i <;> simp [burgers, Matrix.mulVec, dotProduct] <;> ring
  · intro i
    have h1 : HasFDerivAt (fun w : Fin 1 → ℝ => w 0) (ContinuousLinearMap.proj (R := ℝ) (φ := fun _ : Fin 1 => ℝ) 0)
      (fun _ => w) := hasFDerivAt_apply 0 _
    fin_cases i
    · refine h1.congr_fderiv ?_
      ext v; simp
    · have h2 := (h1.mul h1).const_mul (1 / 2 : ℝ)
      have h3 := h2.congr_of_eventuallyEq (f₁ := burgers.EQ 1) (Filter.Eventually.of_forall fun v => by
        show v 0 ^ 2 / 2 = 1 / 2 * (v 0 * v 0)
        ring)
      refine h3.congr_fderiv ?_
      ext v; simp; ring
  · intro i
    fin_cases i
    · exact differentiableAt_const _
    · show DifferentiableAt ℝ (fun v : Fin 1 → ℝ => 1 + v 0 / 2) _
      fun_prop

/-! ## The verdict -/

/-- The wave vectors of `eigenvalues`, stability.py 77-88, in dimensions 1 (`n0 = n_wv`) and 2
(`n0 = int(sqrt(n_wv))`), in some order: `linspace(0, 2 pi, n0, endpoint=False)` in each direction. -/
noncomputable def waveVectors (n0 dim : Nat) : List (Fin dim → ℝ) :=
  (Finset.univ : Finset (Fin dim → Fin n0)).toList.map fun m i => 2 * Real.pi * (m i : ℝ) / n0

/-- `is_stable_l2` at the end of `eigenvalues`, stability.py 106-121: 0 for "in", 1 for "on", 2 for "out". -/
noncomputable def verdict (τ : ℝ) (vel : Fin n → Cell dim) (R : Matrix (Fin n) (Fin n) ℝ) (n0 : Nat) : Nat :=
  let tests := (waveVectors n0 dim).map fun ξ => cohnSchur τ (amplification vel R ξ)
  let r := if tests.all (fun t => t.1) then 0 else 1
  if ¬ tests.all (fun t => t.2) then 2 else r

/-- **C63.** When `Stability` says that a scheme with linear equilibrium is not stable, there are initial data
on the periodic box with `n0` cells in each direction for which the values computed by the code are not
bounded. -/
theorem C63_unstable (hn : 0 < n) (S : Kernel ℝ n nc d) (alg : Algo) (hfront : ∀ j, (S.consm j : Nat) = j)
    (hEQ : ∀ j w, S.EQ (S.consm j) w = w j) (hS : ∀ i, S.source i = none) (hrel : S.relVel = none)
    (E : Matrix (Fin n) (Fin nc) ℝ) (hE : ∀ i w, S.EQ i w = (E *ᵥ w) i)
    (s : Fin n → ℝ) (hs : ∀ i w, S.s i w = s i) (vel : Fin n → Cell dim) (n0 : Nat) (τ : ℝ) (hτ : 0 < τ)
    (dt : ℝ) (hv : verdict τ vel (relaxF S.M S.invM s E) n0 = 2) :
    ∃ (G : Arr ℝ n dim) (j : Fin n), ∀ B : ℝ, ∃ t : Nat,
      B < |lbmRun (fun _ => n0) vel (collide S alg) (fun _ H => H) dt G t 0 j| := by
  unfold verdict at hv
  have hall : ¬ ((waveVectors n0 dim).map fun ξ => cohnSchur τ (amplification vel (relaxF S.M S.invM s E) ξ)).all
      (fun t => t.2) = true := by
    intro h
    simp only [h, not_true_eq_false, if_false] at hv
    split at hv <;> omega
  simp only [List.all_eq_true, List.mem_map, forall_exists_index, and_imp, forall_apply_eq_imp_iff₂,
    not_forall] at hall
  obtain ⟨ξ, hξ, hb⟩ := hall
  obtain ⟨μ, a, hμ, h0, ha⟩ := (C50_matrix hn _ τ hτ).1 (by simpa using hb)
  obtain ⟨m, -, rfl⟩ := List.mem_map.1 hξ
  set k : Fin dim → ℝ := fun i => -(2 * Real.pi * (m i : ℝ) / n0) with hk
  have hneg : (fun i => -k i) = fun i => 2 * Real.pi * (m i : ℝ) / n0 := by funext i; simp [hk]
  have hcomp : Compatible (fun _ => n0) k := by
    intro i
    refine ⟨-(m i : Int), ?_⟩
    have : (n0 : ℝ) ≠ 0 := by
      have := (m i).2
      exact_mod_cast (by omega : n0 ≠ 0)
    simp only [hk]
    push_cast
    field_simp
  have hrun := fun b t => C51_linear S alg hfront hEQ hS hrel E hE s hs (fun _ => n0) vel k hcomp dt b t
  rw [hneg] at hrun
  set G := amplification vel (relaxF S.M S.invM s E) fun i => 2 * Real.pi * (m i : ℝ) / n0 with hG
  have hpow : ∀ t : Nat, G ^ t *ᵥ a = μ ^ t • a := by
    intro t
    induction t with
    | zero => simp
    | succ t ih =>
      rw [pow_succ', ← Matrix.mulVec_mulVec, ih, Matrix.mulVec_smul, ha, smul_smul, pow_succ]
  obtain ⟨j, hj⟩ : ∃ j, a j ≠ 0 := by
    by_contra hc
    push Not at hc
    exact h0 (funext hc)
  have hval : ∀ t, lbmRun (fun _ => n0) vel (collide S alg) (fun _ H => H) dt (wave a k) t 0 j = (μ ^ t * a j).re := by
    intro t
    rw [hrun, hpow]
    simp [wave]
  have hval' : ∀ t, lbmRun (fun _ => n0) vel (collide S alg) (fun _ H => H) dt (wave (Complex.I • a) k) t 0 j =
      -(μ ^ t * a j).im := by
    intro t
    rw [hrun, Matrix.mulVec_smul, hpow]
    simp [wave]
  by_contra hc
  push Not at hc
  obtain ⟨B1, h1⟩ := hc (wave a k) j
  obtain ⟨B2, h2⟩ := hc (wave (Complex.I • a) k) j
  have hbound : ∀ t : Nat, ‖μ‖ ^ t * ‖a j‖ ≤ B1 + B2 := by
    intro t
    rw [← norm_pow, ← norm_mul]
    refine (Complex.norm_le_abs_re_add_abs_im _).trans (add_le_add ?_ ?_)
    · rw [← hval]; exact h1 t
    · rw [← abs_neg, ← hval']; exact h2 t
  have hpos : 0 < ‖a j‖ := norm_pos_iff.2 hj
  obtain ⟨t, ht⟩ := pow_unbounded_of_one_lt ((B1 + B2) / ‖a j‖) hμ
  rw [div_lt_iff₀ hpos] at ht
  exact absurd (hbound t) (not_le.2 ht)

/-- A case for `C63_unstable`: D1Q2 with velocity 3 for the waves and relaxation parameter 1, one wave
vector of four, `ξ = pi/2`, where the eigenvalues are 0 and `3 i`. -/
noncomputable def fast : Kernel ℝ 2 1 0 where
  M := !![1, 1; 1, -1]
  invM := !![1 / 2, 1 / 2; 1 / 2, -1 / 2]
  Tu := fun _ => 1
  Tmu := fun _ => 1
  EQ := ![fun w => w 0, fun w => 3 * w 0]
  s := ![fun _ => 0, fun _ => 1]
  consm := ![0]
  relVel := none
  source := fun _ => none
  dt := 1

theorem fast_relaxMat : relaxMat ![0, 1] (!![1; 3] : Matrix (Fin 2) (Fin 1) ℝ) = !![1, 0; 3, 0] := by
  ext i j
  fin_cases i <;> fin_cases j <;> simp [relaxMat]

theorem fast_relaxF : relaxF fast.M fast.invM ![0, 1] (!![1; 3] : Matrix (Fin 2) (Fin 1) ℝ) = !![2, 2; -1, -1] := by
  unfold relaxF
  rw [fast_relaxMat]
  ext i j
  fin_cases i <;> fin_cases j <;> simp [fast, Matrix.mul_apply, Fin.sum_univ_two] <;> norm_num

theorem fast_amplification : amplification (fun j _ => ![1, -1] j : Fin 2 → Cell 1) !![2, 2; -1, -1]
    (fun _ => 2 * Real.pi * ((1 : ℕ) : ℝ) / (4 : ℕ)) = !![2 * Complex.I, -2 * Complex.I; -Complex.I, Complex.I] := by
  have h : Complex.exp (Complex.I * (2 * Real.pi / 4)) = Complex.I := by
    rw [show Complex.I * (2 * Real.pi / 4) = Real.pi / 2 * Complex.I by ring, Complex.exp_pi_div_two_mul_I]
  have h' : Complex.exp (-(Complex.I * (2 * Real.pi / 4))) = -Complex.I := by
    rw [Complex.exp_neg, h, Complex.inv_I]
  ext i j
  fin_cases i <;> fin_cases j <;> simp [amplification, h, h'] <;> ring

theorem fast_faddeev : faddeev !![2 * Complex.I, -2 * Complex.I; -Complex.I, Complex.I] = [0, -3 * Complex.I, 1] := by
  simp [faddeev, faddeevStep, Matrix.trace_fin_two, List.range'_succ, Matrix.vecMul, dotProduct, Fin.sum_univ_two, Matrix.one_apply]
  ring

theorem fast_isVN : isVN (1 / 10 ^ 10) [0, -3 * Complex.I, 1] = false := by
  have hc : circ [0, -3 * Complex.I, 1] = [-3 * Complex.I, 1] := by
    simp [circ, star, List.range'_succ]
  rw [isVN, dif_neg (by simp), if_neg (by simp), if_pos (by simp), hc, isVN, dif_neg (by simp), if_pos (by simp)]
  simp
  norm_num

example : verdict (1 / 10 ^ 10) (fun j _ => ![1, -1] j : Fin 2 → Cell 1)
    (relaxF fast.M fast.invM ![0, 1] (!![1; 3] : Matrix (Fin 2) (Fin 1) ℝ)) 4 = 2 := by
  unfold verdict
  rw [fast_relaxF]
  dsimp only
  rw [if_pos]
  intro h
  rw [List.all_eq_true] at h
  have := h (cohnSchur (1 / 10 ^ 10) (amplification (fun j _ => ![1, -1] j : Fin 2 → Cell 1) !![2, 2; -1, -1]
    (fun _ => 2 * Real.pi * ((1 : ℕ) : ℝ) / (4 : ℕ)))) (List.mem_map.2 ⟨_, List.mem_map.2
      ⟨fun _ => (1 : Fin 4), Finset.mem_toList.2 (Finset.mem_univ _), rfl⟩, rfl⟩)
  rw [fast_amplification] at this
  unfold cohnSchur at this
  rw [fast_faddeev, fast_isVN] at this
  exact absurd this (by simp)

/-- The relative velocity `1/2` in each equation of the D1Q3 scheme with polynomials `1, X, X²`. -/
noncomputable def shifted : Kernel ℝ 3 2 1 where
  M := !![1, 1, 1; 0, 1, -1; 0, 1, 1]
  invM := !![1, 0, -1; 0, 1 / 2, 1 / 2; 0, -1 / 2, 1 / 2]
  Tu := fun u => !![1, 0, 0; -u 0, 1, 0; u 0 ^ 2, -2 * u 0, 1]
  Tmu := fun u => !![1, 0, 0; u 0, 1, 0; u 0 ^ 2, 2 * u 0, 1]
  EQ := ![fun w => w 0, fun w => w 1, fun w => w 0 / 2]
  s := ![fun _ => 0, fun _ => 0, fun _ => 3 / 2]
  consm := ![0, 1]
  relVel := some fun _ _ => 1 / 2
  source := fun _ => none
  dt := 1

theorem shifted_collide (f : Fin 3 → ℝ) : collide shifted .pull f =
    (!![1 / 4, 3 / 4, 3 / 4; 3 / 8, 5 / 8, -3 / 8; 3 / 8, -3 / 8, 5 / 8] : Matrix (Fin 3) (Fin 3) ℝ) *ᵥ f := by
  unfold collide
  rw [prog_eq]
  have hr : List.finRange 3 = [0, 1, 2] := by decide
  have h1 : List.finRange 1 = [0] := by decide
  funext i
  simp [pullStep, f2mLocal, relaxLocal, restoreLocal, m2fLocal, sourceLocal, front, backIdx, hr, h1, Kernel.run,
    Kernel.exec, shifted, Kernel.cons, Kernel.dot, Fin.sum_univ_three, Function.update, Matrix.mul_apply]
  fin_cases i <;> simp [vecHead, vecTail] <;> ring

theorem shifted_relaxMat : relaxMat ![0, 0, 3 / 2] ((shifted.Tu fun _ => 1 / 2) *
    (!![1, 0; 0, 1; 1 / 2, 0] : Matrix (Fin 3) (Fin 2) ℝ)) = !![1, 0, 0; 0, 1, 0; 9 / 8, -3 / 2, -1 / 2] := by
  have h : (shifted.Tu fun _ => 1 / 2) * (!![1, 0; 0, 1; 1 / 2, 0] : Matrix (Fin 3) (Fin 2) ℝ) =
      !![1, 0; -1 / 2, 1; 3 / 4, -1] := by
    ext i j
    fin_cases i <;> fin_cases j <;> simp [shifted, Matrix.mul_apply, Fin.sum_univ_three] <;> norm_num
  rw [h]
  ext i j
  fin_cases i <;> fin_cases j <;> simp [relaxMat] <;> norm_num

theorem shifted_relaxF : relaxFRel shifted.M shifted.invM (shifted.Tu fun _ => 1 / 2) (shifted.Tmu fun _ => 1 / 2)
    ![0, 0, 3 / 2] (!![1, 0; 0, 1; 1 / 2, 0] : Matrix (Fin 3) (Fin 2) ℝ) =
      !![-1 / 2, 0, 0; 3 / 4, 1, 0; 3 / 4, 0, 1] := by
  unfold relaxFRel
  rw [shifted_relaxMat]
  have h : (shifted.Tmu fun _ => 1 / 2) * !![1, 0, 0; 0, 1, 0; 9 / 8, -3 / 2, -1 / 2] * (shifted.Tu fun _ => 1 / 2) =
      !![1, 0, 0; 0, 1, 0; 3 / 2, 0, -1 / 2] := by
    ext i j
    fin_cases i <;> fin_cases j <;> simp [shifted, Matrix.mul_apply, Fin.sum_univ_three] <;> norm_num
  rw [h]
  ext i j
  fin_cases i <;> fin_cases j <;> simp [shifted, Matrix.mul_apply, Fin.sum_univ_three] <;> norm_num

/-- **C51 (negation with a relative velocity).** For this D1Q3 scheme with linear equilibrium and constant
relative velocity the time steps transform the waves of wave number `pi` with a matrix `T` whose trace is not the
one of the matrix of `Stability`: the eigenvalues are different.  The code multiplies the jacobian with respect
to the conserved moments by the first components of `Tu m`, instead of those of `m`. -/
theorem C51_relative_negation : ∃ T : Matrix (Fin 3) (Fin 3) ℂ,
    (∀ (dt : ℝ) (a : Fin 3 → ℂ) (t : Nat),
      lbmRun (fun _ => 2) (fun j _ => ![0, 1, -1] j : Fin 3 → Cell 1) (collide shifted .pull) (fun _ H => H) dt
        (wave a fun _ => Real.pi) t = wave (T ^ t *ᵥ a) fun _ => Real.pi) ∧
    T.trace ≠ (amplification (fun j _ => ![0, 1, -1] j : Fin 3 → Cell 1)
      (relaxFRel shifted.M shifted.invM (shifted.Tu fun _ => 1 / 2) (shifted.Tmu fun _ => 1 / 2) ![0, 0, 3 / 2]
        !![1, 0; 0, 1; 1 / 2, 0]) fun _ => -Real.pi).trace := by
  refine ⟨amplification (fun j _ => ![0, 1, -1] j : Fin 3 → Cell 1) !![1 / 4, 3 / 4, 3 / 4; 3 / 8, 5 / 8, -3 / 8; 3 / 8, -3 / 8, 5 / 8]
    fun _ => -Real.pi, ?_, ?_⟩
  · intro dt a t
    have hk : Compatible (fun _ : Fin 1 => 2) fun _ => Real.pi := by
      intro i
      exact ⟨1, by push_cast; ring⟩
    induction t with
    | zero => simp [lbmRun]
    | succ t ih =>
      funext y
      rw [lbmRun, lbmStep, ih, wave_periodic _ _ hk, shifted_collide, pow_succ', ← Matrix.mulVec_mulVec]
      exact linear_wave _ _ _ _ y
  · have h1 : Complex.exp (Complex.I * Real.pi) = -1 := by rw [mul_comm]; exact Complex.exp_pi_mul_I
    have h2 : Complex.exp (-(Complex.I * Real.pi)) = -1 := by rw [Complex.exp_neg, h1]; norm_num
    rw [shifted_relaxF]
    simp [Matrix.trace_fin_three, amplification, h1, h2]
    norm_num

end Pylbm.Stability
