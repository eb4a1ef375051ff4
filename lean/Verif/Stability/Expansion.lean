import Verif.Stability.Flat
import Mathlib.Algebra.Algebra.Subalgebra.Basic
import Mathlib.RingTheory.Ideal.Operations
import Mathlib.Tactic.LinearCombination
/-!
# Expansion of one step in powers of the time step

Helper lemmas for C67: the smooth functions of `(ε, q)` as an algebra, the transport as an operator on it.
-/

namespace Pylbm.Stability
open Filter Topology
open scoped ContDiff

variable {X : Type} [NormedAddCommGroup X] [NormedSpace ℝ X]

/-- The smooth functions. -/
def smoothAlg (X : Type) [NormedAddCommGroup X] [NormedSpace ℝ X] : Subalgebra ℝ (ℝ × X → ℝ) where
  carrier := {g | ContDiff ℝ ∞ g}
  mul_mem' {a b} ha hb := by
    rw [Set.mem_ofPred_eq] at *
    exact ContDiff.mul ha hb
  add_mem' {a b} ha hb := by
    rw [Set.mem_ofPred_eq] at *
    exact ContDiff.add ha hb
  algebraMap_mem' r := by
    rw [Set.mem_ofPred_eq]
    exact contDiff_const

theorem mem_smooth {g : ℝ × X → ℝ} : g ∈ smoothAlg X ↔ ContDiff ℝ ∞ g := Iff.rfl

/-- The type of the smooth functions. -/
def SF (X : Type) [NormedAddCommGroup X] [NormedSpace ℝ X] : Type := ↥(smoothAlg X)

instance : CommRing (SF X) := inferInstanceAs (CommRing ↥(smoothAlg X))

instance : Algebra ℝ (SF X) := inferInstanceAs (Algebra ℝ ↥(smoothAlg X))

instance : CoeOut (SF X) (ℝ × X → ℝ) := ⟨Subtype.val⟩

local notation "𝒮" => SF X

theorem smoothAlg_cd (g : 𝒮) : ContDiff ℝ ∞ (g : ℝ × X → ℝ) := mem_smooth.1 g.2

theorem smoothAlg_sm (g : 𝒮) : Sm (g : ℝ × X → ℝ) := sm_of_contDiff (smoothAlg_cd g)

theorem smoothAlg_diff (g : 𝒮) : Differentiable ℝ (g : ℝ × X → ℝ) :=
  (smoothAlg_cd g).differentiable (by simp)

/-- Derivative in the direction `v`. -/
noncomputable def derS (v : ℝ × X) : 𝒮 →ₗ[ℝ] 𝒮 where
  toFun g := ⟨dir v g, mem_smooth.2 (contDiff_dir (smoothAlg_cd g) v)⟩
  map_add' g h := by
    apply Subtype.ext
    funext p
    change fderiv ℝ ((g : ℝ × X → ℝ) + (h : ℝ × X → ℝ)) p v = _
    rw [fderiv_add (smoothAlg_diff g p) (smoothAlg_diff h p)]
    rfl
  map_smul' c g := by
    apply Subtype.ext
    funext p
    change fderiv ℝ (c • (g : ℝ × X → ℝ)) p v = _
    rw [fderiv_const_smul (smoothAlg_diff g p)]
    rfl

theorem derS_coe (v : ℝ × X) (g : 𝒮) : ((derS v g : 𝒮) : ℝ × X → ℝ) = dir v g := rfl

theorem derS_mul (v : ℝ × X) (g h : 𝒮) : derS v (g * h) = derS v g * h + g * derS v h := by
  apply Subtype.ext
  funext p
  change fderiv ℝ ((g : ℝ × X → ℝ) * (h : ℝ × X → ℝ)) p v = _
  rw [fderiv_mul (smoothAlg_diff g p) (smoothAlg_diff h p)]
  simp only [add_apply, smul_apply, smul_eq_mul]
  change (g : ℝ × X → ℝ) p * _ + (h : ℝ × X → ℝ) p * _ = _ * (h : ℝ × X → ℝ) p + (g : ℝ × X → ℝ) p * _
  simp only [derS_coe, dir]
  ring

theorem derS_comm (v w : ℝ × X) (g : 𝒮) : derS v (derS w g) = derS w (derS v g) := by
  apply Subtype.ext
  funext p
  have hp : ContDiffAt ℝ ∞ (g : ℝ × X → ℝ) p := (smoothAlg_cd g).contDiffAt
  have hd : DifferentiableAt ℝ (fderiv ℝ (g : ℝ × X → ℝ)) p :=
    (hp.fderiv_right (m := ∞) (by simp)).differentiableAt (by simp)
  have e : ∀ v w : ℝ × X, dir v (dir w g) p = fderiv ℝ (fderiv ℝ (g : ℝ × X → ℝ)) p v w := by
    intro v w
    have h1 := fderiv_clm_apply hd (differentiableAt_const w)
    change fderiv ℝ (fun y => (fderiv ℝ (g : ℝ × X → ℝ) y) w) p v = _
    rw [h1]
    simp
  change dir v (dir w g) p = dir w (dir v g) p
  rw [e, e]
  exact ((hp.of_le (m := 2) (by norm_cast)).isSymmSndFDerivAt (by simp)).eq _ _

/-- `ε`. -/
def epsS : 𝒮 := ⟨fun p => p.1, mem_smooth.2 contDiff_fst⟩

theorem derS_eps_mul (u : X) (g : 𝒮) : derS (0, u) (epsS * g) = epsS * derS (0, u) g := by
  rw [derS_mul]
  have : derS (0, u) (epsS : 𝒮) = 0 := by
    apply Subtype.ext
    exact dir_eps _
  rw [this, zero_mul, zero_add]

/-- Composition with a linear map. -/
def compS (φ : ℝ × X → ℝ × X) (hφ : ContDiff ℝ ∞ φ) : 𝒮 →ₐ[ℝ] 𝒮 where
  toFun g := ⟨fun p => (g : ℝ × X → ℝ) (φ p), mem_smooth.2 ((smoothAlg_cd g).comp hφ)⟩
  map_one' := rfl
  map_mul' _ _ := rfl
  map_zero' := rfl
  map_add' _ _ := rfl
  commutes' _ := rfl

/-- The value at the point moved by `ε u`. -/
def shiftS (u : X) : 𝒮 →ₐ[ℝ] 𝒮 := compS (shift u) (contDiff_shift u)

theorem shiftS_eps (u : X) : shiftS u (epsS : 𝒮) = epsS := rfl

/-- Translation by `a`. -/
def transS (a : X) : 𝒮 →ₐ[ℝ] 𝒮 := compS (fun p => (p.1, p.2 + a)) (contDiff_fst.prodMk (contDiff_snd.add contDiff_const))

theorem transS_eps (a : X) : transS a (epsS : 𝒮) = epsS := rfl

theorem transS_shift (a u : X) (g : 𝒮) : transS a (shiftS u g) = shiftS u (transS a g) := by
  apply Subtype.ext
  funext p
  change (g : ℝ × X → ℝ) (p.1, p.2 + a + p.1 • u) = (g : ℝ × X → ℝ) (p.1, p.2 + p.1 • u + a)
  rw [add_right_comm]

theorem transS_der (a : X) (v : ℝ × X) (g : 𝒮) : transS a (derS v g) = derS v (transS a g) := by
  apply Subtype.ext
  funext p
  change fderiv ℝ (g : ℝ × X → ℝ) (p.1, p.2 + a) v = fderiv ℝ (fun p => (g : ℝ × X → ℝ) (p.1, p.2 + a)) p v
  have e : (fun p : ℝ × X => (g : ℝ × X → ℝ) (p.1, p.2 + a)) = fun p => (g : ℝ × X → ℝ) (p + (0, a)) := by
    funext p
    have e2 : (p.1, p.2 + a) = p + (0, a) := Prod.ext (add_zero p.1).symm rfl
    rw [e2]
  rw [e, fderiv_comp_add_right]
  have e2 : (p.1, p.2 + a) = p + (0, a) := Prod.ext (add_zero p.1).symm rfl
  rw [e2]

variable {Q : Set X}

/-- The functions of order `ε ^ n` at the points of `Q`. -/
def flatI (Q : Set X) (n : ℕ) : Ideal 𝒮 where
  carrier := {g | Flat Q n (g : ℝ × X → ℝ)}
  add_mem' {g h} ha hb := Flat.add (smoothAlg_sm g) (smoothAlg_sm h) ha hb
  zero_mem' := by
    have := flat_sum (X := X) (Q := Q) (s := (∅ : Finset (Fin 0))) (g := fun _ _ => 0) (n := n) (by simp) (by simp)
    simp only [Finset.sum_empty] at this
    exact this
  smul_mem' c g hg := by
    have := Flat.mul (smoothAlg_sm g) (smoothAlg_sm c) (n := n) hg
    change Flat Q n fun p => (c : ℝ × X → ℝ) p * (g : ℝ × X → ℝ) p
    simpa only [mul_comm] using this

theorem mem_flatI {n : ℕ} {g : 𝒮} : g ∈ (flatI Q n : Ideal 𝒮) ↔ Flat Q n (g : ℝ × X → ℝ) := Iff.rfl

theorem eps_mul_mem {n : ℕ} {g : 𝒮} (h : g ∈ (flatI Q n : Ideal 𝒮)) : epsS * g ∈ (flatI Q (n + 1) : Ideal 𝒮) :=
  flat_eps (smoothAlg_sm g) h

theorem mem_zero (g : 𝒮) : g ∈ (flatI Q 0 : Ideal 𝒮) := trivial

theorem eps_one (g : 𝒮) : epsS * g ∈ (flatI Q 1 : Ideal 𝒮) := eps_mul_mem (mem_zero g)

theorem eps_two (g : 𝒮) : epsS * (epsS * g) ∈ (flatI Q 2 : Ideal 𝒮) := eps_mul_mem (eps_one g)

theorem eps_three (g : 𝒮) : epsS * (epsS * (epsS * g)) ∈ (flatI Q 3 : Ideal 𝒮) := eps_mul_mem (eps_two g)

theorem der_mem (hQ : IsOpen Q) {n : ℕ} {g : 𝒮} (h : g ∈ (flatI Q n : Ideal 𝒮)) (v : X) :
    derS (0, v) g ∈ (flatI Q n : Ideal 𝒮) :=
  Flat.dir_right hQ (smoothAlg_sm g) h v

theorem mono_mem {n k : ℕ} (hk : k ≤ n) {g : 𝒮} (h : g ∈ (flatI Q n : Ideal 𝒮)) : g ∈ (flatI Q k : Ideal 𝒮) :=
  Flat.mono hk h

theorem shiftS_one (u : X) (g : 𝒮) : shiftS u g - g ∈ (flatI Q 1 : Ideal 𝒮) := shift_one (smoothAlg_sm g) u

theorem shiftS_two (u : X) (g : 𝒮) : shiftS u g - (g + epsS * derS (0, u) g) ∈ (flatI Q 2 : Ideal 𝒮) :=
  shift_two (smoothAlg_sm g) u

theorem shiftS_three (u : X) (g : 𝒮) :
    shiftS u g - (g + epsS * (derS (0, u) g + epsS * ((1 / 2 : ℝ) • derS (0, u) (derS (0, u) g)))) ∈
      (flatI Q 3 : Ideal 𝒮) :=
  shift_three (smoothAlg_sm g) u

theorem flatI_second {g : 𝒮} (h : g ∈ (flatI Q 2 : Ideal 𝒮)) :
    g - epsS * (epsS * ((1 / 2 : ℝ) • derS (1, 0) (derS (1, 0) g))) ∈ (flatI Q 3 : Ideal 𝒮) :=
  flat_second (smoothAlg_sm g) h

/-! ## Transport -/

section Transport
variable {n : ℕ} (M invM : Fin n → Fin n → ℝ) (u : Fin n → X)

/-- The populations of the moments `μ`. -/
noncomputable def popS (μ : Fin n → 𝒮) : Fin n → 𝒮 := fun k => ∑ j, invM k j • μ j

/-- The moments after the transport with the displacements `ε u`. -/
noncomputable def moveS (μ : Fin n → 𝒮) : Fin n → 𝒮 := fun r => ∑ k, M r k • shiftS (u k) (popS invM μ k)

/-- First order term of the transport, with the opposite sign. -/
noncomputable def genS (μ : Fin n → 𝒮) : Fin n → 𝒮 := fun r => -∑ k, M r k • derS (0, u k) (popS invM μ k)

theorem popS_add (μ ν : Fin n → 𝒮) : popS invM (μ + ν) = popS invM μ + popS invM ν := by
  funext k
  simp only [popS, Pi.add_apply, smul_add, Finset.sum_add_distrib]

theorem popS_smul (c : ℝ) (μ : Fin n → 𝒮) : popS invM (c • μ) = c • popS invM μ := by
  funext k
  simp only [popS, Pi.smul_apply, Finset.smul_sum]
  exact Finset.sum_congr rfl fun j _ => smul_comm _ _ _

theorem popS_eps (μ : Fin n → 𝒮) : (popS invM fun j => epsS * μ j) = fun k => epsS * popS invM μ k := by
  funext k
  simp only [popS, Finset.mul_sum]
  exact Finset.sum_congr rfl fun j _ => (mul_smul_comm _ _ _).symm

theorem genS_add (μ ν : Fin n → 𝒮) : genS M invM u (μ + ν) = genS M invM u μ + genS M invM u ν := by
  funext r
  simp only [genS, popS_add, Pi.add_apply, map_add, smul_add, Finset.sum_add_distrib, neg_add]

theorem genS_smul (c : ℝ) (μ : Fin n → 𝒮) : genS M invM u (c • μ) = c • genS M invM u μ := by
  funext r
  simp only [genS, popS_smul, Pi.smul_apply, map_smul, smul_neg, Finset.smul_sum]
  congr 1
  exact Finset.sum_congr rfl fun j _ => smul_comm _ _ _

theorem genS_eps (μ : Fin n → 𝒮) : (genS M invM u fun j => epsS * μ j) = fun r => epsS * genS M invM u μ r := by
  funext r
  simp only [genS, popS_eps, derS_eps_mul]
  refine Eq.trans ?_ (mul_neg _ _).symm
  rw [Finset.mul_sum]
  congr 1
  exact Finset.sum_congr rfl fun j _ => (mul_smul_comm _ _ _).symm

theorem genS_der (v : ℝ × X) (μ : Fin n → 𝒮) (r : Fin n) :
    derS v (genS M invM u μ r) = genS M invM u (fun j => derS v (μ j)) r := by
  simp only [genS, popS, map_neg, map_sum, map_smul]
  congr 1
  refine Finset.sum_congr rfl fun k _ => ?_
  congr 1
  exact Finset.sum_congr rfl fun j _ => by rw [derS_comm]

theorem popS_gen (hinv : ∀ i j, ∑ k, invM i k * M k j = if i = j then 1 else 0) (μ : Fin n → 𝒮) (k : Fin n) :
    popS invM (genS M invM u μ) k = -derS (0, u k) (popS invM μ k) := by
  simp only [popS, genS, smul_neg, Finset.smul_sum, Finset.sum_neg_distrib, smul_smul]
  congr 1
  rw [Finset.sum_comm]
  simp only [← Finset.sum_smul]
  simp only [hinv, ite_smul, one_smul, zero_smul, Finset.sum_ite_eq, Finset.mem_univ, if_true]

theorem moment_pop (hinv : ∀ i j, ∑ k, M i k * invM k j = if i = j then 1 else 0) (μ : Fin n → 𝒮) (r : Fin n) : ∑ k, M r k • popS invM μ k = μ r := by
  simp only [popS, Finset.smul_sum, smul_smul]
  rw [Finset.sum_comm]
  simp only [← Finset.sum_smul]
  simp only [hinv, ite_smul, one_smul, zero_smul, Finset.sum_ite_eq, Finset.mem_univ, if_true]

theorem sum_smul_mem {ι : Type} (s : Finset ι) (c : ι → ℝ) (g : ι → 𝒮) {k : ℕ} (h : ∀ i ∈ s, g i ∈ (flatI Q k : Ideal 𝒮)) :
    ∑ i ∈ s, c i • g i ∈ (flatI Q k : Ideal 𝒮) :=
  Submodule.sum_mem _ fun i hi => by
    rw [Algebra.smul_def]
    exact Ideal.mul_mem_left _ _ (h i hi)

theorem gen_mem (hQ : IsOpen Q) {k : ℕ} (μ : Fin n → 𝒮) (h : ∀ r, μ r ∈ (flatI Q k : Ideal 𝒮)) (r : Fin n) :
    genS M invM u μ r ∈ (flatI Q k : Ideal 𝒮) :=
  Submodule.neg_mem _ (sum_smul_mem _ _ _ fun k _ => der_mem hQ (sum_smul_mem _ _ _ fun j _ => h j) _)

/-- The moments after the transport, up to the third order. -/
theorem moveS_three (hinv : ∀ i j, ∑ k, invM i k * M k j = if i = j then 1 else 0)
    (hinv' : ∀ i j, ∑ k, M i k * invM k j = if i = j then 1 else 0) (μ : Fin n → 𝒮) (r : Fin n) :
    moveS M invM u μ r - (μ r + epsS * (-genS M invM u μ r + epsS * ((1 / 2 : ℝ) • genS M invM u (genS M invM u μ) r))) ∈
      (flatI Q 3 : Ideal 𝒮) := by
  have h1 := sum_smul_mem (Q := Q) Finset.univ (fun k => M r k) _ fun k _ => shiftS_three (u k) (popS invM μ k)
  have h2 : genS M invM u (genS M invM u μ) r = ∑ k, M r k • derS (0, u k) (derS (0, u k) (popS invM μ k)) := by
    conv_lhs => rw [genS]
    simp only [popS_gen M invM u hinv, map_neg, smul_neg, Finset.sum_neg_distrib, neg_neg]
  convert h1 using 1
  conv_rhs => simp only [smul_sub, smul_add, Finset.sum_sub_distrib, Finset.sum_add_distrib]
  rw [moment_pop M invM hinv', h2]
  unfold moveS
  congr 1
  congr 1
  simp only [← mul_smul_comm, ← Finset.mul_sum, smul_add, Finset.sum_add_distrib]
  congr 2
  · simp only [genS, neg_neg]
  · congr 1
    rw [Finset.smul_sum]
    exact Finset.sum_congr rfl fun k _ => smul_comm _ _ _

theorem moveS_add (μ ν : Fin n → 𝒮) (r : Fin n) : moveS M invM u (μ + ν) r = moveS M invM u μ r + moveS M invM u ν r := by
  simp only [moveS, popS_add, Pi.add_apply, map_add, smul_add, Finset.sum_add_distrib]

theorem moveS_eps (μ : Fin n → 𝒮) (r : Fin n) : moveS M invM u (fun j => epsS * μ j) r = epsS * moveS M invM u μ r := by
  simp only [moveS, popS_eps, map_mul, shiftS_eps, Finset.mul_sum]
  exact Finset.sum_congr rfl fun j _ => (mul_smul_comm _ _ _).symm

theorem transS_pop (a : X) (μ : Fin n → 𝒮) (k : Fin n) : transS a (popS invM μ k) = popS invM (fun j => transS a (μ j)) k := by
  simp only [popS, map_sum, map_smul]

theorem transS_move (a : X) (μ : Fin n → 𝒮) (r : Fin n) :
    transS a (moveS M invM u μ r) = moveS M invM u (fun j => transS a (μ j)) r := by
  simp only [moveS, map_sum, map_smul, transS_shift, transS_pop]

theorem transS_gen (a : X) (μ : Fin n → 𝒮) (r : Fin n) :
    transS a (genS M invM u μ r) = genS M invM u (fun j => transS a (μ j)) r := by
  simp only [genS, map_neg, map_sum, map_smul, transS_der, transS_pop]

end Transport

end Pylbm.Stability
