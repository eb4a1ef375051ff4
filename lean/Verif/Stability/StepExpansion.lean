import Verif.Stability.Expansion
/-!
# Expansion of one step of the scheme

Helper lemmas for C67: populations built from the conserved moments `W` such that one step of the scheme gives the same
populations at the next time up to the third order.
-/

namespace Pylbm.Stability

variable {X : Type} [NormedAddCommGroup X] [NormedSpace ℝ X]


section Step
variable {nc m : ℕ} (M invM : Fin (nc + m) → Fin (nc + m) → ℝ) (u : Fin (nc + m) → X) (τ : X)
  (W : Fin nc → (SF X)) (Q : Fin m → (SF X)) (J : Fin m → Fin nc → (SF X)) (s ri : Fin m → (SF X))

/-- The equilibrium. -/
def equilS : Fin (nc + m) → (SF X) := Fin.append W Q

/-- Moments which vanish for the conserved ones. -/
def incS (h : Fin m → (SF X)) : Fin (nc + m) → (SF X) := Fin.append 0 h

/-- `phi1 + jac * gamma_1`. -/
noncomputable def devS (i : Fin m) : (SF X) :=
  -genS M invM u (equilS W Q) (Fin.natAdd nc i) + ∑ c, J i c * genS M invM u (equilS W Q) (Fin.castAdd m c)

/-- First order term of the moments after the collision. -/
noncomputable def psiS (i : Fin m) : (SF X) := ri i * devS M invM u W Q J i - devS M invM u W Q J i

/-- Term of the equation of the second order. -/
noncomputable def sigS (i : Fin m) : (SF X) := ri i * devS M invM u W Q J i - (1 / 2 : ℝ) • devS M invM u W Q J i

/-- Moments after the collision, up to the first order. -/
noncomputable def muS : Fin (nc + m) → (SF X) := fun r => equilS W Q r + epsS * incS (psiS M invM u W Q J ri) r

/-- Defect of the moments `muS`. -/
noncomputable def defectS (i : Fin m) : (SF X) :=
  (1 - shiftS τ (s i)) * (moveS M invM u (muS M invM u W Q J ri) (Fin.natAdd nc i) - shiftS τ (Q i)) -
    epsS * shiftS τ (psiS M invM u W Q J ri i)

/-- Second order term of the moments after the collision. -/
noncomputable def psi2S (i : Fin m) : (SF X) :=
  ri i * ((1 / 2 : ℝ) • derS (1, 0) (derS (1, 0) (defectS M invM u τ W Q J s ri i)))

/-- Moments after the collision, up to the second order. -/
noncomputable def mu2S : Fin (nc + m) → (SF X) := fun r =>
  equilS W Q r + epsS * (incS (psiS M invM u W Q J ri) r + epsS * incS (psi2S M invM u τ W Q J s ri) r)

theorem half_add : algebraMap ℝ (SF X) (1 / 2) + algebraMap ℝ (SF X) (1 / 2) = 1 := by
  rw [← map_add]
  norm_num

theorem equilS_left (c : Fin nc) : equilS W Q (Fin.castAdd m c) = W c := Fin.append_left _ _ _

theorem equilS_right (i : Fin m) : equilS W Q (Fin.natAdd nc i) = Q i := Fin.append_right _ _ _

theorem incS_left (h : Fin m → (SF X)) (c : Fin nc) : incS h (Fin.castAdd m c) = 0 := Fin.append_left _ _ _

theorem incS_right (h : Fin m → (SF X)) (i : Fin m) : incS (nc := nc) h (Fin.natAdd nc i) = h i := Fin.append_right _ _ _

theorem incS_add (h k : Fin m → (SF X)) : (incS (nc := nc) h) + incS k = incS fun i => h i + k i := by
  funext r
  refine Fin.addCases (fun c => ?_) (fun i => ?_) r
  · simp [incS]
  · simp [incS]

theorem incS_smul (c : ℝ) (h : Fin m → (SF X)) : c • (incS (nc := nc) h) = incS fun i => c • h i := by
  funext r
  refine Fin.addCases (fun c => ?_) (fun i => ?_) r
  · simp [incS]
  · simp [incS]

variable {M invM u τ W Q J s ri}
variable (hinv : ∀ i j, ∑ k, invM i k * M k j = if i = j then 1 else 0)
  (hinv' : ∀ i j, ∑ k, M i k * invM k j = if i = j then 1 else 0)
  (hJ : ∀ (v : ℝ × X) i, derS v (Q i) = ∑ c, J i c * derS v (W c))
  (D : Fin nc → (SF X))
  (hW : ∀ c, derS (0, τ) (W c) = -genS M invM u (equilS W Q) (Fin.castAdd m c) +
    epsS * -genS M invM u (incS (sigS M invM u W Q J ri)) (Fin.castAdd m c) + D c)
  {Y : Set X} (hY : IsOpen Y) (hD : ∀ c, D c ∈ (flatI Y 2 : Ideal (SF X)))
include hinv hinv' hJ hW hY hD

/-- The conserved moments after the transport. -/
theorem step_conserved (ψ2 : Fin m → (SF X)) (c : Fin nc) :
    moveS M invM u (fun r => equilS W Q r + epsS * (incS (psiS M invM u W Q J ri) r + epsS * incS ψ2 r)) (Fin.castAdd m c) -
      shiftS τ (W c) ∈ (flatI Y 3 : Ideal (SF X)) := by
  set G := genS M invM u with hG
  set N : Fin (nc + m) → (SF X) := incS (psiS M invM u W Q J ri) + fun r => epsS * incS ψ2 r with hN
  set μ : Fin (nc + m) → (SF X) := fun r =>
    equilS W Q r + epsS * (incS (psiS M invM u W Q J ri) r + epsS * incS ψ2 r) with hμ
  have eμ : μ = equilS W Q + fun r => epsS * N r := rfl
  have f0 : G N = G (incS (psiS M invM u W Q J ri)) + fun r => epsS * G (incS ψ2) r := by
    rw [hN, hG, genS_add, genS_eps]
  have f1 : G μ = G (equilS W Q) + fun r => epsS * G N r := by rw [eμ, hG, genS_add, genS_eps]
  have f2 : G (G μ) = G (G (equilS W Q)) + fun r => epsS * G (G N) r := by rw [f1, hG, genS_add, genS_eps]
  set Sc : Fin nc → (SF X) := fun c => -G (incS (sigS M invM u W Q J ri)) (Fin.castAdd m c) with hSc
  have hWc : ∀ c, derS (0, τ) (W c) = -G (equilS W Q) (Fin.castAdd m c) + epsS * Sc c + D c := hW
  have f3 : derS (0, τ) (derS (0, τ) (W c)) = -derS (0, τ) (G (equilS W Q) (Fin.castAdd m c)) + epsS * derS (0, τ) (Sc c) +
      derS (0, τ) (D c) := by
    conv_lhs => rw [hWc c]
    rw [map_add, map_add, map_neg, derS_eps_mul]
  set Z : Fin (nc + m) → (SF X) := equilS Sc fun i => ∑ c, J i c * Sc c with hZ
  set Z2 : Fin (nc + m) → (SF X) := equilS D fun i => ∑ c, J i c * D c with hZ2
  have hZ2m : ∀ r, Z2 r ∈ (flatI Y 2 : Ideal (SF X)) := by
    intro r
    refine Fin.addCases (fun c => ?_) (fun i => ?_) r
    · simp only [hZ2, equilS_left]
      exact hD c
    · simp only [hZ2, equilS_right]
      exact Submodule.sum_mem _ fun c _ => Ideal.mul_mem_left _ _ (hD c)
  have e4 : (fun j => derS (0, τ) (equilS W Q j)) =
      (-1 : ℝ) • (G (equilS W Q) + incS (devS M invM u W Q J)) + (fun r => epsS * Z r) + Z2 := by
    funext r
    refine Fin.addCases (fun c => ?_) (fun i => ?_) r
    · simp only [Pi.add_apply, Pi.smul_apply, hZ, hZ2, equilS_left, incS_left, add_zero]
      rw [hWc c, neg_smul, one_smul]
    · simp only [Pi.add_apply, Pi.smul_apply, hZ, hZ2, equilS_right, incS_right]
      rw [hJ, neg_smul, one_smul, devS, ← hG]
      simp only [hWc, mul_add, Finset.sum_add_distrib, mul_neg, Finset.sum_neg_distrib]
      have : ∀ c, J i c * (epsS * Sc c) = epsS * (J i c * Sc c) := fun c => by ring
      simp only [this, ← Finset.mul_sum]
      ring
  have f4 : derS (0, τ) (G (equilS W Q) (Fin.castAdd m c)) =
      -(G (G (equilS W Q)) (Fin.castAdd m c) + G (incS (devS M invM u W Q J)) (Fin.castAdd m c)) + epsS * G Z (Fin.castAdd m c) +
        G Z2 (Fin.castAdd m c) := by
    rw [hG, genS_der, e4, genS_add, genS_add, genS_smul, genS_add, genS_eps]
    rw [Pi.add_apply, Pi.add_apply, Pi.smul_apply, neg_smul, one_smul, Pi.add_apply]
  have e5 : incS (nc := nc) (psiS M invM u W Q J ri) =
      incS (sigS M invM u W Q J ri) + (-(1 / 2) : ℝ) • incS (devS M invM u W Q J) := by
    rw [incS_smul, incS_add]
    congr 1
    funext i
    simp only [psiS, sigS]
    rw [neg_smul, Algebra.smul_def]
    linear_combination devS M invM u W Q J i * half_add (X := X)
  have f5 : G (incS (psiS M invM u W Q J ri)) (Fin.castAdd m c) = G (incS (sigS M invM u W Q J ri)) (Fin.castAdd m c) -
      algebraMap ℝ (SF X) (1 / 2) * G (incS (devS M invM u W Q J)) (Fin.castAdd m c) := by
    rw [e5, hG, genS_add, genS_smul, Pi.add_apply, Pi.smul_apply, neg_smul, Algebra.smul_def]
    ring
  have h1 := moveS_three (Q := Y) M invM u hinv hinv' μ (Fin.castAdd m c)
  have h2 := shiftS_three (Q := Y) τ (W c)
  rw [← hG, f2] at h1
  rw [f3, f4, hWc c] at h2
  have h3 : μ (Fin.castAdd m c) = W c := by
    simp [hμ, equilS, incS]
  rw [h3, f1] at h1
  simp only [Pi.add_apply, Algebra.smul_def] at h1 h2
  have f0c := congrFun f0 (Fin.castAdd m c)
  rw [Pi.add_apply] at f0c
  rw [f0c, f5] at h1
  set hf := algebraMap ℝ (SF X) (1 / 2) with hhf
  have hh : hf + hf = 1 := half_add
  have h4 := Submodule.sub_mem _ h1 h2
  have h5 := Submodule.add_mem _ h4 (eps_three (-G (incS ψ2) (Fin.castAdd m c) + hf * G (G N) (Fin.castAdd m c) -
    hf * (derS (0, τ) (Sc c)) + hf * G Z (Fin.castAdd m c)))
  have h6 : hf * (derS (0, τ) (D c) - G Z2 (Fin.castAdd m c)) ∈ (flatI Y 2 : Ideal (SF X)) :=
    Ideal.mul_mem_left _ _ (Submodule.sub_mem _ (der_mem hY (hD c) τ) (gen_mem M invM u hY Z2 hZ2m _))
  have h7 := Submodule.sub_mem _ (Submodule.sub_mem _ h5 (eps_mul_mem (hD c)))
    (eps_mul_mem (eps_mul_mem (mono_mem (show 1 ≤ 2 by omega) h6)))
  convert h7 using 1
  rw [hSc]
  ring

/-- The other moments after the collision, first order. -/
theorem defectS_two (hri : ∀ i, ri i * s i = 1) (i : Fin m) :
    defectS M invM u τ W Q J s ri i ∈ (flatI Y 2 : Ideal (SF X)) := by
  set G := genS M invM u with hG
  set ψ := psiS M invM u W Q J ri with hψ
  have eμ : muS M invM u W Q J ri = equilS W Q + fun r => epsS * incS ψ r := rfl
  have f1 : G (muS M invM u W Q J ri) = G (equilS W Q) + fun r => epsS * G (incS ψ) r := by
    rw [eμ, hG, genS_add, genS_eps]
  set Sc : Fin nc → (SF X) := fun c => -G (incS (sigS M invM u W Q J ri)) (Fin.castAdd m c) with hSc
  have hWc : ∀ c, derS (0, τ) (W c) = -G (equilS W Q) (Fin.castAdd m c) + epsS * Sc c + D c := hW
  have hQ : derS (0, τ) (Q i) = -(∑ c, J i c * G (equilS W Q) (Fin.castAdd m c)) + epsS * ∑ c, J i c * Sc c +
      ∑ c, J i c * D c := by
    rw [hJ]
    simp only [hWc, mul_add, Finset.sum_add_distrib, mul_neg, Finset.sum_neg_distrib]
    have : ∀ c, J i c * (epsS * Sc c) = epsS * (J i c * Sc c) := fun c => by ring
    simp only [this, ← Finset.mul_sum]
  have hJD : ∑ c, J i c * D c ∈ (flatI Y 2 : Ideal (SF X)) :=
    Submodule.sum_mem _ fun c _ => Ideal.mul_mem_left _ _ (hD c)
  have h1 : _ ∈ (flatI Y 2 : Ideal (SF X)) :=
    Flat.mono (show 2 ≤ 3 by omega) (moveS_three M invM u hinv hinv' (muS M invM u W Q J ri) (Fin.natAdd nc i))
  have h2 := shiftS_two (Q := Y) τ (Q i)
  have f1c := congrFun f1 (Fin.natAdd nc i)
  rw [Pi.add_apply] at f1c
  rw [← hG, f1c] at h1
  have e3 : muS M invM u W Q J ri (Fin.natAdd nc i) = Q i + epsS * ψ i := by
    simp only [muS, equilS_right, incS_right, ← hψ]
  rw [e3] at h1
  rw [hQ] at h2
  have h3 := shiftS_one (Q := Y) τ (s i)
  have h4 := shiftS_one (Q := Y) τ (ψ i)
  set Gm := moveS M invM u (muS M invM u W Q J ri) (Fin.natAdd nc i)
  set K2 := (1 / 2 : ℝ) • G (G (muS M invM u W Q J ri)) (Fin.natAdd nc i)
  set JS := ∑ c, J i c * Sc c
  have hΦ : devS M invM u W Q J i = -G (equilS W Q) (Fin.natAdd nc i) +
      ∑ c, J i c * G (equilS W Q) (Fin.castAdd m c) := rfl
  set JG := ∑ c, J i c * G (equilS W Q) (Fin.castAdd m c)
  set Φ := devS M invM u W Q J i with hΦ'
  have hψi : ψ i = ri i * Φ - Φ := rfl
  have h5 : Gm - shiftS τ (Q i) - epsS * (ri i * Φ) ∈ (flatI Y 2 : Ideal (SF X)) := by
    have := Submodule.sub_mem _ (Submodule.add_mem _ (Submodule.sub_mem _ h1 h2)
      (eps_two (-G (incS ψ) (Fin.natAdd nc i) + K2 - JS))) (Ideal.mul_mem_left _ epsS hJD)
    convert this using 1
    rw [hψi, hΦ]
    ring
  have h6 := Ideal.mul_mem_left _ (1 - shiftS τ (s i)) h5
  have h7 := Ideal.mul_mem_left _ (ri i * Φ) (eps_mul_mem h3)
  have h8 := eps_mul_mem h4
  have h9 := Submodule.sub_mem _ (Submodule.sub_mem _ h6 h7) h8
  convert h9 using 1
  rw [defectS, ← hψ, hψi]
  linear_combination (-(epsS * Φ)) * hri i

/-- The other moments after the collision, second order. -/
theorem step_other (hri : ∀ i, ri i * s i = 1) (i : Fin m) :
    (1 - shiftS τ (s i)) * (moveS M invM u (mu2S M invM u τ W Q J s ri) (Fin.natAdd nc i) - shiftS τ (Q i)) -
      shiftS τ (epsS * (psiS M invM u W Q J ri i + epsS * psi2S M invM u τ W Q J s ri i)) ∈ (flatI Y 3 : Ideal (SF X)) := by
  set ψ2 := psi2S M invM u τ W Q J s ri with hψ2
  have eμ : mu2S M invM u τ W Q J s ri = muS M invM u W Q J ri + fun r => epsS * (fun r => epsS * incS ψ2 r) r := by
    funext r
    simp only [mu2S, muS, Pi.add_apply, ← hψ2]
    ring
  have f1 : moveS M invM u (mu2S M invM u τ W Q J s ri) (Fin.natAdd nc i) =
      moveS M invM u (muS M invM u W Q J ri) (Fin.natAdd nc i) +
        epsS * (epsS * moveS M invM u (incS ψ2) (Fin.natAdd nc i)) := by
    rw [eμ, moveS_add, moveS_eps, moveS_eps]
  have h1 := flatI_second (defectS_two hinv hinv' hJ D hW hY hD hri i)
  have h2 : moveS M invM u (incS ψ2) (Fin.natAdd nc i) - ψ2 i ∈ (flatI Y 1 : Ideal (SF X)) := by
    have h3 : _ ∈ (flatI Y 1 : Ideal (SF X)) :=
      Flat.mono (show 1 ≤ 3 by omega) (moveS_three M invM u hinv hinv' (incS ψ2) (Fin.natAdd nc i))
    have := Submodule.add_mem _ h3 (eps_one (-genS M invM u (incS ψ2) (Fin.natAdd nc i) +
      epsS * ((1 / 2 : ℝ) • genS M invM u (genS M invM u (incS ψ2)) (Fin.natAdd nc i))))
    convert this using 1
    rw [incS_right]
    ring
  have h3 := eps_mul_mem (eps_mul_mem h2)
  have h4 := eps_mul_mem (eps_mul_mem (shiftS_one (Q := Y) τ (s i)))
  have h5 := eps_mul_mem (eps_mul_mem (shiftS_one (Q := Y) τ (ψ2 i)))
  have h6 := Submodule.sub_mem _ (Submodule.sub_mem _ (Submodule.add_mem _ h1
    (Ideal.mul_mem_left _ (1 - shiftS τ (s i)) h3)) (Ideal.mul_mem_left _ (ψ2 i) h4)) h5
  convert h6 using 1
  rw [f1, map_mul, map_add, map_mul, shiftS_eps]
  have e : (1 / 2 : ℝ) • derS (1, 0) (derS (1, 0) (defectS M invM u τ W Q J s ri i)) = s i * ψ2 i := by
    rw [hψ2, psi2S, ← mul_assoc, mul_comm (s i), hri, one_mul]
  rw [e]
  simp only [defectS]
  ring

end Step

end Pylbm.Stability
