import Verif.Stability.StepExpansion
/-!
# Functions of a small parameter: division by the parameter, order from a bound

Helper lemmas for C67.
-/
set_option linter.unusedSectionVars false
namespace Pylbm.Stability
open Filter Topology
open scoped ContDiff

variable {X : Type} [NormedAddCommGroup X] [NormedSpace ℝ X] {Q : Set X}

theorem flat_cancel {g : ℝ × X → ℝ} (sg : Sm g) {n : ℕ} (k : ℝ) (hk : 0 < k)
    (h : Flat Q n fun p => k * g p + p.1 * dir (1, 0) g p) : Flat Q n g := by
  induction n generalizing g k with
  | zero => trivial
  | succ n ih =>
    have s1 := sg.dir (1, 0)
    have sk : Sm fun _ : ℝ × X => k := sm_of_contDiff contDiff_const
    refine ⟨fun q hq => ?_, ih s1 (k + 1) (by linarith) ?_⟩
    · have := h.1 q hq
      simp only [zero_mul, add_zero] at this
      exact (mul_eq_zero.1 this).resolve_left hk.ne'
    · have key : Near (fun p => (k + 1) * dir (1, 0) g p + p.1 * dir (1, 0) (dir (1, 0) g) p)
          (dir (1, 0) fun p => k * g p + p.1 * dir (1, 0) g p) := fun q => by
        filter_upwards [near_dir_add (sk.mul sg) (sm_eps.mul s1) (1, 0) q, near_dir_mul sk sg (1, 0) q,
          near_dir_mul sm_eps s1 (1, 0) q] with p h1 h2 h3
        rw [h1, h2, h3, dir_eps]
        have : dir (X := X) (1, 0) (fun _ => k) p = 0 := by simp [dir]
        rw [this]
        ring
      exact key.flat h.2

/-- Division by `ε`. -/
theorem flat_div {g : ℝ × X → ℝ} (sg : Sm g) {n : ℕ} (h : Flat Q (n + 1) fun p => p.1 * g p) : Flat Q n g := by
  refine flat_cancel sg 1 one_pos ?_
  have key : Near (fun p => 1 * g p + p.1 * dir (1, 0) g p) (dir (1, 0) fun p => p.1 * g p) := fun q => by
    filter_upwards [near_dir_mul sm_eps sg (1, 0) q] with p h1
    rw [h1, dir_eps]
  exact key.flat h.2

theorem eps_div {g : SF X} {n : ℕ} (h : epsS * g ∈ (flatI Q (n + 1) : Ideal (SF X))) : g ∈ (flatI Q n : Ideal (SF X)) :=
  flat_div (smoothAlg_sm g) h

/-- A smooth function bounded by `C ε ^ 3` for small `ε > 0` is of order `ε ^ 3`. -/
theorem flat_three_of_bound {g : ℝ × X → ℝ} (hg : Sm g) {ε₁ : ℝ} (h1 : 0 < ε₁) {C : ℝ}
    (h : ∀ ε, 0 < ε → ε < ε₁ → ∀ q ∈ Q, |g (ε, q)| ≤ C * ε ^ 3) : Flat Q 3 g := by
  have h2 : Flat Q 2 g := flat_two_of_bound hg h1 (C := |C| * ε₁) fun ε h0 h3 q hq => by
    refine (h ε h0 h3 q hq).trans ?_
    have : C * ε ^ 3 ≤ |C| * ε * ε ^ 2 := by
      have := mul_le_mul_of_nonneg_right (le_abs_self C) (by positivity : (0 : ℝ) ≤ ε ^ 3)
      linarith [this, (by ring : |C| * ε * ε ^ 2 = |C| * ε ^ 3)]
    refine this.trans (mul_le_mul_of_nonneg_right ?_ (by positivity))
    exact mul_le_mul_of_nonneg_left h3.le (abs_nonneg C)
  refine ⟨h2.1, h2.2.1, fun q hq => ?_, trivial⟩
  have sg2 := (hg.dir (1, 0)).dir (1, 0)
  set G : ℝ × X → ℝ := fun p => 1 / 2 * dir (1, 0) (dir (1, 0) g) p with hG
  have sG : Sm G := (sm_of_contDiff contDiff_const).mul sg2
  obtain ⟨ε₂, h3, C', hC'⟩ := (flat_second hg h2).bound (hg.sub (sm_eps.mul (sm_eps.mul sG)))
    (isCompact_singleton (x := q)) (Set.singleton_subset_iff.2 hq)
  have hc : Tendsto (fun ε : ℝ => |G (ε, q)|) (𝓝[>] 0) (𝓝 |G (0, q)|) := by
    have hd : DifferentiableAt ℝ G ((0 : ℝ), q) := (sG.differentiable q).self_of_nhds
    have : ContinuousAt (fun ε : ℝ => G (ε, q)) 0 :=
      ContinuousAt.comp (f := fun ε : ℝ => (ε, q)) hd.continuousAt (continuous_id.prodMk continuous_const).continuousAt
    exact (this.tendsto.mono_left nhdsWithin_le_nhds).abs
  have hz : Tendsto (fun ε : ℝ => (C + C') * ε) (𝓝[>] 0) (𝓝 0) := by
    have : Tendsto (fun ε : ℝ => (C + C') * ε) (𝓝 0) (𝓝 ((C + C') * 0)) :=
      (by fun_prop : Continuous fun ε : ℝ => (C + C') * ε).tendsto 0
    rw [mul_zero] at this
    exact this.mono_left nhdsWithin_le_nhds
  have := le_of_tendsto_of_tendsto hc hz (by
    filter_upwards [Ioo_mem_nhdsGT (lt_min h1 h3)] with ε he
    have a1 := h ε he.1 (he.2.trans_le (min_le_left _ _)) q hq
    have a2 := hC' ε he.1.le (he.2.le.trans (min_le_right _ _)) q rfl
    have a3 : |ε * (ε * G (ε, q))| ≤ (C + C') * ε ^ 3 := by
      have e : ε * (ε * G (ε, q)) = g (ε, q) - (g (ε, q) - ε * (ε * G (ε, q))) := by ring
      rw [e]
      refine (abs_sub _ _).trans ?_
      rw [add_mul]
      exact add_le_add a1 a2
    rw [abs_mul, abs_mul, abs_of_pos he.1] at a3
    have hp : 0 < ε * ε := mul_pos he.1 he.1
    refine le_of_mul_le_mul_left ?_ hp
    calc ε * ε * |G (ε, q)| = ε * (ε * |G (ε, q)|) := by ring
      _ ≤ (C + C') * ε ^ 3 := a3
      _ = ε * ε * ((C + C') * ε) := by ring)
  have h0 : G (0, q) = 0 := abs_eq_zero.1 (le_antisymm this (abs_nonneg _))
  simp only [hG] at h0
  linarith

section Step
variable {nc m : Nat} {M invM : Fin (nc + m) → Fin (nc + m) → ℝ} {u : Fin (nc + m) → X} {τ : X}
  {W : Fin nc → SF X} {Qe : Fin m → SF X} {J : Fin m → Fin nc → SF X} {s ri : Fin m → SF X}

/-- If one step commits an error of order `ε ^ 3`, the conserved moments solve the equation up to the order `ε ^ 2`. -/
theorem equation_of_step (hinv : ∀ i j, ∑ k, invM i k * M k j = if i = j then 1 else 0)
    (hinv' : ∀ i j, ∑ k, M i k * invM k j = if i = j then 1 else 0)
    (hJ : ∀ (v : ℝ × X) i, derS v (Qe i) = ∑ c, J i c * derS v (W c)) (hri : ∀ i, ri i * s i = 1)
    (hQ : IsOpen Q) (μ : Fin (nc + m) → SF X) (hμ : ∀ c, μ (Fin.castAdd m c) = W c)
    (h1 : ∀ c, moveS M invM u μ (Fin.castAdd m c) - shiftS τ (W c) ∈ (flatI Q 3 : Ideal (SF X)))
    (h2 : ∀ i, (1 - shiftS τ (s i)) * (moveS M invM u μ (Fin.natAdd nc i) - shiftS τ (Qe i)) -
      shiftS τ (μ (Fin.natAdd nc i) - Qe i) ∈ (flatI Q 3 : Ideal (SF X))) (c : Fin nc) :
    derS (0, τ) (W c) - (-genS M invM u (equilS W Qe) (Fin.castAdd m c) +
      epsS * -genS M invM u (incS (sigS M invM u W Qe J ri)) (Fin.castAdd m c)) ∈ (flatI Q 2 : Ideal (SF X)) := by
  set G := genS M invM u with hG
  set N : Fin m → SF X := fun i => μ (Fin.natAdd nc i) - Qe i with hN
  have eμ : μ = equilS W Qe + incS N := by
    funext r
    refine Fin.addCases (fun c => ?_) (fun i => ?_) r
    · rw [Pi.add_apply, equilS_left, incS_left, add_zero, hμ]
    · rw [Pi.add_apply, equilS_right, incS_right, hN]
      ring
  have mv := moveS_three (Q := Q) M invM u hinv hinv' μ
  have mv1 : ∀ r, moveS M invM u μ r - μ r ∈ (flatI Q 1 : Ideal (SF X)) := by
    intro r
    have := Submodule.add_mem _ (mono_mem (show 1 ≤ 3 by omega) (mv r)) (eps_one (-genS M invM u μ r +
      epsS * ((1 / 2 : ℝ) • genS M invM u (genS M invM u μ) r)))
    convert this using 1
    ring
  have mv2 : ∀ r, moveS M invM u μ r - (μ r - epsS * G μ r) ∈ (flatI Q 2 : Ideal (SF X)) := by
    intro r
    have := Submodule.add_mem _ (mono_mem (show 2 ≤ 3 by omega) (mv r)) (eps_two
      ((1 / 2 : ℝ) • genS M invM u (genS M invM u μ) r))
    convert this using 1
    ring
  -- order 1
  have N1 : ∀ i, N i ∈ (flatI Q 1 : Ideal (SF X)) := by
    intro i
    have a0 := mono_mem (show 1 ≤ 3 by omega) (h2 i)
    have a1 := Ideal.mul_mem_left _ (1 - shiftS τ (s i)) (mv1 (Fin.natAdd nc i))
    have a2 := Ideal.mul_mem_left _ (1 - shiftS τ (s i)) (shiftS_one (Q := Q) τ (Qe i))
    have a3 := shiftS_one (Q := Q) τ (N i)
    have a4 := Ideal.mul_mem_left _ (N i) (shiftS_one (Q := Q) τ (s i))
    have a5 := Ideal.mul_mem_left _ (-ri i) (Submodule.add_mem _ (Submodule.add_mem _ (Submodule.add_mem _
      (Submodule.sub_mem _ a0 a1) a2) a3) a4)
    convert a5 using 1
    have e : shiftS τ (μ (Fin.natAdd nc i) - Qe i) = shiftS τ (N i) := rfl
    rw [e]
    simp only [hN]
    linear_combination (-(μ (Fin.natAdd nc i) - Qe i)) * hri i
  have incN : ∀ {k : ℕ} {h : Fin m → SF X}, (∀ i, h i ∈ (flatI Q k : Ideal (SF X))) →
      ∀ r, incS (nc := nc) h r ∈ (flatI Q k : Ideal (SF X)) := by
    intro k h hh r
    refine Fin.addCases (fun c => ?_) (fun i => ?_) r
    · rw [incS_left]
      exact Submodule.zero_mem _
    · rw [incS_right]
      exact hh i
  have Gμ : ∀ r, G μ r = G (equilS W Qe) r + G (incS N) r := by
    intro r
    rw [eμ, hG, genS_add, Pi.add_apply]
  have G1 : ∀ r, G (incS N) r ∈ (flatI Q 1 : Ideal (SF X)) := gen_mem M invM u hQ _ (incN N1)
  -- the first order equation
  have W1 : ∀ c, derS (0, τ) (W c) + G (equilS W Qe) (Fin.castAdd m c) ∈ (flatI Q 1 : Ideal (SF X)) := by
    intro c
    refine eps_div ?_
    have a1 := mv2 (Fin.castAdd m c)
    have a2 := shiftS_two (Q := Q) τ (W c)
    have a3 := mono_mem (show 2 ≤ 3 by omega) (h1 c)
    have a4 := eps_mul_mem (G1 (Fin.castAdd m c))
    rw [hμ, Gμ] at a1
    have := Submodule.sub_mem _ (Submodule.sub_mem _ (Submodule.sub_mem _ a1 a2) a3) a4
    convert this using 1
    ring
  have Q1 : ∀ i, derS (0, τ) (Qe i) + ∑ c, J i c * G (equilS W Qe) (Fin.castAdd m c) ∈ (flatI Q 1 : Ideal (SF X)) := by
    intro i
    rw [hJ, ← Finset.sum_add_distrib]
    refine Submodule.sum_mem _ fun c _ => ?_
    rw [← mul_add]
    exact Ideal.mul_mem_left _ _ (W1 c)
  set dv := devS M invM u W Qe J with hdv
  have hdev : ∀ i, dv i = -G (equilS W Qe) (Fin.natAdd nc i) + ∑ c, J i c * G (equilS W Qe) (Fin.castAdd m c) := fun i => rfl
  set ψ := psiS M invM u W Qe J ri with hψ
  have hψi : ∀ i, ψ i = ri i * dv i - dv i := fun i => rfl
  -- order 2
  have N2 : ∀ i, N i - epsS * ψ i ∈ (flatI Q 2 : Ideal (SF X)) := by
    intro i
    have a0 := mono_mem (show 2 ≤ 3 by omega) (h2 i)
    have a1 := Ideal.mul_mem_left _ (1 - shiftS τ (s i)) (mv2 (Fin.natAdd nc i))
    have a2 := Ideal.mul_mem_left _ (1 - shiftS τ (s i)) (shiftS_two (Q := Q) τ (Qe i))
    have a3 := shiftS_two (Q := Q) τ (N i)
    have a4 := eps_mul_mem (der_mem hQ (N1 i) τ)
    have a5 := Ideal.mul_mem_left _ (1 - shiftS τ (s i)) (eps_mul_mem (Q1 i))
    have a6 := Ideal.mul_mem_left _ (1 - shiftS τ (s i)) (eps_mul_mem (G1 (Fin.natAdd nc i)))
    have a7 := eps_mul_mem (Ideal.mul_mem_left _ (dv i) (shiftS_one (Q := Q) τ (s i)))
    have a8 : (shiftS τ (s i) - s i) * N i ∈ (flatI Q 2 : Ideal (SF X)) := by
      have b1 := Ideal.mul_mem_left _ (N i) (shiftS_two (Q := Q) τ (s i))
      have b2 := Ideal.mul_mem_left _ (derS (0, τ) (s i)) (eps_mul_mem (N1 i))
      have := Submodule.add_mem _ b1 b2
      convert this using 1
      ring
    rw [Gμ] at a1
    have b := Ideal.mul_mem_left _ (-ri i) (Submodule.add_mem _ (Submodule.add_mem _ (Submodule.add_mem _ (Submodule.add_mem _
      (Submodule.add_mem _ (Submodule.add_mem _ (Submodule.add_mem _ (Submodule.sub_mem _ a0 a1) a2) a3) a4) a5) a6) a7) a8)
    convert b using 1
    have e : shiftS τ (μ (Fin.natAdd nc i) - Qe i) = shiftS τ (N i) := rfl
    have e2 : μ (Fin.natAdd nc i) = Qe i + N i := by simp only [hN]; ring
    rw [e, e2, hψi, hdev]
    linear_combination (-(N i) - epsS * (-G (equilS W Qe) (Fin.natAdd nc i) + ∑ c, J i c * G (equilS W Qe) (Fin.castAdd m c))) * hri i
  -- the second order equation
  have Gψ : ∀ r, G (incS N) r - epsS * G (incS ψ) r ∈ (flatI Q 2 : Ideal (SF X)) := by
    intro r
    have e : incS (nc := nc) N = (incS fun i => N i - epsS * ψ i) + fun r => epsS * incS ψ r := by
      funext r
      refine Fin.addCases (fun c => ?_) (fun i => ?_) r
      · simp [incS_left]
      · rw [Pi.add_apply, incS_right, incS_right, incS_right]
        ring
    have h3 : G (incS N) r = G (incS fun i => N i - epsS * ψ i) r + epsS * G (incS ψ) r := by
      rw [e, hG, genS_add, genS_eps, Pi.add_apply]
    rw [h3, add_sub_cancel_right]
    exact gen_mem M invM u hQ _ (incN N2) r
  have GG : G (G μ) (Fin.castAdd m c) - G (G (equilS W Qe)) (Fin.castAdd m c) ∈ (flatI Q 1 : Ideal (SF X)) := by
    have e : G μ = G (equilS W Qe) + G (incS N) := by rw [eμ, hG, genS_add]
    have h3 : G (G μ) (Fin.castAdd m c) = G (G (equilS W Qe)) (Fin.castAdd m c) + G (G (incS N)) (Fin.castAdd m c) := by
      rw [e, hG, genS_add, Pi.add_apply]
    rw [h3, add_sub_cancel_left]
    exact gen_mem M invM u hQ _ G1 _
  have TT : derS (0, τ) (derS (0, τ) (W c)) - (G (G (equilS W Qe)) (Fin.castAdd m c) + G (incS dv) (Fin.castAdd m c)) ∈
      (flatI Q 1 : Ideal (SF X)) := by
    have a1 := der_mem hQ (W1 c) τ
    rw [map_add, hG, genS_der, ← hG] at a1
    have e : (fun j => derS (0, τ) (equilS W Qe j)) = (-1 : ℝ) • (G (equilS W Qe) + incS dv) +
        equilS (fun c => derS (0, τ) (W c) + G (equilS W Qe) (Fin.castAdd m c))
          (fun i => derS (0, τ) (Qe i) + ∑ c, J i c * G (equilS W Qe) (Fin.castAdd m c)) := by
      funext r
      refine Fin.addCases (fun c => ?_) (fun i => ?_) r
      · simp only [Pi.add_apply, Pi.smul_apply, equilS_left, incS_left, add_zero, neg_smul, one_smul, Pi.neg_apply]
        ring
      · simp only [Pi.add_apply, Pi.smul_apply, equilS_right, incS_right, neg_smul, one_smul, Pi.neg_apply, hdev]
        ring
    have h3 : G (fun j => derS (0, τ) (equilS W Qe j)) (Fin.castAdd m c) =
        -(G (G (equilS W Qe)) (Fin.castAdd m c) + G (incS dv) (Fin.castAdd m c)) +
        G (equilS (fun c => derS (0, τ) (W c) + G (equilS W Qe) (Fin.castAdd m c))
          (fun i => derS (0, τ) (Qe i) + ∑ c, J i c * G (equilS W Qe) (Fin.castAdd m c))) (Fin.castAdd m c) := by
      rw [e, hG, genS_add, genS_smul, genS_add, Pi.add_apply, Pi.smul_apply, neg_smul, one_smul, Pi.add_apply]
    rw [h3] at a1
    have a2 : ∀ r, equilS (fun c => derS (0, τ) (W c) + G (equilS W Qe) (Fin.castAdd m c))
          (fun i => derS (0, τ) (Qe i) + ∑ c, J i c * G (equilS W Qe) (Fin.castAdd m c)) r ∈ (flatI Q 1 : Ideal (SF X)) := by
      intro r
      refine Fin.addCases (fun c => ?_) (fun i => ?_) r
      · rw [equilS_left]
        exact W1 c
      · rw [equilS_right]
        exact Q1 i
    have := Submodule.sub_mem _ a1 (gen_mem M invM u hQ _ a2 (Fin.castAdd m c))
    convert this using 1
    ring
  have e5 : incS (nc := nc) ψ = incS (sigS M invM u W Qe J ri) + (-(1 / 2) : ℝ) • incS dv := by
    rw [incS_smul, incS_add]
    congr 1
    funext i
    simp only [hψi, sigS, ← hdv]
    rw [neg_smul, Algebra.smul_def]
    linear_combination dv i * half_add (X := X)
  set hf := algebraMap ℝ (SF X) (1 / 2) with hhf
  have hh : hf + hf = 1 := half_add
  have f5 : G (incS ψ) (Fin.castAdd m c) = G (incS (sigS M invM u W Qe J ri)) (Fin.castAdd m c) -
      hf * G (incS dv) (Fin.castAdd m c) := by
    rw [e5, hG, genS_add, genS_smul, Pi.add_apply, Pi.smul_apply, neg_smul, Algebra.smul_def]
    ring
  refine eps_div ?_
  have b1 := mv (Fin.castAdd m c)
  have b2 := shiftS_three (Q := Q) τ (W c)
  have b3 := eps_mul_mem (Gψ (Fin.castAdd m c))
  have b4 := eps_mul_mem (eps_mul_mem (Ideal.mul_mem_left _ hf GG))
  have b5 := eps_mul_mem (eps_mul_mem (Ideal.mul_mem_left _ hf TT))
  rw [hμ, ← hG, Gμ] at b1
  simp only [Algebra.smul_def, ← hhf] at b1 b2
  rw [f5] at b3
  have := Submodule.sub_mem _ (Submodule.add_mem _ (Submodule.sub_mem _ (Submodule.sub_mem _ (Submodule.sub_mem _ b1 b2) (h1 c)) b3) b4) b5
  convert this using 1
  ring

end Step

end Pylbm.Stability
