import Verif.Stability.Nonlinear
/-!
# C67: truncation error of the scheme with respect to the printed equation
-/
set_option linter.unusedSectionVars false
namespace Pylbm.Stability
open Matrix Sim Scheme Halo SchemeSpec HaloSpec Mpi
open scoped ContDiff

variable {nc m d dim : Nat}

/-! ## Helper lemmas -/

section Trans
variable {X : Type} [NormedAddCommGroup X] [NormedSpace ℝ X]
  (M invM : Fin (nc + m) → Fin (nc + m) → ℝ) (u : Fin (nc + m) → X) (τ : X)
  (W : Fin nc → SF X) (Q : Fin m → SF X) (J : Fin m → Fin nc → SF X) (s ri : Fin m → SF X)

/-- The moments after the collision are periodic. -/
theorem mu2S_trans (a : X) (hW : ∀ c, transS a (W c) = W c) (hQ : ∀ i, transS a (Q i) = Q i)
    (hJ : ∀ i c, transS a (J i c) = J i c) (hs : ∀ i, transS a (s i) = s i) (hri : ∀ i, transS a (ri i) = ri i)
    (r : Fin (nc + m)) : transS a (mu2S M invM u τ W Q J s ri r) = mu2S M invM u τ W Q J s ri r := by
  have h1 : ∀ r, transS a (equilS W Q r) = equilS W Q r := fun r =>
    Fin.addCases (fun c => by rw [equilS_left, hW]) (fun i => by rw [equilS_right, hQ]) r
  have h2 : ∀ i, transS a (devS M invM u W Q J i) = devS M invM u W Q J i := by
    intro i
    simp only [devS, map_add, map_neg, map_sum, map_mul, transS_gen, hJ, h1]
  have h3 : ∀ i, transS a (psiS M invM u W Q J ri i) = psiS M invM u W Q J ri i := by
    intro i
    simp only [psiS, map_sub, map_mul, hri, h2]
  have h4 : ∀ h : Fin m → SF X, (∀ i, transS a (h i) = h i) → ∀ r : Fin (nc + m), transS a (incS h r) = incS h r := by
    intro h hh r
    exact Fin.addCases (fun c => by rw [incS_left, map_zero]) (fun i => by rw [incS_right, hh]) r
  have h5 : ∀ r, transS a (muS M invM u W Q J ri r) = muS M invM u W Q J ri r := by
    intro r
    simp only [muS, map_add, map_mul, transS_eps, h1, h4 _ h3]
  have h6 : ∀ i, transS a (defectS M invM u τ W Q J s ri i) = defectS M invM u τ W Q J s ri i := by
    intro i
    simp only [defectS, map_sub, map_mul, map_one, transS_shift, transS_move, transS_eps, hs, hQ, h3, h5]
  have h7 : ∀ i, transS a (psi2S M invM u τ W Q J s ri i) = psi2S M invM u τ W Q J s ri i := by
    intro i
    simp only [psi2S, map_mul, map_smul, transS_der, hri, h6]
  simp only [mu2S, map_add, map_mul, transS_eps, h1, h4 _ h3, h4 _ h7]

end Trans

/-- Bounds for finitely many functions. -/
theorem flat_bounds {X : Type} [NormedAddCommGroup X] [NormedSpace ℝ X] {n k : ℕ} (g : Fin n → ℝ × X → ℝ)
    {Q : Set X} (hg : ∀ r, Sm (g r)) (h : ∀ r, Flat Q k (g r)) {K : Set X} (hK : IsCompact K) (hKQ : K ⊆ Q) :
    ∃ ε₀ > 0, ∃ C, ∀ ε, 0 ≤ ε → ε ≤ ε₀ → ∀ q ∈ K, ∀ r, |g r (ε, q)| ≤ C * ε ^ k := by
  choose e he C hC using fun r => (h r).bound (hg r) hK hKQ
  have hpos : 0 < 1 + ∑ r, 1 / e r := by
    have : 0 ≤ ∑ r, 1 / e r := Finset.sum_nonneg fun r _ => (one_div_pos.2 (he r)).le
    linarith
  refine ⟨1 / (1 + ∑ r, 1 / e r), one_div_pos.2 hpos, ∑ r, |C r|, fun ε h0 h1 q hq r => ?_⟩
  have h2 : 1 / (1 + ∑ r, 1 / e r) ≤ e r := by
    rw [one_div_le hpos (he r)]
    have := Finset.single_le_sum (f := fun r => 1 / e r) (fun r _ => (one_div_pos.2 (he r)).le) (Finset.mem_univ r)
    beta_reduce at this
    linarith
  refine (hC r ε h0 (h1.trans h2) q hq).trans (mul_le_mul_of_nonneg_right ?_ (pow_nonneg h0 k))
  exact (le_abs_self _).trans (Finset.single_le_sum (f := fun r => |C r|) (fun r _ => abs_nonneg _) (Finset.mem_univ r))

/-! ## The theorem -/

/-- **C67, nonlinear equilibria.** Let the equilibria and the relaxation parameters (functions of the conserved moments)
be smooth on the open set `Ω` and the relaxation parameters be different from zero there, no sources, no relative
velocity. Let `W ε t x` be smooth and periodic, with values in `Ω`, and solve for small `ε > 0` and the times in the open
set `Θ` the equation printed by `EquivalentEquation` with `Delta_t = ε`, up to a remainder of order `ε ^ 2` (the printed
equation is `… + O(dt^2)`). Then there are smooth populations `f`, whose conserved moments are `W` and which are at
equilibrium for `ε = 0`, such that one time step of the generated code with the time step `ε` and the space step `la * ε`
maps the populations of the time `t` to those of the time `t + ε` up to `C ε ^ 3`, uniformly in the cells and in the times
of a compact interval in `Θ`. (A solution which is smooth on a larger set of times is extended to all times and to
`ε ≤ 0` in any smooth manner.) -/
theorem C67_truncation (S : Kernel ℝ (nc + m) nc d) (alg : Algo) (hfront : ∀ j, (S.consm j : Nat) = j)
    (hEQ : ∀ j w, S.EQ (S.consm j) w = w j) (hS : ∀ i, S.source i = none) (hrel : S.relVel = none)
    (hinv : S.invM * S.M = 1) (Ω : Set (Fin nc → ℝ)) (ho : IsOpen Ω)
    (heq : ∀ i : Fin m, ContDiffOn ℝ ∞ (S.EQ (Fin.natAdd nc i)) Ω)
    (hs : ∀ i : Fin m, ContDiffOn ℝ ∞ (S.s (Fin.natAdd nc i)) Ω)
    (hs0 : ∀ (i : Fin m) (w), w ∈ Ω → S.s (Fin.natAdd nc i) w ≠ 0)
    (vel : Fin (nc + m) → Cell dim) (la : ℝ) (hla : 0 < la) (L : Fin dim → ℝ)
    (W : ℝ → ℝ → (Fin dim → ℝ) → Fin nc → ℝ) (hW : SmoothIn W) (hΩ : ∀ ε t x, W ε t x ∈ Ω)
    (hper : ∀ ε t, HasPeriods L (W ε t)) (Θ : Set ℝ) (hΘ : IsOpen Θ) (hsol : SolvesPrinted S vel la Θ W) :
    ∃ f : ℝ → ℝ → (Fin dim → ℝ) → Fin (nc + m) → ℝ, SmoothIn f ∧ (∀ ε t, HasPeriods L (f ε t)) ∧
      (∀ ε t x b, (S.M *ᵥ f ε t x) (S.consm b) = W ε t x b) ∧ (∀ t x i, (S.M *ᵥ f 0 t x) i = S.EQ i (W 0 t x)) ∧
      ∀ T₀ T, Set.Icc T₀ T ⊆ Θ → ∃ ε₀ > 0, ∃ C, ∀ ε, 0 < ε → ε ≤ ε₀ → ∀ N : Fin dim → Nat, (∀ i, N i * (la * ε) = L i) →
        ∀ t, T₀ ≤ t → t ≤ T → ∀ y ∈ box N, ∀ j,
          |lbmStep N vel (collide S alg) (fun _ H => H) t (fun z => f ε t fun l => la * ε * z l) y j -
            f ε (t + ε) (fun l => la * ε * y l) j| ≤ C * ε ^ 3 := by
  have hcons : ∀ j, S.consm j = Fin.castAdd m j := fun j => Fin.ext (hfront j)
  have hinv2 : S.M * S.invM = 1 := mul_eq_one_comm.1 hinv
  set M : Fin (nc + m) → Fin (nc + m) → ℝ := fun i j => S.M i j with hM
  set invM : Fin (nc + m) → Fin (nc + m) → ℝ := fun i j => S.invM i j with hinvM
  have i1 : ∀ i j, ∑ k, invM i k * M k j = if i = j then 1 else 0 := by
    intro i j
    have := congrFun (congrFun hinv i) j
    rwa [Matrix.mul_apply, Matrix.one_apply] at this
  have i2 : ∀ i j, ∑ k, M i k * invM k j = if i = j then 1 else 0 := by
    intro i j
    have := congrFun (congrFun hinv2 i) j
    rwa [Matrix.mul_apply, Matrix.one_apply] at this
  set Q : Fin m → SF (TX dim) := fun i => ofCons hW hΩ _ (heq i) with hQ
  set J : Fin m → Fin nc → SF (TX dim) := fun i c =>
    ofCons hW hΩ (pd c (S.EQ (Fin.natAdd nc i))) (contDiffOn_pd ho (heq i) c) with hJ
  set sS : Fin m → SF (TX dim) := fun i => ofCons hW hΩ _ (hs i) with hsS
  set ri : Fin m → SF (TX dim) := fun i => ofCons hW hΩ (fun w => (S.s (Fin.natAdd nc i) w)⁻¹)
    ((hs i).inv (hs0 i)) with hri'
  set V : Fin nc → SF (TX dim) := consS hW with hV
  have hri : ∀ i, ri i * sS i = 1 := by
    intro i
    apply evS_ext
    intro p
    rw [map_mul, map_one]
    exact inv_mul_cancel₀ (hs0 i _ (hΩ _ _ _))
  have hder : ∀ v i, derS v (Q i) = ∑ c, J i c * derS v (V c) := fun v i => ofCons_der hW ho hΩ _ (heq i) v
  have hres0 := equation_form S vel la ho heq hs hW hΩ ri hri
  set τ : TX dim := (1, 0) with hτ
  set u := disp la vel with hu
  set Y : Set (TX dim) := {q | q.1 ∈ Θ} with hYdef
  have hY : IsOpen Y := hΘ.preimage continuous_fst
  set D : Fin nc → SF (TX dim) := fun c => derS (0, τ) (V c) - (-genS M invM u (equilS V Q) (Fin.castAdd m c) +
    epsS * -genS M invM u (incS (sigS M invM u V Q J ri)) (Fin.castAdd m c)) with hDdef
  have hpde : ∀ c, derS (0, τ) (V c) = -genS M invM u (equilS V Q) (Fin.castAdd m c) +
      epsS * -genS M invM u (incS (sigS M invM u V Q J ri)) (Fin.castAdd m c) + D c := by
    intro c
    simp only [hDdef]
    ring
  have hD : ∀ c, D c ∈ (flatI Y 2 : Ideal (SF (TX dim))) := by
    intro c
    obtain ⟨ε₁, h1, C, hC⟩ := hsol
    refine flat_two_of_bound (smoothAlg_sm (D c)) h1 (C := C) fun ε h2 h3 q hq => ?_
    have := hres0 c ε q.1 q.2
    change |evS (ε, q.1, q.2) (D c)| ≤ _
    simp only [hDdef]
    rw [this]
    exact hC ε h2 h3 q.1 hq q.2 c
  set μ := mu2S M invM u τ V Q J sS ri with hμ
  have hμl : ∀ c, μ (Fin.castAdd m c) = V c := by
    intro c
    simp only [hμ, mu2S, equilS_left, incS_left, add_zero, mul_zero]
  have hμr : ∀ i, μ (Fin.natAdd nc i) = Q i + epsS * (psiS M invM u V Q J ri i + epsS * psi2S M invM u τ V Q J sS ri i) := by
    intro i
    simp only [hμ, mu2S, equilS_right, incS_right]
  have hstep := step_conserved i1 i2 hder D hpde hY hD (psi2S M invM u τ V Q J sS ri)
  have hother := step_other (s := sS) i1 i2 hder D hpde hY hD hri
  set f : ℝ → ℝ → (Fin dim → ℝ) → Fin (nc + m) → ℝ := fun ε t x k => evS (ε, t, x) (popS invM μ k) with hf
  have hmom : ∀ ε t x r, (S.M *ᵥ f ε t x) r = evS (ε, t, x) (μ r) := by
    intro ε t x r
    rw [← moment_pop M invM i2 μ r, map_sum]
    simp only [map_smul, smul_eq_mul]
    rfl
  -- periods
  have hfper : ∀ ε t, HasPeriods L (f ε t) := by
    intro ε t k x
    funext j
    set a : TX dim := (0, fun i => k i * L i) with ha
    have hc : ∀ (g : (Fin nc → ℝ) → ℝ) (hg : ContDiffOn ℝ ∞ g Ω), transS a (ofCons hW hΩ g hg) = ofCons hW hΩ g hg := by
      intro g hg
      apply evS_ext
      rintro ⟨ε, t, x⟩
      change g (W ε (t + 0) (x + fun i => k i * L i)) = g (W ε t x)
      rw [add_zero]
      exact congrArg g (hper ε t k x)
    have hv : ∀ c, transS a (V c) = V c := by
      intro c
      apply evS_ext
      rintro ⟨ε, t, x⟩
      change W ε (t + 0) (x + fun i => k i * L i) c = W ε t x c
      rw [add_zero]
      exact congrFun (hper ε t k x) c
    have h := mu2S_trans M invM u τ V Q J sS ri a hv (fun i => hc _ _) (fun i c => hc _ _) (fun i => hc _ _) (fun i => hc _ _)
    have h2 : transS a (popS invM μ j) = popS invM μ j := by
      rw [transS_pop]
      congr 1
      funext r
      exact h r
    have h3 := congrArg (evS (ε, t, x)) h2
    rw [evS_trans] at h3
    simp only [hf]
    rw [← h3]
    have e : ((ε, t, fun i => x i + k i * L i) : ℝ × TX dim) = (ε, (t, x) + a) :=
      Prod.ext rfl (Prod.ext (add_zero t).symm rfl)
    rw [e]
  refine ⟨f, ?_, hfper, ?_, ?_, ?_⟩
  · exact contDiff_pi.2 fun k => smoothAlg_cd (popS invM μ k)
  · intro ε t x b
    rw [hmom, hcons, hμl]
    rfl
  · intro t x i
    rw [hmom]
    refine Fin.addCases (fun c => ?_) (fun i => ?_) i
    · rw [hμl, ← hcons, hEQ]
      rfl
    · rw [hμr, map_add, map_mul, evS_eps, zero_mul, add_zero]
      rfl
  · intro T₀ T hT
    -- the residuals of the moments
    set a : Fin nc → ℝ × TX dim → ℝ := fun c p => evS p (moveS M invM u μ (Fin.castAdd m c)) with ha
    set b : Fin nc → ℝ × TX dim → ℝ := fun c p => evS p (shiftS τ (V c)) with hb
    have hflat : ∀ c, Flat Y 3 fun p => a c p - b c p := fun c => hstep c
    have hbΩ : ∀ p, (fun c => b c p) ∈ Ω := fun p => hΩ _ _ _
    have iB : Inside Ω b := ⟨fun c => smoothAlg_sm (shiftS τ (V c)), fun q => hbΩ _⟩
    have iA : Inside Ω a := by
      refine ⟨fun c => smoothAlg_sm (moveS M invM u μ (Fin.castAdd m c)), fun q => ?_⟩
      have : (fun c => a c (0, q)) = fun c => b c (0, q) := by
        funext c
        have h6 := (moveS_three (Q := Set.univ) M invM u i1 i2 μ (Fin.castAdd m c)).1 q (Set.mem_univ q)
        change evS (0, q) (moveS M invM u μ (Fin.castAdd m c) - _) = 0 at h6
        rw [map_sub, map_add, map_mul, evS_eps, zero_mul, add_zero, sub_eq_zero] at h6
        simp only [ha, hb]
        rw [h6, hμl, evS_shift]
        simp
      rw [this]
      exact hbΩ _
    set res : Fin (nc + m) → ℝ × TX dim → ℝ := Fin.append (fun c p => a c p - b c p) fun i p =>
      (1 - S.s (Fin.natAdd nc i) (fun c => a c p)) * evS p (moveS M invM u μ (Fin.natAdd nc i)) +
        S.s (Fin.natAdd nc i) (fun c => a c p) * S.EQ (Fin.natAdd nc i) (fun c => a c p) -
          evS p (shiftS τ (μ (Fin.natAdd nc i))) with hres
    have sA := fun c => iA.sm c
    have hone : Sm fun _ : ℝ × TX dim => (1 : ℝ) := sm_of_contDiff contDiff_const
    have hressm : ∀ r, Sm (res r) := by
      intro r
      refine Fin.addCases (fun c => ?_) (fun i => ?_) r
      · simp only [hres, Fin.append_left]
        exact (iA.sm c).sub (iB.sm c)
      · simp only [hres, Fin.append_right]
        exact (((hone.sub (iA.comp ho (hs i))).mul (smoothAlg_sm (moveS M invM u μ (Fin.natAdd nc i)))).add
          ((iA.comp ho (hs i)).mul (iA.comp ho (heq i)))).sub (smoothAlg_sm (shiftS τ (μ (Fin.natAdd nc i))))
    have hresflat : ∀ r, Flat Y 3 (res r) := by
      intro r
      refine Fin.addCases (fun c => ?_) (fun i => ?_) r
      · simp only [hres, Fin.append_left]
        exact hflat c
      · simp only [hres, Fin.append_right]
        have g1 : Flat Y 3 _ := hother i
        have g2 := Flat.mul ((iA.comp ho (hs i)).sub (iB.comp ho (hs i)))
          (smoothAlg_sm (shiftS τ (Q i) - moveS M invM u μ (Fin.natAdd nc i))) (flat_comp ho iA iB hflat (hs i))
        have g3 := Flat.mul ((iA.comp ho (heq i)).sub (iB.comp ho (heq i))) (iA.comp ho (hs i))
          (flat_comp ho iA iB hflat (heq i))
        have g4 := Flat.add (smoothAlg_sm _) ((((iA.comp ho (hs i)).sub (iB.comp ho (hs i))).mul
          (smoothAlg_sm (shiftS τ (Q i) - moveS M invM u μ (Fin.natAdd nc i)))).add
          (((iA.comp ho (heq i)).sub (iB.comp ho (heq i))).mul (iA.comp ho (hs i)))) g1
          (Flat.add (((iA.comp ho (hs i)).sub (iB.comp ho (hs i))).mul
          (smoothAlg_sm (shiftS τ (Q i) - moveS M invM u μ (Fin.natAdd nc i))))
          (((iA.comp ho (heq i)).sub (iB.comp ho (heq i))).mul (iA.comp ho (hs i))) g2 g3)
        convert g4 using 1
        funext p
        have e1 : evS p (shiftS τ (μ (Fin.natAdd nc i))) = evS p (shiftS τ (Q i)) +
            evS p (shiftS τ (epsS * (psiS M invM u V Q J ri i + epsS * psi2S M invM u τ V Q J sS ri i))) := by
          rw [hμr, map_add, map_add]
        rw [e1]
        have e2 : S.s (Fin.natAdd nc i) (fun c => b c p) = evS p (shiftS τ (sS i)) := rfl
        have e3 : S.EQ (Fin.natAdd nc i) (fun c => b c p) = evS p (shiftS τ (Q i)) := rfl
        rw [e2, e3]
        have ec : ∀ g : SF (TX dim), (g : ℝ × TX dim → ℝ) p = evS p g := fun _ => rfl
        rw [ec, ec, ← hμ]
        simp only [map_sub, map_mul, map_one]
        ring
    obtain ⟨ε₀, hε₀, C, hC⟩ := flat_bounds res hressm hresflat
      ((isCompact_Icc (a := T₀) (b := T)).prod (isCompact_Icc (a := (0 : Fin dim → ℝ)) (b := L)))
      (fun q hq => hT hq.1)
    refine ⟨ε₀, hε₀, ∑ j, ∑ r, |invM j r| * C, fun ε h0 h1 N hN t ht0 htT y hy j => ?_⟩
    set x : Fin dim → ℝ := fun l => la * ε * y l with hx
    have hb0 : ∀ i, 0 ≤ y i ∧ y i < N i := by
      intro i
      have := Fintype.mem_piFinset.1 hy i
      rwa [Finset.mem_Ico] at this
    have hxK : ((t, x) : TX dim) ∈ Set.Icc T₀ T ×ˢ Set.Icc (0 : Fin dim → ℝ) L := by
      refine ⟨⟨ht0, htT⟩, fun i => ?_, fun i => ?_⟩
      · have : (0 : ℝ) ≤ y i := by exact_mod_cast (hb0 i).1
        simp only [hx, Pi.zero_apply]
        positivity
      · have h2 : (y i : ℝ) ≤ N i := by exact_mod_cast (hb0 i).2.le
        simp only [hx]
        rw [← hN i, mul_comm]
        exact mul_le_mul_of_nonneg_right h2 (by positivity)
    have hCp := hC ε h0.le h1 (t, x) hxK
    set p : ℝ × TX dim := (ε, t, x) with hp
    -- the populations which arrive at the cell
    have hg : (fun k => periodic N (fun z : Cell dim => f ε t fun l => la * ε * z l) (fun i => y i - vel k i) k) =
        fun k => evS p (shiftS (u k) (popS invM μ k)) := by
      funext k
      have e1 : periodic N (fun z : Cell dim => f ε t fun l => la * ε * z l) (fun i => y i - vel k i) =
          f ε t fun l => la * ε * (y l - vel k l : ℤ) := by
        have := hfper ε t (fun l => -((y l - vel k l) / (N l : ℤ))) (fun l => la * ε * (y l - vel k l : ℤ))
        rw [← this]
        change f ε t (fun l => la * ε * (((y l - vel k l) % (N l : ℤ) : ℤ) : ℝ)) = _
        congr 1
        funext l
        rw [← hN l, Int.emod_def]
        push_cast
        ring
      rw [e1, evS_shift]
      have e2 : ((ε, t, fun l => la * ε * ((y l - vel k l : ℤ) : ℝ)) : ℝ × TX dim) = (p.1, p.2 + p.1 • u k) := by
        refine Prod.ext rfl (Prod.ext ?_ ?_)
        · simp [hp, hu, disp]
        · funext l
          simp only [hp, hu, disp, hx, Prod.snd_add, Prod.smul_snd, Pi.add_apply, Pi.smul_apply, smul_eq_mul]
          push_cast
          ring
      simp only [hf]
      rw [e2]
    have hmv : ∀ r, (S.M *ᵥ fun k => evS p (shiftS (u k) (popS invM μ k))) r = evS p (moveS M invM u μ r) := by
      intro r
      rw [moveS, map_sum]
      simp only [map_smul, smul_eq_mul]
      rfl
    have hw : (S.M *ᵥ fun k => evS p (shiftS (u k) (popS invM μ k))) ∘ S.consm = fun c => a c p := by
      funext c
      rw [Function.comp_apply, hmv, hcons]
    -- the collision
    have hcol : ∀ r, relaxed S.consm S.EQ S.s (S.M *ᵥ fun k => evS p (shiftS (u k) (popS invM μ k))) r =
        evS p (shiftS τ (μ r)) + res r p := by
      intro r
      unfold relaxed
      rw [hw, hmv]
      refine Fin.addCases (fun c => ?_) (fun i => ?_) r
      · rw [← hcons c, hEQ, hcons c, hμl]
        simp only [hres, Fin.append_left]
        change (1 - _) * a c p + _ * a c p = b c p + (a c p - b c p)
        ring
      · simp only [hres, Fin.append_right]
        ring
    have htar : f ε (t + ε) x j = ∑ r, invM j r * evS p (shiftS τ (μ r)) := by
      have e3 : ((ε, t + ε, x) : ℝ × TX dim) = (p.1, p.2 + p.1 • τ) := by
        refine Prod.ext rfl (Prod.ext ?_ ?_)
        · simp [hp, hτ]
        · funext l
          simp [hp, hτ]
      simp only [hf, e3, popS, map_sum, map_smul, smul_eq_mul]
      rfl
    have hlhs : lbmStep N vel (collide S alg) (fun _ H => H) t (fun z => f ε t fun l => la * ε * z l) y j =
        ∑ r, invM j r * (evS p (shiftS τ (μ r)) + res r p) := by
      unfold lbmStep
      rw [hg, collide_eq S alg hEQ hS hrel, collision]
      change ∑ r, invM j r * relaxed S.consm S.EQ S.s (S.M *ᵥ fun k => evS p (shiftS (u k) (popS invM μ k))) r = _
      refine Finset.sum_congr rfl fun r _ => ?_
      rw [hcol]
    rw [hlhs, htar, ← Finset.sum_sub_distrib]
    refine (Finset.abs_sum_le_sum_abs _ _).trans ?_
    have h5 : ∀ r, |invM j r * (evS p (shiftS τ (μ r)) + res r p) - invM j r * evS p (shiftS τ (μ r))| ≤
        |invM j r| * C * ε ^ 3 := by
      intro r
      rw [← mul_sub, add_sub_cancel_left, abs_mul, mul_assoc]
      exact mul_le_mul_of_nonneg_left (hCp r) (abs_nonneg _)
    refine (Finset.sum_le_sum fun r _ => h5 r).trans ?_
    rw [← Finset.sum_mul]
    refine mul_le_mul_of_nonneg_right ?_ (by positivity)
    have hC0 : ∀ r : Fin (nc + m), 0 ≤ C := by
      intro r
      have h6 := (abs_nonneg _).trans (hCp r)
      exact nonneg_of_mul_nonneg_left h6 (by positivity)
    exact Finset.single_le_sum (f := fun j => ∑ r, |invM j r| * C)
      (fun j _ => Finset.sum_nonneg fun r _ => mul_nonneg (abs_nonneg _) (hC0 r)) (Finset.mem_univ j)

end Pylbm.Stability
