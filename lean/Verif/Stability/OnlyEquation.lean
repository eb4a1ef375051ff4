import Verif.Stability.Truncation
import Verif.Stability.FlatConverse
import Mathlib.Analysis.SpecialFunctions.Trigonometric.Deriv
/-!
# C67: the printed equation is the only one with a truncation error of order three
-/
set_option linter.unusedSectionVars false
namespace Pylbm.Stability
open Matrix Sim Scheme Halo SchemeSpec HaloSpec Mpi
open scoped ContDiff

variable {nc m d dim : Nat}

/-! ## Specification -/

/-- One step of the scheme `S` on the whole space commits on the populations `f ε` an error of order `ε ^ 3` for the times
in `J`; the time step is `ε` and the space step `la * ε`. -/
def StepsWithOrder3 (S : Kernel ℝ (nc + m) nc d) (alg : Algo) (vel : Fin (nc + m) → Cell dim) (la : ℝ) (J : Set ℝ)
    (f : ℝ → ℝ → (Fin dim → ℝ) → Fin (nc + m) → ℝ) : Prop :=
  ∃ ε₁ : ℝ, 0 < ε₁ ∧ ∃ C : ℝ, ∀ ε : ℝ, 0 < ε → ε < ε₁ → ∀ t ∈ J, ∀ x j,
    |collide S alg (fun k => f ε t (fun l => x l - la * ε * vel k l) k) j - f ε (t + ε) x j| ≤ C * ε ^ 3

/-- The conserved moments of the populations. -/
def consOf (S : Kernel ℝ (nc + m) nc d) (f : ℝ → ℝ → (Fin dim → ℝ) → Fin (nc + m) → ℝ) (ε t : ℝ) (x : Fin dim → ℝ)
    (b : Fin nc) : ℝ := (S.M *ᵥ f ε t x) (S.consm b)

/-! ## The theorem -/

theorem evS_smul_sum {X : Type} [NormedAddCommGroup X] [NormedSpace ℝ X] {n : Nat} (p : ℝ × X) (c : Fin n → ℝ) (g : Fin n → SF X) :
    evS p (∑ k, c k • g k) = ∑ k, c k * evS p (g k) := by
  rw [map_sum]
  simp only [map_smul, smul_eq_mul]

/-- A position moved by periods into the box of the periods. -/
theorem exists_period {L : Fin dim → ℝ} (hL : ∀ i, 0 < L i) (x : Fin dim → ℝ) :
    ∃ k : Fin dim → ℤ, (fun i => x i + k i * L i) ∈ Set.Icc (0 : Fin dim → ℝ) L := by
  refine ⟨fun i => -⌊x i / L i⌋, fun i => ?_, fun i => ?_⟩
  · have h := Int.floor_le (x i / L i)
    rw [le_div_iff₀ (hL i)] at h
    simp only [Pi.zero_apply]
    push_cast
    linarith
  · have h := (Int.lt_floor_add_one (x i / L i)).le
    rw [div_le_iff₀ (hL i)] at h
    beta_reduce
    push_cast
    linarith

/-- **C67, nonlinear equilibria, converse of the truncation error.** Equilibria and relaxation parameters as in
`C67_truncation`. If one time step commits an error of order `ε ^ 3` on smooth periodic populations `f`, then the conserved
moments of `f` solve the printed equation with `Delta_t = ε` up to the order `ε ^ 2`: no other second order equation has the
property of `C67_truncation`. -/
theorem C67_only_equation (S : Kernel ℝ (nc + m) nc d) (alg : Algo) (hfront : ∀ j, (S.consm j : Nat) = j)
    (hEQ : ∀ j w, S.EQ (S.consm j) w = w j) (hS : ∀ i, S.source i = none) (hrel : S.relVel = none)
    (hinv : S.invM * S.M = 1) (Ω : Set (Fin nc → ℝ)) (ho : IsOpen Ω)
    (heq : ∀ i : Fin m, ContDiffOn ℝ ∞ (S.EQ (Fin.natAdd nc i)) Ω)
    (hs : ∀ i : Fin m, ContDiffOn ℝ ∞ (S.s (Fin.natAdd nc i)) Ω)
    (hs0 : ∀ (i : Fin m) (w), w ∈ Ω → S.s (Fin.natAdd nc i) w ≠ 0)
    (vel : Fin (nc + m) → Cell dim) (la : ℝ) (L : Fin dim → ℝ) (hL : ∀ i, 0 < L i)
    (f : ℝ → ℝ → (Fin dim → ℝ) → Fin (nc + m) → ℝ) (hf : SmoothIn f) (hΩ : ∀ ε t x, consOf S f ε t x ∈ Ω)
    (hper : ∀ ε t, HasPeriods L (f ε t)) (Θ : Set ℝ) (hΘ : IsOpen Θ) (hstep : StepsWithOrder3 S alg vel la Θ f)
    (T₀ T : ℝ) (hT : Set.Icc T₀ T ⊆ Θ) : SolvesPrinted S vel la (Set.Icc T₀ T) (consOf S f) := by
  have hcons : ∀ j, S.consm j = Fin.castAdd m j := fun j => Fin.ext (hfront j)
  have hinv2 : S.M * S.invM = 1 := mul_eq_one_comm.1 hinv
  set M : Fin (nc + m) → Fin (nc + m) → ℝ := fun i j => S.M i j with hM
  set invM : Fin (nc + m) → Fin (nc + m) → ℝ := fun i j => S.invM i j with hinvM
  have i1 : ∀ i j, ∑ k, invM i k * M k j = if i = j then 1 else 0 := by
    intro i j
    have := congrFun (congrFun hinv i) j
    rwa [Matrix.mul_apply, Matrix.one_apply] at this
  have i2 : ∀ i j, ∑ k, M i k * invM k j = if i = j then 1 else 0 := by
    intro i j
    have := congrFun (congrFun hinv2 i) j
    rwa [Matrix.mul_apply, Matrix.one_apply] at this
  -- the populations and the moments
  set fS : Fin (nc + m) → SF (TX dim) := fun k => ⟨fun p => f p.1 p.2.1 p.2.2 k, mem_smooth.2 (contDiff_pi.1 hf k)⟩ with hfS
  have hfe : ∀ ε t x k, evS (ε, t, x) (fS k) = f ε t x k := fun _ _ _ _ => rfl
  set μ : Fin (nc + m) → SF (TX dim) := fun r => ∑ k, M r k • fS k with hμ
  have hpop : ∀ k, popS invM μ k = fS k := by
    intro k
    simp only [hμ, popS, Finset.smul_sum, smul_smul]
    rw [Finset.sum_comm]
    simp only [← Finset.sum_smul]
    simp only [i1, ite_smul, one_smul, zero_smul, Finset.sum_ite_eq, Finset.mem_univ, if_true]
  have hW : SmoothIn (consOf S f) := by
    refine contDiff_pi.2 fun b => ?_
    change ContDiff ℝ ∞ fun p : ℝ × TX dim => ∑ k, S.M (S.consm b) k * f p.1 p.2.1 p.2.2 k
    exact ContDiff.sum fun k _ => contDiff_const.mul (contDiff_pi.1 hf k)
  set Q : Fin m → SF (TX dim) := fun i => ofCons hW hΩ _ (heq i) with hQ
  set J : Fin m → Fin nc → SF (TX dim) := fun i c =>
    ofCons hW hΩ (pd c (S.EQ (Fin.natAdd nc i))) (contDiffOn_pd ho (heq i) c) with hJ
  set sS : Fin m → SF (TX dim) := fun i => ofCons hW hΩ _ (hs i) with hsS
  set ri : Fin m → SF (TX dim) := fun i => ofCons hW hΩ (fun w => (S.s (Fin.natAdd nc i) w)⁻¹)
    ((hs i).inv (hs0 i)) with hri'
  set V : Fin nc → SF (TX dim) := consS hW with hV
  have hri : ∀ i, ri i * sS i = 1 := by
    intro i
    apply evS_ext
    intro p
    rw [map_mul, map_one]
    exact inv_mul_cancel₀ (hs0 i _ (hΩ _ _ _))
  have hder : ∀ v i, derS v (Q i) = ∑ c, J i c * derS v (V c) := fun v i => ofCons_der hW ho hΩ _ (heq i) v
  have hres0 := equation_form S vel la ho heq hs hW hΩ ri hri
  set τ : TX dim := (1, 0) with hτ
  set u := disp la vel with hu
  set Y : Set (TX dim) := {q | q.1 ∈ Θ} with hYdef
  have hY : IsOpen Y := hΘ.preimage continuous_fst
  have hμl : ∀ c, μ (Fin.castAdd m c) = V c := by
    intro c
    apply evS_ext
    intro p
    simp only [hμ]
    rw [evS_smul_sum, ← hcons]
    rfl
  set a : Fin nc → ℝ × TX dim → ℝ := fun c p => evS p (moveS M invM u μ (Fin.castAdd m c)) with ha
  set b : Fin nc → ℝ × TX dim → ℝ := fun c p => evS p (shiftS τ (V c)) with hb
  have hbΩ : ∀ p, (fun c => b c p) ∈ Ω := fun p => hΩ _ _ _
  have iB : Inside Ω b := ⟨fun c => smoothAlg_sm (shiftS τ (V c)), fun q => hbΩ _⟩
  have iA : Inside Ω a := by
    refine ⟨fun c => smoothAlg_sm (moveS M invM u μ (Fin.castAdd m c)), fun q => ?_⟩
    have : (fun c => a c (0, q)) = fun c => b c (0, q) := by
      funext c
      have h6 := (moveS_three (Q := Set.univ) M invM u i1 i2 μ (Fin.castAdd m c)).1 q (Set.mem_univ q)
      change evS (0, q) (moveS M invM u μ (Fin.castAdd m c) - _) = 0 at h6
      rw [map_sub, map_add, map_mul, evS_eps, zero_mul, add_zero, sub_eq_zero] at h6
      simp only [ha, hb]
      rw [h6, hμl, evS_shift]
      simp
    rw [this]
    exact hbΩ _
  -- the error of one step, in moments
  set res : Fin (nc + m) → ℝ × TX dim → ℝ := fun r p =>
    relaxed S.consm S.EQ S.s (fun r => evS p (moveS M invM u μ r)) r - evS p (shiftS τ (μ r)) with hres
  obtain ⟨ε₁, hε₁, C, hC⟩ := hstep
  have hbound : ∀ r ε, 0 < ε → ε < ε₁ → ∀ q ∈ Y, |res r (ε, q)| ≤ (∑ j, |M r j| * C) * ε ^ 3 := by
    intro r ε h0 h1 q hq
    set p : ℝ × TX dim := (ε, q) with hp
    have hg : ∀ k, evS p (shiftS (u k) (popS invM μ k)) = f ε q.1 (fun l => q.2 l - la * ε * vel k l) k := by
      intro k
      rw [hpop, evS_shift]
      have e2 : ((p.1, p.2 + p.1 • u k) : ℝ × TX dim) = (ε, q.1, fun l => q.2 l - la * ε * vel k l) := by
        refine Prod.ext rfl (Prod.ext ?_ ?_)
        · simp [hp, hu, disp]
        · funext l
          simp only [hp, hu, disp, Prod.snd_add, Prod.smul_snd, Pi.add_apply, Pi.smul_apply, smul_eq_mul]
          ring
      rw [e2, hfe]
    have hmv : (S.M *ᵥ fun k => f ε q.1 (fun l => q.2 l - la * ε * vel k l) k) = fun r => evS p (moveS M invM u μ r) := by
      funext r
      rw [moveS, evS_smul_sum]
      simp only [hg]
      rfl
    have hcol : collide S alg (fun k => f ε q.1 (fun l => q.2 l - la * ε * vel k l) k) =
        S.invM *ᵥ relaxed S.consm S.EQ S.s (fun r => evS p (moveS M invM u μ r)) := by
      rw [collide_eq S alg hEQ hS hrel, collision, hmv]
    have hnext : ∀ r, evS p (shiftS τ (μ r)) = (S.M *ᵥ f ε (q.1 + ε) q.2) r := by
      intro r
      have e3 : ((p.1, p.2 + p.1 • τ) : ℝ × TX dim) = (ε, q.1 + ε, q.2) := by
        refine Prod.ext rfl (Prod.ext ?_ ?_)
        · simp [hp, hτ]
        · funext l
          simp [hp, hτ]
      rw [evS_shift, e3]
      simp only [hμ]
      rw [evS_smul_sum]
      rfl
    have hE : res r p = ∑ j, M r j * (collide S alg (fun k => f ε q.1 (fun l => q.2 l - la * ε * vel k l) k) j -
        f ε (q.1 + ε) q.2 j) := by
      simp only [mul_sub, Finset.sum_sub_distrib]
      simp only [hres]
      rw [hnext]
      congr 1
      have : S.M *ᵥ (S.invM *ᵥ relaxed S.consm S.EQ S.s fun r => evS p (moveS M invM u μ r)) =
          relaxed S.consm S.EQ S.s fun r => evS p (moveS M invM u μ r) := by
        rw [Matrix.mulVec_mulVec, hinv2, Matrix.one_mulVec]
      rw [← hcol] at this
      exact (congrFun this r).symm
    rw [hE, Finset.sum_mul]
    refine (Finset.abs_sum_le_sum_abs _ _).trans (Finset.sum_le_sum fun j _ => ?_)
    rw [abs_mul, mul_assoc]
    exact mul_le_mul_of_nonneg_left (hC ε h0 h1 q.1 hq q.2 j) (abs_nonneg _)
  have hw : ∀ p, ((fun r => evS p (moveS M invM u μ r)) ∘ S.consm) = fun c => a c p := by
    intro p
    funext c
    rw [Function.comp_apply, hcons]
  -- the conserved moments
  have h1 : ∀ c, moveS M invM u μ (Fin.castAdd m c) - shiftS τ (V c) ∈ (flatI Y 3 : Ideal (SF (TX dim))) := by
    intro c
    refine flat_three_of_bound (smoothAlg_sm _) hε₁ (C := ∑ j, |M (Fin.castAdd m c) j| * C) fun ε h0 h1 q hq => ?_
    have := hbound (Fin.castAdd m c) ε h0 h1 q hq
    have e : res (Fin.castAdd m c) (ε, q) = evS (ε, q) (moveS M invM u μ (Fin.castAdd m c) - shiftS τ (V c)) := by
      simp only [hres]
      unfold relaxed
      rw [hw, ← hcons c, hEQ, hcons c, hμl, map_sub]
      change (1 - _) * a c (ε, q) + _ * a c (ε, q) - _ = _
      simp only [ha]
      ring
    rw [e] at this
    exact this
  have hflat : ∀ c, Flat Y 3 fun p => a c p - b c p := fun c => h1 c
  -- the other moments
  have h2 : ∀ i, (1 - shiftS τ (sS i)) * (moveS M invM u μ (Fin.natAdd nc i) - shiftS τ (Q i)) -
      shiftS τ (μ (Fin.natAdd nc i) - Q i) ∈ (flatI Y 3 : Ideal (SF (TX dim))) := by
    intro i
    have hone : Sm fun _ : ℝ × TX dim => (1 : ℝ) := sm_of_contDiff contDiff_const
    have hrsm : Sm fun p => (1 - S.s (Fin.natAdd nc i) (fun c => a c p)) * evS p (moveS M invM u μ (Fin.natAdd nc i)) +
        S.s (Fin.natAdd nc i) (fun c => a c p) * S.EQ (Fin.natAdd nc i) (fun c => a c p) -
          evS p (shiftS τ (μ (Fin.natAdd nc i))) :=
      (((hone.sub (iA.comp ho (hs i))).mul (smoothAlg_sm (moveS M invM u μ (Fin.natAdd nc i)))).add
        ((iA.comp ho (hs i)).mul (iA.comp ho (heq i)))).sub (smoothAlg_sm (shiftS τ (μ (Fin.natAdd nc i))))
    have g1 := flat_three_of_bound (Q := Y) hrsm hε₁ (C := ∑ j, |M (Fin.natAdd nc i) j| * C) fun ε h0 h1 q hq => by
      have := hbound (Fin.natAdd nc i) ε h0 h1 q hq
      simp only [hres] at this
      unfold relaxed at this
      rw [hw] at this
      exact this
    have g2 := Flat.mul ((iA.comp ho (hs i)).sub (iB.comp ho (hs i)))
      (smoothAlg_sm (shiftS τ (Q i) - moveS M invM u μ (Fin.natAdd nc i))) (flat_comp ho iA iB hflat (hs i))
    have g3 := Flat.mul ((iA.comp ho (heq i)).sub (iB.comp ho (heq i))) (iA.comp ho (hs i))
      (flat_comp ho iA iB hflat (heq i))
    have g4 := Flat.sub hrsm ((((iA.comp ho (hs i)).sub (iB.comp ho (hs i))).mul
      (smoothAlg_sm (shiftS τ (Q i) - moveS M invM u μ (Fin.natAdd nc i)))).add
      (((iA.comp ho (heq i)).sub (iB.comp ho (heq i))).mul (iA.comp ho (hs i)))) g1
      (Flat.add (((iA.comp ho (hs i)).sub (iB.comp ho (hs i))).mul
      (smoothAlg_sm (shiftS τ (Q i) - moveS M invM u μ (Fin.natAdd nc i))))
      (((iA.comp ho (heq i)).sub (iB.comp ho (heq i))).mul (iA.comp ho (hs i))) g2 g3)
    change Flat Y 3 fun p => evS p ((1 - shiftS τ (sS i)) * (moveS M invM u μ (Fin.natAdd nc i) - shiftS τ (Q i)) -
      shiftS τ (μ (Fin.natAdd nc i) - Q i))
    convert g4 using 1
    funext p
    have e2 : S.s (Fin.natAdd nc i) (fun c => b c p) = evS p (shiftS τ (sS i)) := rfl
    have e3 : S.EQ (Fin.natAdd nc i) (fun c => b c p) = evS p (shiftS τ (Q i)) := rfl
    rw [e2, e3]
    have ec : ∀ g : SF (TX dim), (g : ℝ × TX dim → ℝ) p = evS p g := fun _ => rfl
    rw [ec]
    simp only [map_sub, map_mul, map_one]
    ring
  -- the equation
  have hD := fun c => equation_of_step (s := sS) i1 i2 hder hri hY μ hμl h1 h2 c
  set D : Fin nc → SF (TX dim) := fun c => derS (0, τ) (V c) - (-genS M invM u (equilS V Q) (Fin.castAdd m c) +
    epsS * -genS M invM u (incS (sigS M invM u V Q J ri)) (Fin.castAdd m c)) with hDdef
  obtain ⟨ε₂, hε₂, C', hC'⟩ := flat_bounds (fun c p => evS p (D c)) (fun c => smoothAlg_sm (D c)) hD
    ((isCompact_Icc (a := T₀) (b := T)).prod (isCompact_Icc (a := (0 : Fin dim → ℝ)) (b := L))) (fun q hq => hT hq.1)
  refine ⟨ε₂, hε₂, C', fun ε h0 h1 t ht x c => ?_⟩
  rw [← hres0 c ε t x]
  change |evS (ε, t, x) (D c)| ≤ _
  obtain ⟨k, hk⟩ := exists_period hL x
  -- periods
  have hWper : ∀ ε t x, consOf S f ε t (fun i => x i + k i * L i) = consOf S f ε t x := by
    intro ε t x
    funext b
    simp only [consOf]
    rw [hper ε t k x]
  set z : TX dim := (0, fun i => k i * L i) with hz
  have hc : ∀ (g : (Fin nc → ℝ) → ℝ) (hg : ContDiffOn ℝ ∞ g Ω), transS z (ofCons hW hΩ g hg) = ofCons hW hΩ g hg := by
    intro g hg
    apply evS_ext
    rintro ⟨ε, t, x⟩
    change g (consOf S f ε (t + 0) (x + fun i => k i * L i)) = g (consOf S f ε t x)
    rw [add_zero]
    exact congrArg g (hWper ε t x)
  have hv : ∀ c, transS z (V c) = V c := by
    intro c
    apply evS_ext
    rintro ⟨ε, t, x⟩
    change consOf S f ε (t + 0) (x + fun i => k i * L i) c = consOf S f ε t x c
    rw [add_zero]
    exact congrFun (hWper ε t x) c
  have t1 : ∀ r, transS z (equilS V Q r) = equilS V Q r := fun r =>
    Fin.addCases (fun c => by rw [equilS_left, hv]) (fun i => by rw [equilS_right, hQ, hc]) r
  have t2 : ∀ i, transS z (sigS M invM u V Q J ri i) = sigS M invM u V Q J ri i := by
    intro i
    simp only [sigS, devS, map_sub, map_smul, map_mul, map_add, map_neg, map_sum, transS_gen, t1]
    simp only [hJ, hri', hc]
  have t3 : ∀ r, transS z (incS (nc := nc) (sigS M invM u V Q J ri) r) = incS (sigS M invM u V Q J ri) r := fun r =>
    Fin.addCases (fun c => by rw [incS_left, map_zero]) (fun i => by rw [incS_right, t2]) r
  have t4 : transS z (D c) = D c := by
    simp only [hDdef, map_sub, map_add, map_neg, map_mul, transS_eps, transS_der, transS_gen, t1, t3, hv]
  have h5 := congrArg (evS (ε, t, x)) t4
  rw [evS_trans] at h5
  rw [← h5]
  have e : (((ε, t, x) : ℝ × TX dim).1, ((ε, t, x) : ℝ × TX dim).2 + z) = (ε, t, fun i => x i + k i * L i) :=
    Prod.ext rfl (Prod.ext (add_zero t) rfl)
  rw [e]
  exact hC' ε h0.le h1.le _ ⟨ht, hk⟩ c

/-! ## A case -/

/-- D1Q2 for the transport at the velocity of the scheme, with a relaxation parameter which depends on the solution. -/
noncomputable def carry : Kernel ℝ (1 + 1) 1 0 where
  M := !![1, 1; 1, -1]
  invM := !![1 / 2, 1 / 2; 1 / 2, -1 / 2]
  Tu := fun _ => 1
  Tmu := fun _ => 1
  EQ := ![fun w => w 0, fun w => w 0]
  s := ![fun _ => 0, fun w => 1 / 2 + w 0 ^ 2]
  consm := ![0]
  relVel := none
  source := fun _ => none
  dt := 1

theorem carry_eq (j : Fin 1) (w : Fin 1 → ℝ) : carry.EQ (carry.consm j) w = w j := by
  fin_cases j; rfl

/-- The wave which is carried. -/
noncomputable def carried (_ t : ℝ) (x : Fin 1 → ℝ) : Fin (1 + 1) → ℝ := ![Real.sin (2 * Real.pi * (x 0 - t)), 0]

theorem carry_collide (r : ℝ) : collide carry .pull ![r, 0] = ![r, 0] := by
  rw [collide_eq carry .pull carry_eq (fun _ => rfl) rfl, collision]
  funext i
  fin_cases i <;>
  · simp [relaxed, carry, Matrix.mulVec, dotProduct, Fin.sum_univ_two, Function.comp]
    try ring

/-- The hypotheses of `C67_only_equation` hold for a wave carried by the scheme. -/
example : SolvesPrinted carry (fun j _ => ![1, -1] j) 1 (Set.Icc 0 1) (consOf carry carried) := by
  refine C67_only_equation carry .pull (by intro j; fin_cases j; rfl) carry_eq (fun _ => rfl) rfl ?_ Set.univ isOpen_univ
    ?_ ?_ ?_ _ 1 (fun _ => 1) (fun _ => one_pos) carried ?_ (fun _ _ _ => Set.mem_univ _) ?_ Set.univ isOpen_univ
    ⟨1, one_pos, 0, fun ε _ _ t _ x j => ?_⟩ 0 1 (Set.subset_univ _)
  · ext i j
    fin_cases i <;> fin_cases j <;> simp [carry, Matrix.mul_apply, Fin.sum_univ_two] <;> norm_num
  · intro i
    fin_cases i
    change ContDiffOn ℝ ∞ (fun w : Fin 1 → ℝ => w 0) _
    exact (contDiff_apply ℝ ℝ (0 : Fin 1)).contDiffOn
  · intro i
    fin_cases i
    change ContDiffOn ℝ ∞ (fun w : Fin 1 → ℝ => 1 / 2 + w 0 ^ 2) _
    exact (contDiff_const.add ((contDiff_apply ℝ ℝ (0 : Fin 1)).pow 2)).contDiffOn
  · intro i w _
    fin_cases i
    change (1 / 2 + w 0 ^ 2 : ℝ) ≠ 0
    positivity
  · refine contDiff_pi.2 fun j => ?_
    fin_cases j
    · change ContDiff ℝ ∞ fun p : ℝ × ℝ × (Fin 1 → ℝ) => Real.sin (2 * Real.pi * (p.2.2 0 - p.2.1))
      fun_prop
    · exact contDiff_const
  · intro ε t k x
    have : 2 * Real.pi * (x 0 + k 0 * 1 - t) = 2 * Real.pi * (x 0 - t) + k 0 * (2 * Real.pi) := by ring
    simp only [carried, this, Real.sin_add_int_mul_two_pi]
  · have e : (fun k => carried ε t (fun l => x l - 1 * ε * ((![1, -1] k : ℤ) : ℝ)) k) =
        ![Real.sin (2 * Real.pi * (x 0 - (t + ε))), 0] := by
      funext k
      fin_cases k
      · simp only [carried, Fin.zero_eta, Matrix.cons_val_zero]
        congr 2
        push_cast
        ring
      · rfl
    rw [e, carry_collide]
    simp [carried]

end Pylbm.Stability
