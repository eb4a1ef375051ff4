import Verif.Stability.Form
import Verif.Stability.Monotone
import Mathlib.Analysis.SpecialFunctions.Exp
/-!
# C67: convergence of nonlinear schemes whose linearised collision is stable
-/
set_option linter.unusedSectionVars false
namespace Pylbm.Stability
open Matrix Sim Scheme Halo SchemeSpec HaloSpec Mpi
open scoped ContDiff

variable {n nc m d dim : Nat}

/-! ## Specification -/

/-- The sum over the cells and the populations of the squares of the differences. -/
def sqgap (N : Fin dim → Nat) (G G' : Arr ℝ n dim) : ℝ := ∑ y ∈ box N, ∑ j, (G y j - G' y j) ^ 2

/-- For each state `w` a positive quadratic form of the populations, without products of populations of different
velocities, which the derivative of the collision at the equilibrium of the state `w` does not increase (the stability
structure of Junk and Yong). -/
structure Structured (S : Kernel ℝ (nc + m) nc d) (alg : Algo) (vel : Fin (nc + m) → Cell dim) (Ω : Set (Fin nc → ℝ))
    (A : (Fin nc → ℝ) → Matrix (Fin (nc + m)) (Fin (nc + m)) ℝ) : Prop where
  smooth : ∀ i j, ContDiffOn ℝ ∞ (fun w => A w i j) Ω
  block : ∀ w ∈ Ω, ∀ i j, vel i ≠ vel j → A w i j = 0
  pos : ∀ w ∈ Ω, ∀ v, v ≠ 0 → 0 < form (A w) v
  le : ∀ w ∈ Ω, ∀ v, form (A w) (fderiv ℝ (collide S alg) (S.invM *ᵥ fun i => S.EQ i w) v) ≤ form (A w) v

/-! ## Helper lemmas -/

theorem sq_sum_le (v : Fin n → ℝ) : ∑ j, v j ^ 2 ≤ n * ‖v‖ ^ 2 := by
  have h1 : ∑ j, v j ^ 2 ≤ ∑ _j : Fin n, ‖v‖ ^ 2 := Finset.sum_le_sum fun j _ => by
    rw [← sq_abs]
    exact pow_le_pow_left₀ (abs_nonneg _) (norm_le_pi_norm v j) 2
  simpa using h1

theorem le_sq_sum (v : Fin n → ℝ) : ‖v‖ ^ 2 ≤ ∑ j, v j ^ 2 := by
  have h0 : 0 ≤ ∑ j, v j ^ 2 := Finset.sum_nonneg fun j _ => sq_nonneg _
  have h1 : ‖v‖ ≤ Real.sqrt (∑ j, v j ^ 2) := by
    rw [pi_norm_le_iff_of_nonneg (Real.sqrt_nonneg _)]
    intro j
    rw [Real.norm_eq_abs]
    exact Real.abs_le_sqrt (Finset.single_le_sum (f := fun j => v j ^ 2) (fun j _ => sq_nonneg _) (Finset.mem_univ j))
  calc ‖v‖ ^ 2 ≤ Real.sqrt (∑ j, v j ^ 2) ^ 2 := pow_le_pow_left₀ (norm_nonneg _) h1 2
    _ = _ := Real.sq_sqrt h0

/-- The populations which arrive at a cell. -/
theorem shift_back {α : Type} {la ε : ℝ} {L : Fin dim → ℝ} {N : Fin dim → Nat} (hN : ∀ i, N i * (la * ε) = L i)
    (g : (Fin dim → ℝ) → α) (hg : HasPeriods L g) (y v : Cell dim) :
    g (fun l => la * ε * (((y l - v l) % (N l : ℤ) : ℤ) : ℝ)) = g fun l => la * ε * y l - la * ε * v l := by
  rw [← hg (fun l => -((y l - v l) / (N l : ℤ))) fun l => la * ε * y l - la * ε * v l]
  congr 1
  funext l
  rw [← hN l, Int.emod_def]
  push_cast
  ring

/-- The collision near the new populations, one cell. -/
theorem form_cell {A : Matrix (Fin n) (Fin n) ℝ} {c C : ℝ} (hc : 0 < c) (hC : 0 < C)
    (hA : ∀ v, c * ‖v‖ ^ 2 ≤ form A v ∧ form A v ≤ C * ‖v‖ ^ 2) {ε η σ τ : ℝ} (h0 : 0 < ε) (h1 : ε ≤ 1) (hη : ε ≤ η)
    (e a s r : Fin n → ℝ) (ha : form A a ≤ form A e) (hs : ‖s‖ ≤ σ * ε * ‖e‖) (hr : ‖r‖ ≤ τ * (ε ^ 2 * η)) :
    form A (fun j => a j + s j + r j) ≤ Real.exp ((2 + 2 * (C * σ ^ 2 / c)) * η) * (form A e + C * τ ^ 2 * (ε ^ 4 * η)) := by
  have hη0 : 0 < η := h0.trans_le hη
  have hpos : ∀ v, 0 ≤ form A v := fun v => le_trans (by positivity) (hA v).1
  have y1 := form_add_le A hpos hη0 (fun j => a j + s j) r
  have y2 := form_add_le A hpos hη0 a s
  set D := C * σ ^ 2 / c with hD
  have hD0 : 0 ≤ D := by positivity
  have he : 0 ≤ form A e := hpos e
  have s1 : form A s ≤ D * ε ^ 2 * form A e := by
    have b1 : ‖s‖ ^ 2 ≤ (σ * ε * ‖e‖) ^ 2 := pow_le_pow_left₀ (norm_nonneg _) hs 2
    have b2 : C * (σ * ε * ‖e‖) ^ 2 = D * ε ^ 2 * (c * ‖e‖ ^ 2) := by
      rw [hD]
      field_simp
    calc form A s ≤ C * ‖s‖ ^ 2 := (hA s).2
      _ ≤ C * (σ * ε * ‖e‖) ^ 2 := mul_le_mul_of_nonneg_left b1 hC.le
      _ = _ := b2
      _ ≤ _ := mul_le_mul_of_nonneg_left (hA e).1 (by positivity)
  have r1 : form A r ≤ C * τ ^ 2 * (ε ^ 4 * η ^ 2) := by
    have b1 : ‖r‖ ^ 2 ≤ (τ * (ε ^ 2 * η)) ^ 2 := pow_le_pow_left₀ (norm_nonneg _) hr 2
    calc form A r ≤ C * ‖r‖ ^ 2 := (hA r).2
      _ ≤ C * (τ * (ε ^ 2 * η)) ^ 2 := mul_le_mul_of_nonneg_left b1 hC.le
      _ = _ := by ring
  have hq : 0 ≤ 1 + 1 / η := by positivity
  have hquot : (1 + 1 / η) * ε ^ 2 ≤ 2 * η := by
    have h2 : ε ^ 2 ≤ ε := by nlinarith
    have h3 : 1 / η * ε ^ 2 ≤ ε := by
      rw [one_div, inv_mul_le_iff₀ hη0]
      nlinarith
    linarith
  have s2 : (1 + 1 / η) * form A s ≤ 2 * D * η * form A e := by
    refine (mul_le_mul_of_nonneg_left s1 hq).trans ?_
    have : (1 + 1 / η) * (D * ε ^ 2 * form A e) = (1 + 1 / η) * ε ^ 2 * (D * form A e) := by ring
    rw [this]
    refine (mul_le_mul_of_nonneg_right hquot (mul_nonneg hD0 he)).trans (le_of_eq ?_)
    ring
  have r2 : (1 + 1 / η) * form A r ≤ (1 + η) * (C * τ ^ 2 * (ε ^ 4 * η)) := by
    refine (mul_le_mul_of_nonneg_left r1 hq).trans (le_of_eq ?_)
    field_simp
    ring
  have y3 : form A (fun j => a j + s j) ≤ (1 + (1 + 2 * D) * η) * form A e := by
    have : (1 + η) * form A a ≤ (1 + η) * form A e := mul_le_mul_of_nonneg_left ha (by positivity)
    linarith
  have hexp : ∀ u : ℝ, 1 + u * η ≤ Real.exp (u * η) := fun u => by
    have := Real.add_one_le_exp (u * η)
    linarith
  have x1 : 1 + η ≤ Real.exp η := by simpa using hexp 1
  have x2 : Real.exp ((2 + 2 * D) * η) = Real.exp η * Real.exp ((1 + 2 * D) * η) := by
    rw [← Real.exp_add]
    congr 1
    ring
  have y4 : (1 + η) * form A (fun j => a j + s j) ≤ Real.exp ((2 + 2 * D) * η) * form A e := by
    rw [x2, mul_assoc]
    refine mul_le_mul x1 (y3.trans (mul_le_mul_of_nonneg_right (hexp _) he)) (hpos _) (Real.exp_pos _).le
  have y5 : (1 + η) * (C * τ ^ 2 * (ε ^ 4 * η)) ≤ Real.exp ((2 + 2 * D) * η) * (C * τ ^ 2 * (ε ^ 4 * η)) := by
    refine mul_le_mul_of_nonneg_right (x1.trans ?_) (by positivity)
    refine Real.exp_le_exp.2 ?_
    nlinarith [mul_nonneg hD0 hη0.le]
  rw [mul_add]
  linarith

/-- The factor for the change of the form. -/
theorem form_change {A B : Matrix (Fin n) (Fin n) ℝ} {c δ : ℝ} (hc : 0 < c) (hA : ∀ v, c * ‖v‖ ^ 2 ≤ form A v)
    (h : ∀ i j, |B i j - A i j| ≤ δ) (hδ : 0 ≤ δ) (v : Fin n → ℝ) : form B v ≤ (1 + n * n * δ / c) * form A v := by
  refine (form_near B A h v).trans ?_
  have : n * n * (δ * ‖v‖ ^ 2) = n * n * δ / c * (c * ‖v‖ ^ 2) := by field_simp
  rw [this, add_mul, one_mul]
  exact add_le_add le_rfl (mul_le_mul_of_nonneg_left (hA v) (by positivity))

set_option maxHeartbeats 1600000 in
/-- Stability and a bound of the truncation error give a bound of the distance from `A`. -/
theorem energy_run (vel : Fin n → Cell dim) (φ : (Fin n → ℝ) → Fin n → ℝ) {U : Set (Fin n → ℝ)} (hU : IsOpen U)
    (hφ : ContDiffOn ℝ ∞ φ U) (la : ℝ) (hla : 0 < la) (L : Fin dim → ℝ) (f : ℝ → (Fin dim → ℝ) → Fin n → ℝ)
    (hf : Continuous fun q : TX dim => f q.1 q.2) (P : ℝ → (Fin dim → ℝ) → Matrix (Fin n) (Fin n) ℝ)
    (hP : ∀ i j, ContDiff ℝ ∞ fun q : TX dim => P q.1 q.2 i j) (hPper : ∀ t, HasPeriods L (P t))
    (hblock : ∀ t x i j, vel i ≠ vel j → P t x i j = 0) (hpos : ∀ t x v, v ≠ 0 → 0 < form (P t x) v)
    (hfU : ∀ t x, f t x ∈ U) (hle : ∀ t x v, form (P t x) (fderiv ℝ φ (f t x) v) ≤ form (P t x) v)
    (T Cc C₁ κ H : ℝ) (hCc0 : 0 ≤ Cc) (hC₁ : 0 ≤ C₁) (hκ : 0 ≤ κ) :
    ∃ ε₀ > 0, ∃ C, 0 ≤ C ∧ ∀ ε, 0 < ε → ε ≤ ε₀ → ∀ N : Fin dim → Nat, (∀ i, N i * (la * ε) = L i) →
      ∀ (η : Nat → ℝ) (A : Nat → Arr ℝ n dim) (G : Arr ℝ n dim) (k : Nat), k * ε ≤ T → (∀ l, l < k → ε ≤ η l) →
      ∑ l ∈ Finset.range k, η l ≤ H →
      (∀ l, l < k → ∀ y ∈ box N, ∀ j, |periodic N (A l) (fun i => y i - vel j i) j - f (l * ε) (fun i => la * ε * y i) j| ≤ Cc * ε) →
      (∀ l, l < k → ∀ y ∈ box N, ∀ j,
        |lbmStep N vel φ (fun _ H => H) (l * ε) (A l) y j - A (l + 1) y j| ≤ C₁ * (ε ^ 2 * η l)) →
      (∀ l, l < k → ∀ y ∈ box N, ∀ j, |lbmRun N vel φ (fun _ H => H) ε G l y j - A l y j| ≤ κ * ε) →
      sqgap N (lbmRun N vel φ (fun _ H => H) ε G k) (A k) ≤ C * (sqgap N G (A 0) + (box N).card * ε ^ 4) := by
  have hK : IsCompact (Set.Icc (0 : ℝ) T ×ˢ Set.Icc (0 : Fin dim → ℝ) L) := isCompact_Icc.prod isCompact_Icc
  set K := Set.Icc (0 : ℝ) T ×ˢ Set.Icc (0 : Fin dim → ℝ) L with hKdef
  -- the constants
  obtain ⟨c, hc, CP, hCP, hcC⟩ := form_bounds hK (P := fun q : TX dim => P q.1 q.2)
    (fun i j => (hP i j).continuous.continuousOn) fun q _ v hv => hpos q.1 q.2 v hv
  have hPs : ∀ (i j : Fin n) (g : ℝ × TX dim → TX dim), ContDiff ℝ ∞ g →
      ContDiff ℝ ∞ fun p : ℝ × TX dim => P (g p).1 (g p).2 i j := fun i j g hg => (hP i j).comp hg
  obtain ⟨ea, hea, Ca, hCa0, hCa⟩ := first_bounds (ι := Fin n × Fin n) (X := TX dim)
    (fun r p => P p.2.1 (fun l => p.2.2 l + la * p.1 * vel r.2 l) r.1 r.2 - P p.2.1 p.2.2 r.1 r.2)
    (fun r => (hPs r.1 r.2 (fun p => (p.2.1, fun l => p.2.2 l + la * p.1 * vel r.2 l)) (by fun_prop)).sub
      (hPs r.1 r.2 (fun p => p.2) (by fun_prop))) (fun r q => by simp) hK
  obtain ⟨eb, heb, Cb, hCb0, hCb⟩ := first_bounds (ι := Fin n × Fin n) (X := TX dim)
    (fun r p => P (p.2.1 + p.1) p.2.2 r.1 r.2 - P p.2.1 p.2.2 r.1 r.2)
    (fun r => (hPs r.1 r.2 (fun p => (p.2.1 + p.1, p.2.2)) (by fun_prop)).sub
      (hPs r.1 r.2 (fun p => p.2) (by fun_prop))) (fun r q => by simp) hK
  obtain ⟨r, hr, B, hB, hlin⟩ := near_linear hU (hK.image hf)
    (by rintro _ ⟨q, _, rfl⟩; exact hfU q.1 q.2) φ hφ
  set σ := B * (Cc + κ) with hσ
  have hσ0 : 0 ≤ σ := by positivity
  set α := n * n * Ca / c with hα
  set β := n * n * Cb / c with hβ
  set γ := 2 + 2 * (CP * σ ^ 2 / c) with hγ
  have hα0 : 0 ≤ α := by positivity
  have hβ0 : 0 ≤ β := by positivity
  have hγ0 : 0 ≤ γ := by positivity
  refine ⟨min (min ea eb) (min 1 (r / (Cc + κ + 1))), ?_,
    n / c * (Real.exp ((α + β + γ) * |H|) * (CP + CP * C₁ ^ 2 * |H|)), by positivity, fun ε h0 h1 N hN η A G => ?_⟩
  · have : 0 < r / (Cc + κ + 1) := by positivity
    simp only [lt_min_iff]
    exact ⟨⟨hea, heb⟩, one_pos, this⟩
  simp only [le_min_iff] at h1
  obtain ⟨⟨h1a, h1b⟩, h1o, h1r⟩ := h1
  have hρr : (Cc + κ) * ε ≤ r := by
    rw [le_div_iff₀ (by positivity)] at h1r
    nlinarith
  set b0 := (box N).card * (CP * C₁ ^ 2 * ε ^ 4) with hb0
  have hb00 : 0 ≤ b0 := by positivity
  set E : Nat → ℝ := fun k => ∑ y ∈ box N, form (P (k * ε) fun l => la * ε * y l)
    (fun j => lbmRun N vel φ (fun _ H => H) ε G k y j - A k y j) with hE
  have hmemK : ∀ k : Nat, k * ε ≤ T → ∀ y ∈ box N, (((k : ℝ) * ε, fun l => la * ε * y l) : TX dim) ∈ K := fun k hk y hy =>
    ⟨⟨by positivity, hk⟩, cell_mem hla h0 hN hy⟩
  -- one step
  have hstep : ∀ k : Nat, (k + 1 : ℕ) * ε ≤ T → ε ≤ η k →
      (∀ y ∈ box N, ∀ j, |periodic N (A k) (fun i => y i - vel j i) j - f (k * ε) (fun i => la * ε * y i) j| ≤ Cc * ε) →
      (∀ y ∈ box N, ∀ j, |lbmStep N vel φ (fun _ H => H) (k * ε) (A k) y j - A (k + 1) y j| ≤ C₁ * (ε ^ 2 * η k)) →
      (∀ y ∈ box N, ∀ j, |lbmRun N vel φ (fun _ H => H) ε G k y j - A k y j| ≤ κ * ε) →
      0 ≤ E k ∧ E (k + 1) ≤ Real.exp ((α + β + γ) * η k) * (E k + b0 * η k) := by
    intro k hk hη hnear hres hsmall
    have hη0 : 0 < η k := h0.trans_le hη
    have hkT : k * ε ≤ T := by
      push_cast at hk
      linarith
    set F := lbmRun N vel φ (fun _ H => H) ε G k with hF
    set e : Arr ℝ n dim := fun z j => F z j - A k z j with he
    have hq : ∀ y ∈ box N, ∀ v, c * ‖v‖ ^ 2 ≤ form (P (k * ε) fun l => la * ε * y l) v ∧
        form (P (k * ε) fun l => la * ε * y l) v ≤ CP * ‖v‖ ^ 2 := fun y hy v => hcC _ (hmemK k hkT y hy) v
    have hexp : ∀ u : ℝ, 0 ≤ u → 1 + u * ε ≤ Real.exp (u * η k) := fun u hu => by
      have := Real.add_one_le_exp (u * η k)
      have := mul_le_mul_of_nonneg_left hη hu
      linarith
    have hcell : ∀ y ∈ box N, form (P ((k + 1 : ℕ) * ε) fun l => la * ε * y l)
        (fun j => lbmRun N vel φ (fun _ H => H) ε G (k + 1) y j - A (k + 1) y j) ≤
        Real.exp (β * η k) * (Real.exp (γ * η k) * (form (P (k * ε) fun l => la * ε * y l)
          (fun j => periodic N e (fun i => y i - vel j i) j) + CP * C₁ ^ 2 * (ε ^ 4 * η k))) := by
      intro y hy
      have ht : ((k + 1 : ℕ) : ℝ) * ε = k * ε + ε := by push_cast; ring
      rw [ht]
      have hqK := hmemK k hkT y hy
      have hch : ∀ v, form (P (k * ε + ε) fun l => la * ε * y l) v ≤ (1 + β * ε) * form (P (k * ε) fun l => la * ε * y l) v := by
        intro v
        have := form_change hc (fun v => (hq y hy v).1) (B := P (k * ε + ε) fun l => la * ε * y l) (δ := Cb * ε)
          (fun i j => hCb ε h0.le h1b _ hqK (i, j)) (by positivity) v
        refine this.trans (le_of_eq ?_)
        rw [hβ]
        ring
      refine (hch _).trans (mul_le_mul (hexp β hβ0) ?_ (le_trans (by positivity) (hq y hy _).1) (Real.exp_pos _).le)
      set x : Fin dim → ℝ := fun l => la * ε * y l with hx
      set g' : Fin n → ℝ := fun j => periodic N (A k) (fun i => y i - vel j i) j with hg'
      set g : Fin n → ℝ := fun j => periodic N F (fun i => y i - vel j i) j with hg
      set et : Fin n → ℝ := fun j => periodic N e (fun i => y i - vel j i) j with het
      have hget : g - g' = et := rfl
      have hsm : ∀ j, |et j| ≤ κ * ε := fun j => hsmall _ (mod_mem_box (box_pos hy) _) j
      have hg'0 : ‖g' - f (k * ε) x‖ ≤ Cc * ε := by
        rw [pi_norm_le_iff_of_nonneg (by positivity)]
        exact hnear y hy
      have het1 : ‖et‖ ≤ κ * ε := by
        rw [pi_norm_le_iff_of_nonneg (by positivity)]
        exact hsm
      have hg0 : ‖g - f (k * ε) x‖ ≤ (Cc + κ) * ε := by
        have : g - f (k * ε) x = (g' - f (k * ε) x) + et := by rw [← hget]; abel
        rw [this]
        refine (norm_add_le _ _).trans ?_
        linarith
      have hl := hlin (f (k * ε) x) ⟨_, hqK, rfl⟩ ((Cc + κ) * ε) hρr g g' hg0
        (hg'0.trans (mul_le_mul_of_nonneg_right (by linarith) h0.le))
      rw [hget] at hl
      set a := fderiv ℝ φ (f (k * ε) x) et with ha
      have hfin := form_cell hc hCP (hq y hy) h0 h1o hη (σ := σ) (τ := C₁) et a (φ g - φ g' - a)
        (fun j => φ g' j - A (k + 1) y j) (hle _ _ _) (by
          refine hl.trans (le_of_eq ?_)
          rw [hσ]
          ring) (by
          rw [pi_norm_le_iff_of_nonneg (by positivity)]
          exact hres y hy)
      refine le_trans (le_of_eq ?_) hfin
      congr 1
      funext j
      simp only [Pi.sub_apply]
      change φ g j - _ = _
      ring
    have htrans := form_transport hN vel (P (k * ε)) (hPper _) (hblock _) (δ := Ca * ε)
      (fun z hz i j => hCa ε h0.le h1a _ (hmemK k hkT z hz) (i, j)) e
    have htrans2 : ∑ y ∈ box N, form (P (k * ε) fun l => la * ε * y l) (fun j => periodic N e (fun i => y i - vel j i) j) ≤
        (1 + α * ε) * E k := by
      refine htrans.trans ?_
      simp only [hE]
      rw [Finset.mul_sum]
      refine Finset.sum_le_sum fun y hy => ?_
      have h2 := (hq y hy (e y)).1
      have h3 : n * n * (Ca * ε * ‖e y‖ ^ 2) = α * ε * (c * ‖e y‖ ^ 2) := by
        rw [hα]
        field_simp
      rw [h3, add_mul, one_mul]
      exact add_le_add le_rfl (mul_le_mul_of_nonneg_left h2 (by positivity))
    have hEk : 0 ≤ E k := Finset.sum_nonneg fun y hy => le_trans (by positivity) (hq y hy _).1
    refine ⟨hEk, ?_⟩
    have hsum : E (k + 1) ≤ Real.exp (β * η k) * (Real.exp (γ * η k) * ((1 + α * ε) * E k + b0 * η k)) := by
      have h2 := Finset.sum_le_sum hcell
      rw [← Finset.mul_sum, ← Finset.mul_sum, Finset.sum_add_distrib, Finset.sum_const, nsmul_eq_mul] at h2
      refine h2.trans (mul_le_mul_of_nonneg_left (mul_le_mul_of_nonneg_left ?_ (Real.exp_pos _).le) (Real.exp_pos _).le)
      refine add_le_add htrans2 (le_of_eq ?_)
      rw [hb0]
      ring
    refine hsum.trans ?_
    have hsplit : Real.exp ((α + β + γ) * η k) = Real.exp (β * η k) * (Real.exp (γ * η k) * Real.exp (α * η k)) := by
      rw [← Real.exp_add, ← Real.exp_add]
      congr 1
      ring
    rw [hsplit, mul_assoc (Real.exp (β * η k)), mul_assoc (Real.exp (γ * η k))]
    refine mul_le_mul_of_nonneg_left (mul_le_mul_of_nonneg_left ?_ (Real.exp_pos _).le) (Real.exp_pos _).le
    rw [mul_add]
    refine add_le_add (mul_le_mul_of_nonneg_right (hexp α hα0) hEk) ?_
    have h2 : 1 ≤ Real.exp (α * η k) := Real.one_le_exp (by positivity)
    exact le_mul_of_one_le_left (by positivity) h2
  -- all the steps
  intro k hkT hηk hH hnear hres hsmall
  have hT0 : 0 ≤ T := le_trans (by positivity) hkT
  have hsumη : ∀ l, l ≤ k → 0 ≤ ∑ i ∈ Finset.range l, η i := fun l hl => Finset.sum_nonneg fun i hi =>
    h0.le.trans (hηk i (by have := Finset.mem_range.1 hi; omega))
  have hrun : ∀ l : Nat, l ≤ k → E l ≤ Real.exp ((α + β + γ) * ∑ i ∈ Finset.range l, η i) *
      (E 0 + b0 * ∑ i ∈ Finset.range l, η i) := by
    intro l
    induction l with
    | zero => intro _; simp
    | succ l ih =>
      intro hl
      have hlT : (l + 1 : ℕ) * ε ≤ T := le_trans (mul_le_mul_of_nonneg_right (by exact_mod_cast hl) h0.le) hkT
      have hηl := hηk l (by omega)
      refine (hstep l hlT hηl (hnear l (by omega)) (hres l (by omega)) (hsmall l (by omega))).2.trans ?_
      have h2 := ih (by omega)
      rw [Finset.sum_range_succ]
      set Sl := ∑ i ∈ Finset.range l, η i with hSl
      have hSl0 := hsumη l (by omega)
      have hq1 : 1 ≤ Real.exp ((α + β + γ) * Sl) := Real.one_le_exp (by positivity)
      rw [show (α + β + γ) * (Sl + η l) = (α + β + γ) * η l + (α + β + γ) * Sl by ring, Real.exp_add,
        mul_assoc (Real.exp ((α + β + γ) * η l))]
      refine mul_le_mul_of_nonneg_left ?_ (Real.exp_pos _).le
      have h3 : 0 ≤ b0 * η l := mul_nonneg hb00 (h0.le.trans hηl)
      have h4 := le_mul_of_one_le_left h3 hq1
      have h5 : Real.exp ((α + β + γ) * Sl) * (E 0 + b0 * (Sl + η l)) =
          Real.exp ((α + β + γ) * Sl) * (E 0 + b0 * Sl) + Real.exp ((α + β + γ) * Sl) * (b0 * η l) := by ring
      rw [h5]
      exact add_le_add h2 h4
  have hk := hrun k le_rfl
  have hHa : ∑ i ∈ Finset.range k, η i ≤ |H| := hH.trans (le_abs_self H)
  have hpow : Real.exp ((α + β + γ) * ∑ i ∈ Finset.range k, η i) ≤ Real.exp ((α + β + γ) * |H|) :=
    Real.exp_le_exp.2 (mul_le_mul_of_nonneg_left hHa (by positivity))
  have hE0 : E 0 ≤ CP * sqgap N G (A 0) := by
    simp only [hE, sqgap]
    rw [Finset.mul_sum]
    refine Finset.sum_le_sum fun y hy => ?_
    have h2 := (hcC _ (hmemK 0 (by simpa using hT0) y hy) (fun j => G y j - A 0 y j)).2
    exact h2.trans (mul_le_mul_of_nonneg_left (le_sq_sum _) hCP.le)
  have hkb : b0 * ∑ i ∈ Finset.range k, η i ≤ CP * C₁ ^ 2 * |H| * ((box N).card * ε ^ 4) := by
    refine (mul_le_mul_of_nonneg_left hHa hb00).trans (le_of_eq ?_)
    rw [hb0]
    ring
  have hgap : sqgap N (lbmRun N vel φ (fun _ H => H) ε G k) (A k) ≤ n / c * E k := by
    simp only [hE, sqgap]
    rw [Finset.mul_sum]
    refine Finset.sum_le_sum fun y hy => ?_
    have h2 := (hcC _ (hmemK k hkT y hy) (fun j => lbmRun N vel φ (fun _ H => H) ε G k y j - A k y j)).1
    have h3 := sq_sum_le (fun j => lbmRun N vel φ (fun _ H => H) ε G k y j - A k y j)
    refine h3.trans ?_
    rw [div_mul_eq_mul_div, le_div_iff₀ hc, mul_assoc]
    refine mul_le_mul_of_nonneg_left ?_ (by positivity)
    rw [mul_comm]
    exact h2
  have hs0 : 0 ≤ sqgap N G (A 0) := Finset.sum_nonneg fun y _ => Finset.sum_nonneg fun j _ => sq_nonneg _
  set s0 := sqgap N G (A 0) with hs0d
  refine hgap.trans ?_
  rw [mul_assoc, mul_assoc]
  refine mul_le_mul_of_nonneg_left ?_ (by positivity)
  have hsumpos : 0 ≤ E 0 + b0 * ∑ i ∈ Finset.range k, η i := by
    have : 0 ≤ E 0 := Finset.sum_nonneg fun y hy =>
      le_trans (by positivity) (hcC _ (hmemK 0 (by simpa using hT0) y hy) _).1
    exact add_nonneg this (mul_nonneg hb00 (hsumη k le_rfl))
  refine hk.trans ?_
  refine mul_le_mul hpow ?_ hsumpos (Real.exp_pos _).le
  have hcard : 0 ≤ (box N).card * ε ^ 4 := by positivity
  set w4 := (box N).card * ε ^ 4 with hw4
  have hc1 : 0 ≤ CP * C₁ ^ 2 * |H| := by positivity
  nlinarith [mul_nonneg hc1 hs0, mul_nonneg hCP.le hcard]

/-- The collision is smooth where the equilibria and the relaxation parameters are. -/
theorem collide_smooth (S : Kernel ℝ (nc + m) nc d) (alg : Algo) (hfront : ∀ j, (S.consm j : Nat) = j)
    (hEQ : ∀ j w, S.EQ (S.consm j) w = w j) (hS : ∀ i, S.source i = none) (hrel : S.relVel = none) (Ω : Set (Fin nc → ℝ))
    (heq : ∀ i : Fin m, ContDiffOn ℝ ∞ (S.EQ (Fin.natAdd nc i)) Ω)
    (hs : ∀ i : Fin m, ContDiffOn ℝ ∞ (S.s (Fin.natAdd nc i)) Ω) :
    ContDiffOn ℝ ∞ (collide S alg) {g | (fun j => (S.M *ᵥ g) (S.consm j)) ∈ Ω} := by
  have hcons : ∀ j, S.consm j = Fin.castAdd m j := fun j => Fin.ext (hfront j)
  have hmom : ∀ r, ContDiff ℝ ∞ fun g : Fin (nc + m) → ℝ => (S.M *ᵥ g) r := by
    intro r
    simp only [Matrix.mulVec, dotProduct]
    fun_prop
  have hw : ContDiff ℝ ∞ fun g : Fin (nc + m) → ℝ => fun j => (S.M *ᵥ g) (S.consm j) := contDiff_pi.2 fun j => hmom _
  have hrelax : ∀ r, ContDiffOn ℝ ∞ (fun g => relaxed S.consm S.EQ S.s (S.M *ᵥ g) r)
      {g | (fun j => (S.M *ᵥ g) (S.consm j)) ∈ Ω} := by
    intro r
    refine Fin.addCases (fun c => ?_) (fun i => ?_) r
    · have : (fun g => relaxed S.consm S.EQ S.s (S.M *ᵥ g) (Fin.castAdd m c)) = fun g => (S.M *ᵥ g) (Fin.castAdd m c) := by
        funext g
        unfold relaxed
        rw [← hcons c, hEQ, Function.comp_apply]
        ring
      rw [this]
      exact (hmom _).contDiffOn
    · have e1 := (hs i).comp hw.contDiffOn fun g hg => hg
      have e2 := (heq i).comp hw.contDiffOn fun g hg => hg
      exact ((contDiffOn_const.sub e1).mul (hmom _).contDiffOn).add (e1.mul e2)
  have : collide S alg = fun g => fun k => ∑ r, S.invM k r * relaxed S.consm S.EQ S.s (S.M *ᵥ g) r := by
    funext g k
    rw [collide_eq S alg hEQ hS hrel]
    rfl
  rw [this]
  exact contDiffOn_pi.2 fun k => ContDiffOn.sum fun r _ => contDiffOn_const.mul (hrelax r)

/-! ## The theorems -/

/-- **C67, nonlinear equilibria, linearised stability.** In the situation of `C67_truncation` let the derivative of the
collision at the equilibria not increase positive quadratic forms (`Structured`; for the usual schemes this allows the
relaxation parameters up to `2`). Then, as long as the populations stay within `κ ε` of the populations `f`, whose
conserved moments solve the printed equation up to the order `ε ^ 2`, the mean square of the error after `k` steps is at
most `C` times that of the initial error plus `C ε ^ 4`. -/
theorem C67_linear_stability (S : Kernel ℝ (nc + m) nc d) (alg : Algo) (hfront : ∀ j, (S.consm j : Nat) = j)
    (hEQ : ∀ j w, S.EQ (S.consm j) w = w j) (hS : ∀ i, S.source i = none) (hrel : S.relVel = none)
    (hinv : S.invM * S.M = 1) (Ω : Set (Fin nc → ℝ)) (ho : IsOpen Ω)
    (heq : ∀ i : Fin m, ContDiffOn ℝ ∞ (S.EQ (Fin.natAdd nc i)) Ω)
    (hs : ∀ i : Fin m, ContDiffOn ℝ ∞ (S.s (Fin.natAdd nc i)) Ω)
    (hs0 : ∀ (i : Fin m) (w), w ∈ Ω → S.s (Fin.natAdd nc i) w ≠ 0)
    (vel : Fin (nc + m) → Cell dim) (la : ℝ) (hla : 0 < la) (L : Fin dim → ℝ)
    (W : ℝ → ℝ → (Fin dim → ℝ) → Fin nc → ℝ) (hW : SmoothIn W) (hΩ : ∀ ε t x, W ε t x ∈ Ω)
    (hper : ∀ ε t, HasPeriods L (W ε t)) (Θ : Set ℝ) (hΘ : IsOpen Θ) (hsol : SolvesPrinted S vel la Θ W)
    (A : (Fin nc → ℝ) → Matrix (Fin (nc + m)) (Fin (nc + m)) ℝ) (hA : Structured S alg vel Ω A) :
    ∃ f : ℝ → ℝ → (Fin dim → ℝ) → Fin (nc + m) → ℝ, SmoothIn f ∧
      (∀ ε t x b, (S.M *ᵥ f ε t x) (S.consm b) = W ε t x b) ∧ (∀ t x i, (S.M *ᵥ f 0 t x) i = S.EQ i (W 0 t x)) ∧
      ∀ T, Set.Icc 0 T ⊆ Θ → ∀ κ : ℝ, 0 ≤ κ → ∃ ε₀ > 0, ∃ C, 0 ≤ C ∧ ∀ ε, 0 < ε → ε ≤ ε₀ → ∀ N : Fin dim → Nat,
        (∀ i, N i * (la * ε) = L i) → ∀ (G : Arr ℝ (nc + m) dim) (k : Nat), k * ε ≤ T →
          (∀ l, l < k → ∀ y ∈ box N, ∀ j, |lbmRun N vel (collide S alg) (fun _ H => H) ε G l y j -
            f ε (l * ε) (fun i => la * ε * y i) j| ≤ κ * ε) →
          sqgap N (lbmRun N vel (collide S alg) (fun _ H => H) ε G k) (fun y => f ε (k * ε) fun l => la * ε * y l) ≤
            C * (sqgap N G (fun y => f ε 0 fun l => la * ε * y l) + (box N).card * ε ^ 4) := by
  obtain ⟨f, hf, hfp, hfW, hf0, hstep⟩ := C67_truncation S alg hfront hEQ hS hrel hinv Ω ho heq hs hs0 vel la hla L W hW
    hΩ hper Θ hΘ hsol
  refine ⟨f, hf, hfW, hf0, fun T hT κ hκ => ?_⟩
  obtain ⟨e1, he1, C, hC⟩ := hstep 0 T hT
  have hf00 : ∀ t x, f 0 t x = S.invM *ᵥ fun i => S.EQ i (W 0 t x) := by
    intro t x
    have : (fun i => S.EQ i (W 0 t x)) = S.M *ᵥ f 0 t x := funext fun i => (hf0 t x i).symm
    rw [this, Matrix.mulVec_mulVec, hinv, Matrix.one_mulVec]
  have hopen : IsOpen {g : Fin (nc + m) → ℝ | (fun j => (S.M *ᵥ g) (S.consm j)) ∈ Ω} := by
    refine ho.preimage (continuous_pi fun j => ?_)
    simp only [Matrix.mulVec, dotProduct]
    fun_prop
  have hW0 : ContDiff ℝ ∞ fun q : TX dim => W 0 q.1 q.2 :=
    ContDiff.comp (g := fun p : ℝ × TX dim => W p.1 p.2.1 p.2.2) hW
      (f := fun q : TX dim => ((0 : ℝ), q.1, q.2)) (by fun_prop)
  have hfj : ∀ j, ContDiff ℝ ∞ fun p : ℝ × TX dim => f p.1 p.2.1 p.2.2 j := contDiff_pi.1 hf
  have hf0c : Continuous fun q : TX dim => f 0 q.1 q.2 :=
    hf.continuous.comp (f := fun q : TX dim => ((0 : ℝ), q.1, q.2)) (by fun_prop)
  obtain ⟨ec, hec, Cc, hCc0, hCc⟩ := first_bounds (ι := Fin (nc + m)) (X := TX dim)
    (fun j p => f p.1 p.2.1 (fun l => p.2.2 l - la * p.1 * vel j l) j - f 0 p.2.1 p.2.2 j)
    (fun j => ((hfj j).comp (g := fun p : ℝ × TX dim => f p.1 p.2.1 p.2.2 j)
      (f := fun p : ℝ × TX dim => (p.1, p.2.1, fun l => p.2.2 l - la * p.1 * vel j l)) (by fun_prop)).sub
      ((hfj j).comp (g := fun p : ℝ × TX dim => f p.1 p.2.1 p.2.2 j)
        (f := fun p : ℝ × TX dim => ((0 : ℝ), p.2.1, p.2.2)) (by fun_prop))) (fun j q => by simp)
    (K := Set.Icc (0 : ℝ) T ×ˢ Set.Icc (0 : Fin dim → ℝ) L) (isCompact_Icc.prod isCompact_Icc)
  obtain ⟨e2, he2, C', hC'0, hC'⟩ := energy_run vel (collide S alg) hopen (collide_smooth S alg hfront hEQ hS hrel Ω heq hs) la hla L
    (f 0) hf0c (fun t x => A (W 0 t x)) (fun i j => contDiff_iff_contDiffAt.2 fun q =>
      ContDiffAt.comp q ((hA.smooth i j).contDiffAt (ho.mem_nhds (hΩ 0 q.1 q.2))) hW0.contDiffAt) (fun t k x => by
      beta_reduce
      rw [hper 0 t k x]) (fun t x => hA.block _ (hΩ 0 t x)) (fun t x => hA.pos _ (hΩ 0 t x))
    (fun t x => by
      rw [Set.mem_ofPred_eq]
      simp only [hfW]
      exact hΩ 0 t x) (fun t x v => by
      rw [hf00]
      exact hA.le _ (hΩ 0 t x) v) T Cc |C| κ T hCc0 (abs_nonneg C) hκ
  refine ⟨min (min e1 ec) e2, lt_min (lt_min he1 hec) he2, C', hC'0, fun ε h0 h1 N hN G k hkT hsmall => ?_⟩
  simp only [le_min_iff] at h1
  obtain ⟨⟨h1a, h1c⟩, h12⟩ := h1
  have htime : ∀ l : Nat, l < k → 0 ≤ (l : ℝ) * ε ∧ (l : ℝ) * ε ≤ T := fun l hl =>
    ⟨by positivity, le_trans (mul_le_mul_of_nonneg_right (by exact_mod_cast hl.le) h0.le) hkT⟩
  have h := hC' ε h0 h12 N hN (fun _ => ε) (fun l y => f ε (l * ε) fun i => la * ε * y i) G k hkT (fun _ _ => le_rfl)
    (by simpa using hkT) (fun l hl y hy j => ?_) (fun l hl y hy j => ?_) hsmall
  · have e0 : ((0 : Nat) : ℝ) * ε = 0 := by simp
    beta_reduce at h
    rwa [e0] at h
  · have h3 : periodic N (fun y : Cell dim => f ε (l * ε) fun i => la * ε * y i) (fun i => y i - vel j i) j =
        f ε (l * ε) (fun i => la * ε * y i - la * ε * vel j i) j :=
      congrFun (shift_back hN (f ε (l * ε)) (hfp ε (l * ε)) y (vel j)) j
    rw [h3]
    exact hCc ε h0.le h1c (l * ε, fun i => la * ε * y i) ⟨htime l hl, cell_mem hla h0 hN hy⟩ j
  · have e3 : (((l + 1 : Nat) : ℝ)) * ε = l * ε + ε := by push_cast; ring
    rw [e3]
    refine (hC ε h0 h1a N hN (l * ε) (htime l hl).1 (htime l hl).2 y hy j).trans ?_
    rw [show ε ^ 2 * ε = ε ^ 3 by ring]
    exact mul_le_mul_of_nonneg_right (le_abs_self C) (by positivity)

/-- **C67, nonlinear equilibria in one dimension.** In the situation of `C67_linear_stability` and in dimension one the
scheme converges with order two: if the mean square of the initial error is at most `D ε ^ 4` then that of the error stays
below `C ε ^ 4`, until the time `T`, and the error is in every cell at most `ε`. -/
theorem C67_one_dimension (S : Kernel ℝ (nc + m) nc d) (alg : Algo) (hfront : ∀ j, (S.consm j : Nat) = j)
    (hEQ : ∀ j w, S.EQ (S.consm j) w = w j) (hS : ∀ i, S.source i = none) (hrel : S.relVel = none)
    (hinv : S.invM * S.M = 1) (Ω : Set (Fin nc → ℝ)) (ho : IsOpen Ω)
    (heq : ∀ i : Fin m, ContDiffOn ℝ ∞ (S.EQ (Fin.natAdd nc i)) Ω)
    (hs : ∀ i : Fin m, ContDiffOn ℝ ∞ (S.s (Fin.natAdd nc i)) Ω)
    (hs0 : ∀ (i : Fin m) (w), w ∈ Ω → S.s (Fin.natAdd nc i) w ≠ 0)
    (vel : Fin (nc + m) → Cell 1) (la : ℝ) (hla : 0 < la) (L : Fin 1 → ℝ)
    (W : ℝ → ℝ → (Fin 1 → ℝ) → Fin nc → ℝ) (hW : SmoothIn W) (hΩ : ∀ ε t x, W ε t x ∈ Ω)
    (hper : ∀ ε t, HasPeriods L (W ε t)) (Θ : Set ℝ) (hΘ : IsOpen Θ) (hsol : SolvesPrinted S vel la Θ W)
    (A : (Fin nc → ℝ) → Matrix (Fin (nc + m)) (Fin (nc + m)) ℝ) (hA : Structured S alg vel Ω A) :
    ∃ f : ℝ → ℝ → (Fin 1 → ℝ) → Fin (nc + m) → ℝ, SmoothIn f ∧
      (∀ ε t x b, (S.M *ᵥ f ε t x) (S.consm b) = W ε t x b) ∧ (∀ t x i, (S.M *ᵥ f 0 t x) i = S.EQ i (W 0 t x)) ∧
      ∀ T, Set.Icc 0 T ⊆ Θ → ∀ D : ℝ, ∃ ε₀ > 0, ∃ C, ∀ ε, 0 < ε → ε ≤ ε₀ → ∀ N : Fin 1 → Nat, (∀ i, N i * (la * ε) = L i) →
        ∀ G : Arr ℝ (nc + m) 1, sqgap N G (fun y => f ε 0 fun l => la * ε * y l) ≤ D * ((box N).card * ε ^ 4) →
          ∀ k : Nat, k * ε ≤ T →
            sqgap N (lbmRun N vel (collide S alg) (fun _ H => H) ε G k) (fun y => f ε (k * ε) fun l => la * ε * y l) ≤
              C * ((box N).card * ε ^ 4) ∧
            ∀ y ∈ box N, ∀ j, |lbmRun N vel (collide S alg) (fun _ H => H) ε G k y j - f ε (k * ε) (fun i => la * ε * y i) j| ≤ ε := by
  obtain ⟨f, hf, hfW, hf0, hrun⟩ := C67_linear_stability S alg hfront hEQ hS hrel hinv Ω ho heq hs hs0 vel la hla L W hW
    hΩ hper Θ hΘ hsol A hA
  refine ⟨f, hf, hfW, hf0, fun T hT D => ?_⟩
  obtain ⟨e1, he1, C, hC0, hC⟩ := hrun T hT 1 zero_le_one
  set C' := C * (|D| + 1) with hC'
  have hC'0 : 0 ≤ C' := by positivity
  have hV0 : 0 ≤ C' * (|L 0| / la) := by positivity
  refine ⟨min e1 (1 / (C' * (|L 0| / la) + 1)), lt_min he1 (by positivity), C', fun ε h0 h1 N hN G hG k => ?_⟩
  rw [le_min_iff] at h1
  obtain ⟨h1a, h1b⟩ := h1
  have hcard : ((box N).card : ℝ) * ε ≤ |L 0| / la := by
    have : (box N).card = N 0 := by simp [box]
    rw [this, le_div_iff₀ hla]
    refine le_trans (le_of_eq ?_) (le_abs_self _)
    rw [← hN 0]
    ring
  have hsmall : C' * ((box N).card * ε ^ 4) ≤ ε ^ 2 := by
    have h2 : C' * (|L 0| / la) * ε ≤ 1 := by
      rw [le_div_iff₀ (by positivity)] at h1b
      nlinarith
    calc C' * ((box N).card * ε ^ 4) = C' * ((box N).card * ε) * ε * ε ^ 2 := by ring
      _ ≤ C' * (|L 0| / la) * ε * ε ^ 2 := by gcongr
      _ ≤ 1 * ε ^ 2 := mul_le_mul_of_nonneg_right h2 (by positivity)
      _ = ε ^ 2 := one_mul _
  induction k using Nat.strong_induction_on with
  | _ k ih =>
    intro hkT
    have hprev : ∀ l, l < k → ∀ y ∈ box N, ∀ j, |lbmRun N vel (collide S alg) (fun _ H => H) ε G l y j -
        f ε (l * ε) (fun i => la * ε * y i) j| ≤ 1 * ε := by
      intro l hl y hy j
      rw [one_mul]
      exact (ih l hl (le_trans (mul_le_mul_of_nonneg_right (by exact_mod_cast hl.le) h0.le) hkT)).2 y hy j
    have hgap : sqgap N (lbmRun N vel (collide S alg) (fun _ H => H) ε G k) (fun y => f ε (k * ε) fun l => la * ε * y l) ≤
        C' * ((box N).card * ε ^ 4) := by
      refine (hC ε h0 h1a N hN G k hkT hprev).trans ?_
      rw [hC', mul_assoc]
      refine mul_le_mul_of_nonneg_left ?_ hC0
      have h4 : 0 ≤ ((box N).card : ℝ) * ε ^ 4 := by positivity
      have := mul_le_mul_of_nonneg_right (le_abs_self D) h4
      linarith
    refine ⟨hgap, fun y hy j => ?_⟩
    have h5 : (lbmRun N vel (collide S alg) (fun _ H => H) ε G k y j - f ε (k * ε) (fun i => la * ε * y i) j) ^ 2 ≤ ε ^ 2 := by
      refine le_trans ?_ (hgap.trans hsmall)
      refine le_trans ?_ (Finset.single_le_sum (f := fun y => ∑ j, (lbmRun N vel (collide S alg) (fun _ H => H) ε G k y j -
        f ε (k * ε) (fun l => la * ε * y l) j) ^ 2) (fun y _ => Finset.sum_nonneg fun j _ => sq_nonneg _) hy)
      exact Finset.single_le_sum (f := fun j => (lbmRun N vel (collide S alg) (fun _ H => H) ε G k y j -
        f ε (k * ε) (fun l => la * ε * y l) j) ^ 2) (fun j _ => sq_nonneg _) (Finset.mem_univ j)
    exact abs_le_of_sq_le_sq h5 h0.le

end Pylbm.Stability
