import Verif.Stability.Layer
import Verif.Stability.Monotone
/-!
# C67: second order for runs which are started at equilibrium
-/
set_option linter.unusedSectionVars false
namespace Pylbm.Stability
open Matrix Sim Scheme Halo SchemeSpec HaloSpec Mpi
open scoped ContDiff

variable {n nc m d dim : Nat}

/-! ## Helper lemmas -/

theorem gap_run_sum {N : Fin dim → Nat} {I : Fin n → Set ℝ} {φ : (Fin n → ℝ) → Fin n → ℝ} (h : Contracts I φ)
    (vel : Fin n → Cell dim) (ε : ℝ) (c : Nat → ℝ) (A : Nat → Arr ℝ n dim) {G : Arr ℝ n dim}
    (hG : ∀ y ∈ box N, Within I (G y)) (k : Nat) (hA : ∀ l, l < k → ∀ y ∈ box N, Within I (A l y))
    (hr : ∀ l, l < k → ∀ y ∈ box N, ∀ j, |lbmStep N vel φ (fun _ H => H) (l * ε) (A l) y j - A (l + 1) y j| ≤ c l) :
    (∀ y ∈ box N, Within I (lbmRun N vel φ (fun _ H => H) ε G k y)) ∧
      gap N (lbmRun N vel φ (fun _ H => H) ε G k) (A k) ≤ gap N G (A 0) + (box N).card * (n * ∑ l ∈ Finset.range k, c l) := by
  induction k with
  | zero => exact ⟨hG, by simp [lbmRun]⟩
  | succ k ih =>
    obtain ⟨h1, h2⟩ := ih (fun l hl => hA l (by omega)) fun l hl => hr l (by omega)
    refine ⟨within_step h vel _ h1, ?_⟩
    have h3 := gap_triangle (N := N) (lbmRun N vel φ (fun _ H => H) ε G (k + 1))
      (lbmStep N vel φ (fun _ H => H) (k * ε) (A k)) (A (k + 1))
    have h4 : gap N (lbmRun N vel φ (fun _ H => H) ε G (k + 1)) (lbmStep N vel φ (fun _ H => H) (k * ε) (A k)) ≤
        gap N (lbmRun N vel φ (fun _ H => H) ε G k) (A k) := gap_step h vel _ h1 (hA k (by omega))
    have h5 := gap_le (N := N) _ _ fun y hy j => hr k (by omega) y hy j
    rw [Finset.sum_range_succ]
    have h6 : ((box N).card : ℝ) * (n * (∑ l ∈ Finset.range k, c l + c k)) =
      (box N).card * (n * ∑ l ∈ Finset.range k, c l) + (box N).card * (n * c k) := by ring
    linarith

/-- Populations near a compact set of populations within open intervals. -/
theorem within_near {K : Set (Fin n → ℝ)} (hK : IsCompact K) {I : Fin n → Set ℝ} (hI : ∀ j, IsOpen (I j))
    (h : ∀ p ∈ K, Within I p) : ∃ r > 0, ∀ p ∈ K, ∀ g : Fin n → ℝ, (∀ j, |g j - p j| ≤ r) → Within I g := by
  obtain ⟨r, hr, hsub⟩ := hK.exists_cthickening_subset_open (isOpen_set_pi Set.finite_univ fun j _ => hI j)
    (fun p hp j _ => h p hp j)
  refine ⟨r, hr, fun p hp g hg j => ?_⟩
  refine hsub (Metric.mem_cthickening_of_dist_le g p r K hp ?_) j trivial
  rw [dist_eq_norm, pi_norm_le_iff_of_nonneg hr.le]
  exact hg

/-! ## The theorems -/

/-- **C67, second order from an equilibrium start, contracting collisions.** In the situation of `C67_start_at_equilibrium`
let the relaxation parameters be between `0` and `2`. A run which is started at the equilibrium of the moments `W` converges
with order two: the mean error of the conserved moments is at most `C ε ^ 2`. (The initial error of order `ε` of the other
moments decreases geometrically.) -/
theorem C67_equilibrium_second_order (S : Kernel ℝ (nc + m) nc d) (alg : Algo) (hfront : ∀ j, (S.consm j : Nat) = j)
    (hEQ : ∀ j w, S.EQ (S.consm j) w = w j) (hS : ∀ i, S.source i = none) (hrel : S.relVel = none)
    (hinv : S.invM * S.M = 1) (Ω : Set (Fin nc → ℝ)) (ho : IsOpen Ω)
    (heq : ∀ i : Fin m, ContDiffOn ℝ ∞ (S.EQ (Fin.natAdd nc i)) Ω)
    (hs : ∀ i : Fin m, ContDiffOn ℝ ∞ (S.s (Fin.natAdd nc i)) Ω)
    (hs0 : ∀ (i : Fin m) (w), w ∈ Ω → 0 < S.s (Fin.natAdd nc i) w ∧ S.s (Fin.natAdd nc i) w < 2)
    (vel : Fin (nc + m) → Cell dim) (la : ℝ) (hla : 0 < la) (L : Fin dim → ℝ)
    (W : ℝ → ℝ → (Fin dim → ℝ) → Fin nc → ℝ) (hW : SmoothIn W) (hΩ : ∀ ε t x, W ε t x ∈ Ω)
    (hper : ∀ ε t, HasPeriods L (W ε t)) (Θ : Set ℝ) (hΘ : IsOpen Θ) (hsol : SolvesPrinted S vel la Θ W)
    (I : Fin (nc + m) → Set ℝ) (hI : ∀ j, IsOpen (I j)) (hφ : Contracts I (collide S alg))
    (hWI : ∀ t ∈ Θ, ∀ x, Within I (S.invM *ᵥ fun i => S.EQ i (W 0 t x))) (T : ℝ) (hT0 : 0 ≤ T)
    (hT : Set.Icc 0 T ⊆ Θ) : ∃ ε₀ > 0, ∃ C, ∀ ε, 0 < ε → ε ≤ ε₀ → ∀ N : Fin dim → Nat, (∀ i, N i * (la * ε) = L i) → ∀ k : Nat, k * ε ≤ T →
      ∀ b, ∑ y ∈ box N, |(S.M *ᵥ lbmRun N vel (collide S alg) (fun _ H => H) ε
          (fun y => S.invM *ᵥ fun i => S.EQ i (W ε 0 fun l => la * ε * y l)) k y) (S.consm b) -
            W ε (k * ε) (fun l => la * ε * y l) b| ≤ (box N).card * (C * ε ^ 2) := by
  obtain ⟨f, lay, hf, hfW, hf0, hlay0, θ, hθ0, hθ1, e1, he1, C, hC0, hC⟩ := layer S alg hfront hEQ hS hrel hinv Ω ho heq hs
    (fun i w hw => (hs0 i w hw).1.ne') vel la hla L W hW hΩ hper Θ hΘ hsol (fun i x => by
      have := hs0 i _ (hΩ 0 0 x)
      rw [abs_lt]
      constructor <;> linarith) T hT
  obtain ⟨H, hH⟩ := layer_sum hθ0 hθ1
  have hf0c : Continuous fun q : TX dim => f 0 q.1 q.2 :=
    hf.continuous.comp (f := fun q : TX dim => ((0 : ℝ), q.1, q.2)) (by fun_prop)
  have hK : IsCompact (Set.Icc (0 : ℝ) T ×ˢ Set.Icc (0 : Fin dim → ℝ) L) := isCompact_Icc.prod isCompact_Icc
  obtain ⟨r, hr, hnear⟩ := within_near (hK.image hf0c) hI (by
    rintro _ ⟨q, hq, rfl⟩
    beta_reduce
    rw [hf0]
    exact hWI _ (hT hq.1) _)
  set B : ℝ := ∑ b : Fin nc, ∑ j, |S.M (S.consm b) j| with hB
  have hB0 : 0 ≤ B := Finset.sum_nonneg fun b _ => Finset.sum_nonneg fun j _ => abs_nonneg _
  refine ⟨min (min e1 1) (r / (2 * C + 1)), lt_min (lt_min he1 one_pos) (by positivity), B * ((nc + m : ℕ) * (C + C * (T + H))),
    fun ε h0 h1 N hN k hk b => ?_⟩
  simp only [le_min_iff] at h1
  obtain ⟨⟨h11, h1o⟩, h1r⟩ := h1
  rw [le_div_iff₀ (by positivity)] at h1r
  have hCr : C * ε ≤ r := by nlinarith
  have hC2r : C * ε ^ 2 + C * ε ≤ r := by
    have : C * ε ^ 2 ≤ C * ε := mul_le_mul_of_nonneg_left (by nlinarith) hC0
    nlinarith
  obtain ⟨hstart, hrun⟩ := hC ε h0 h11 N hN
  set G : Arr ℝ (nc + m) dim := fun y => S.invM *ᵥ fun i => S.EQ i (W ε 0 fun l => la * ε * y l) with hG
  have hl : ∀ l, l ≤ k → (l : ℝ) * ε ≤ T := fun l hl =>
    le_trans (mul_le_mul_of_nonneg_right (by exact_mod_cast hl) h0.le) hk
  have hmem : ∀ l, l ≤ k → ∀ y ∈ box N, f 0 (l * ε) (fun i => la * ε * y i) ∈
      (fun q : TX dim => f 0 q.1 q.2) '' (Set.Icc (0 : ℝ) T ×ˢ Set.Icc (0 : Fin dim → ℝ) L) := fun l hlk y hy =>
    ⟨(l * ε, fun i => la * ε * y i), ⟨⟨by positivity, hl l hlk⟩, cell_mem hla h0 hN hy⟩, rfl⟩
  have hGI : ∀ y ∈ box N, Within I (G y) := fun y hy => by
    refine hnear _ (hmem 0 (Nat.zero_le _) y hy) _ fun j => ?_
    have a1 := hstart y hy j
    have a2 := (hrun 0 (by simpa using hT0) y hy j).1
    refine (abs_sub_le _ (withLayer f lay la ε 0 y j) _).trans ?_
    linarith
  obtain ⟨_, hgap⟩ := gap_run_sum hφ vel ε (fun l => C * (ε ^ 2 * (ε + (1 + l) * θ ^ l))) (withLayer f lay la ε) hGI k
    (fun l hlk y hy => hnear _ (hmem l hlk.le y hy) _ fun j => ((hrun l (hl l hlk.le) y hy j).1).trans hCr)
    (fun l hlk y hy j => (hrun l (hl l hlk.le) y hy j).2.2)
  have hinit : gap N G (withLayer f lay la ε 0) ≤ (box N).card * ((nc + m : ℕ) * (C * ε ^ 2)) := gap_le _ _ hstart
  have hsum : ∑ l ∈ Finset.range k, C * (ε ^ 2 * (ε + (1 + l) * θ ^ l)) ≤ C * (T + H) * ε ^ 2 := by
    rw [← Finset.mul_sum, ← Finset.mul_sum, Finset.sum_add_distrib, Finset.sum_const, Finset.card_range, nsmul_eq_mul]
    have a1 : (k : ℝ) * ε + ∑ l ∈ Finset.range k, (1 + (l : ℝ)) * θ ^ l ≤ T + H := add_le_add hk (hH k)
    have a2 := mul_le_mul_of_nonneg_left a1 (by positivity : 0 ≤ C * ε ^ 2)
    linarith
  set F := lbmRun N vel (collide S alg) (fun _ H => H) ε G k with hF
  have hA : ∀ y b, (S.M *ᵥ withLayer f lay la ε k y) (S.consm b) = W ε (k * ε) (fun l => la * ε * y l) b := by
    intro y b
    have e1 : withLayer f lay la ε k y = f ε (k * ε) (fun i => la * ε * y i) + ε • lay k (fun i => la * ε * y i) := rfl
    rw [e1, Matrix.mulVec_add, Matrix.mulVec_smul, Pi.add_apply, Pi.smul_apply, hlay0, smul_zero, add_zero, hfW]
  have h5 : ∑ y ∈ box N, |(S.M *ᵥ F y) (S.consm b) - W ε (k * ε) (fun l => la * ε * y l) b| ≤
      B * gap N F (withLayer f lay la ε k) := by
    unfold gap
    rw [Finset.mul_sum]
    refine Finset.sum_le_sum fun y _ => ?_
    rw [← hA]
    simp only [Matrix.mulVec, dotProduct]
    rw [← Finset.sum_sub_distrib, Finset.mul_sum]
    refine (Finset.abs_sum_le_sum_abs _ _).trans (Finset.sum_le_sum fun j _ => ?_)
    rw [← mul_sub, abs_mul]
    refine mul_le_mul_of_nonneg_right ?_ (abs_nonneg _)
    refine (Finset.single_le_sum (f := fun j => |S.M (S.consm b) j|) (fun j _ => abs_nonneg _) (Finset.mem_univ j)).trans ?_
    exact Finset.single_le_sum (f := fun b => ∑ j, |S.M (S.consm b) j|)
      (fun b _ => Finset.sum_nonneg fun j _ => abs_nonneg _) (Finset.mem_univ b)
  refine h5.trans ?_
  have hn0 : (0 : ℝ) ≤ (nc + m : ℕ) := Nat.cast_nonneg _
  have hc0 : (0 : ℝ) ≤ (box N).card := Nat.cast_nonneg _
  have h7 : gap N F (withLayer f lay la ε k) ≤ (box N).card * ((nc + m : ℕ) * (C * ε ^ 2)) +
      (box N).card * ((nc + m : ℕ) * (C * (T + H) * ε ^ 2)) :=
    hgap.trans (add_le_add hinit (mul_le_mul_of_nonneg_left (mul_le_mul_of_nonneg_left hsum hn0) hc0))
  refine (mul_le_mul_of_nonneg_left h7 hB0).trans (le_of_eq ?_)
  ring

/-- **C67, second order from an equilibrium start in one dimension.** In the situation of `C67_one_dimension` let the
relaxation parameters be between `0` and `2`. A run which is started at the equilibrium of the moments `W` converges with
order two: the mean square of the error of the conserved moments is at most `C ε ^ 4`. -/
theorem C67_equilibrium_second_order_one_dimension (S : Kernel ℝ (nc + m) nc d) (alg : Algo) (hfront : ∀ j, (S.consm j : Nat) = j)
    (hEQ : ∀ j w, S.EQ (S.consm j) w = w j) (hS : ∀ i, S.source i = none) (hrel : S.relVel = none)
    (hinv : S.invM * S.M = 1) (Ω : Set (Fin nc → ℝ)) (ho : IsOpen Ω)
    (heq : ∀ i : Fin m, ContDiffOn ℝ ∞ (S.EQ (Fin.natAdd nc i)) Ω)
    (hs : ∀ i : Fin m, ContDiffOn ℝ ∞ (S.s (Fin.natAdd nc i)) Ω)
    (hs0 : ∀ (i : Fin m) (w), w ∈ Ω → 0 < S.s (Fin.natAdd nc i) w ∧ S.s (Fin.natAdd nc i) w < 2)
    (vel : Fin (nc + m) → Cell 1) (la : ℝ) (hla : 0 < la) (L : Fin 1 → ℝ)
    (W : ℝ → ℝ → (Fin 1 → ℝ) → Fin nc → ℝ) (hW : SmoothIn W) (hΩ : ∀ ε t x, W ε t x ∈ Ω)
    (hper : ∀ ε t, HasPeriods L (W ε t)) (Θ : Set ℝ) (hΘ : IsOpen Θ) (hsol : SolvesPrinted S vel la Θ W)
    (A : (Fin nc → ℝ) → Matrix (Fin (nc + m)) (Fin (nc + m)) ℝ) (hA : Structured S alg vel Ω A) (T : ℝ)
    (hT : Set.Icc 0 T ⊆ Θ) : ∃ ε₀ > 0, ∃ C, ∀ ε, 0 < ε → ε ≤ ε₀ → ∀ N : Fin 1 → Nat, (∀ i, N i * (la * ε) = L i) → ∀ k : Nat, k * ε ≤ T →
      ∀ b, ∑ y ∈ box N, ((S.M *ᵥ lbmRun N vel (collide S alg) (fun _ H => H) ε
          (fun y => S.invM *ᵥ fun i => S.EQ i (W ε 0 fun l => la * ε * y l)) k y) (S.consm b) -
            W ε (k * ε) (fun l => la * ε * y l) b) ^ 2 ≤ (box N).card * (C * ε ^ 4) := by
  obtain ⟨f, lay, hf, hfW, hf0, hlay0, θ, hθ0, hθ1, e1, he1, C, hC0, hC⟩ := layer S alg hfront hEQ hS hrel hinv Ω ho heq hs
    (fun i w hw => (hs0 i w hw).1.ne') vel la hla L W hW hΩ hper Θ hΘ hsol (fun i x => by
      have := hs0 i _ (hΩ 0 0 x)
      rw [abs_lt]
      constructor <;> linarith) T hT
  obtain ⟨H, hH⟩ := layer_sum hθ0 hθ1
  have hf0c : Continuous fun q : TX 1 => f 0 q.1 q.2 :=
    hf.continuous.comp (f := fun q : TX 1 => ((0 : ℝ), q.1, q.2)) (by fun_prop)
  have hW0 : ContDiff ℝ ∞ fun q : TX 1 => W 0 q.1 q.2 :=
    ContDiff.comp (g := fun p : ℝ × TX 1 => W p.1 p.2.1 p.2.2) hW
      (f := fun q : TX 1 => ((0 : ℝ), q.1, q.2)) (by fun_prop)
  have hopen : IsOpen {g : Fin (nc + m) → ℝ | (fun j => (S.M *ᵥ g) (S.consm j)) ∈ Ω} := by
    refine ho.preimage (continuous_pi fun j => ?_)
    simp only [Matrix.mulVec, dotProduct]
    fun_prop
  obtain ⟨e2, he2, C', hC'0, hC'⟩ := energy_run vel (collide S alg) hopen (collide_smooth S alg hfront hEQ hS hrel Ω heq hs) la hla L
    (f 0) hf0c (fun t x => A (W 0 t x)) (fun i j => contDiff_iff_contDiffAt.2 fun q =>
      ContDiffAt.comp q ((hA.smooth i j).contDiffAt (ho.mem_nhds (hΩ 0 q.1 q.2))) hW0.contDiffAt) (fun t k x => by
      beta_reduce
      rw [hper 0 t k x]) (fun t x => hA.block _ (hΩ 0 t x)) (fun t x => hA.pos _ (hΩ 0 t x))
    (fun t x => by
      rw [Set.mem_ofPred_eq]
      simp only [hfW]
      exact hΩ 0 t x) (fun t x v => by
      rw [hf0]
      exact hA.le _ (hΩ 0 t x) v) T C C 1 (T + H) hC0 hC0 zero_le_one
  set D := C' * ((nc + m : ℕ) * C ^ 2 + 1) with hD
  have hD0 : 0 ≤ D := by positivity
  have hV0 : 0 ≤ D * (|L 0| / la) := by positivity
  set B : ℝ := ∑ b : Fin nc, ∑ j, S.M (S.consm b) j ^ 2 with hB
  have hB0 : 0 ≤ B := Finset.sum_nonneg fun b _ => Finset.sum_nonneg fun j _ => sq_nonneg _
  refine ⟨min (min e1 e2) (1 / (D * (|L 0| / la) + 1)), lt_min (lt_min he1 he2) (by positivity), B * D,
    fun ε h0 h1 N hN k hk b => ?_⟩
  simp only [le_min_iff] at h1
  obtain ⟨⟨h11, h12⟩, h1b⟩ := h1
  obtain ⟨hstart, hrun⟩ := hC ε h0 h11 N hN
  set G : Arr ℝ (nc + m) 1 := fun y => S.invM *ᵥ fun i => S.EQ i (W ε 0 fun l => la * ε * y l) with hG
  have hcard : ((box N).card : ℝ) * ε ≤ |L 0| / la := by
    have : (box N).card = N 0 := by simp [box]
    rw [this, le_div_iff₀ hla]
    refine le_trans (le_of_eq ?_) (le_abs_self _)
    rw [← hN 0]
    ring
  have hsmall : D * ((box N).card * ε ^ 4) ≤ ε ^ 2 := by
    have h2 : D * (|L 0| / la) * ε ≤ 1 := by
      rw [le_div_iff₀ (by positivity)] at h1b
      nlinarith
    calc D * ((box N).card * ε ^ 4) = D * ((box N).card * ε) * ε * ε ^ 2 := by ring
      _ ≤ D * (|L 0| / la) * ε * ε ^ 2 := by gcongr
      _ ≤ 1 * ε ^ 2 := mul_le_mul_of_nonneg_right h2 (by positivity)
      _ = ε ^ 2 := one_mul _
  have hinit : sqgap N G (withLayer f lay la ε 0) ≤ (nc + m : ℕ) * C ^ 2 * ((box N).card * ε ^ 4) := by
    unfold sqgap
    have a1 : ∀ y ∈ box N, ∀ j ∈ (Finset.univ : Finset (Fin (nc + m))), (G y j - withLayer f lay la ε 0 y j) ^ 2 ≤ (C * ε ^ 2) ^ 2 :=
      fun y hy j _ => sq_le_sq' (abs_le.1 (hstart y hy j)).1 (abs_le.1 (hstart y hy j)).2
    refine (Finset.sum_le_sum fun y hy => Finset.sum_le_sum (a1 y hy)).trans (le_of_eq ?_)
    simp only [Finset.sum_const, Finset.card_univ, Fintype.card_fin, nsmul_eq_mul]
    ring
  have hmain : ∀ k : Nat, k * ε ≤ T →
      sqgap N (lbmRun N vel (collide S alg) (fun _ H => H) ε G k) (withLayer f lay la ε k) ≤ D * ((box N).card * ε ^ 4) ∧
      ∀ y ∈ box N, ∀ j, |lbmRun N vel (collide S alg) (fun _ H => H) ε G k y j - withLayer f lay la ε k y j| ≤ 1 * ε := by
    intro k
    induction k using Nat.strong_induction_on with
    | _ k ih =>
      intro hkT
      have hl : ∀ l, l < k → (l : ℝ) * ε ≤ T := fun l hl =>
        le_trans (mul_le_mul_of_nonneg_right (by exact_mod_cast hl.le) h0.le) hkT
      have hgap : sqgap N (lbmRun N vel (collide S alg) (fun _ H => H) ε G k) (withLayer f lay la ε k) ≤
          D * ((box N).card * ε ^ 4) := by
        refine (hC' ε h0 h12 N hN (fun l => ε + (1 + l) * θ ^ l) (withLayer f lay la ε) G k hkT
          (fun l _ => by
            have : 0 ≤ (1 + (l : ℝ)) * θ ^ l := by positivity
            linarith)
          (by
            rw [Finset.sum_add_distrib, Finset.sum_const, Finset.card_range, nsmul_eq_mul]
            exact add_le_add hkT (hH k))
          (fun l hlk y hy j => (hrun l (hl l hlk) y hy j).2.1) (fun l hlk y hy j => (hrun l (hl l hlk) y hy j).2.2)
          (fun l hlk y hy j => (ih l hlk (hl l hlk)).2 y hy j)).trans ?_
        rw [hD, mul_assoc]
        refine mul_le_mul_of_nonneg_left ?_ hC'0
        rw [add_mul, one_mul]
        linarith
      refine ⟨hgap, fun y hy j => ?_⟩
      have h5 : (lbmRun N vel (collide S alg) (fun _ H => H) ε G k y j - withLayer f lay la ε k y j) ^ 2 ≤ ε ^ 2 := by
        refine le_trans ?_ (hgap.trans hsmall)
        refine le_trans ?_ (Finset.single_le_sum (f := fun y => ∑ j, (lbmRun N vel (collide S alg) (fun _ H => H) ε G k y j -
          withLayer f lay la ε k y j) ^ 2) (fun y _ => Finset.sum_nonneg fun j _ => sq_nonneg _) hy)
        exact Finset.single_le_sum (f := fun j => (lbmRun N vel (collide S alg) (fun _ H => H) ε G k y j -
          withLayer f lay la ε k y j) ^ 2) (fun j _ => sq_nonneg _) (Finset.mem_univ j)
      rw [one_mul]
      exact abs_le_of_sq_le_sq h5 h0.le
  set F := lbmRun N vel (collide S alg) (fun _ H => H) ε G k with hF
  have hWA : ∀ y b, (S.M *ᵥ withLayer f lay la ε k y) (S.consm b) = W ε (k * ε) (fun l => la * ε * y l) b := by
    intro y b
    have e1 : withLayer f lay la ε k y = f ε (k * ε) (fun i => la * ε * y i) + ε • lay k (fun i => la * ε * y i) := rfl
    rw [e1, Matrix.mulVec_add, Matrix.mulVec_smul, Pi.add_apply, Pi.smul_apply, hlay0, smul_zero, add_zero, hfW]
  have h5 : ∑ y ∈ box N, ((S.M *ᵥ F y) (S.consm b) - W ε (k * ε) (fun l => la * ε * y l) b) ^ 2 ≤
      B * sqgap N F (withLayer f lay la ε k) := by
    unfold sqgap
    rw [Finset.mul_sum]
    refine Finset.sum_le_sum fun y _ => ?_
    rw [← hWA]
    simp only [Matrix.mulVec, dotProduct]
    rw [← Finset.sum_sub_distrib]
    simp only [← mul_sub]
    refine (Finset.sum_mul_sq_le_sq_mul_sq _ _ _).trans ?_
    refine mul_le_mul_of_nonneg_right ?_ (Finset.sum_nonneg fun j _ => sq_nonneg _)
    exact Finset.single_le_sum (f := fun b => ∑ j, S.M (S.consm b) j ^ 2)
      (fun b _ => Finset.sum_nonneg fun j _ => sq_nonneg _) (Finset.mem_univ b)
  refine h5.trans ((mul_le_mul_of_nonneg_left (hmain k hk).1 hB0).trans (le_of_eq ?_))
  ring

end Pylbm.Stability
