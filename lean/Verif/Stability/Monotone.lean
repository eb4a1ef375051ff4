import Verif.Stability.Truncation
import Verif.Sim.Mass
/-!
# C67: convergence of nonlinear schemes whose collision does not increase distances
-/
set_option linter.unusedSectionVars false
namespace Pylbm.Stability
open Matrix Sim Scheme Halo SchemeSpec HaloSpec Mpi
open scoped ContDiff

variable {nc m d dim : Nat}

/-! ## Specification -/

/-- The sum over the cells of the distances of the populations. -/
def gap {n : Nat} (N : Fin dim → Nat) (G G' : Arr ℝ n dim) : ℝ := ∑ y ∈ box N, ∑ j, |G y j - G' y j|

/-- The populations of a cell lie in the intervals `I`. -/
def Within {n : Nat} (I : Fin n → Set ℝ) (g : Fin n → ℝ) : Prop := ∀ j, g j ∈ I j

/-- The map `φ` leaves the intervals `I` invariant and does not increase the distance of populations within them. -/
structure Contracts {n : Nat} (I : Fin n → Set ℝ) (φ : (Fin n → ℝ) → Fin n → ℝ) : Prop where
  maps : ∀ g, Within I g → Within I (φ g)
  le : ∀ g g', Within I g → Within I g' → ∑ j, |φ g j - φ g' j| ≤ ∑ j, |g j - g' j|

/-! ## Helper lemmas -/

section Gap
variable {n : Nat} {N : Fin dim → Nat}

theorem gap_triangle (G G' G'' : Arr ℝ n dim) : gap N G G'' ≤ gap N G G' + gap N G' G'' := by
  unfold gap
  rw [← Finset.sum_add_distrib]
  refine Finset.sum_le_sum fun y _ => ?_
  rw [← Finset.sum_add_distrib]
  exact Finset.sum_le_sum fun j _ => abs_sub_le _ _ _

theorem gap_le (G G' : Arr ℝ n dim) {c : ℝ} (h : ∀ y ∈ box N, ∀ j, |G y j - G' y j| ≤ c) :
    gap N G G' ≤ (box N).card * (n * c) := by
  unfold gap
  refine (Finset.sum_le_sum fun y hy => Finset.sum_le_sum fun j _ => h y hy j).trans (le_of_eq ?_)
  simp

theorem box_pos {y : Cell dim} (hy : y ∈ box N) : ∀ i, 0 < N i := by
  intro i
  have := (mem_box N y).1 hy i
  omega

theorem within_step {I : Fin n → Set ℝ} {φ : (Fin n → ℝ) → Fin n → ℝ} (h : Contracts I φ) (vel : Fin n → Cell dim)
    (t : ℝ) {G : Arr ℝ n dim} (hG : ∀ y ∈ box N, Within I (G y)) :
    ∀ y ∈ box N, Within I (lbmStep N vel φ (fun _ H => H) t G y) := by
  intro y hy
  exact h.maps _ fun j => hG _ (mod_mem_box (box_pos hy) _) j

theorem gap_step {I : Fin n → Set ℝ} {φ : (Fin n → ℝ) → Fin n → ℝ} (h : Contracts I φ) (vel : Fin n → Cell dim)
    (t : ℝ) {G G' : Arr ℝ n dim} (hG : ∀ y ∈ box N, Within I (G y)) (hG' : ∀ y ∈ box N, Within I (G' y)) :
    gap N (lbmStep N vel φ (fun _ H => H) t G) (lbmStep N vel φ (fun _ H => H) t G') ≤ gap N G G' := by
  have h1 : gap N (lbmStep N vel φ (fun _ H => H) t G) (lbmStep N vel φ (fun _ H => H) t G') ≤
      ∑ y ∈ box N, ∑ j, periodic N (fun z => fun j => |G z j - G' z j|) (fun i => y i - vel j i) j := by
    refine Finset.sum_le_sum fun y hy => ?_
    exact h.le _ _ (fun j => hG _ (mod_mem_box (box_pos hy) _) j) (fun j => hG' _ (mod_mem_box (box_pos hy) _) j)
  refine h1.trans (le_of_eq ?_)
  rw [Finset.sum_comm]
  unfold gap
  rw [Finset.sum_comm (s := box N)]
  refine Finset.sum_congr rfl fun j _ => ?_
  exact sum_torus N (vel j) fun z => |G z j - G' z j|

/-- Stability and a bound of the truncation error give a bound of the error. -/
theorem gap_run {I : Fin n → Set ℝ} {φ : (Fin n → ℝ) → Fin n → ℝ} (h : Contracts I φ) (vel : Fin n → Cell dim)
    (ε c : ℝ) (A : Nat → Arr ℝ n dim) {G : Arr ℝ n dim} (hG : ∀ y ∈ box N, Within I (G y)) (k : Nat)
    (hA : ∀ l, l < k → ∀ y ∈ box N, Within I (A l y))
    (hr : ∀ l, l < k → ∀ y ∈ box N, ∀ j, |lbmStep N vel φ (fun _ H => H) (l * ε) (A l) y j - A (l + 1) y j| ≤ c) :
    (∀ y ∈ box N, Within I (lbmRun N vel φ (fun _ H => H) ε G k y)) ∧
      gap N (lbmRun N vel φ (fun _ H => H) ε G k) (A k) ≤ gap N G (A 0) + k * ((box N).card * (n * c)) := by
  induction k with
  | zero => exact ⟨hG, by simp [lbmRun]⟩
  | succ k ih =>
    obtain ⟨h1, h2⟩ := ih (fun l hl => hA l (by omega)) fun l hl => hr l (by omega)
    refine ⟨within_step h vel _ h1, ?_⟩
    have h3 := gap_triangle (N := N) (lbmRun N vel φ (fun _ H => H) ε G (k + 1))
      (lbmStep N vel φ (fun _ H => H) (k * ε) (A k)) (A (k + 1))
    have h4 := gap_step h vel (k * ε) h1 (hA k (by omega))
    have h5 := gap_le (N := N) _ _ (hr k (by omega))
    have h6 : lbmRun N vel φ (fun _ H => H) ε G (k + 1) =
      lbmStep N vel φ (fun _ H => H) (k * ε) (lbmRun N vel φ (fun _ H => H) ε G k) := rfl
    rw [h6] at h3 ⊢
    push_cast
    linarith

end Gap

/-- A continuous function of `ε` and of the point of a compact set stays for small `ε` in the open set which contains its
values for `ε = 0`. -/
theorem within_small {n : Nat} {X : Type} [TopologicalSpace X] {K : Set X} (hK : IsCompact K) {I : Fin n → Set ℝ}
    (hI : ∀ j, IsOpen (I j)) (g : ℝ × X → Fin n → ℝ) (hg : Continuous g) (h0 : ∀ q ∈ K, Within I (g (0, q))) :
    ∃ ε₀ > 0, ∀ ε, 0 ≤ ε → ε ≤ ε₀ → ∀ q ∈ K, Within I (g (ε, q)) := by
  have ho : IsOpen (g ⁻¹' Set.univ.pi I) := (isOpen_set_pi Set.finite_univ fun j _ => hI j).preimage hg
  obtain ⟨u, v, hu, _, h0u, hKv, huv⟩ := generalized_tube_lemma (isCompact_singleton (x := (0 : ℝ))) hK ho
    (by
      rintro ⟨e, q⟩ ⟨he, hq⟩
      rw [Set.mem_singleton_iff] at he
      change e = 0 at he
      subst he
      exact fun j _ => h0 q hq j)
  obtain ⟨r, hr, hb⟩ := Metric.isOpen_iff.1 hu 0 (h0u rfl)
  refine ⟨r / 2, by positivity, fun ε h1 h2 q hq j => ?_⟩
  have : ε ∈ u := hb (by
    rw [Metric.mem_ball, Real.dist_eq, sub_zero, abs_of_nonneg h1]
    linarith)
  exact huv (Set.mk_mem_prod this (hKv hq)) j (Set.mem_univ j)

/-- The cells lie in the box of the periods. -/
theorem cell_mem {la ε : ℝ} (hla : 0 < la) (h0 : 0 < ε) {L : Fin dim → ℝ} {N : Fin dim → Nat}
    (hN : ∀ i, N i * (la * ε) = L i) {y : Cell dim} (hy : y ∈ box N) :
    (fun l => la * ε * y l) ∈ Set.Icc (0 : Fin dim → ℝ) L := by
  have hb0 := (mem_box N y).1 hy
  refine ⟨fun i => ?_, fun i => ?_⟩
  · have : (0 : ℝ) ≤ y i := by exact_mod_cast (hb0 i).1
    simp only [Pi.zero_apply]
    positivity
  · have h2 : (y i : ℝ) ≤ N i := by exact_mod_cast (hb0 i).2.le
    beta_reduce
    rw [← hN i, mul_comm (la * ε)]
    exact mul_le_mul_of_nonneg_right h2 (by positivity)

/-! ## The theorems -/

/-- **C67, nonlinear equilibria, convergence.** In the situation of `C67_truncation` let moreover the collision leave
open intervals of the populations invariant, where it does not increase the `ℓ¹` distance, and let the equilibrium
populations of `W` lie in these intervals. Then the populations `f`, whose conserved moments solve the printed equation
up to the order `ε ^ 2`, are the limit of the scheme of the order two: after `k` steps from any array with values in the
intervals, the mean over the cells of the error is at most the mean of the initial error plus `C ε ^ 2`. -/
theorem C67_nonlinear_convergence (S : Kernel ℝ (nc + m) nc d) (alg : Algo) (hfront : ∀ j, (S.consm j : Nat) = j)
    (hEQ : ∀ j w, S.EQ (S.consm j) w = w j) (hS : ∀ i, S.source i = none) (hrel : S.relVel = none)
    (hinv : S.invM * S.M = 1) (Ω : Set (Fin nc → ℝ)) (ho : IsOpen Ω)
    (heq : ∀ i : Fin m, ContDiffOn ℝ ∞ (S.EQ (Fin.natAdd nc i)) Ω)
    (hs : ∀ i : Fin m, ContDiffOn ℝ ∞ (S.s (Fin.natAdd nc i)) Ω)
    (hs0 : ∀ (i : Fin m) (w), w ∈ Ω → S.s (Fin.natAdd nc i) w ≠ 0)
    (vel : Fin (nc + m) → Cell dim) (la : ℝ) (hla : 0 < la) (L : Fin dim → ℝ)
    (W : ℝ → ℝ → (Fin dim → ℝ) → Fin nc → ℝ) (hW : SmoothIn W) (hΩ : ∀ ε t x, W ε t x ∈ Ω)
    (hper : ∀ ε t, HasPeriods L (W ε t)) (Θ : Set ℝ) (hΘ : IsOpen Θ) (hsol : SolvesPrinted S vel la Θ W)
    (I : Fin (nc + m) → Set ℝ) (hI : ∀ j, IsOpen (I j)) (hφ : Contracts I (collide S alg))
    (hWI : ∀ t ∈ Θ, ∀ x, Within I (S.invM *ᵥ fun i => S.EQ i (W 0 t x))) :
    ∃ f : ℝ → ℝ → (Fin dim → ℝ) → Fin (nc + m) → ℝ, SmoothIn f ∧
      (∀ ε t x b, (S.M *ᵥ f ε t x) (S.consm b) = W ε t x b) ∧ (∀ t x i, (S.M *ᵥ f 0 t x) i = S.EQ i (W 0 t x)) ∧
      ∀ T, Set.Icc 0 T ⊆ Θ → ∃ ε₀ > 0, ∃ C, ∀ ε, 0 < ε → ε ≤ ε₀ → ∀ N : Fin dim → Nat, (∀ i, N i * (la * ε) = L i) →
        ∀ G : Arr ℝ (nc + m) dim, (∀ y ∈ box N, Within I (G y)) → ∀ k : Nat, k * ε ≤ T →
          gap N (lbmRun N vel (collide S alg) (fun _ H => H) ε G k) (fun y => f ε (k * ε) fun l => la * ε * y l) ≤
            gap N G (fun y => f ε 0 fun l => la * ε * y l) + (box N).card * (C * ε ^ 2) := by
  obtain ⟨f, hf, _, hfW, hf0, hstep⟩ := C67_truncation S alg hfront hEQ hS hrel hinv Ω ho heq hs hs0 vel la hla L W hW
    hΩ hper Θ hΘ hsol
  refine ⟨f, hf, hfW, hf0, fun T hT => ?_⟩
  obtain ⟨e1, he1, C, hC⟩ := hstep 0 T hT
  have hf00 : ∀ t x, f 0 t x = S.invM *ᵥ fun i => S.EQ i (W 0 t x) := by
    intro t x
    have : (fun i => S.EQ i (W 0 t x)) = S.M *ᵥ f 0 t x := funext fun i => (hf0 t x i).symm
    rw [this, Matrix.mulVec_mulVec, hinv, Matrix.one_mulVec]
  obtain ⟨e2, he2, hin⟩ := within_small
    ((isCompact_Icc (a := (0 : ℝ)) (b := T)).prod (isCompact_Icc (a := (0 : Fin dim → ℝ)) (b := L))) hI
    (fun p : ℝ × ℝ × (Fin dim → ℝ) => f p.1 p.2.1 p.2.2) hf.continuous (fun q hq => by
      rw [hf00]
      exact hWI _ (hT hq.1) _)
  refine ⟨min e1 e2, lt_min he1 he2, (nc + m : ℕ) * |C| * T, fun ε h0 h1 N hN G hG k hk => ?_⟩
  have hle1 := h1.trans (min_le_left _ _)
  have hle2 := h1.trans (min_le_right _ _)
  have htime : ∀ l : Nat, l < k → 0 ≤ (l : ℝ) * ε ∧ (l : ℝ) * ε ≤ T := by
    intro l hl
    refine ⟨by positivity, le_trans ?_ hk⟩
    have : (l : ℝ) ≤ k := by exact_mod_cast hl.le
    exact mul_le_mul_of_nonneg_right this h0.le
  have key := (gap_run (N := N) hφ vel ε (|C| * ε ^ 3) (fun l y => f ε (l * ε) fun i => la * ε * y i) hG k ?_ ?_).2
  · have e0 : ((0 : Nat) : ℝ) * ε = 0 := by simp
    beta_reduce at key
    rw [e0] at key
    refine key.trans (add_le_add le_rfl ?_)
    have : (k : ℝ) * ((box N).card * ((nc + m : ℕ) * (|C| * ε ^ 3))) =
        (box N).card * ((nc + m : ℕ) * |C| * (k * ε) * ε ^ 2) := by ring
    rw [this]
    gcongr
  · intro l hl y hy
    exact hin ε h0.le hle2 ((l : ℝ) * ε, fun i => la * ε * y i) ⟨htime l hl, cell_mem hla h0 hN hy⟩
  · intro l hl y hy j
    have h2 := hC ε h0 hle1 N hN (l * ε) (htime l hl).1 (htime l hl).2 y hy j
    have e3 : (((l + 1 : Nat) : ℝ)) * ε = l * ε + ε := by push_cast; ring
    rw [e3]
    exact h2.trans (mul_le_mul_of_nonneg_right (le_abs_self C) (by positivity))

/-- **C67, nonlinear equilibria, start at equilibrium.** In the situation of `C67_nonlinear_convergence` the scheme started
with the equilibrium populations of the moments `W ε 0` stays near `W`: the mean over the cells of the error of each
conserved moment is at most `C ε`. -/
theorem C67_start_at_equilibrium (S : Kernel ℝ (nc + m) nc d) (alg : Algo) (hfront : ∀ j, (S.consm j : Nat) = j)
    (hEQ : ∀ j w, S.EQ (S.consm j) w = w j) (hS : ∀ i, S.source i = none) (hrel : S.relVel = none)
    (hinv : S.invM * S.M = 1) (Ω : Set (Fin nc → ℝ)) (ho : IsOpen Ω)
    (heq : ∀ i : Fin m, ContDiffOn ℝ ∞ (S.EQ (Fin.natAdd nc i)) Ω)
    (hs : ∀ i : Fin m, ContDiffOn ℝ ∞ (S.s (Fin.natAdd nc i)) Ω)
    (hs0 : ∀ (i : Fin m) (w), w ∈ Ω → S.s (Fin.natAdd nc i) w ≠ 0)
    (vel : Fin (nc + m) → Cell dim) (la : ℝ) (hla : 0 < la) (L : Fin dim → ℝ)
    (W : ℝ → ℝ → (Fin dim → ℝ) → Fin nc → ℝ) (hW : SmoothIn W) (hΩ : ∀ ε t x, W ε t x ∈ Ω)
    (hper : ∀ ε t, HasPeriods L (W ε t)) (Θ : Set ℝ) (hΘ : IsOpen Θ) (hsol : SolvesPrinted S vel la Θ W)
    (I : Fin (nc + m) → Set ℝ) (hI : ∀ j, IsOpen (I j)) (hφ : Contracts I (collide S alg))
    (hWI : ∀ t ∈ Θ, ∀ x, Within I (S.invM *ᵥ fun i => S.EQ i (W 0 t x))) (T : ℝ) (hT0 : 0 ≤ T)
    (hT : Set.Icc 0 T ⊆ Θ) : ∃ ε₀ > 0, ∃ C, ∀ ε, 0 < ε → ε ≤ ε₀ → ∀ N : Fin dim → Nat, (∀ i, N i * (la * ε) = L i) → ∀ k : Nat, k * ε ≤ T →
      ∀ b, ∑ y ∈ box N, |(S.M *ᵥ lbmRun N vel (collide S alg) (fun _ H => H) ε
          (fun y => S.invM *ᵥ fun i => S.EQ i (W ε 0 fun l => la * ε * y l)) k y) (S.consm b) -
            W ε (k * ε) (fun l => la * ε * y l) b| ≤ (box N).card * (C * ε) := by
  obtain ⟨f, hf, hfW, hf0, hstep⟩ := C67_nonlinear_convergence S alg hfront hEQ hS hrel hinv Ω ho heq hs hs0 vel la hla L W hW
    hΩ hper Θ hΘ hsol I hI hφ hWI
  obtain ⟨e1, he1, C, hC⟩ := hstep T hT
  have hcons : ∀ j, S.consm j = Fin.castAdd m j := fun j => Fin.ext (hfront j)
  have hWs : ∀ c, ContDiff ℝ ∞ fun p : ℝ × TX dim => W p.1 p.2.1 p.2.2 c := contDiff_pi.1 hW
  have hEs : ∀ i, ContDiff ℝ ∞ fun p : ℝ × TX dim => S.EQ i (W p.1 p.2.1 p.2.2) := by
    intro i
    refine Fin.addCases (fun c => ?_) (fun i => ?_) i
    · simp only [← hcons c, hEQ]
      exact hWs c
    · exact contDiff_iff_contDiffAt.2 fun p =>
        ((heq i).contDiffAt (ho.mem_nhds (hΩ _ _ _))).comp p hW.contDiffAt
  have hgs : ∀ j, ContDiff ℝ ∞ fun p : ℝ × TX dim => (S.invM *ᵥ fun i => S.EQ i (W p.1 p.2.1 p.2.2)) j := by
    intro j
    simp only [Matrix.mulVec, dotProduct]
    exact ContDiff.sum fun i _ => contDiff_const.mul (hEs i)
  have hf00 : ∀ t x, f 0 t x = S.invM *ᵥ fun i => S.EQ i (W 0 t x) := by
    intro t x
    have : (fun i => S.EQ i (W 0 t x)) = S.M *ᵥ f 0 t x := funext fun i => (hf0 t x i).symm
    rw [this, Matrix.mulVec_mulVec, hinv, Matrix.one_mulVec]
  have hK := ((isCompact_Icc (a := (0 : ℝ)) (b := 0)).prod (isCompact_Icc (a := (0 : Fin dim → ℝ)) (b := L)))
  obtain ⟨e2, he2, hin⟩ := within_small hK hI
    (fun p : ℝ × TX dim => S.invM *ᵥ fun i => S.EQ i (W p.1 p.2.1 p.2.2))
    (continuous_pi fun j => (hgs j).continuous) (fun q hq => hWI _ (hT (Set.Icc_subset_Icc_right hT0 hq.1)) _)
  obtain ⟨e3, he3, D, hD⟩ := flat_bounds (k := 1)
    (fun j (p : ℝ × TX dim) => (S.invM *ᵥ fun i => S.EQ i (W p.1 p.2.1 p.2.2)) j - f p.1 p.2.1 p.2.2 j)
    (Q := Set.univ) (fun j => sm_of_contDiff ((hgs j).sub (contDiff_pi.1 hf j)))
    (fun j => ⟨fun q _ => by beta_reduce; rw [hf00, sub_self], trivial⟩) hK (Set.subset_univ _)
  set B : ℝ := ∑ b : Fin nc, ∑ j, |S.M (S.consm b) j| with hB
  have hB0 : 0 ≤ B := Finset.sum_nonneg fun b _ => Finset.sum_nonneg fun j _ => abs_nonneg _
  refine ⟨min (min e1 e2) (min e3 1), lt_min (lt_min he1 he2) (lt_min he3 one_pos), B * ((nc + m : ℕ) * |D| + |C|),
    fun ε h0 h1 N hN k hk b => ?_⟩
  have hl1 := h1.trans ((min_le_left _ _).trans (min_le_left _ _))
  have hl2 := h1.trans ((min_le_left _ _).trans (min_le_right _ _))
  have hl3 := h1.trans ((min_le_right _ _).trans (min_le_left _ _))
  have hl4 := h1.trans ((min_le_right _ _).trans (min_le_right _ _))
  set G : Arr ℝ (nc + m) dim := fun y => S.invM *ᵥ fun i => S.EQ i (W ε 0 fun l => la * ε * y l) with hG
  have hmem : ∀ y ∈ box N, ((0 : ℝ), (fun l => la * ε * (y l : ℝ) : Fin dim → ℝ)) ∈
      Set.Icc (0 : ℝ) 0 ×ˢ Set.Icc (0 : Fin dim → ℝ) L := fun y hy => ⟨⟨le_rfl, le_rfl⟩, cell_mem hla h0 hN hy⟩
  have hGI : ∀ y ∈ box N, Within I (G y) := fun y hy => hin ε h0.le hl2 _ (hmem y hy)
  have hgap := hC ε h0 hl1 N hN G hGI k hk
  have hinit : gap N G (fun y => f ε 0 fun l => la * ε * y l) ≤ (box N).card * ((nc + m : ℕ) * (|D| * ε)) := by
    refine gap_le _ _ fun y hy j => ?_
    have := hD ε h0.le hl3 _ (hmem y hy) j
    rw [pow_one] at this
    exact this.trans (mul_le_mul_of_nonneg_right (le_abs_self D) h0.le)
  set F := lbmRun N vel (collide S alg) (fun _ H => H) ε G k with hF
  have h5 : ∑ y ∈ box N, |(S.M *ᵥ F y) (S.consm b) - W ε (k * ε) (fun l => la * ε * y l) b| ≤
      B * gap N F (fun y => f ε (k * ε) fun l => la * ε * y l) := by
    unfold gap
    rw [Finset.mul_sum]
    refine Finset.sum_le_sum fun y _ => ?_
    rw [← hfW]
    simp only [Matrix.mulVec, dotProduct]
    rw [← Finset.sum_sub_distrib, Finset.mul_sum]
    refine (Finset.abs_sum_le_sum_abs _ _).trans (Finset.sum_le_sum fun j _ => ?_)
    rw [← mul_sub, abs_mul]
    refine mul_le_mul_of_nonneg_right ?_ (abs_nonneg _)
    refine (Finset.single_le_sum (f := fun j => |S.M (S.consm b) j|) (fun j _ => abs_nonneg _) (Finset.mem_univ j)).trans ?_
    exact Finset.single_le_sum (f := fun b => ∑ j, |S.M (S.consm b) j|)
      (fun b _ => Finset.sum_nonneg fun j _ => abs_nonneg _) (Finset.mem_univ b)
  refine h5.trans ?_
  have h6 : C * ε ^ 2 ≤ |C| * ε := by
    have : ε ^ 2 ≤ ε := by nlinarith
    exact (mul_le_mul_of_nonneg_right (le_abs_self C) (by positivity)).trans (mul_le_mul_of_nonneg_left this (abs_nonneg C))
  have hc0 : (0 : ℝ) ≤ (box N).card := Nat.cast_nonneg _
  have h7 : gap N F (fun y => f ε (k * ε) fun l => la * ε * y l) ≤
      (box N).card * ((nc + m : ℕ) * (|D| * ε)) + (box N).card * (|C| * ε) :=
    hgap.trans (add_le_add hinit (mul_le_mul_of_nonneg_left h6 hc0))
  refine (mul_le_mul_of_nonneg_left h7 hB0).trans (le_of_eq ?_)
  ring

end Pylbm.Stability
