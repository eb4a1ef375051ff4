import Verif.Sim.Symmetry
import Verif.Sim.Bounds
import Verif.Stability.Stable
/-!
# C120: a periodic box repeated

A periodic box whose sizes are multiples of those of another one, with copies of the same initial values, holds copies of the same
values after any number of steps. So the verdict of `Stability`, which samples the wave vectors of the box with `n0` cells, says
something about the boxes whose sizes divide `n0` (stable) or are multiples of `n0` (not stable), and nothing about the others.
-/

set_option linter.unusedSectionVars false

namespace Pylbm.Sim
open Scheme Halo SchemeSpec Matrix HaloSpec Mpi

variable {K : Type} [Field K] {n nc d dim : Nat}

theorem lbmRun_tiles {N N' : Fin dim → Nat} (hdvd : ∀ i, N i ∣ N' i) (vel : Fin n → Cell dim) (φ : (Fin n → K) → Fin n → K)
    (dt : K) {G G' : Arr K n dim} (h : ∀ y ∈ box N', G' y = G fun i => y i % N i)
    (hpos : ∀ i, 0 < N' i) (k : Nat) (y : Cell dim) (hy : y ∈ box N') :
    lbmRun N' vel φ (fun _ H => H) dt G' k y = lbmRun N vel φ (fun _ H => H) dt G k fun i => y i % N i := by
  induction k generalizing y with
  | zero => exact h y hy
  | succ k ih =>
    show φ (fun j => lbmRun N' vel φ (fun _ H => H) dt G' k (fun i => (y i - vel j i) % N' i) j) =
      φ (fun j => lbmRun N vel φ (fun _ H => H) dt G k (fun i => (y i % N i - vel j i) % N i) j)
    congr 1
    funext j
    rw [ih _ <| (mem_box _ _).2 fun i => ⟨Int.emod_nonneg _ (by have := hpos i; omega), Int.emod_lt_of_pos _ (by exact_mod_cast hpos i)⟩]
    congr 1
    funext i
    rw [Int.emod_emod_of_dvd _ (by exact_mod_cast hdvd i), Int.emod_sub_emod]

/-- **C120, a box repeated.** The sizes of the periodic box `g'` are multiples of those of `g` and the initial values are copies:
after any number of steps the values are copies, whatever the collision and the two decompositions. -/
theorem C120_tiles (hdim : dim ≤ 3) (g g' : Grid dim) (hN : ∀ i, g.N i ∣ g'.N i)
    (hlarge : ∀ c i, g.w i ≤ size g c i) (hlarge' : ∀ c i, g'.w i ≤ size g' c i)
    (S : Kernel K n nc d) (hfront : ∀ j, (S.consm j : Nat) < nc) (vel : Fin n → Cell dim) (alg : Algo)
    (hv : ∀ j i, |vel j i| ≤ g.w i) (hv' : ∀ j i, |vel j i| ≤ g'.w i)
    (Q : Proc g → Setup K n nc d dim) (hQ : Uniform g S vel alg Q) (hQb : ∀ c t A, (Q c).bc t A = A)
    (Q' : Proc g' → Setup K n nc d dim) (hQ' : Uniform g' S vel alg Q') (hQb' : ∀ c t A, (Q' c).bc t A = A)
    (σ₀ : Proc g → Simu K n d dim) (h0 : ∀ c, (σ₀ c).Start (Q c))
    (σ₀' : Proc g' → Simu K n d dim) (h0' : ∀ c, (σ₀' c).Start (Q' c))
    (hsame : ∀ c x c' x', Owned (size g c) g.w x → Owned (size g' c') g'.w x' →
      (∀ i, globalPos (first g c) g.w x i = globalPos (first g' c') g'.w x' i % g.N i) → (σ₀ c).arr x = (σ₀' c').arr x')
    (k : Nat) (σ : Proc g → Simu K n d dim) (hr : PRun g Q σ₀ k σ)
    (σ' : Proc g' → Simu K n d dim) (hr' : PRun g' Q' σ₀' k σ')
    (c : Proc g) (x : Cell dim) (c' : Proc g') (x' : Cell dim) (hx : Owned (size g c) g.w x)
    (hx' : Owned (size g' c') g'.w x')
    (he : ∀ i, globalPos (first g c) g.w x i = globalPos (first g' c') g'.w x' i % g.N i) :
    (σ c).arr x = (σ' c').arr x' := by
  obtain ⟨G, hG⟩ := C15_global_array_exists g fun c => (σ₀ c).arr
  obtain ⟨G', hG'⟩ := C15_global_array_exists g' fun c => (σ₀' c).arr
  obtain ⟨_, h2⟩ := C42_global_partial hdim g hlarge S hfront vel alg Q hQ _
    (sameBoundary_periodic g vel hv Q hQb) σ₀ h0 G hG k σ hr
  obtain ⟨_, h2'⟩ := C42_global_partial hdim g' hlarge' S hfront vel alg Q' hQ' _
    (sameBoundary_periodic g' vel hv' Q' hQb') σ₀' h0' G' hG' k σ' hr'
  have hb := owned_box g hx
  have hpos : ∀ i, 0 < g.N i := fun i => by have := (mem_box _ _).1 hb i; omega
  have hb' := owned_box g' hx'
  have hpos' : ∀ i, 0 < g'.N i := fun i => by have := (mem_box _ _).1 hb' i; omega
  rw [h2 c x hx, h2' c' x' hx', lbmRun_tiles hN vel _ _ (G := G) _ hpos' k _ hb', ← funext he]
  intro y hy
  obtain ⟨c', x', hx', e'⟩ := exists_owned g' y hy
  obtain ⟨c, x, hx, e⟩ := exists_owned g (fun i => y i % g.N i) <| (mem_box _ _).2 fun i =>
    ⟨Int.emod_nonneg _ (by have := hpos i; omega), Int.emod_lt_of_pos _ (by exact_mod_cast hpos i)⟩
  have h3 := hsame c x c' x' hx hx' fun i => by rw [e, e']
  have h4 := hG c x hx
  have h5 := hG' c' x' hx'
  rw [← e, ← h4, h3, h5, e']

end Pylbm.Sim

namespace Pylbm.Stability
open Scheme Halo SchemeSpec Matrix HaloSpec Sim

variable {n nc d dim : Nat}

/-- **C120, multiples.** When `Stability` says that a scheme with linear equilibrium is not stable, the values are unbounded for
some initial data on each periodic box whose sizes are multiples of `n0`. -/
theorem C120_multiples (hn : 0 < n) (S : Kernel ℝ n nc d) (alg : Algo) (hfront : ∀ j, (S.consm j : Nat) = j)
    (hEQ : ∀ j w, S.EQ (S.consm j) w = w j) (hS : ∀ i, S.source i = none) (hrel : S.relVel = none)
    (E : Matrix (Fin n) (Fin nc) ℝ) (hE : ∀ i w, S.EQ i w = (E *ᵥ w) i)
    (s : Fin n → ℝ) (hs : ∀ i w, S.s i w = s i) (vel : Fin n → Cell dim) (n0 : Nat) (τ : ℝ) (hτ : 0 < τ)
    (dt : ℝ) (hv : verdict τ vel (relaxF S.M S.invM s E) n0 = 2) (N : Fin dim → Nat) (hpos : ∀ i, 0 < N i)
    (hN : ∀ i, n0 ∣ N i) :
    ∃ (G : Arr ℝ n dim) (j : Fin n), ∀ B : ℝ, ∃ t : Nat,
      B < |lbmRun N vel (collide S alg) (fun _ H => H) dt G t 0 j| := by
  obtain ⟨G, j, h⟩ := C63_unstable hn S alg hfront hEQ hS hrel E hE s hs vel n0 τ hτ dt hv
  refine ⟨fun y => G fun i => y i % n0, j, fun B => ?_⟩
  obtain ⟨t, ht⟩ := h B
  refine ⟨t, ?_⟩
  rw [lbmRun_tiles (N := fun _ => n0) hN vel (collide S alg) dt (G := G) (fun _ _ => rfl) hpos t 0
    ((mem_box _ _).2 fun i => ⟨le_refl _, by simpa using hpos i⟩)]
  have hz : (fun i : Fin dim => (0 : Cell dim) i % ((fun _ => n0 : Fin dim → Nat) i : ℤ)) = 0 := by
    funext i
    exact Int.zero_emod _
  rw [hz]
  exact ht

/-- **C120, divisors.** When the exact test of `Stability` says that a scheme with linear equilibrium is stable, the values stay
bounded for all initial data on each periodic box whose sizes divide `n0`. -/
theorem C120_divisors (hn : 0 < n) (S : Kernel ℝ n nc d) (alg : Algo) (hfront : ∀ j, (S.consm j : Nat) = j)
    (hEQ : ∀ j w, S.EQ (S.consm j) w = w j) (hS : ∀ i, S.source i = none) (hrel : S.relVel = none)
    (E : Matrix (Fin n) (Fin nc) ℝ) (hE : ∀ i w, S.EQ i w = (E *ᵥ w) i)
    (s : Fin n → ℝ) (hs : ∀ i w, S.s i w = s i) (vel : Fin n → Cell dim) (n0 : Nat) (hn0 : 0 < n0)
    (hv : ∀ τ, 0 < τ → verdict τ vel (relaxF S.M S.invM s E) n0 = 0) (N : Fin dim → Nat) (hN : ∀ i, N i ∣ n0)
    (dt : ℝ) (G : Arr ℝ n dim) :
    ∃ B : ℝ, ∀ (t : Nat) (x : Cell dim) (j : Fin n), (∀ i, 0 ≤ x i ∧ x i < N i) →
      |lbmRun N vel (collide S alg) (fun _ H => H) dt G t x j| ≤ B := by
  obtain ⟨B, h⟩ := C63_stable_partial hn S alg hfront hEQ hS hrel E hE s hs vel n0 hn0 hv dt fun y => G fun i => y i % N i
  refine ⟨B, fun t x j hx => ?_⟩
  have hle : ∀ i, N i ≤ n0 := fun i => Nat.le_of_dvd hn0 (hN i)
  have hx' : ∀ i, 0 ≤ x i ∧ x i < n0 := fun i => ⟨(hx i).1, (hx i).2.trans_le (by exact_mod_cast hle i)⟩
  have h1 := h t x j hx'
  rw [lbmRun_tiles (N := N) hN vel (collide S alg) dt (G := G) (fun _ _ => rfl) (fun _ => hn0) t x ((mem_box _ _).2 hx')] at h1
  rwa [show (fun i => x i % (N i : ℤ)) = x from funext fun i => Int.emod_eq_of_lt (hx i).1 (hx i).2] at h1

/-- D1Q2 with the velocities `q` and `-q`. -/
def far (q : Nat) : Fin 2 → Cell 1 := fun j _ => ![(q : ℤ), -q] j

theorem far_amplification (q : Nat) (hq : 0 < q) : amplification (far q) !![2, 2; -1, -1]
    (fun _ => 2 * Real.pi * ((1 : ℕ) : ℝ) / ((4 * q : ℕ) : ℝ)) = !![2 * Complex.I, -2 * Complex.I; -Complex.I, Complex.I] := by
  rw [← fast_amplification]
  have hq' : (q : ℂ) ≠ 0 := by exact_mod_cast hq.ne'
  ext i j
  fin_cases i <;> fin_cases j <;> simp [amplification, far] <;> field_simp

theorem far_sampled (q : Nat) (hq : 0 < q) (m : Fin 1 → Fin q) : amplification (far q) !![2, 2; -1, -1]
    (fun i => 2 * Real.pi * (m i : ℝ) / q) = !![2, 2; -1, -1] := by
  have hq' : (q : ℂ) ≠ 0 := by exact_mod_cast hq.ne'
  have h : Complex.exp (Complex.I * ((q : ℂ) * (2 * Real.pi * (m 0 : ℕ) / q))) = 1 := by
    rw [Complex.exp_eq_one_iff]
    exact ⟨(m 0 : ℕ), by push_cast; field_simp⟩
  have h' : Complex.exp (-(Complex.I * ((q : ℂ) * (2 * Real.pi * (m 0 : ℕ) / q)))) = 1 := by
    rw [Complex.exp_neg, h, inv_one]
  ext i j
  fin_cases i <;> fin_cases j <;> simp [amplification, far, h, h']

/-- The code on `4 q` cells: the verdict is "not stable". -/
theorem far_verdict (q : Nat) (hq : 0 < q) : verdict (1 / 10 ^ 10) (far q) !![2, 2; -1, -1] (4 * q) = 2 := by
  unfold verdict
  dsimp only
  rw [if_pos]
  intro h
  rw [List.all_eq_true] at h
  have := h (cohnSchur (1 / 10 ^ 10) (amplification (far q) !![2, 2; -1, -1]
    (fun _ => 2 * Real.pi * ((1 : ℕ) : ℝ) / ((4 * q : ℕ) : ℝ)))) (List.mem_map.2 ⟨_, List.mem_map.2
      ⟨fun _ => (⟨1, by omega⟩ : Fin (4 * q)), Finset.mem_toList.2 (Finset.mem_univ _), rfl⟩, rfl⟩)
  rw [far_amplification q hq] at this
  unfold cohnSchur at this
  rw [fast_faddeev, fast_isVN] at this
  exact absurd this (by simp)

theorem far_stable (q : Nat) (hq : 0 < q) (τ : ℝ) (hτ : 0 < τ) : verdict τ (far q) !![2, 2; -1, -1] q = 0 := by
  by_contra hc
  obtain ⟨m, μ, h1, h2⟩ := (C63_answers (by omega) (far q) !![2, 2; -1, -1] q τ hτ).1 hc
  rw [far_sampled q hq] at h1 h2
  have hp : (!![2, 2; -1, -1] : Matrix (Fin 2) (Fin 2) ℂ).charpoly = Polynomial.X ^ 2 - Polynomial.X := by
    rw [Matrix.charpoly_fin_two]
    simp [Matrix.trace_fin_two, Matrix.det_fin_two]
    rw [show (Polynomial.C 2 : Polynomial ℂ) = 2 from rfl]
    norm_num
  rw [hp] at h1 h2
  have hr : μ ^ 2 - μ = 0 := by simpa using h1
  have hr' : μ = 0 ∨ μ = 1 := by
    rcases mul_eq_zero.1 (show μ * (μ - 1) = 0 by rw [← hr]; ring) with h | h
    · exact .inl h
    · exact .inr (sub_eq_zero.1 h)
  rcases h2 with h2 | ⟨h2, h3⟩
  · rcases hr' with rfl | rfl <;> norm_num at h2
  · have hne : (Polynomial.X ^ 2 - Polynomial.X : Polynomial ℂ) ≠ 0 := by
      rw [← hp]; exact (Matrix.charpoly_monic _).ne_zero
    have h4 := ((Polynomial.one_lt_rootMultiplicity_iff_isRoot hne).1 h3).2
    rcases hr' with rfl | rfl
    · simp at h2
    · norm_num [Polynomial.IsRoot.def] at h4

/-- **C120, between the sampled wave vectors.** However many wave vectors are sampled, there is a scheme which is declared stable
with each tolerance and whose values are unbounded on a larger box: D1Q2 with the velocities `± n0`. -/
theorem C120_sampling_negation (n0 : Nat) (hn0 : 0 < n0) (alg : Algo) (dt : ℝ) :
    (∀ τ, 0 < τ → verdict τ (far n0) (relaxF fast.M fast.invM ![0, 1] !![1; 3]) n0 = 0) ∧
    ∃ (G : Arr ℝ 2 1) (j : Fin 2), ∀ B : ℝ, ∃ t : Nat,
      B < |lbmRun (fun _ => 4 * n0) (far n0) (collide fast alg) (fun _ H => H) dt G t 0 j| := by
  refine ⟨fun τ hτ => by rw [fast_relaxF]; exact far_stable n0 hn0 τ hτ, ?_⟩
  refine C63_unstable (by omega) fast alg (by decide) (fun j w => ?_) (fun _ => rfl) rfl !![1; 3] (fun i w => ?_) ![0, 1]
    (fun i w => ?_) (far n0) (4 * n0) (1 / 10 ^ 10) (by norm_num) dt (by rw [fast_relaxF]; exact far_verdict n0 hn0)
  · fin_cases j; simp [fast]
  · fin_cases i <;> simp [fast, Matrix.mulVec, dotProduct]
  · fin_cases i <;> simp [fast]

/-- A case for `C120_multiples`: the D1Q2 scheme with velocity 3 on boxes of 4, 8, 12, … cells. -/
example (p : Nat) (hp : 0 < p) (alg : Algo) (dt : ℝ) : ∃ (G : Arr ℝ 2 1) (j : Fin 2), ∀ B : ℝ, ∃ t : Nat,
    B < |lbmRun (fun _ => 4 * p) (far 1) (collide fast alg) (fun _ H => H) dt G t 0 j| := by
  refine C120_multiples (by omega) fast alg (by decide) (fun j w => ?_) (fun _ => rfl) rfl !![1; 3] (fun i w => ?_) ![0, 1]
    (fun i w => ?_) (far 1) (4 * 1) (1 / 10 ^ 10) (by norm_num) dt (by rw [fast_relaxF]; exact far_verdict 1 (by omega))
    (fun _ => 4 * p) (fun _ => by omega) fun _ => ⟨p, by omega⟩
  · fin_cases j; simp [fast]
  · fin_cases i <;> simp [fast, Matrix.mulVec, dotProduct]
  · fin_cases i <;> simp [fast]

/-- A case for `C120_divisors`: the scheme of `C120_sampling_negation` with 12 wave vectors on a box of 4 cells. -/
example (alg : Algo) (dt : ℝ) (G : Arr ℝ 2 1) : ∃ B : ℝ, ∀ (t : Nat) (x : Cell 1) (j : Fin 2),
    (∀ i, 0 ≤ x i ∧ x i < ((fun _ => 4 : Fin 1 → Nat) i)) →
      |lbmRun (fun _ => 4) (far 12) (collide fast alg) (fun _ H => H) dt G t x j| ≤ B := by
  refine C120_divisors (by omega) fast alg (by decide) (fun j w => ?_) (fun _ => rfl) rfl !![1; 3] (fun i w => ?_) ![0, 1]
    (fun i w => ?_) (far 12) 12 (by omega) (C120_sampling_negation 12 (by omega) alg dt).1
    (fun _ => 4) (fun _ => by decide) dt G
  · fin_cases j; simp [fast]
  · fin_cases i <;> simp [fast, Matrix.mulVec, dotProduct]
  · fin_cases i <;> simp [fast]

end Pylbm.Stability
