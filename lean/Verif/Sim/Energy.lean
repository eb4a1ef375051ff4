import Verif.Sim.Balance
/-!
# C98: the energy of schemes with linear equilibria
-/

set_option linter.unusedSectionVars false

namespace Pylbm.Sim
open Scheme Halo SchemeSpec Matrix HaloSpec Mpi Boundary

/-! ## Specification -/

section spec
variable {K : Type} [Field K] {n nc d : Nat}

/-- The energy of the populations of a cell for the weights `w`. -/
def energy (w f : Fin n → K) : K := ∑ j, f j ^ 2 / w j

/-- A conserved moment of the scheme. -/
abbrev Conserved (S : Kernel K n nc d) (i : Fin n) : Prop := ∃ l, S.consm l = i

/-- The coefficients of the difference between the moment `i` and its equilibrium `E`; of the moment itself when it is
conserved. -/
def deviation (S : Kernel K n nc d) (E : Matrix (Fin n) (Fin nc) K) (i j : Fin n) : K :=
  if Conserved S i then S.M i j else S.M i j - ∑ l, E i l * S.M (S.consm l) j

/-- What remains of a deviation after the relaxation. -/
def rate (S : Kernel K n nc d) (s : Fin n → K) (i : Fin n) : K := if Conserved S i then 1 else 1 - s i

/-- The hypotheses on the scheme: affine equilibria `E w + b`, constant relaxation parameters between 0 and 2, and
deviations which are orthogonal for the positive weights `w` when they have different relaxation parameters. With a
single relaxation parameter: the deviations are orthogonal to the conserved moments. -/
structure Dissipative [LinearOrder K] (S : Kernel K n nc d) (w : Fin n → K) (E : Matrix (Fin n) (Fin nc) K)
    (b s : Fin n → K) : Prop where
  equilibrium : ∀ i v, S.EQ i v = (∑ l, E i l * v l) + b i
  relaxation : ∀ i v, S.s i v = s i
  pos : ∀ j, 0 < w j
  range : ∀ i, ¬ Conserved S i → 0 ≤ s i ∧ s i ≤ 2
  orthogonal : ∀ i i', rate S s i ≠ rate S s i' → ∑ j, w j * deviation S E i j * deviation S E i' j = 0

end spec

/-! ## One cell -/

section local_
variable {K : Type} [Field K] [LinearOrder K] [IsStrictOrderedRing K] {n nc d : Nat}

theorem energy_nonneg {w : Fin n → K} (hw : ∀ j, 0 < w j) (f : Fin n → K) : 0 ≤ energy w f :=
  Finset.sum_nonneg fun j _ => div_nonneg (sq_nonneg _) (hw j).le

/-- The loss of energy of a map which is diagonal in orthogonal subspaces. -/
theorem energy_loss (A : Matrix (Fin n) (Fin n) K) (hA : IsUnit A) (w : Fin n → K) (hw : ∀ j, 0 < w j)
    (r : Fin n → K) (horth : ∀ i i', r i ≠ r i' → ∑ j, w j * A i j * A i' j = 0)
    (g g' : Fin n → K) (hg : ∀ i, (A *ᵥ g') i = r i * (A *ᵥ g) i) :
    energy w g - energy w g' = ∑ v ∈ Finset.univ.image r,
      (1 - v ^ 2) * energy w (A⁻¹ *ᵥ fun i => if r i = v then (A *ᵥ g) i else 0) := by
  classical
  have hdet : IsUnit A.det := (Matrix.isUnit_iff_isUnit_det A).1 hA
  have hBA : A⁻¹ * A = 1 := Matrix.nonsing_inv_mul A hdet
  have hAB : A * A⁻¹ = 1 := Matrix.mul_nonsing_inv A hdet
  set B := A⁻¹ with hB
  set G : Matrix (Fin n) (Fin n) K := A * diagonal w * Aᵀ with hG
  set H : Matrix (Fin n) (Fin n) K := Bᵀ * diagonal (fun j => (w j)⁻¹) * B with hH
  have hww : diagonal (fun j => (w j)⁻¹) * diagonal w = (1 : Matrix (Fin n) (Fin n) K) := by
    rw [Matrix.diagonal_mul_diagonal]
    simp [fun j => inv_mul_cancel₀ (hw j).ne']
  have hHG : H * G = 1 := by
    rw [hH, hG]
    calc Bᵀ * diagonal (fun j => (w j)⁻¹) * B * (A * diagonal w * Aᵀ)
        = Bᵀ * (diagonal (fun j => (w j)⁻¹) * ((B * A) * diagonal w)) * Aᵀ := by simp only [Matrix.mul_assoc]
      _ = 1 := by
        rw [hBA, Matrix.one_mul, hww, Matrix.mul_one, ← Matrix.transpose_mul, hAB, Matrix.transpose_one]
  have hGH : G * H = 1 := mul_eq_one_comm.1 hHG
  have hcomm : diagonal r * G = G * diagonal r := by
    ext i i'
    rw [Matrix.diagonal_mul, Matrix.mul_diagonal]
    by_cases h : r i = r i'
    · rw [h, mul_comm]
    · have : G i i' = 0 := by
        rw [hG, Matrix.mul_apply, ← horth i i' h]
        refine Finset.sum_congr rfl fun j _ => ?_
        rw [Matrix.mul_diagonal, Matrix.transpose_apply]
        ring
      rw [this, mul_zero, zero_mul]
  have hHr : diagonal r * H = H * diagonal r := by
    calc diagonal r * H = (H * G) * diagonal r * H := by rw [hHG, Matrix.one_mul]
      _ = H * (G * diagonal r) * H := by simp only [Matrix.mul_assoc]
      _ = H * (diagonal r * G) * H := by rw [hcomm]
      _ = H * diagonal r * (G * H) := by simp only [Matrix.mul_assoc]
      _ = H * diagonal r := by rw [hGH, Matrix.mul_one]
  have hent : ∀ i i', r i * H i i' = H i i' * r i' := by
    intro i i'
    have := congrFun (congrFun hHr i) i'
    rwa [Matrix.diagonal_mul, Matrix.mul_diagonal] at this
  have hzero : ∀ i i', r i ≠ r i' → H i i' = 0 := by
    intro i i' h
    have h2 : (r i - r i') * H i i' = 0 := by rw [sub_mul, hent, mul_comm (r i')]; ring
    exact (mul_eq_zero.1 h2).resolve_left (sub_ne_zero.2 h)
  have hform : ∀ y : Fin n → K, energy w (B *ᵥ y) = ∑ i, ∑ i', y i * H i i' * y i' := by
    intro y
    have e1 : energy w (B *ᵥ y) = (B *ᵥ y) ⬝ᵥ (diagonal (fun j => (w j)⁻¹) *ᵥ (B *ᵥ y)) := by
      unfold energy dotProduct
      refine Finset.sum_congr rfl fun j _ => ?_
      rw [Matrix.mulVec_diagonal, div_eq_mul_inv]
      ring
    have e2 : y ⬝ᵥ (H *ᵥ y) = ∑ i, ∑ i', y i * H i i' * y i' := by
      simp only [dotProduct, Matrix.mulVec, Finset.mul_sum, mul_assoc]
    rw [e1, ← e2, hH, ← Matrix.mulVec_mulVec, ← Matrix.mulVec_mulVec, Matrix.dotProduct_mulVec y,
      Matrix.vecMul_transpose]
  have hgy : ∀ g : Fin n → K, B *ᵥ (A *ᵥ g) = g := by
    intro g
    rw [Matrix.mulVec_mulVec, hBA, Matrix.one_mulVec]
  set y := A *ᵥ g with hy
  have h1 : energy w g = ∑ i, ∑ i', y i * H i i' * y i' := by rw [← hform, hy, hgy]
  have h2 : energy w g' = ∑ i, ∑ i', r i ^ 2 * (y i * H i i' * y i') := by
    rw [← hgy g', hform]
    refine Finset.sum_congr rfl fun i _ => Finset.sum_congr rfl fun i' _ => ?_
    rw [hg, hg]
    have := hent i i'
    calc r i * y i * H i i' * (r i' * y i') = r i * y i * (H i i' * r i') * y i' := by ring
      _ = _ := by rw [← this]; ring
  have h3 : energy w g - energy w g' = ∑ i, ∑ i', (1 - r i ^ 2) * (y i * H i i' * y i') := by
    rw [h1, h2, ← Finset.sum_sub_distrib]
    refine Finset.sum_congr rfl fun i _ => ?_
    rw [← Finset.sum_sub_distrib]
    refine Finset.sum_congr rfl fun i' _ => ?_
    ring
  rw [h3, ← Finset.sum_fiberwise_of_maps_to (t := Finset.univ.image r) (g := r)
    (fun i _ => Finset.mem_image_of_mem r (Finset.mem_univ i))]
  refine Finset.sum_congr rfl fun v _ => ?_
  rw [hform, Finset.mul_sum, Finset.sum_filter]
  refine Finset.sum_congr rfl fun i _ => ?_
  by_cases hi : r i = v
  · rw [if_pos hi, Finset.mul_sum]
    refine Finset.sum_congr rfl fun i' _ => ?_
    rw [if_pos hi, hi]
    by_cases hi' : r i' = v
    · rw [if_pos hi']
    · rw [if_neg hi', hzero i i' (fun h => hi' (h ▸ hi))]
      ring
  · rw [if_neg hi]
    simp [hi]

/-- A map which is diagonal with coefficients of modulus at most 1 in orthogonal subspaces does not increase the
energy. -/
theorem energy_contraction (A : Matrix (Fin n) (Fin n) K) (hA : IsUnit A) (w : Fin n → K) (hw : ∀ j, 0 < w j)
    (r : Fin n → K) (hr : ∀ i, r i ^ 2 ≤ 1)
    (horth : ∀ i i', r i ≠ r i' → ∑ j, w j * A i j * A i' j = 0)
    (g g' : Fin n → K) (hg : ∀ i, (A *ᵥ g') i = r i * (A *ᵥ g) i) : energy w g' ≤ energy w g := by
  have h5 : 0 ≤ energy w g - energy w g' := by
    rw [energy_loss A hA w hw r horth g g' hg]
    refine Finset.sum_nonneg fun v hv => ?_
    obtain ⟨i, -, rfl⟩ := Finset.mem_image.1 hv
    exact mul_nonneg (by linarith [hr i]) (energy_nonneg hw _)
  linarith

theorem deviation_mulVec (S : Kernel K n nc d) (E : Matrix (Fin n) (Fin nc) K) (f : Fin n → K) (i : Fin n) :
    (Matrix.of (deviation S E) *ᵥ f) i =
      if Conserved S i then (S.M *ᵥ f) i else (S.M *ᵥ f) i - ∑ l, E i l * (S.M *ᵥ f) (S.consm l) := by
  simp only [Matrix.mulVec, dotProduct, Matrix.of_apply, deviation]
  split_ifs with h
  · rfl
  · simp only [sub_mul, Finset.sum_sub_distrib, Finset.sum_mul, Finset.mul_sum]
    congr 1
    rw [Finset.sum_comm]
    simp only [mul_assoc]

/-- The deviations determine the populations. -/
theorem deviation_isUnit (S : Kernel K n nc d) (hM : S.M * S.invM = 1) (E : Matrix (Fin n) (Fin nc) K) :
    IsUnit (Matrix.of (deviation S E)) := by
  classical
  rw [← Matrix.mulVec_injective_iff_isUnit]
  intro f f' hff
  have hc : ∀ l, (S.M *ᵥ f) (S.consm l) = (S.M *ᵥ f') (S.consm l) := by
    intro l
    have := congrFun hff (S.consm l)
    simp only [deviation_mulVec] at this
    rwa [if_pos ⟨l, rfl⟩, if_pos ⟨l, rfl⟩] at this
  have hm : S.M *ᵥ f = S.M *ᵥ f' := by
    funext i
    have := congrFun hff i
    simp only [deviation_mulVec, hc] at this
    split_ifs at this with h
    · exact this
    · exact sub_left_injective this
  have hi : S.invM * S.M = 1 := mul_eq_one_comm.1 hM
  have := congrArg (S.invM *ᵥ ·) hm
  simpa only [Matrix.mulVec_mulVec, hi, Matrix.one_mulVec] using this

/-- The moments after the collision, without source and relative velocity. -/
theorem moments_collide (S : Kernel K n nc d) (hEQ : ∀ j w, S.EQ (S.consm j) w = w j) (hM : S.M * S.invM = 1)
    (hS : ∀ i, S.source i = none) (hrel : S.relVel = none) (a : Algo) (f : Fin n → K) :
    S.M *ᵥ collide S a f = relaxed S.consm S.EQ S.s (S.M *ᵥ f) := by
  have hcol : collide S a f = collision S.M S.invM S.consm S.EQ S.s f := by
    unfold collide
    rw [prog_eq]
    obtain ⟨h3, h4⟩ := step_collision S hEQ hS f ⟨0, 0, 0⟩
    cases a with
    | base => simp only [hrel, Option.isSome_none]; exact h4
    | pull => simp only [hrel, Option.isSome_none]; exact h3
  rw [hcol]
  unfold collision
  rw [Matrix.mulVec_mulVec, hM, Matrix.one_mulVec]

/-- The deviations of the difference of two states are multiplied by the rates. -/
theorem deviation_collide (S : Kernel K n nc d) (hEQ : ∀ j w, S.EQ (S.consm j) w = w j) (hM : S.M * S.invM = 1)
    (hS : ∀ i, S.source i = none) (hrel : S.relVel = none) (a : Algo)
    (E : Matrix (Fin n) (Fin nc) K) (b s : Fin n → K) (hE : ∀ i v, S.EQ i v = (∑ l, E i l * v l) + b i)
    (hs : ∀ i v, S.s i v = s i) (f f' : Fin n → K) (i : Fin n) :
    (Matrix.of (deviation S E) *ᵥ (collide S a f - collide S a f')) i =
      rate S s i * (Matrix.of (deviation S E) *ᵥ (f - f')) i := by
  have hcons : ∀ (g : Fin n → K) l, (S.M *ᵥ collide S a g) (S.consm l) = (S.M *ᵥ g) (S.consm l) := by
    intro g l
    rw [moments_collide S hEQ hM hS hrel]
    simp only [relaxed, hEQ, Function.comp_apply]
    ring
  rw [deviation_mulVec, deviation_mulVec]
  unfold rate
  simp only [Matrix.mulVec_sub, Pi.sub_apply]
  split_ifs with h
  · obtain ⟨l, rfl⟩ := h
    rw [hcons, hcons, one_mul]
  · simp only [hcons]
    rw [moments_collide S hEQ hM hS hrel, moments_collide S hEQ hM hS hrel]
    simp only [relaxed, hE, hs, Function.comp_apply, mul_sub, Finset.sum_sub_distrib]
    ring

/-- **C98, the collision.** The energy of the difference of two states of a cell does not increase. -/
theorem C98_collision (S : Kernel K n nc d) (hEQ : ∀ j w, S.EQ (S.consm j) w = w j) (hM : S.M * S.invM = 1)
    (hS : ∀ i, S.source i = none) (hrel : S.relVel = none) (a : Algo)
    (w : Fin n → K) (E : Matrix (Fin n) (Fin nc) K) (b s : Fin n → K) (hdis : Dissipative S w E b s)
    (f f' : Fin n → K) : energy w (collide S a f - collide S a f') ≤ energy w (f - f') := by
  refine energy_contraction (Matrix.of (deviation S E)) (deviation_isUnit S hM E) w hdis.pos (rate S s) ?_
    hdis.orthogonal _ _ fun i => deviation_collide S hEQ hM hS hrel a E b s hdis.equilibrium hdis.relaxation f f' i
  intro i
  unfold rate
  split_ifs with h
  · simp
  · have := hdis.range i h
    nlinarith

end local_

/-! ## Periodic domains -/

section periodic_
variable {K : Type} [Field K] [LinearOrder K] [IsStrictOrderedRing K] {n nc d dim : Nat}

/-- The energy over all the processes of the difference of two states of the simulation. -/
def totalEnergy (g : Grid dim) (w : Fin n → K) (σ τ : Proc g → Simu K n d dim) : K :=
  ∑ c : Proc g, ∑ x ∈ inner (size g c) g.w, energy w ((σ c).arr x - (τ c).arr x)

/-- The transport moves the populations: the energy over the torus is the same. -/
theorem energy_stream (N : Fin dim → Nat) (vel : Fin n → Cell dim) (w : Fin n → K) (t : K) (G G' : Arr K n dim) :
    ∑ y ∈ box N, energy w (lbmStep N vel id (fun _ H => H) t G y - lbmStep N vel id (fun _ H => H) t G' y) =
      ∑ y ∈ box N, energy w (G y - G' y) := by
  unfold energy
  rw [Finset.sum_comm, Finset.sum_comm (s := box N)]
  refine Finset.sum_congr rfl fun j _ => ?_
  exact sum_torus N (vel j) fun z => (G z j - G' z j) ^ 2 / w j

theorem energy_run (N : Fin dim → Nat) (vel : Fin n → Cell dim) (w : Fin n → K) (φ : (Fin n → K) → Fin n → K)
    (hφ : ∀ f f', energy w (φ f - φ f') ≤ energy w (f - f')) (dt : K) (G G' : Arr K n dim) (k : Nat) :
    ∑ y ∈ box N, energy w (lbmRun N vel φ (fun _ H => H) dt G k y - lbmRun N vel φ (fun _ H => H) dt G' k y) ≤
      ∑ y ∈ box N, energy w (G y - G' y) := by
  induction k with
  | zero => exact le_rfl
  | succ k ih =>
    exact (le_of_le_of_eq (Finset.sum_le_sum fun y _ => hφ _ _) (energy_stream N vel w (k * dt) _ _)).trans ih

/-- **C98.** On a fully periodic domain, the energy of the difference of two runs of a dissipative scheme never
increases: any decomposition and schedule of the messages (also different ones), Base and Pull, all backends. -/
theorem C98_periodic (hdim : dim ≤ 3) (g : Grid dim) (hlarge : ∀ c i, g.w i ≤ size g c i)
    (S : Kernel K n nc d) (hfront : ∀ j, (S.consm j : Nat) < nc) (hEQ : ∀ j w, S.EQ (S.consm j) w = w j)
    (hM : S.M * S.invM = 1) (hS : ∀ i, S.source i = none) (hrel : S.relVel = none)
    (vel : Fin n → Cell dim) (a : Algo) (hv : ∀ j i, |vel j i| ≤ g.w i)
    (Q : Proc g → Setup K n nc d dim) (hQ : Uniform g S vel a Q) (hQb : ∀ c t A, (Q c).bc t A = A)
    (w : Fin n → K) (E : Matrix (Fin n) (Fin nc) K) (b s : Fin n → K) (hdis : Dissipative S w E b s)
    (σ₀ τ₀ : Proc g → Simu K n d dim) (h0 : ∀ c, (σ₀ c).Start (Q c)) (h0' : ∀ c, (τ₀ c).Start (Q c))
    (k : Nat) (σ τ : Proc g → Simu K n d dim) (hr : PRun g Q σ₀ k σ) (hr' : PRun g Q τ₀ k τ) :
    totalEnergy g w σ τ ≤ totalEnergy g w σ₀ τ₀ := by
  have hown : ∀ c x, x ∈ inner (size g c) g.w ↔ Owned (size g c) g.w x := by
    intro c x
    simp [inner, Owned]
  obtain ⟨G, hG⟩ := C15_global_array_exists g fun c => (σ₀ c).arr
  obtain ⟨G', hG'⟩ := C15_global_array_exists g fun c => (τ₀ c).arr
  obtain ⟨_, h2⟩ := C42_global_partial hdim g hlarge S hfront vel a Q hQ _
    (sameBoundary_periodic g vel hv Q hQb) σ₀ h0 G hG k σ hr
  obtain ⟨_, h2'⟩ := C42_global_partial hdim g hlarge S hfront vel a Q hQ _
    (sameBoundary_periodic g vel hv Q hQb) τ₀ h0' G' hG' k τ hr'
  have key : ∀ (σ τ : Proc g → Simu K n d dim) (H H' : Arr K n dim),
      (∀ c x, Owned (size g c) g.w x → (σ c).arr x = H (globalPos (first g c) g.w x)) →
      (∀ c x, Owned (size g c) g.w x → (τ c).arr x = H' (globalPos (first g c) g.w x)) →
      totalEnergy g w σ τ = ∑ y ∈ box g.N, energy w (H y - H' y) := by
    intro σ τ H H' hH hH'
    rw [← sum_owned g fun y => energy w (H y - H' y)]
    refine Finset.sum_congr rfl fun c _ => Finset.sum_congr rfl fun x hx => ?_
    rw [hH c x ((hown c x).1 hx), hH' c x ((hown c x).1 hx)]
  rw [key σ τ _ _ h2 h2', key σ₀ τ₀ G G' hG hG']
  exact energy_run g.N vel w _ (C98_collision S hEQ hM hS hrel a w E b s hdis) S.dt G G' k

/-- The state 0 is kept by a scheme with linear equilibria. -/
theorem collide_zero (S : Kernel K n nc d) (hEQ : ∀ j w, S.EQ (S.consm j) w = w j) (hM : S.M * S.invM = 1)
    (hS : ∀ i, S.source i = none) (hrel : S.relVel = none) (a : Algo)
    (E : Matrix (Fin n) (Fin nc) K) (hE : ∀ i v, S.EQ i v = ∑ l, E i l * v l) : collide S a 0 = 0 := by
  have h := moments_collide S hEQ hM hS hrel a 0
  have hz : relaxed S.consm S.EQ S.s (S.M *ᵥ (0 : Fin n → K)) = 0 := by
    funext i
    simp [relaxed, hE]
  rw [hz] at h
  have hi : S.invM * S.M = 1 := mul_eq_one_comm.1 hM
  have := congrArg (S.invM *ᵥ ·) h
  simpa only [Matrix.mulVec_mulVec, hi, Matrix.one_mulVec, Matrix.mulVec_zero] using this

/-- **C98, one run.** When the equilibria are linear (no constant term), the energy of a run never increases and the
populations of all the cells are bounded for all times by the initial energy. -/
theorem C98_bound (hdim : dim ≤ 3) (g : Grid dim) (hlarge : ∀ c i, g.w i ≤ size g c i)
    (S : Kernel K n nc d) (hfront : ∀ j, (S.consm j : Nat) < nc) (hEQ : ∀ j w, S.EQ (S.consm j) w = w j)
    (hM : S.M * S.invM = 1) (hS : ∀ i, S.source i = none) (hrel : S.relVel = none)
    (vel : Fin n → Cell dim) (a : Algo) (hv : ∀ j i, |vel j i| ≤ g.w i)
    (Q : Proc g → Setup K n nc d dim) (hQ : Uniform g S vel a Q) (hQb : ∀ c t A, (Q c).bc t A = A)
    (w : Fin n → K) (E : Matrix (Fin n) (Fin nc) K) (s : Fin n → K) (hdis : Dissipative S w E 0 s)
    (σ₀ : Proc g → Simu K n d dim) (h0 : ∀ c, (σ₀ c).Start (Q c))
    (k : Nat) (σ : Proc g → Simu K n d dim) (hr : PRun g Q σ₀ k σ) :
    ∑ c : Proc g, ∑ x ∈ inner (size g c) g.w, energy w ((σ c).arr x) ≤
      ∑ c : Proc g, ∑ x ∈ inner (size g c) g.w, energy w ((σ₀ c).arr x) ∧
    ∀ c x j, Owned (size g c) g.w x → (σ c).arr x j ^ 2 ≤
      w j * ∑ c : Proc g, ∑ x ∈ inner (size g c) g.w, energy w ((σ₀ c).arr x) := by
  have hown : ∀ c x, x ∈ inner (size g c) g.w ↔ Owned (size g c) g.w x := by
    intro c x
    simp [inner, Owned]
  obtain ⟨G, hG⟩ := C15_global_array_exists g fun c => (σ₀ c).arr
  obtain ⟨_, h2⟩ := C42_global_partial hdim g hlarge S hfront vel a Q hQ _
    (sameBoundary_periodic g vel hv Q hQb) σ₀ h0 G hG k σ hr
  have hz : ∀ k, lbmRun g.N vel (collide S a) (fun _ H => H) S.dt (fun _ => 0) k = fun _ => 0 := by
    intro k
    induction k with
    | zero => rfl
    | succ k ih =>
      show lbmStep g.N vel (collide S a) (fun _ H => H) (k * S.dt) (lbmRun _ _ _ _ _ _ k) = _
      rw [ih]
      funext y
      exact collide_zero S hEQ hM hS hrel a E (fun i v => by rw [hdis.equilibrium]; simp)
  have key : ∀ (σ : Proc g → Simu K n d dim) (H : Arr K n dim),
      (∀ c x, Owned (size g c) g.w x → (σ c).arr x = H (globalPos (first g c) g.w x)) →
      ∑ c : Proc g, ∑ x ∈ inner (size g c) g.w, energy w ((σ c).arr x) = ∑ y ∈ box g.N, energy w (H y) := by
    intro σ H hH
    rw [← sum_owned g fun y => energy w (H y)]
    refine Finset.sum_congr rfl fun c _ => Finset.sum_congr rfl fun x hx => ?_
    rw [hH c x ((hown c x).1 hx)]
  have hle : ∑ c : Proc g, ∑ x ∈ inner (size g c) g.w, energy w ((σ c).arr x) ≤
      ∑ c : Proc g, ∑ x ∈ inner (size g c) g.w, energy w ((σ₀ c).arr x) := by
    rw [key σ _ h2, key σ₀ G hG]
    have h := energy_run g.N vel w _ (C98_collision S hEQ hM hS hrel a w E 0 s hdis) S.dt G (fun _ => 0) k
    simpa only [hz, sub_zero] using h
  refine ⟨hle, fun c x j hx => ?_⟩
  have h1 : (σ c).arr x j ^ 2 / w j ≤ energy w ((σ c).arr x) :=
    Finset.single_le_sum (f := fun j => (σ c).arr x j ^ 2 / w j)
      (fun j _ => div_nonneg (sq_nonneg _) (hdis.pos j).le) (Finset.mem_univ j)
  have h3 : energy w ((σ c).arr x) ≤ ∑ x ∈ inner (size g c) g.w, energy w ((σ c).arr x) :=
    Finset.single_le_sum (f := fun x => energy w ((σ c).arr x))
      (fun x _ => energy_nonneg hdis.pos _) ((hown c x).2 hx)
  have h4 : ∑ x ∈ inner (size g c) g.w, energy w ((σ c).arr x) ≤
      ∑ c : Proc g, ∑ x ∈ inner (size g c) g.w, energy w ((σ c).arr x) :=
    Finset.single_le_sum (f := fun c => ∑ x ∈ inner (size g c) g.w, energy w ((σ c).arr x))
      (fun c _ => Finset.sum_nonneg fun x _ => energy_nonneg hdis.pos _) (Finset.mem_univ c)
  have h5 := ((h1.trans h3).trans h4).trans hle
  rwa [div_le_iff₀ (hdis.pos j), mul_comm] at h5

/-- **C98 is sharp.** With affine equilibria and constant relaxation parameters, one parameter outside `[0, 2]` is
enough: there are two different states such that the difference of the runs started from them (everywhere) is
multiplied by `1 - s i` in each time step. -/
theorem C98_sharp (hdim : dim ≤ 3) (g : Grid dim) (hlarge : ∀ c i, g.w i ≤ size g c i)
    (S : Kernel K n nc d) (hfront : ∀ j, (S.consm j : Nat) < nc) (hEQ : ∀ j w, S.EQ (S.consm j) w = w j)
    (hM : S.M * S.invM = 1) (hS : ∀ i, S.source i = none) (hrel : S.relVel = none)
    (vel : Fin n → Cell dim) (a : Algo) (hv : ∀ j i, |vel j i| ≤ g.w i)
    (Q : Proc g → Setup K n nc d dim) (hQ : Uniform g S vel a Q) (hQb : ∀ c t A, (Q c).bc t A = A)
    (E : Matrix (Fin n) (Fin nc) K) (b s : Fin n → K) (hE : ∀ i v, S.EQ i v = (∑ l, E i l * v l) + b i)
    (hs : ∀ i v, S.s i v = s i) (i : Fin n) (hi : ¬ Conserved S i) (hout : s i < 0 ∨ 2 < s i) :
    1 < |1 - s i| ∧ ∃ e : Fin n → K, e ≠ 0 ∧ ∀ (f : Fin n → K) (σ₀ τ₀ : Proc g → Simu K n d dim),
      (∀ c, (σ₀ c).Start (Q c)) → (∀ c, (τ₀ c).Start (Q c)) →
      (∀ c x, Owned (size g c) g.w x → (σ₀ c).arr x = f + e ∧ (τ₀ c).arr x = f) →
      ∀ (k : Nat) (σ τ : Proc g → Simu K n d dim), PRun g Q σ₀ k σ → PRun g Q τ₀ k τ →
      ∀ c x, Owned (size g c) g.w x → (σ c).arr x - (τ c).arr x = (1 - s i) ^ k • e := by
  classical
  refine ⟨?_, ?_⟩
  · rcases hout with h | h
    · exact lt_of_lt_of_le (by linarith) (le_abs_self _)
    · exact lt_of_lt_of_le (by linarith) (neg_le_abs _)
  have hdet : IsUnit (Matrix.of (deviation S E)).det :=
    (Matrix.isUnit_iff_isUnit_det _).1 (deviation_isUnit S hM E)
  set A := Matrix.of (deviation S E) with hA
  have hAB : A * A⁻¹ = 1 := Matrix.mul_nonsing_inv A hdet
  have hBA : A⁻¹ * A = 1 := Matrix.nonsing_inv_mul A hdet
  have hAe : A *ᵥ (A⁻¹ *ᵥ Pi.single i 1) = Pi.single i 1 := by
    rw [Matrix.mulVec_mulVec, hAB, Matrix.one_mulVec]
  refine ⟨A⁻¹ *ᵥ Pi.single i 1, ?_, ?_⟩
  · intro h
    rw [h, Matrix.mulVec_zero] at hAe
    have := congrFun hAe i
    simp at this
  set e := A⁻¹ *ᵥ Pi.single i 1 with he
  intro f σ₀ τ₀ h0 h0' hf k σ τ hr hr' c x hx
  have hstep : ∀ (q : K) (f f' : Fin n → K), f - f' = q • e →
      collide S a f - collide S a f' = ((1 - s i) * q) • e := by
    intro q f f' hd
    have h1 : A *ᵥ (collide S a f - collide S a f') = A *ᵥ (((1 - s i) * q) • e) := by
      funext l
      rw [deviation_collide S hEQ hM hS hrel a E b s hE hs, hd, Matrix.mulVec_smul, Matrix.mulVec_smul, ← hA, hAe]
      simp only [Pi.smul_apply, smul_eq_mul]
      by_cases hl : l = i
      · subst hl
        unfold rate
        rw [if_neg hi]
        ring
      · rw [Pi.single_eq_of_ne hl]
        ring
    have := congrArg (A⁻¹ *ᵥ ·) h1
    simpa only [Matrix.mulVec_mulVec, hBA, Matrix.one_mulVec] using this
  have hsg : ∀ k, ∃ F F' : Fin n → K, F - F' = (1 - s i) ^ k • e ∧
      lbmRun g.N vel (collide S a) (fun _ H => H) S.dt (fun _ => f + e) k = (fun _ => F) ∧
      lbmRun g.N vel (collide S a) (fun _ H => H) S.dt (fun _ => f) k = (fun _ => F') := by
    intro k
    induction k with
    | zero => exact ⟨f + e, f, by simp, rfl, rfl⟩
    | succ k ih =>
      obtain ⟨F, F', h1, h2, h3⟩ := ih
      refine ⟨collide S a F, collide S a F', ?_, ?_, ?_⟩
      · rw [hstep _ F F' h1, pow_succ, mul_comm]
      · show lbmStep g.N vel (collide S a) (fun _ H => H) (k * S.dt) (lbmRun _ _ _ _ _ _ k) = _
        rw [h2]
        rfl
      · show lbmStep g.N vel (collide S a) (fun _ H => H) (k * S.dt) (lbmRun _ _ _ _ _ _ k) = _
        rw [h3]
        rfl
  obtain ⟨_, h2⟩ := C42_global_partial hdim g hlarge S hfront vel a Q hQ _
    (sameBoundary_periodic g vel hv Q hQb) σ₀ h0 (fun _ => f + e) (fun c x hx => (hf c x hx).1) k σ hr
  obtain ⟨_, h2'⟩ := C42_global_partial hdim g hlarge S hfront vel a Q hQ _
    (sameBoundary_periodic g vel hv Q hQb) τ₀ h0' (fun _ => f) (fun c x hx => (hf c x hx).2) k τ hr'
  obtain ⟨F, F', h3, h4, h5⟩ := hsg k
  rw [h2 c x hx, h2' c x hx, h4, h5, ← h3]

end periodic_

/-! ## Walls -/

section walls
variable {K : Type} [Field K] [LinearOrder K] [IsStrictOrderedRing K] [FloorRing K] {nc d dim : Nat}

/-- Bounce-back or anti-bounce-back on all the walls and obstacles; the imposed values are arbitrary. -/
def Reflecting {s : Sten dim} (D : WallData K dim s) : Prop :=
  ∀ label ms, D.dico label = some ms → ∀ p ∈ ms, p.2 = .bounceBack ∨ p.2 = .antiBounceBack

section
variable {s : Sten dim} {D : WallData K dim s} {N w : Fin dim → Nat} {lo : Fin dim → K} {dx : K}
  {lab : Fin dim → Bool → Int} {ST : Domain.State K dim s.nu} {J : List (Method dim × List (Entry K dim s.ns))}

/-- The incoming population of a link with bounce-back or anti-bounce-back is the outgoing one up to the sign, plus a
term which does not depend on the populations. -/
theorem wallBc_reflect (hD : D.WF lab) (hJ : OnGrid D (boxGrid N w lo dx lab s) ST J)
    (hfree : ∀ t, Free s (flat s (withValues s (boxGrid N w lo dx lab s) D.ψ J t)))
    (hmeth : AllMethods D) (hrefl : Reflecting D)
    {y : Cell dim} (hy : y ∈ box N) (j : Fin s.ns)
    (ho : ¬ Open (ST.link (s.ux (s.sym j)) (fun i => y i + w i)).flag) (t : K) :
    ∃ ε q : K, ε ^ 2 = 1 ∧ ∀ H : Arr K s.ns dim,
      wallBc D N w lo dx lab J t H (fun i => y i - s.vel j i) j = ε * H y (s.sym j) + q := by
  have o := hJ.onDomain hD t
  have n1 := o.nodup_positions hD.sten
  simp only [Open, List.mem_cons, List.not_mem_nil, or_false, not_or] at ho
  set X : Cell dim := fun i => y i + w i with hX
  have hint : (boxGrid N w lo dx lab s).Interior X := interior_shift hy
  set label := (ST.link (s.ux (s.sym j)) X).flag with hlabel
  have hmem : label ∈ listOfLabels (boxGrid N w lo dx lab s) D.els :=
    hJ.label_mem (g := boxGrid N w lo dx lab s) hD hint _ ho.1
  obtain ⟨all, hall, -⟩ := instances_spec s (boxGrid N w lo dx lab s).total ST.link _ D.dico J hJ.insts
  obtain ⟨ms, hms⟩ : ∃ ms, D.dico label = some ms :=
    Option.isSome_iff_exists.1 ((allEntries_spec s _ ST.link _ D.dico all hall).1 label hmem ho.2.1 ho.2.2)
  obtain ⟨m, hm⟩ := hmeth label ms hms j
  have hmb := hrefl label ms hms _ hm
  let en : Entry K dim s.ns := ⟨j, fun i => y i - s.vel j i + w i, label, (ST.link (s.ux (s.sym j)) X).dist⟩
  have hsrc : source s en = X := by
    funext i; simp only [source, en, hX]; ring
  have hen : (m, en) ∈ entries s J := by
    rw [mem_entries s _ ST.link hD.sten _ D.dico J hJ.insts]
    refine ⟨label, hmem, ho.2.1, ho.2.2, by rw [hms]; exact hm, rfl, ?_, ?_, ?_⟩
    · rw [hsrc]; exact mem_cells_interior hint
    · rw [hsrc]
    · rw [hsrc]
  set it : Item K dim s.ns := ⟨en, D.ψ label t (wallPoint s (boxGrid N w lo dx lab s) en)⟩ with hit
  have hq : (m, it) ∈ flat s (withValues s (boxGrid N w lo dx lab s) D.ψ J t) := by
    rw [mem_withValues]
    exact ⟨hen, rfl⟩
  have hin : Boundary.inner s 1 en = X := by
    rw [← hsrc]; funext i; simp [Boundary.inner, source]
  have e : (fun i => X i - (w i : Int)) = y := by funext i; simp [hX]
  have hval : ∀ H : Arr K s.ns dim, wallBc D N w lo dx lab J t H (fun i => y i - s.vel j i) j =
      value s m (fun k X => H (fun i => X i - w i) k) (fun k X => H (fun i => X i - w i) k) it := by
    intro H
    unfold wallBc
    rw [boundaryCondition_written s _ n1 (hfree t)]
    exact written_mem s n1 hq (fun k X => H (fun i => X i - w i) k)
  rcases hmb with h | h
  · refine ⟨1, rhs s m it, one_pow 2, fun H => ?_⟩
    simp only at h
    rw [hval H, h]
    simp only [value]
    rw [show it.toEntry = en from rfl, hin]
    simp only [e, one_mul]
    rfl
  · refine ⟨-1, rhs s m it, by norm_num, fun H => ?_⟩
    simp only at h
    rw [hval H, h]
    simp only [value]
    rw [show it.toEntry = en from rfl, hin]
    simp only [e, neg_one_mul]
    rfl

/-- The transport with reflections moves the populations: the energy over the fluid cells is the same. -/
theorem energy_walls (hD : D.WF lab) (hJ : OnGrid D (boxGrid N w lo dx lab s) ST J)
    (hfree : ∀ t, Free s (flat s (withValues s (boxGrid N w lo dx lab s) D.ψ J t)))
    (hmeth : AllMethods D) (hrefl : Reflecting D) (hseal : Sealed N w ST) (ω : Fin s.ns → K) (heven : Even ω)
    (t : K) (G G' : Arr K s.ns dim) :
    ∑ y ∈ box N with fluidMap w ST y = true, energy ω (lbmStep N s.vel id (wallBc D N w lo dx lab J) t G y -
      lbmStep N s.vel id (wallBc D N w lo dx lab J) t G' y) =
    ∑ y ∈ box N with fluidMap w ST y = true, energy ω (G y - G' y) := by
  have he : ∀ f : Fin s.ns → K, energy ω f = (fun j => (ω j)⁻¹) ⬝ᵥ fun j => f j ^ 2 := by
    intro f
    unfold energy dotProduct
    refine Finset.sum_congr rfl fun j _ => ?_
    rw [div_eq_mul_inv, mul_comm]
  simp only [he]
  refine sum_origin hD hseal (fun j => (ω j)⁻¹) (fun j j' h1 h2 => congrArg (·⁻¹) (heven j j' h1 h2))
    (fun y j => (lbmStep N s.vel id (wallBc D N w lo dx lab J) t G y -
      lbmStep N s.vel id (wallBc D N w lo dx lab J) t G' y) j ^ 2) (fun y j => (G y - G' y) j ^ 2) ?_
  intro y hyb _ j _
  simp only [lbmStep, id, Pi.sub_apply]
  unfold origin
  split_ifs with h
  · rw [wallBc_open hD hJ hfree j h t, wallBc_open hD hJ hfree j h t]
    rfl
  · simp only
    obtain ⟨ε, q, hε, hq⟩ := wallBc_reflect hD hJ hfree hmeth hrefl hyb j h t
    rw [hq, hq, periodic_box G hyb, periodic_box G' hyb]
    calc _ = ε ^ 2 * (G y (s.sym j) - G' y (s.sym j)) ^ 2 := by ring
      _ = _ := by rw [hε, one_mul]

end

/-- The energy over the fluid cells of all the processes of the difference of two states of the simulation. -/
def fluidEnergy {s : Sten dim} (ST : Domain.State K dim s.nu) (g : Grid dim) (w : Fin s.ns → K)
    (σ τ : Proc g → Simu K s.ns d dim) : K :=
  ∑ c : Proc g, ∑ x ∈ inner (size g c) g.w with fluidMap g.w ST (globalPos (first g c) g.w x) = true,
    energy w ((σ c).arr x - (τ c).arr x)

/-- **C98, walls.** In a domain without holes with bounce-back or anti-bounce-back on all the walls and obstacles, the
imposed values being arbitrary functions of the time and of the place (moving walls, imposed temperatures), the energy
over the fluid cells of the difference of two runs of a dissipative scheme, with the same weight for opposite
velocities, never increases. -/
theorem C98_walls (hdim : dim ≤ 3) {s : Sten dim} (D : WallData K dim s) (lo : Fin dim → K) (dx : K)
    (lab : Fin dim → Bool → Int) (hD : D.WF lab) (g : Grid dim)
    (ST : Domain.State K dim s.nu) (J : List (Method dim × List (Entry K dim s.ns)))
    (hJ : OnGrid D (boxGrid g.N g.w lo dx lab s) ST J)
    (hfree : ∀ t, Free s (flat s (withValues s (boxGrid g.N g.w lo dx lab s) D.ψ J t)))
    (hseal : Sealed g.N g.w ST) (hmeth : AllMethods D) (hreads : ReadsFluid D g.N g.w lo dx lab ST J)
    (hrefl : Reflecting D)
    (S : Kernel K s.ns nc d) (hfront : ∀ j, (S.consm j : Nat) < nc) (hEQ : ∀ j w, S.EQ (S.consm j) w = w j)
    (hM : S.M * S.invM = 1) (hS : ∀ i, S.source i = none) (hrel : S.relVel = none) (a : Algo)
    (ω : Fin s.ns → K) (heven : Even ω) (E : Matrix (Fin s.ns) (Fin nc) K) (b r : Fin s.ns → K)
    (hdis : Dissipative S ω E b r)
    (Q : Proc g → Setup K s.ns nc d dim) (hQ : FluidRun D g lo dx lab S a Q)
    (σ₀ τ₀ : Proc g → Simu K s.ns d dim) (h0 : ∀ c, (σ₀ c).Start (Q c)) (h0' : ∀ c, (τ₀ c).Start (Q c))
    (k : Nat) (σ τ : Proc g → Simu K s.ns d dim) (hr : PRun g Q σ₀ k σ) (hr' : PRun g Q τ₀ k τ) :
    fluidEnergy ST g ω σ τ ≤ fluidEnergy ST g ω σ₀ τ₀ := by
  have hown : ∀ c x, x ∈ inner (size g c) g.w ↔ Owned (size g c) g.w x := by
    intro c x
    simp [inner, Owned]
  have hlinks : AllLinks g.N g.w ST := by
    intro y hy hyf u
    by_cases h : Open (ST.link u (fun i => y i + g.w i)).flag
    · exact Or.inl (hseal y hy hyf u (s.usym u) (hD.sten.usym u) h).1
    · exact Or.inr h
  obtain ⟨G, hG⟩ := C15_global_array_exists g fun c => (σ₀ c).arr
  obtain ⟨G', hG'⟩ := C15_global_array_exists g fun c => (τ₀ c).arr
  obtain ⟨_, h2⟩ := C73_fluid_cells hdim g hQ.walls.large S hfront s.vel a _ Q (hQ.uniform hD ST hJ.built) _
    (sameBoundary_walls D g lo dx lab hD Q hQ.walls ST J hJ hfree)
    (fluidBoundary_walls D g.N g.w lo dx lab hD ST J hJ hfree hlinks hmeth hreads) σ₀ h0 G
    (fun c x hx _ => hG c x hx) k σ hr
  obtain ⟨_, h2'⟩ := C73_fluid_cells hdim g hQ.walls.large S hfront s.vel a _ Q (hQ.uniform hD ST hJ.built) _
    (sameBoundary_walls D g lo dx lab hD Q hQ.walls ST J hJ hfree)
    (fluidBoundary_walls D g.N g.w lo dx lab hD ST J hJ hfree hlinks hmeth hreads) τ₀ h0' G'
    (fun c x hx _ => hG' c x hx) k τ hr'
  have hsum : ∀ k, ∑ y ∈ box g.N with fluidMap g.w ST y = true, energy ω
      (lbmRun g.N s.vel (collide S a) (wallBc D g.N g.w lo dx lab J) S.dt G k y -
        lbmRun g.N s.vel (collide S a) (wallBc D g.N g.w lo dx lab J) S.dt G' k y) ≤
      ∑ y ∈ box g.N with fluidMap g.w ST y = true, energy ω (G y - G' y) := by
    intro k
    induction k with
    | zero => exact le_rfl
    | succ k ih =>
      exact (le_of_le_of_eq (Finset.sum_le_sum fun y _ => C98_collision S hEQ hM hS hrel a ω E b r hdis _ _)
        (energy_walls hD hJ hfree hmeth hrefl hseal ω heven (k * S.dt) _ _)).trans ih
  have key : ∀ (σ τ : Proc g → Simu K s.ns d dim) (H H' : Arr K s.ns dim),
      (∀ c x, Owned (size g c) g.w x → fluidMap g.w ST (globalPos (first g c) g.w x) = true →
        (σ c).arr x = H (globalPos (first g c) g.w x)) →
      (∀ c x, Owned (size g c) g.w x → fluidMap g.w ST (globalPos (first g c) g.w x) = true →
        (τ c).arr x = H' (globalPos (first g c) g.w x)) →
      fluidEnergy ST g ω σ τ = ∑ y ∈ box g.N with fluidMap g.w ST y = true, energy ω (H y - H' y) := by
    intro σ τ H H' hH hH'
    unfold fluidEnergy
    rw [Finset.sum_filter, ← sum_owned g fun y => if fluidMap g.w ST y = true then energy ω (H y - H' y) else 0]
    refine Finset.sum_congr rfl fun c _ => ?_
    rw [Finset.sum_filter]
    refine Finset.sum_congr rfl fun x hx => ?_
    split_ifs with h
    · rw [hH c x ((hown c x).1 hx) h, hH' c x ((hown c x).1 hx) h]
    · rfl
  rw [key σ τ _ _ h2 h2', key σ₀ τ₀ G G' (fun c x hx _ => hG c x hx) fun c x hx _ => hG' c x hx]
  exact hsum k

end walls

end Pylbm.Sim
