import Verif.Sim.Mixing
import Verif.Sim.Sublattice
/-!
# C121: the mean, and the boxes where the solution does not tend to it
-/

set_option linter.unusedSectionVars false

namespace Pylbm.Sim
open Scheme Halo SchemeSpec Matrix HaloSpec Mpi

/-- The populations `u` are the equilibrium of their own conserved moments. -/
def AtEquilibrium {K : Type} [Field K] {n nc d : Nat} (S : Kernel K n nc d) (u : Fin n → K) : Prop :=
  ∀ i, (S.M *ᵥ u) i = S.EQ i fun l => (S.M *ᵥ u) (S.consm l)

variable {n d dim : Nat} {S : Kernel ℝ n 1 d} {w : Fin n → ℝ} {E : Matrix (Fin n) (Fin 1) ℝ} {b s e : Fin n → ℝ}

theorem Damped.collide_equilibrium (h : Damped S w E b s e) (a : Algo) {u : Fin n → ℝ} (hu : AtEquilibrium S u) :
    collide S a u = u := by
  apply h.moments
  rw [moments_collide S h.conserved h.inverse h.noSource h.noRel]
  funext i
  unfold relaxed
  rw [show S.EQ i ((S.M *ᵥ u) ∘ S.consm) = (S.M *ᵥ u) i from (hu i).symm]
  ring

theorem Damped.add_equilibrium (h : Damped S w E b s e) {u : Fin n → ℝ} (hu : AtEquilibrium S u) :
    AtEquilibrium S (u + e) := by
  intro i
  have h1 := hu i
  rw [h.dissipative.equilibrium] at h1 ⊢
  simp only [Fin.sum_univ_one, Matrix.mulVec_add, Pi.add_apply, h.unit, h.unitAt] at h1 ⊢
  rw [h1]
  ring

theorem box_card (N : Fin dim → Nat) : (box N).card = ∏ i, N i := by
  simp [box, Fintype.card_piFinset]

/-- A periodic run in which the total of the conserved quantity is that of the uniform equilibrium `u`. -/
theorem Damped.tends (h : Damped S w E b s e) {N : Fin dim → Nat} (hN : ∀ i, 0 < N i) {vel : Fin n → Cell dim}
    (hc : Connects N vel) (a : Algo) (dt : ℝ) : ∃ q : ℝ, 0 < q ∧ q < 1 ∧ ∀ (G : Arr ℝ n dim) (u : Fin n → ℝ),
      AtEquilibrium S u → ∑ y ∈ box N, (S.M *ᵥ G y) (S.consm 0) = (∏ i, N i : ℕ) * (S.M *ᵥ u) (S.consm 0) →
      ∃ C : ℝ, ∀ k, ∀ y ∈ box N, ∀ j,
        (lbmRun N vel (collide S a) (fun _ H => H) dt G k y j - u j) ^ 2 ≤ C * q ^ k := by
  obtain ⟨C, q, hC, h0, h1, h2⟩ := mixing_decay h.damps hN hc
  refine ⟨q, h0, h1, fun G u hu htot => ?_⟩
  have htot' : ∑ y ∈ box N, S.M (S.consm 0) ⬝ᵥ (G y - u) = 0 := by
    simp only [dotProduct_sub, Finset.sum_sub_distrib, Finset.sum_const, nsmul_eq_mul, box_card]
    rw [sub_eq_zero, ← show (S.M *ᵥ u) (S.consm 0) = S.M (S.consm 0) ⬝ᵥ u from rfl, ← htot]
    rfl
  set e0 := ∑ y ∈ box N, energy w (G y - u) with he0
  have he0n : 0 ≤ e0 := Finset.sum_nonneg fun y _ => energy_nonneg h.dissipative.pos _
  set W := ∑ j, w j with hW
  have hWj : ∀ j, w j ≤ W := fun j => Finset.single_le_sum (f := w) (fun j _ => (h.dissipative.pos j).le) (Finset.mem_univ j)
  refine ⟨W * (C * e0), fun k y hyb j => ?_⟩
  have hu' : ∀ k y, lbmRun N vel (collide S a) (fun _ H => H) dt (fun _ => u) k y = u := by
    intro k
    induction k with
    | zero => exact fun _ => rfl
    | succ k ih =>
      intro y
      show collide S a (fun j => lbmRun N vel (collide S a) (fun _ H => H) dt (fun _ => u) k
        (fun i => (y i - vel j i) % N i) j) = u
      simp only [ih]
      exact h.collide_equilibrium a hu
  have h4 := h2 dt (fun y => G y - u) htot' k
  simp only [← h.run_sub (G' := fun _ => u) a N vel dt G, hu'] at h4
  have h5 : (lbmRun N vel (collide S a) (fun _ H => H) dt G k y j - u j) ^ 2 / w j ≤ C * q ^ k * e0 := by
    refine le_trans ?_ h4
    refine le_trans ?_ (Finset.single_le_sum (f := fun y => energy w (lbmRun N vel (collide S a) (fun _ H => H) dt G k y - u))
      (fun y _ => energy_nonneg h.dissipative.pos _) hyb)
    exact Finset.single_le_sum (f := fun j => (lbmRun N vel (collide S a) (fun _ H => H) dt G k y - u) j ^ 2 / w j)
      (fun j _ => div_nonneg (sq_nonneg _) (h.dissipative.pos j).le) (Finset.mem_univ j)
  rw [div_le_iff₀ (h.dissipative.pos j)] at h5
  refine h5.trans ?_
  have h6 : 0 ≤ C * q ^ k * e0 := by positivity
  calc C * q ^ k * e0 * w j ≤ C * q ^ k * e0 * W := mul_le_mul_of_nonneg_left (hWj j) h6
    _ = W * (C * e0) * q ^ k := by ring

/-- **C121.** If the differences of the velocities connect the cells, the populations tend to those of the uniform equilibrium
`u` with the same total of the conserved quantity, whatever the initial values; the squares of the differences decrease
geometrically, with a rate which depends on the scheme and the box only. -/
theorem C121_mean (hdim : dim ≤ 3) (g : Grid dim) (hlarge : ∀ c i, g.w i ≤ size g c i) (hN : ∀ i, 0 < g.N i)
    (h : Damped S w E b s e) (hfront : ∀ j, (S.consm j : Nat) < 1) (vel : Fin n → Cell dim) (a : Algo)
    (hv : ∀ j i, |vel j i| ≤ g.w i) (hc : Connects g.N vel)
    (Q : Proc g → Setup ℝ n 1 d dim) (hQ : Uniform g S vel a Q) (hQb : ∀ c t A, (Q c).bc t A = A) :
    ∃ q : ℝ, 0 < q ∧ q < 1 ∧ ∀ (σ₀ : Proc g → Simu ℝ n d dim), (∀ c, (σ₀ c).Start (Q c)) →
      ∀ u, AtEquilibrium S u →
      ∑ c : Proc g, ∑ x ∈ inner (size g c) g.w, (S.M *ᵥ (σ₀ c).arr x) (S.consm 0) =
        (∏ i, g.N i : ℕ) * (S.M *ᵥ u) (S.consm 0) →
      ∃ C : ℝ, ∀ k σ, PRun g Q σ₀ k σ → ∀ c x j, Owned (size g c) g.w x → ((σ c).arr x j - u j) ^ 2 ≤ C * q ^ k := by
  obtain ⟨q, h0, h1, h2⟩ := h.tends hN hc a S.dt
  refine ⟨q, h0, h1, fun σ₀ hσ₀ u hu htot => ?_⟩
  obtain ⟨G, hG⟩ := C15_global_array_exists g fun c => (σ₀ c).arr
  obtain ⟨C, hC⟩ := h2 G u hu (by
    rw [← htot, ← sum_owned g fun y => (S.M *ᵥ G y) (S.consm 0)]
    refine Finset.sum_congr rfl fun c _ => Finset.sum_congr rfl fun x hx => ?_
    rw [← hG c x (by simpa [inner, Owned] using hx)])
  refine ⟨C, fun k σ hr c x j hx => ?_⟩
  obtain ⟨_, h3⟩ := C42_global_partial hdim g hlarge S hfront vel a Q hQ _
    (sameBoundary_periodic g vel hv Q hQb) σ₀ hσ₀ G hG k σ hr
  rw [h3 c x hx]
  exact hC k _ (owned_box g hx) j

/-- **C121, the other boxes.** If the differences of the velocities do not connect the cells, there are initial values for which
after any number of steps some cells hold an equilibrium `u` and others the equilibrium with one more unit of the conserved
quantity. -/
theorem C121_negation (hdim : dim ≤ 3) (g : Grid dim) (hlarge : ∀ c i, g.w i ≤ size g c i) (hN : ∀ i, 0 < g.N i)
    (h : Damped S w E b s e) (hfront : ∀ j, (S.consm j : Nat) < 1) (vel : Fin n → Cell dim) (a : Algo)
    (hv : ∀ j i, |vel j i| ≤ g.w i) (hc : ¬ Connects g.N vel)
    (Q : Proc g → Setup ℝ n 1 d dim) (hQ : Uniform g S vel a Q) (hQb : ∀ c t A, (Q c).bc t A = A)
    (u : Fin n → ℝ) (hu : AtEquilibrium S u) :
    ∃ G : Arr ℝ n dim, ∀ (σ₀ : Proc g → Simu ℝ n d dim), (∀ c, (σ₀ c).Start (Q c)) →
      (∀ c x, Owned (size g c) g.w x → (σ₀ c).arr x = G (globalPos (first g c) g.w x)) →
      ∀ k σ, PRun g Q σ₀ k σ → ∃ c x c' x', Owned (size g c) g.w x ∧ Owned (size g c') g.w x' ∧
        (σ c).arr x = u + e ∧ (σ c').arr x' = u := by
  classical
  set H := AddSubgroup.closure ({z : Fin dim → ℤ | ∃ j j', z = vel j - vel j'} ∪ {z | ∃ i, z = Pi.single i (g.N i : ℤ)}) with hH
  set χ : (Fin dim → ℤ) →+ (Fin dim → ℤ) ⧸ H := QuotientAddGroup.mk' H with hχ
  have hker : ∀ z, χ z = 0 ↔ z ∈ H := fun z => QuotientAddGroup.eq_zero_iff z
  have hcol : Colouring g.N χ := fun i => (hker _).2 (AddSubgroup.subset_closure (.inr ⟨i, rfl⟩))
  set v := χ (vel (S.consm 0)) with hvdef
  have hvel : ∀ j, χ (vel j) = v := by
    intro j
    rw [hvdef, ← sub_eq_zero, ← map_sub]
    exact (hker _).2 (AddSubgroup.subset_closure (.inl ⟨j, _, rfl⟩))
  obtain ⟨z, hz⟩ : ∃ z, z ∉ H := by
    by_contra hall
    push Not at hall
    exact hc ((AddSubgroup.eq_top_iff' H).2 hall)
  refine ⟨fun y => if χ y = 0 then u + e else u, fun σ₀ hσ₀ hG k σ hr => ?_⟩
  obtain ⟨_, h3⟩ := C42_global_partial hdim g hlarge S hfront vel a Q hQ _
    (sameBoundary_periodic g vel hv Q hQb) σ₀ hσ₀ (fun y => if χ y = 0 then u + e else u) hG k σ hr
  have hrun : ∀ k y, lbmRun g.N vel (collide S a) (fun _ H => H) S.dt (fun y => if χ y = 0 then u + e else u) k y =
      if χ y = k • v then u + e else u := by
    intro k
    induction k with
    | zero =>
      intro y
      rw [zero_smul]
      rfl
    | succ k ih =>
      intro y
      show collide S a (fun j => lbmRun g.N vel (collide S a) (fun _ H => H) S.dt (fun y => if χ y = 0 then u + e else u) k
        (fun i => (y i - vel j i) % g.N i) j) = _
      have hiff : ∀ j, χ (fun i => (y i - vel j i) % g.N i) = k • v ↔ χ y = (k + 1) • v := by
        intro j
        rw [colour_mod hcol fun i => y i - vel j i, show χ (fun i => y i - vel j i) = χ y - v by
          rw [← hvel j, ← map_sub]; rfl, succ_nsmul, sub_eq_iff_eq_add]
      simp only [ih, hiff]
      split_ifs
      · exact h.collide_equilibrium a (h.add_equilibrium hu)
      · exact h.collide_equilibrium a hu
  obtain ⟨c, x, hx, ex⟩ := exists_owned g (fun i => (k • vel (S.consm 0)) i % g.N i) (wrap_box hN _)
  obtain ⟨c', x', hx', ex'⟩ := exists_owned g (fun i => (k • vel (S.consm 0) + z) i % g.N i) (wrap_box hN _)
  refine ⟨c, x, c', x', hx, hx', ?_, ?_⟩
  · rw [h3 c x hx, hrun, ex, colour_mod hcol, if_pos]
    exact map_nsmul χ k _
  · rw [h3 c' x' hx', hrun, ex', colour_mod hcol, if_neg]
    rw [map_add, map_nsmul, add_eq_left]
    exact fun h0 => hz ((hker z).1 h0)

/-- A velocity zero and unit velocities along all the axes connect the cells of all boxes. -/
theorem connects_rest (N : Fin dim → Nat) {n : Nat} (vel : Fin n → Cell dim) (j : Fin n) (hj : vel j = 0)
    (h : ∀ i, ∃ j, vel j = Pi.single i 1) : Connects N vel := by
  unfold Connects
  rw [AddSubgroup.eq_top_iff']
  intro z
  rw [← Finset.univ_sum_single z]
  refine AddSubgroup.sum_mem _ fun i _ => ?_
  obtain ⟨j', hj'⟩ := h i
  have h1 : (Pi.single i 1 : Fin dim → ℤ) ∈ AddSubgroup.closure
      ({z : Fin dim → ℤ | ∃ j j', z = vel j - vel j'} ∪ {z | ∃ i, z = Pi.single i (N i : ℤ)}) :=
    AddSubgroup.subset_closure (.inl ⟨j', j, by rw [hj, hj', sub_zero]⟩)
  have h2 := AddSubgroup.zsmul_mem _ h1 (z i)
  rwa [← Pi.single_smul, smul_eq_mul, mul_one] at h2

/-- The two velocities of D1Q2 connect the cells exactly if their number is odd. -/
theorem connects_d1q2 (N : Nat) : Connects (fun _ : Fin 1 => N) (fun j _ => ![1, -1] j : Fin 2 → Cell 1) ↔ _root_.Odd N := by
  constructor
  · intro h
    by_contra hodd
    rw [Nat.not_odd_iff_even] at hodd
    have h1 : (Pi.single 0 1 : Fin 1 → ℤ) ∈ AddSubgroup.closure
        ({z : Fin 1 → ℤ | ∃ j j', z = (fun j _ => ![1, -1] j : Fin 2 → Cell 1) j - (fun j _ => ![1, -1] j : Fin 2 → Cell 1) j'} ∪
          {z | ∃ i, z = Pi.single i ((fun _ : Fin 1 => N) i : ℤ)}) := by
      rw [show AddSubgroup.closure _ = ⊤ from h]
      exact AddSubgroup.mem_top _
    have key : ∀ z ∈ AddSubgroup.closure
        ({z : Fin 1 → ℤ | ∃ j j', z = (fun j _ => ![1, -1] j : Fin 2 → Cell 1) j - (fun j _ => ![1, -1] j : Fin 2 → Cell 1) j'} ∪
          {z | ∃ i, z = Pi.single i ((fun _ : Fin 1 => N) i : ℤ)}), _root_.Even (z 0) := by
      intro z hz
      induction hz using AddSubgroup.closure_induction with
      | mem x hx =>
        rcases hx with ⟨j, j', rfl⟩ | ⟨i, rfl⟩
        · show _root_.Even ((![1, -1] j : ℤ) - ![1, -1] j')
          revert j j'
          decide
        · rw [Subsingleton.elim i 0, Pi.single_eq_same]
          exact_mod_cast hodd
      | zero => exact Even.zero
      | add x y _ _ hx hy => exact hx.add hy
      | neg x _ hx => exact hx.neg
    have h2 := key _ h1
    rw [Pi.single_eq_same] at h2
    exact absurd h2 (by decide)
  · rintro ⟨r, hr⟩
    unfold Connects
    rw [AddSubgroup.eq_top_iff']
    intro z
    have h2 : (fun _ => 2 : Fin 1 → ℤ) ∈ AddSubgroup.closure
        ({z : Fin 1 → ℤ | ∃ j j', z = (fun j _ => ![1, -1] j : Fin 2 → Cell 1) j - (fun j _ => ![1, -1] j : Fin 2 → Cell 1) j'} ∪
          {z | ∃ i, z = Pi.single i ((fun _ : Fin 1 => N) i : ℤ)}) :=
      AddSubgroup.subset_closure (.inl ⟨0, 1, by funext i; simp⟩)
    have h3 : (fun _ => (N : ℤ) : Fin 1 → ℤ) ∈ AddSubgroup.closure
        ({z : Fin 1 → ℤ | ∃ j j', z = (fun j _ => ![1, -1] j : Fin 2 → Cell 1) j - (fun j _ => ![1, -1] j : Fin 2 → Cell 1) j'} ∪
          {z | ∃ i, z = Pi.single i ((fun _ : Fin 1 => N) i : ℤ)}) :=
      AddSubgroup.subset_closure (.inr ⟨0, by funext i; rw [Subsingleton.elim i 0, Pi.single_eq_same]⟩)
    have h4 := AddSubgroup.sub_mem _ (AddSubgroup.zsmul_mem _ h3 (z 0)) (AddSubgroup.zsmul_mem _ h2 (z 0 * r))
    convert h4 using 1
    funext i
    rw [Subsingleton.elim i 0]
    simp only [Pi.sub_apply, Pi.smul_apply, smul_eq_mul]
    rw [hr]
    push_cast
    ring

end Pylbm.Sim
