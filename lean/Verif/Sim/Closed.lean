import Verif.Sim.Images
import Verif.Sim.Mean
/-!
# C121 in a closed chamber

Bounce-back walls are mirrors (C114), and a periodic solution tends to its mean (C121): the solution in a closed chamber tends to
its mean.
-/

set_option linter.unusedSectionVars false

namespace Pylbm.Sim
open Scheme Halo SchemeSpec Matrix HaloSpec Mpi Boundary

section sums
variable {dim : Nat}

theorem tent_fiber (N : Nat) (z y : ℤ) (hz : 0 ≤ z ∧ z < N) :
    (0 ≤ y ∧ y < ((2 * N : ℕ) : ℤ)) ∧ tent N y = z ↔ y = z ∨ y = 2 * N - 1 - z := by
  push_cast
  constructor
  · rintro ⟨h1, h2⟩
    unfold tent at h2
    rw [Int.emod_eq_of_lt h1.1 h1.2] at h2
    split_ifs at h2 <;> omega
  · rintro h
    have h1 : 0 ≤ y ∧ y < 2 * (N : ℤ) := by omega
    refine ⟨h1, ?_⟩
    unfold tent
    rw [Int.emod_eq_of_lt h1.1 h1.2]
    split_ifs <;> omega

/-- The cells of the doubled box whose image is the cell `z` of the chamber. -/
theorem fiber_fold (W : Fin dim → Bool) (N : Fin dim → Nat) {z : Cell dim} (hz : z ∈ box N) :
    (box (doubled W N)).filter (fun y => fold W N y = z) =
      Fintype.piFinset fun i => if W i = true then {z i, 2 * N i - 1 - z i} else {z i} := by
  classical
  have hz' := (mem_box N z).1 hz
  ext y
  rw [Finset.mem_filter, mem_box, Fintype.mem_piFinset, funext_iff, ← forall_and]
  refine forall_congr' fun i => ?_
  unfold doubled fold
  by_cases hW : W i = true
  · simp only [hW, if_true, Finset.mem_insert, Finset.mem_singleton]
    exact tent_fiber (N i) (z i) (y i) (hz' i)
  · simp only [if_neg hW, Finset.mem_singleton]
    constructor
    · rintro ⟨h1, h2⟩
      rwa [Int.emod_eq_of_lt h1.1 h1.2] at h2
    · intro h
      rw [h]
      exact ⟨hz' i, Int.emod_eq_of_lt (hz' i).1 (hz' i).2⟩

/-- A cell of the chamber is the image of as many cells of the doubled box as there are mirrors. -/
theorem card_fold (W : Fin dim → Bool) (N : Fin dim → Nat) {z : Cell dim} (hz : z ∈ box N) :
    ((box (doubled W N)).filter fun y => fold W N y = z).card = ∏ i, if W i = true then 2 else 1 := by
  rw [fiber_fold W N hz, Fintype.card_piFinset]
  refine Finset.prod_congr rfl fun i _ => ?_
  by_cases hW : W i = true
  · simp only [hW, if_true]
    exact Finset.card_pair (by omega)
  · simp [hW]

theorem sum_fold (W : Fin dim → Bool) (N : Fin dim → Nat) (hN : ∀ i, 0 < N i) (F : Cell dim → ℝ) :
    ∑ y ∈ box (doubled W N), F (fold W N y) = (∏ i, if W i = true then 2 else 1 : ℕ) * ∑ z ∈ box N, F z := by
  classical
  rw [← Finset.sum_fiberwise_of_maps_to (t := box N) (g := fold W N) fun y _ => fold_box W N hN y, Finset.mul_sum]
  refine Finset.sum_congr rfl fun z hz => ?_
  rw [Finset.sum_congr rfl fun y hy => by rw [(Finset.mem_filter.1 hy).2], Finset.sum_const, card_fold W N hz, nsmul_eq_mul]

theorem prod_doubled (W : Fin dim → Bool) (N : Fin dim → Nat) :
    ∏ i, doubled W N i = (∏ i, if W i = true then 2 else 1) * ∏ i, N i := by
  rw [← Finset.prod_mul_distrib]
  refine Finset.prod_congr rfl fun i _ => ?_
  unfold doubled
  split_ifs <;> simp

theorem mirrored_mirrored {s : Sten dim} (hs : s.WF) (A : Fin dim → Bool) (j : Fin s.ns) :
    mirrored s A (mirrored s A j) = j := by
  unfold mirrored
  by_cases h : ∃ i, A i = true ∧ s.vel j i ≠ 0
  · have h' : ∃ i, A i = true ∧ s.vel (s.sym j) i ≠ 0 := by
      obtain ⟨i, h1, h2⟩ := h
      exact ⟨i, h1, by rw [hs.sym]; exact neg_ne_zero.2 h2⟩
    rw [if_pos h, if_pos h', hs.sym_sym]
  · rw [if_neg h, if_neg h]

/-- The conserved quantity of the image of a cell, with bounce-back. -/
theorem moment_reflect {s : Sten dim} (hs : s.WF) (A : Fin dim → Bool) (r f : Fin s.ns → ℝ) (hr : ∀ j, r (s.sym j) = r j) :
    r ⬝ᵥ reflectCell s (fun _ _ => 1) A f = r ⬝ᵥ f := by
  have h1 : ∀ j, r (mirrored s A j) = r j := by
    intro j
    unfold mirrored
    split_ifs
    · exact hr j
    · rfl
  unfold dotProduct
  refine Finset.sum_nbij' (mirrored s A) (mirrored s A) (fun _ _ => Finset.mem_univ _) (fun _ _ => Finset.mem_univ _)
    (fun j _ => mirrored_mirrored hs A j) (fun j _ => mirrored_mirrored hs A j) fun j _ => ?_
  rw [h1]
  simp [reflectCell, signs]

end sums

/-- **C121, closed chambers.** With bounce-back on all the walls and a collision which respects the mirrors, if the differences
of the velocities connect the cells of the doubled box (always the case with a velocity at rest), the populations in the chamber
tend to those of the uniform equilibrium `u` with the same total of the conserved quantity, whatever the initial values. -/
theorem C121_closed {d dim : Nat} (hdim : dim ≤ 3) {s : Sten dim} {D : WallData ℝ dim s} {lo : Fin dim → ℝ} {dx : ℝ}
    {lab : Fin dim → Bool → Int} {ST : Domain.State ℝ dim s.nu} {J : List (Method dim × List (Entry ℝ dim s.ns))}
    {W : Fin dim → Bool} {S : Kernel ℝ s.ns 1 d} {alg : Algo} {g : Grid dim} {Q : Proc g → Setup ℝ s.ns 1 d dim}
    {w : Fin s.ns → ℝ} {E : Matrix (Fin s.ns) (Fin 1) ℝ} {b r e : Fin s.ns → ℝ} (hN : ∀ i, 0 < g.N i)
    (hch : Chamber D g.N g.w lo dx lab ST J W fun _ _ => 1) (hQ : FluidRun D g lo dx lab S alg Q)
    (hfront : ∀ j, (S.consm j : Nat) < 1) (h : Damped S w E b r e)
    (hcol : ∀ i, W i = true → ∀ f, collide S alg (reflectCell s (fun _ _ => 1) (fun a => decide (a = i)) f) =
      reflectCell s (fun _ _ => 1) (fun a => decide (a = i)) (collide S alg f))
    (hsym : ∀ j, S.M (S.consm 0) (s.sym j) = S.M (S.consm 0) j) (hc : Connects (doubled W g.N) s.vel) :
    ∃ q : ℝ, 0 < q ∧ q < 1 ∧ ∀ (σ₀ : Proc g → Simu ℝ s.ns d dim), (∀ c, (σ₀ c).Start (Q c)) →
      ∀ u, AtEquilibrium S u →
      ∑ c : Proc g, ∑ x ∈ inner (size g c) g.w, (S.M *ᵥ (σ₀ c).arr x) (S.consm 0) =
        (∏ i, g.N i : ℕ) * (S.M *ᵥ u) (S.consm 0) →
      ∃ C : ℝ, ∀ k σ, PRun g Q σ₀ k σ → ∀ c x j, Owned (size g c) g.w x → ((σ c).arr x j - u j) ^ 2 ≤ C * q ^ k := by
  have hN' : ∀ i, 0 < doubled W g.N i := by
    intro i
    have := hN i
    unfold doubled
    split_ifs <;> omega
  obtain ⟨q, h0, h1, h2⟩ := h.tends hN' hc alg S.dt
  refine ⟨q, h0, h1, fun σ₀ hσ₀ u hu htot => ?_⟩
  obtain ⟨G, hG⟩ := C15_global_array_exists g fun c => (σ₀ c).arr
  obtain ⟨C, hC⟩ := h2 (images s (fun _ _ => 1) W g.N G) u hu (by
    have h3 : ∀ y, (S.M *ᵥ images s (fun _ _ => 1) W g.N G y) (S.consm 0) = (S.M *ᵥ G (fold W g.N y)) (S.consm 0) :=
      fun y => moment_reflect hch.wf.sten (turned W g.N y) (S.M (S.consm 0)) (G (fold W g.N y)) hsym
    simp only [h3]
    rw [sum_fold W g.N hN fun z => (S.M *ᵥ G z) (S.consm 0), prod_doubled, Nat.cast_mul, mul_assoc, ← htot,
      ← sum_owned g fun y => (S.M *ᵥ G y) (S.consm 0)]
    congr 1
    refine Finset.sum_congr rfl fun c _ => Finset.sum_congr rfl fun x hx => ?_
    rw [← hG c x (by simpa [inner, Owned] using hx)])
  refine ⟨C, fun k σ hr c x j hx => ?_⟩
  have hfb := fluidBoundary_walls D g.N g.w lo dx lab hch.wf ST J hch.onGrid hch.free (allLinks_of_open hch.links.1) hch.methods
    hch.readsFluid
  obtain ⟨_, h3⟩ := C73_fluid_cells hdim g hQ.walls.large S hfront s.vel alg _ Q (hQ.uniform hch.wf ST hch.onGrid.built) _
    (sameBoundary_walls D g lo dx lab hch.wf Q hQ.walls ST J hch.onGrid hch.free) hfb σ₀ hσ₀ G (fun c x hx _ => hG c x hx) k σ hr
  have hy := owned_box g hx
  obtain ⟨h4, h5⟩ := fold_id W g.N hy
  have h6 : lbmRun (doubled W g.N) s.vel (collide S alg) (fun _ H => H) S.dt (images s (fun _ _ => 1) W g.N G) k
      (globalPos (first g c) g.w x) = (σ c).arr x := by
    rw [hch.run_images hN S alg hcol, h3 c x hx (hch.fluid _ hy)]
    unfold images
    rw [h4, h5, reflect_none]
  rw [← h6]
  refine hC k _ ?_ j
  rw [mem_box] at hy ⊢
  intro i
  have := hy i
  unfold doubled
  split_ifs <;> push_cast <;> omega

end Pylbm.Sim
