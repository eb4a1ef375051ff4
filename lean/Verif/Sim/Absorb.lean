import Verif.Sim.Closed
/-!
# C121: walls with a value

Anti bounce-back with the value 0 on the two walls across an axis: the mirror changes the sign, the total over the doubled box is
zero, and everything leaves the chamber.
-/

set_option linter.unusedSectionVars false

namespace Pylbm.Sim
open Scheme Halo SchemeSpec Matrix HaloSpec Mpi Boundary

section sums
variable {dim : Nat}

theorem sum_fold_signs (W : Fin dim → Bool) (N : Fin dim → Nat) (hN : ∀ i, 0 < N i) (ε : Fin dim → ℝ) (F : Cell dim → ℝ) :
    ∑ y ∈ box (doubled W N), (∏ i, if turned W N y i = true then ε i else 1) * F (fold W N y) =
      (∏ i, if W i = true then 1 + ε i else 1) * ∑ z ∈ box N, F z := by
  classical
  rw [← Finset.sum_fiberwise_of_maps_to (t := box N) (g := fold W N) fun y _ => fold_box W N hN y, Finset.mul_sum]
  refine Finset.sum_congr rfl fun z hz => ?_
  rw [Finset.sum_congr rfl fun y hy => by rw [(Finset.mem_filter.1 hy).2], ← Finset.sum_mul]
  congr 1
  rw [fiber_fold W N hz]
  have hz' := (mem_box N z).1 hz
  refine (Finset.prod_univ_sum (fun i => if W i = true then {z i, 2 * (N i : ℤ) - 1 - z i} else {z i})
    fun i (v : ℤ) => if (W i && behind (N i) v) = true then ε i else 1).symm.trans ?_
  refine Finset.prod_congr rfl fun i _ => ?_
  by_cases hW : W i = true
  · have h1 : behind (N i) (z i) = false := by
      unfold behind
      rw [Int.emod_eq_of_lt (hz' i).1 (by have := hz' i; omega)]
      simpa using (hz' i).2
    have h2 : behind (N i) (2 * N i - 1 - z i) = true := by
      unfold behind
      rw [Int.emod_eq_of_lt (by have := hz' i; omega) (by have := hz' i; omega)]
      have := hz' i
      simp only [decide_eq_true_eq]
      omega
    simp only [hW, if_true]
    rw [Finset.sum_pair (by omega)]
    simp [h1, h2]
  · simp [hW]

/-- The conserved quantity of the image of a cell, with the sign `ε i` at the walls across the axis `i`. -/
theorem moment_reflect_signs {s : Sten dim} (hs : s.WF) (ε : Fin dim → ℝ) (A : Fin dim → Bool) (r f : Fin s.ns → ℝ)
    (hr : ∀ j, r (s.sym j) = r j) :
    r ⬝ᵥ reflectCell s (fun i _ => ε i) A f = (∏ i, if A i = true then ε i else 1) * r ⬝ᵥ f := by
  rw [← moment_reflect hs A r f hr]
  unfold dotProduct
  rw [Finset.mul_sum]
  refine Finset.sum_congr rfl fun j _ => ?_
  simp only [reflectCell, signs, ite_self, Finset.prod_const_one, one_mul]
  ring

end sums

/-- **C121, chambers with values on walls.** Walls with bounce-back (`ε i = 1`) or anti bounce-back (`ε i = -1`), with anti
bounce-back and the value 0 across one axis at least, and a collision which respects the mirrors: if the differences of the
velocities connect the cells of the doubled box, the populations tend to those of the equilibrium `u` whose conserved quantity is 0,
whatever the initial values. -/
theorem C121_absorbing {d dim : Nat} (hdim : dim ≤ 3) {s : Sten dim} {D : WallData ℝ dim s} {lo : Fin dim → ℝ} {dx : ℝ}
    {lab : Fin dim → Bool → Int} {ST : Domain.State ℝ dim s.nu} {J : List (Method dim × List (Entry ℝ dim s.ns))}
    {W : Fin dim → Bool} {ε : Fin dim → ℝ} {S : Kernel ℝ s.ns 1 d} {alg : Algo} {g : Grid dim}
    {Q : Proc g → Setup ℝ s.ns 1 d dim} {w : Fin s.ns → ℝ} {E : Matrix (Fin s.ns) (Fin 1) ℝ} {b r e : Fin s.ns → ℝ}
    (hN : ∀ i, 0 < g.N i)
    (hch : Chamber D g.N g.w lo dx lab ST J W fun i _ => ε i) (hQ : FluidRun D g lo dx lab S alg Q)
    (hfront : ∀ j, (S.consm j : Nat) < 1) (h : Damped S w E b r e)
    (hcol : ∀ i, W i = true → ∀ f, collide S alg (reflectCell s (fun i _ => ε i) (fun a => decide (a = i)) f) =
      reflectCell s (fun i _ => ε i) (fun a => decide (a = i)) (collide S alg f))
    (hsym : ∀ j, S.M (S.consm 0) (s.sym j) = S.M (S.consm 0) j) (hc : Connects (doubled W g.N) s.vel)
    (habs : ∃ i, W i = true ∧ ε i = -1) :
    ∃ q : ℝ, 0 < q ∧ q < 1 ∧ ∀ (σ₀ : Proc g → Simu ℝ s.ns d dim), (∀ c, (σ₀ c).Start (Q c)) →
      ∀ u, AtEquilibrium S u → (S.M *ᵥ u) (S.consm 0) = 0 →
      ∃ C : ℝ, ∀ k σ, PRun g Q σ₀ k σ → ∀ c x j, Owned (size g c) g.w x → ((σ c).arr x j - u j) ^ 2 ≤ C * q ^ k := by
  have hN' : ∀ i, 0 < doubled W g.N i := by
    intro i
    have := hN i
    unfold doubled
    split_ifs <;> omega
  obtain ⟨q, h0, h1, h2⟩ := h.tends hN' hc alg S.dt
  refine ⟨q, h0, h1, fun σ₀ hσ₀ u hu hu0 => ?_⟩
  obtain ⟨G, hG⟩ := C15_global_array_exists g fun c => (σ₀ c).arr
  obtain ⟨C, hC⟩ := h2 (images s (fun i _ => ε i) W g.N G) u hu (by
    have h3 : ∀ y, (S.M *ᵥ images s (fun i _ => ε i) W g.N G y) (S.consm 0) =
        (∏ i, if turned W g.N y i = true then ε i else 1) * (S.M *ᵥ G (fold W g.N y)) (S.consm 0) :=
      fun y => moment_reflect_signs hch.wf.sten ε (turned W g.N y) (S.M (S.consm 0)) (G (fold W g.N y)) hsym
    simp only [h3]
    rw [sum_fold_signs W g.N hN ε fun z => (S.M *ᵥ G z) (S.consm 0), hu0, mul_zero]
    obtain ⟨i, hi, he⟩ := habs
    rw [Finset.prod_eq_zero (Finset.mem_univ i) (by rw [if_pos hi, he]; ring), zero_mul])
  refine ⟨C, fun k σ hr c x j hx => ?_⟩
  have hfb := fluidBoundary_walls D g.N g.w lo dx lab hch.wf ST J hch.onGrid hch.free (allLinks_of_open hch.links.1) hch.methods
    hch.readsFluid
  obtain ⟨_, h3⟩ := C73_fluid_cells hdim g hQ.walls.large S hfront s.vel alg _ Q (hQ.uniform hch.wf ST hch.onGrid.built) _
    (sameBoundary_walls D g lo dx lab hch.wf Q hQ.walls ST J hch.onGrid hch.free) hfb σ₀ hσ₀ G (fun c x hx _ => hG c x hx) k σ hr
  have hy := owned_box g hx
  obtain ⟨h4, h5⟩ := fold_id W g.N hy
  have h6 : lbmRun (doubled W g.N) s.vel (collide S alg) (fun _ H => H) S.dt (images s (fun i _ => ε i) W g.N G) k
      (globalPos (first g c) g.w x) = (σ c).arr x := by
    rw [hch.run_images hN S alg hcol, h3 c x hx (hch.fluid _ hy)]
    unfold images
    rw [h4, h5, reflect_none]
  rw [← h6]
  refine hC k _ ?_ j
  rw [mem_box] at hy ⊢
  intro i
  have := hy i
  unfold doubled
  split_ifs <;> push_cast <;> omega

end Pylbm.Sim
