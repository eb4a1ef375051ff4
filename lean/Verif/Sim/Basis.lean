import Verif.Sim.ReverseCases
import Verif.Scheme.Basis
/-!
# C109: the choice of the moments does not change a simulation
-/

set_option linter.unusedSectionVars false

namespace Pylbm.Sim
open Scheme Halo SchemeSpec Matrix HaloSpec Mpi Boundary

section runs
variable {K : Type} [Field K] [LinearOrder K] [IsStrictOrderedRing K] [FloorRing K] {nc nc' d d' dim : Nat}

/-- Two schemes with the same collision give the same simulations. -/
theorem same_collision (hdim : dim ≤ 3) {s : Sten dim} (D : WallData K dim s) (lo : Fin dim → K) (dx : K)
    (lab : Fin dim → Bool → Int) (hD : D.WF lab) (g g' : Grid dim) (hN : g.N = g'.N) (hw : g.w = g'.w)
    (ST : Domain.State K dim s.nu) (J : List (Method dim × List (Entry K dim s.ns)))
    (hJ : OnGrid D (boxGrid g.N g.w lo dx lab s) ST J)
    (hfree : ∀ t, Free s (flat s (withValues s (boxGrid g.N g.w lo dx lab s) D.ψ J t)))
    (hlinks : AllLinks g.N g.w ST) (hmeth : AllMethods D) (hreads : ReadsFluid D g.N g.w lo dx lab ST J)
    (S : Kernel K s.ns nc d) (hfront : ∀ j, (S.consm j : Nat) < nc) (a : Algo)
    (S' : Kernel K s.ns nc' d') (hfront' : ∀ j, (S'.consm j : Nat) < nc') (a' : Algo)
    (hdt : S'.dt = S.dt) (hc : ∀ f, collide S' a' f = collide S a f)
    (Q : Proc g → Setup K s.ns nc d dim) (hQ : FluidRun D g lo dx lab S a Q)
    (Q' : Proc g' → Setup K s.ns nc' d' dim) (hQ' : FluidRun D g' lo dx lab S' a' Q')
    (σ₀ : Proc g → Simu K s.ns d dim) (h0 : ∀ c, (σ₀ c).Start (Q c))
    (σ₀' : Proc g' → Simu K s.ns d' dim) (h0' : ∀ c, (σ₀' c).Start (Q' c)) (G : Arr K s.ns dim)
    (hG : ∀ c x, Owned (size g c) g.w x → fluidMap g.w ST (globalPos (first g c) g.w x) = true →
      (σ₀ c).arr x = G (globalPos (first g c) g.w x))
    (hG' : ∀ c x, Owned (size g' c) g'.w x → fluidMap g.w ST (globalPos (first g' c) g'.w x) = true →
      (σ₀' c).arr x = G (globalPos (first g' c) g'.w x))
    (k : Nat) (σ : Proc g → Simu K s.ns d dim) (hr : PRun g Q σ₀ k σ)
    (σ' : Proc g' → Simu K s.ns d' dim) (hr' : PRun g' Q' σ₀' k σ')
    (c : Proc g) (x : Cell dim) (hx : Owned (size g c) g.w x)
    (c' : Proc g') (x' : Cell dim) (hx' : Owned (size g' c') g'.w x')
    (he : globalPos (first g c) g.w x = globalPos (first g' c') g'.w x')
    (hf : fluidMap g.w ST (globalPos (first g c) g.w x) = true) :
    (σ c).arr x = (σ' c').arr x' ∧ (σ c).t = (σ' c').t := by
  have hB := fluidBoundary_walls D g.N g.w lo dx lab hD ST J hJ hfree hlinks hmeth hreads
  obtain ⟨h1, h2⟩ := C73_fluid_cells hdim g hQ.walls.large S hfront s.vel a _ Q (hQ.uniform hD ST hJ.built) _
    (sameBoundary_walls D g lo dx lab hD Q hQ.walls ST J hJ hfree) hB σ₀ h0 G hG k σ hr
  have hf' : fluidMap g.w ST (globalPos (first g' c') g'.w x') = true := by rw [← he]; exact hf
  have e2 := h2 c x hx hf
  have hB' : FluidBoundary g'.N s.vel (fluidMap g.w ST) (wallBc D g'.N g'.w lo dx lab J) := by
    rw [← hN, ← hw]; exact hB
  rw [hN, hw] at hJ hfree
  obtain ⟨h1', h2'⟩ := C73_fluid_cells hdim g' hQ'.walls.large S' hfront' s.vel a' _ Q'
    (by have := hQ'.uniform hD ST hJ.built; rw [← hw] at this; exact this) _
    (sameBoundary_walls D g' lo dx lab hD Q' hQ'.walls ST J hJ hfree) hB' σ₀' h0' G hG' k σ' hr'
  refine ⟨?_, ?_⟩
  · rw [e2, h2' c' x' hx' hf', he, hN, hw, hdt, show collide S' a' = collide S a from funext hc]
  · rw [(h1 c).2.1, (h1' c').2.1, hdt]

/-- **C109, simulations.** Two simulations of the same scheme written with other moments (only moments with the same
relaxation parameter are combined), on any process grids and with any of the two algorithms, which start from the same
distribution functions, have the same distribution functions in all the fluid cells at all times. The moments which are
read are the combinations of each other. -/
theorem C109_runs (hdim : dim ≤ 3) {s : Sten dim} (D : WallData K dim s) (lo : Fin dim → K) (dx : K)
    (lab : Fin dim → Bool → Int) (hD : D.WF lab) (g g' : Grid dim) (hN : g.N = g'.N) (hw : g.w = g'.w)
    (ST : Domain.State K dim s.nu) (J : List (Method dim × List (Entry K dim s.ns)))
    (hJ : OnGrid D (boxGrid g.N g.w lo dx lab s) ST J)
    (hfree : ∀ t, Free s (flat s (withValues s (boxGrid g.N g.w lo dx lab s) D.ψ J t)))
    (hlinks : AllLinks g.N g.w ST) (hmeth : AllMethods D) (hreads : ReadsFluid D g.N g.w lo dx lab ST J)
    (S : Kernel K s.ns nc d) (hfront : ∀ j, (S.consm j : Nat) < nc) (hEQ : ∀ j w, S.EQ (S.consm j) w = w j)
    (hM : S.M * S.invM = 1) (hS : ∀ i, S.source i = none) (hrel : S.relVel = none) (a : Algo)
    (S' : Kernel K s.ns nc' d') (hfront' : ∀ j, (S'.consm j : Nat) < nc') (hEQ' : ∀ j w, S'.EQ (S'.consm j) w = w j)
    (hM' : S'.M * S'.invM = 1) (hS' : ∀ i, S'.source i = none) (hrel' : S'.relVel = none) (a' : Algo)
    (hdt : S'.dt = S.dt) (B : Matrix (Fin s.ns) (Fin s.ns) K) (C : Matrix (Fin nc') (Fin nc) K)
    (hB : NewMoments S S' B C) (hsame : SameRelaxation S S' B C)
    (Q : Proc g → Setup K s.ns nc d dim) (hQ : FluidRun D g lo dx lab S a Q)
    (Q' : Proc g' → Setup K s.ns nc' d' dim) (hQ' : FluidRun D g' lo dx lab S' a' Q')
    (σ₀ : Proc g → Simu K s.ns d dim) (h0 : ∀ c, (σ₀ c).Start (Q c))
    (σ₀' : Proc g' → Simu K s.ns d' dim) (h0' : ∀ c, (σ₀' c).Start (Q' c)) (G : Arr K s.ns dim)
    (hG : ∀ c x, Owned (size g c) g.w x → fluidMap g.w ST (globalPos (first g c) g.w x) = true →
      (σ₀ c).arr x = G (globalPos (first g c) g.w x))
    (hG' : ∀ c x, Owned (size g' c) g'.w x → fluidMap g.w ST (globalPos (first g' c) g'.w x) = true →
      (σ₀' c).arr x = G (globalPos (first g' c) g'.w x))
    (k : Nat) (σ : Proc g → Simu K s.ns d dim) (hr : PRun g Q σ₀ k σ)
    (σ' : Proc g' → Simu K s.ns d' dim) (hr' : PRun g' Q' σ₀' k σ')
    (c : Proc g) (x : Cell dim) (hx : Owned (size g c) g.w x)
    (c' : Proc g') (x' : Cell dim) (hx' : Owned (size g' c') g'.w x')
    (he : globalPos (first g c) g.w x = globalPos (first g' c') g'.w x')
    (hf : fluidMap g.w ST (globalPos (first g c) g.w x) = true) :
    (σ' c').arr x' = (σ c).arr x ∧ S'.M *ᵥ (σ' c').arr x' = B *ᵥ (S.M *ᵥ (σ c).arr x) ∧
    (fun j => (S'.M *ᵥ (σ' c').arr x') (S'.consm j)) = C *ᵥ fun j => (S.M *ᵥ (σ c).arr x) (S.consm j) := by
  have h := (same_collision hdim D lo dx lab hD g g' hN hw ST J hJ hfree hlinks hmeth hreads S hfront a S' hfront' a' hdt
    (fun f => by
      rw [collide_collision S' hEQ' hS' hrel', collide_collision S hEQ hS hrel,
        C109_collision S S' hEQ hM hM' B C hB hsame])
    Q hQ Q' hQ' σ₀ h0 σ₀' h0' G hG hG' k σ hr σ' hr' c x hx c' x' hx' he hf).1.symm
  have h2 : S'.M *ᵥ (σ' c').arr x' = B *ᵥ (S.M *ᵥ (σ c).arr x) := by
    rw [h, hB.moments, Matrix.mulVec_mulVec]
  refine ⟨h, h2, ?_⟩
  have := hB.conserved (S.M *ᵥ (σ c).arr x)
  rw [← h2] at this
  exact this

/-- **C109, simulations with a relative velocity (partial).** When the translations combine only moments with the same
relaxation parameter, a simulation with a relative velocity is the simulation without, for the Pull algorithm. What is
missing is false, see `C109_relative_partial`. -/
theorem C109_relative_runs_partial (hdim : dim ≤ 3) {s : Sten dim} (D : WallData K dim s) (lo : Fin dim → K) (dx : K)
    (lab : Fin dim → Bool → Int) (hD : D.WF lab) (g g' : Grid dim) (hN : g.N = g'.N) (hw : g.w = g'.w)
    (ST : Domain.State K dim s.nu) (J : List (Method dim × List (Entry K dim s.ns)))
    (hJ : OnGrid D (boxGrid g.N g.w lo dx lab s) ST J)
    (hfree : ∀ t, Free s (flat s (withValues s (boxGrid g.N g.w lo dx lab s) D.ψ J t)))
    (hlinks : AllLinks g.N g.w ST) (hmeth : AllMethods D) (hreads : ReadsFluid D g.N g.w lo dx lab ST J)
    (S : Kernel K s.ns nc d) (hpos : ∀ j, (S.consm j : Nat) = j) (hEQ : ∀ j w, S.EQ (S.consm j) w = w j)
    (hs : ∀ j w, S.s (S.consm j) w = 0) (hS : ∀ i, S.source i = none)
    (v : (Fin nc → K) → Fin d → K) (hv : S.relVel = some v) (hT : ∀ u, S.Tmu u * S.Tu u = 1)
    (hsame : ∀ u i k w, S.Tu u i k ≠ 0 → (∀ l, S.consm l ≠ k) → S.s i w = S.s k w) (a' : Algo)
    (Q : Proc g → Setup K s.ns nc d dim) (hQ : FluidRun D g lo dx lab S .pull Q)
    (Q' : Proc g' → Setup K s.ns nc d dim) (hQ' : FluidRun D g' lo dx lab { S with relVel := none } a' Q')
    (σ₀ : Proc g → Simu K s.ns d dim) (h0 : ∀ c, (σ₀ c).Start (Q c))
    (σ₀' : Proc g' → Simu K s.ns d dim) (h0' : ∀ c, (σ₀' c).Start (Q' c)) (G : Arr K s.ns dim)
    (hG : ∀ c x, Owned (size g c) g.w x → fluidMap g.w ST (globalPos (first g c) g.w x) = true →
      (σ₀ c).arr x = G (globalPos (first g c) g.w x))
    (hG' : ∀ c x, Owned (size g' c) g'.w x → fluidMap g.w ST (globalPos (first g' c) g'.w x) = true →
      (σ₀' c).arr x = G (globalPos (first g' c) g'.w x))
    (k : Nat) (σ : Proc g → Simu K s.ns d dim) (hr : PRun g Q σ₀ k σ)
    (σ' : Proc g' → Simu K s.ns d dim) (hr' : PRun g' Q' σ₀' k σ')
    (c : Proc g) (x : Cell dim) (hx : Owned (size g c) g.w x)
    (c' : Proc g') (x' : Cell dim) (hx' : Owned (size g' c') g'.w x')
    (he : globalPos (first g c) g.w x = globalPos (first g' c') g'.w x')
    (hf : fluidMap g.w ST (globalPos (first g c) g.w x) = true) :
    (σ c).arr x = (σ' c').arr x' := by
  have hfront : ∀ j, (S.consm j : Nat) < nc := fun j => by rw [hpos]; exact j.2
  refine (same_collision hdim D lo dx lab hD g g' hN hw ST J hJ hfree hlinks hmeth hreads S hfront .pull
    { S with relVel := none } hfront a' rfl (fun f => ?_) Q hQ Q' hQ' σ₀ h0 σ₀' h0' G hG hG' k σ hr σ' hr' c x hx c' x' hx'
    he hf).1
  rw [collide_collision { S with relVel := none } hEQ hS rfl]
  unfold collide
  rw [prog_eq]
  simp only [hv, Option.isSome_some]
  exact (C109_relative_partial S hpos v hv hEQ hs hS hT hsame f _).symm

end runs

end Pylbm.Sim
