import Verif.Sim.Forget
import Verif.Sim.Flow
/-!
# C121: exact flows attract the simulations

A flow which the scheme and the walls of a chamber keep (C107) is approached by all the simulations in the chamber, whatever their
initial values.
-/

namespace Pylbm.Sim
open Scheme Halo SchemeSpec Matrix HaloSpec Mpi Boundary

section walls
variable {d dim : Nat} {s : Sten dim} {D : WallData ℝ dim s} {lo : Fin dim → ℝ} {dx : ℝ}
    {lab : Fin dim → Bool → Int} {ST : Domain.State ℝ dim s.nu} {J : List (Method dim × List (Entry ℝ dim s.ns))}
    {W : Fin dim → Bool} {ε : Fin dim → ℝ} {S : Kernel ℝ s.ns 1 d} {alg : Algo} {N wd : Fin dim → Nat}

/-- The boundary conditions of a chamber read cells of the box only. -/
theorem Chamber.readsInside {e : Fin dim → Fin s.ns → ℝ} (h : Chamber (otherValues D fun _ _ _ _ => 0) N wd lo dx lab ST J W e)
    (per : Fin dim → Prop) : ReadsInside D N wd lo dx lab per J := by
  intro t q hq p hp i
  obtain ⟨m, it⟩ := q
  obtain ⟨it', hq', he, hread⟩ : ∃ it' : Item ℝ dim s.ns,
      (m, it') ∈ flat s (withValues s (boxGrid N wd lo dx lab s) (otherValues D fun _ _ _ _ => 0).ψ J t) ∧
      it'.toEntry = it.toEntry ∧ Boundary.reads s m it' = Boundary.reads s m it := by
    have h1 := ((mem_withValues ..).1 hq).1
    exact ⟨⟨it.toEntry, (otherValues D fun _ _ _ _ => 0).ψ it.label t (wallPoint s (boxGrid N wd lo dx lab s) it.toEntry)⟩,
      (mem_withValues ..).2 ⟨h1, rfl⟩, rfl, reads_entry rfl⟩
  right
  have hc := h.reads hq' (p := p) (by rw [hread]; exact hp)
  obtain ⟨y, hy, hsrc, -⟩ := h.item hq'
  rw [hc]
  simp only [hsrc]
  have := (mem_box _ _).1 hy i
  constructor <;> linarith [this.1, this.2]

/-- The run which starts from the flow. -/
theorem Chamber.run_flow {e : Fin dim → Fin s.ns → ℝ} (hch : Chamber (otherValues D fun _ _ _ _ => 0) N wd lo dx lab ST J W e)
    {F : Flow ℝ dim s.ns} (hF : Solves (collide S alg) s.vel dx S.dt F) (hper : Repeats N dx (PerAxis lab) F)
    (hwall : WallsReturn D N wd lo dx ST F) (k : Nat) : ∀ y ∈ box N,
    lbmRun N s.vel (collide S alg) (wallBc D N wd lo dx lab J) S.dt (fun y => F 0 (cellPoint lo dx y)) k y =
      F (k * S.dt) (cellPoint lo dx y) := by
  have hwf : D.WF lab := otherValues_wf hch.wf D.ψ
  have hJ : OnGrid D (boxGrid N wd lo dx lab s) ST J := otherValues_onGrid hch.onGrid D.ψ
  have hfree : ∀ t, Free s (flat s (withValues s (boxGrid N wd lo dx lab s) D.ψ J t)) := fun t => free_values (hch.free t)
  have hmeth : AllMethods D := hch.methods
  have hfb : FluidBoundary N s.vel (fluidMap wd ST) (wallBc D N wd lo dx lab J) :=
    fluidBoundary_other (otherValues D fun _ _ _ _ => 0) D.ψ N wd lo dx lab hch.wf ST J hch.onGrid hch.free
      (allLinks_of_open hch.links.1) hch.methods hch.readsFluid
  induction k with
  | zero => intro y _; simp [lbmRun]
  | succ k ih =>
    intro y hy
    show lbmStep N s.vel (collide S alg) (wallBc D N wd lo dx lab J) _ _ y = _
    unfold lbmStep
    have e1 : (k + 1 : Nat) * S.dt = k * S.dt + S.dt := by push_cast; ring
    rw [e1, ← hF]
    congr 1
    funext j
    rw [← wallBc_flow hwf hJ hfree hch.links.1 hmeth (hch.readsInside _) hper hwall (k * S.dt) hy (hch.fluid y hy) j]
    refine hfb _ _ _ (fun z hz => ?_) y hy (hch.fluid y hy) j
    refine ih _ ?_
    refine (mem_box _ _).2 fun i => ?_
    have hN : 0 < (N i : Int) := by
      have := (mem_box _ _).1 hy i
      omega
    exact ⟨Int.emod_nonneg _ hN.ne', Int.emod_lt_of_pos _ hN⟩

end walls

/-- **C121, exact flows attract.** A scheme with a linear equilibrium in a chamber with any values on the walls. Let `F` be a flow
which the transport and the collision carry from one time to the next, which has the period of the box along the periodic axes and
which the walls return (C107). Every simulation, on any decomposition, approaches the flow geometrically if anti bounce-back is used
across one axis at least, or if its initial total of the conserved quantity is the one of the flow. -/
theorem C121_flow {d dim : Nat} (hdim : dim ≤ 3) {s : Sten dim} {D : WallData ℝ dim s} {lo : Fin dim → ℝ} {dx : ℝ}
    {lab : Fin dim → Bool → Int} {ST : Domain.State ℝ dim s.nu} {J : List (Method dim × List (Entry ℝ dim s.ns))}
    {W : Fin dim → Bool} {ε : Fin dim → ℝ} {S : Kernel ℝ s.ns 1 d} {alg : Algo} {N wd : Fin dim → Nat}
    {w : Fin s.ns → ℝ} {E : Matrix (Fin s.ns) (Fin 1) ℝ} {b r e : Fin s.ns → ℝ}
    (hN : ∀ i, 0 < N i)
    (hch : Chamber (otherValues D fun _ _ _ _ => 0) N wd lo dx lab ST J W fun i _ => ε i)
    (hfront : ∀ j, (S.consm j : Nat) < 1) (h : Damped S w E b r e) (hS : Combines S 1 (-1))
    (hcol : ∀ i, W i = true → ∀ f, collide S alg (reflectCell s (fun i _ => ε i) (fun a => decide (a = i)) f) =
      reflectCell s (fun i _ => ε i) (fun a => decide (a = i)) (collide S alg f))
    (hsym : ∀ j, S.M (S.consm 0) (s.sym j) = S.M (S.consm 0) j) (hc : Connects (doubled W N) s.vel)
    {F : Flow ℝ dim s.ns} (hF : Solves (collide S alg) s.vel dx S.dt F) (hper : Repeats N dx (PerAxis lab) F)
    (hwall : WallsReturn D N wd lo dx ST F) :
    ∃ q : ℝ, 0 < q ∧ q < 1 ∧ ∀ g : Grid dim, g.N = N → g.w = wd →
      ∀ Q : Proc g → Setup ℝ s.ns 1 d dim, FluidRun D g lo dx lab S alg Q →
      ∀ σ₀ : Proc g → Simu ℝ s.ns d dim, (∀ c, (σ₀ c).Start (Q c)) → ∀ G : Arr ℝ s.ns dim,
      (∀ c x, Owned (size g c) g.w x → (σ₀ c).arr x = G (globalPos (first g c) g.w x)) →
      ((∃ i, W i = true ∧ ε i = -1) ∨ ∑ y ∈ box N, (S.M *ᵥ G y) (S.consm 0) =
        ∑ y ∈ box N, (S.M *ᵥ F 0 (cellPoint lo dx y)) (S.consm 0)) →
      ∃ C : ℝ, ∀ k σ, PRun g Q σ₀ k σ → ∀ c x, Owned (size g c) g.w x → ∀ j,
        ((σ c).arr x j - F (k * S.dt) (cellPoint lo dx (globalPos (first g c) g.w x)) j) ^ 2 ≤ C * q ^ k := by
  obtain ⟨q, h0, h1, h2⟩ := hch.forget hN h hS hcol hsym hc
  refine ⟨q, h0, h1, ?_⟩
  intro g hgN hgw Q hQ σ₀ hσ G hG htot
  obtain ⟨C, hC⟩ := h2 G (fun y => F 0 (cellPoint lo dx y)) htot
  refine ⟨C, fun k σ hr c x hx j => ?_⟩
  obtain ⟨hy, e1⟩ := hch.values hdim hfront hgN hgw hQ hσ hG hr hx
  have := hC k _ hy j
  rw [hch.run_flow hF hper hwall k _ hy] at this
  rw [e1]
  exact this

end Pylbm.Sim
