import Verif.Sim.Mass
/-!
# C80: a uniform equilibrium is kept
-/

set_option linter.unusedSectionVars false

namespace Pylbm.Sim
open Scheme Halo SchemeSpec Matrix HaloSpec Mpi Boundary

section walls
variable {K : Type} [Field K] [LinearOrder K] [IsStrictOrderedRing K] [FloorRing K] {nc d dim : Nat}

/-- What the values `ψ` imposed on a wall must satisfy for the method `m` to keep the populations `a`, where `j`
and `j'` are opposite velocities: bounce-back imposes the odd part, anti bounce-back the even part, the interpolated
methods both; nothing is asked with the Neumann conditions. -/
def Agrees (m : Method dim) {n : Nat} (a ψ : Fin n → K) (j j' : Fin n) : Prop :=
  match m with
  | .bounceBack => a j - a j' = ψ j - ψ j'
  | .antiBounceBack => a j + a j' = ψ j + ψ j'
  | .bouzidiBounceBack => a j = a j' ∧ ψ j = ψ j'
  | .bouzidiAntiBounceBack => a j = 0 ∧ a j' = 0 ∧ ψ j + ψ j' = 0
  | .neumann => True
  | .neumannAxis _ => True

/-- On every label, at all times and places, the values imposed on the walls agree with the populations `a`. -/
def WallsAgree {s : Sten dim} (D : WallData K dim s) (a : Fin s.ns → K) : Prop :=
  ∀ label ms, D.dico label = some ms → ∀ j j' : Fin s.ns, s.scheme j' = s.scheme j →
    (∀ i, s.vel j' i = -s.vel j i) → ∀ m, (s.scheme j, m) ∈ ms → ∀ t x, Agrees m a (D.ψ label t x) j j'

section
variable {s : Sten dim} {D : WallData K dim s} {N w : Fin dim → Nat} {lo : Fin dim → K} {dx : K}
  {lab : Fin dim → Bool → Int} {ST : Domain.State K dim s.nu} {J : List (Method dim × List (Entry K dim s.ns))}

/-- The value written by a method which agrees with the populations of a uniform array. -/
theorem value_uniform (m : Method dim) (it : Item K dim s.ns) (a : Fin s.ns → K)
    (h : Agrees m a it.feq it.k (s.sym it.k)) :
    value s m (fun k _ => a k) (fun k _ => a k) it = a it.k := by
  cases m with
  | bounceBack => simp only [Agrees] at h; simp only [value, rhs]; linear_combination -h
  | antiBounceBack => simp only [Agrees] at h; simp only [value, rhs]; linear_combination -h
  | bouzidiBounceBack =>
    obtain ⟨h1, h2⟩ := h
    simp only [value, rhs, load0, load1, h2, ← h1]
    split_ifs <;> ring
  | bouzidiAntiBounceBack =>
    obtain ⟨h1, h2, h3⟩ := h
    simp only [value, rhs, load0, load1, h3, h1, h2]
    split_ifs <;> ring
  | neumann => rfl
  | neumannAxis => rfl

/-- The boundary conditions keep a uniform array which the walls agree with. -/
theorem wallBc_uniform (hD : D.WF lab) (hJ : OnGrid D (boxGrid N w lo dx lab s) ST J)
    (hfree : ∀ t, Free s (flat s (withValues s (boxGrid N w lo dx lab s) D.ψ J t)))
    {a : Fin s.ns → K} (hrest : WallsAgree D a) (y : Cell dim) (j : Fin s.ns) (t : K) :
    wallBc D N w lo dx lab J t (fun _ => a) y j = a j := by
  have o := hJ.onDomain hD t
  have n1 := o.nodup_positions hD.sten
  unfold wallBc
  rw [boundaryCondition_written s _ n1 (hfree t)]
  by_cases hpos : (j, fun i => y i + (w i : Int)) ∈ positions s (flat s (withValues s (boxGrid N w lo dx lab s) D.ψ J t))
  · obtain ⟨⟨m, it⟩, hq, hqe⟩ := List.mem_map.1 hpos
    simp only [Prod.mk.injEq] at hqe
    obtain ⟨he, hψ⟩ := (mem_withValues s _ D.ψ J t m it).1 hq
    obtain ⟨label, hl, h1, h2, hms, hlab, -, h3, -⟩ :=
      (mem_entries s _ ST.link hD.sten _ D.dico J hJ.insts m it.toEntry).1 he
    have w1 := written_mem s n1 hq (fun k _ => a k)
    simp only [hqe.1, hqe.2] at w1
    rw [w1]
    rw [← hqe.1]
    refine value_uniform m it a ?_
    obtain ⟨ms, h4⟩ : ∃ ms, D.dico label = some ms := by
      cases h : D.dico label with
      | none => rw [h] at hms; simp at hms
      | some ms => exact ⟨ms, rfl⟩
    rw [h4] at hms
    rw [hψ]
    have := hrest label ms h4 it.k (s.sym it.k) (hD.sten.scheme _) (hD.sten.sym _) m hms t
      (wallPoint s (boxGrid N w lo dx lab s) it.toEntry)
    rw [← hlab] at this
    exact this
  · rw [written_not_mem s hpos]

end

/-- **C80, any collision which keeps the populations.** -/
theorem C80_uniform (hdim : dim ≤ 3) {s : Sten dim} (D : WallData K dim s) (lo : Fin dim → K) (dx : K)
    (lab : Fin dim → Bool → Int) (hD : D.WF lab) (g : Grid dim)
    (ST : Domain.State K dim s.nu) (J : List (Method dim × List (Entry K dim s.ns)))
    (hJ : OnGrid D (boxGrid g.N g.w lo dx lab s) ST J)
    (hfree : ∀ t, Free s (flat s (withValues s (boxGrid g.N g.w lo dx lab s) D.ψ J t)))
    (hlinks : AllLinks g.N g.w ST) (hmeth : AllMethods D) (hreads : ReadsFluid D g.N g.w lo dx lab ST J)
    (S : Kernel K s.ns nc d) (hfront : ∀ j, (S.consm j : Nat) < nc) (alg : Algo)
    (a : Fin s.ns → K) (hfix : collide S alg a = a) (hwall : WallsAgree D a)
    (Q : Proc g → Setup K s.ns nc d dim) (hQ : FluidRun D g lo dx lab S alg Q)
    (σ₀ : Proc g → Simu K s.ns d dim) (h0 : ∀ c, (σ₀ c).Start (Q c))
    (ha : ∀ c x, Owned (size g c) g.w x → fluidMap g.w ST (globalPos (first g c) g.w x) = true →
      (σ₀ c).arr x = a)
    (k : Nat) (σ : Proc g → Simu K s.ns d dim) (hr : PRun g Q σ₀ k σ) (c : Proc g) (x : Cell dim)
    (hx : Owned (size g c) g.w x) (hf : fluidMap g.w ST (globalPos (first g c) g.w x) = true) :
    (σ c).arr x = a := by
  have hfb := fluidBoundary_walls D g.N g.w lo dx lab hD ST J hJ hfree hlinks hmeth hreads
  obtain ⟨_, h2⟩ := C73_fluid_cells hdim g hQ.walls.large S hfront s.vel alg _ Q (hQ.uniform hD ST hJ.built) _
    (sameBoundary_walls D g lo dx lab hD Q hQ.walls ST J hJ hfree) hfb σ₀ h0 (fun _ => a) ha k σ hr
  rw [h2 c x hx hf]
  have key : ∀ k y, lbmRun g.N s.vel (collide S alg) (wallBc D g.N g.w lo dx lab J) S.dt (fun _ => a) k y = a := by
    intro k
    induction k with
    | zero => intro y; rfl
    | succ k ih =>
      intro y
      show lbmStep g.N s.vel (collide S alg) (wallBc D g.N g.w lo dx lab J) _ _ y = a
      have e : lbmRun g.N s.vel (collide S alg) (wallBc D g.N g.w lo dx lab J) S.dt (fun _ => a) k =
          fun _ => a := funext ih
      rw [e]
      unfold lbmStep
      have e2 : periodic g.N (fun _ : Cell dim => a) = fun _ => a := rfl
      rw [e2]
      simp only [wallBc_uniform hD hJ hfree hwall]
      exact hfix
  exact key k _

/-- The collision keeps the populations whose moments are at equilibrium. -/
theorem collide_equilibrium {n : Nat} (S : Kernel K n nc d) (hEQ : ∀ j w, S.EQ (S.consm j) w = w j)
    (hM : S.invM * S.M = 1) (hS : ∀ i, S.source i = none) (hrel : S.relVel = none) (alg : Algo)
    (f : Fin n → K) (hf : ∀ i, (S.M *ᵥ f) i = S.EQ i fun j => (S.M *ᵥ f) (S.consm j)) : collide S alg f = f := by
  have hcol : collide S alg f = collision S.M S.invM S.consm S.EQ S.s f := by
    unfold collide
    rw [prog_eq]
    obtain ⟨h3, h4⟩ := step_collision S hEQ hS f ⟨0, 0, 0⟩
    cases alg with
    | base => simp only [hrel, Option.isSome_none]; exact h4
    | pull => simp only [hrel, Option.isSome_none]; exact h3
  rw [hcol]
  unfold collision
  have e : relaxed S.consm S.EQ S.s (S.M *ᵥ f) = S.M *ᵥ f := by
    funext i
    unfold relaxed
    have : S.EQ i ((S.M *ᵥ f) ∘ S.consm) = (S.M *ᵥ f) i := (hf i).symm
    rw [this]; ring
  rw [e, Matrix.mulVec_mulVec, hM, Matrix.one_mulVec]

/-- **C80.** The fluid starts everywhere with the same populations `a`, whose moments are at equilibrium, and the
values imposed on the walls and obstacles agree with them: after any number of time steps every fluid cell still
holds `a`. Any decomposition and schedule of the messages, Base and Pull, all backends, `check_isfluid` or not,
nonlinear equilibria; the domain is as in C73; no source, no relative velocity (`C80_uniform` without these). -/
theorem C80_equilibrium (hdim : dim ≤ 3) {s : Sten dim} (D : WallData K dim s) (lo : Fin dim → K) (dx : K)
    (lab : Fin dim → Bool → Int) (hD : D.WF lab) (g : Grid dim)
    (ST : Domain.State K dim s.nu) (J : List (Method dim × List (Entry K dim s.ns)))
    (hJ : OnGrid D (boxGrid g.N g.w lo dx lab s) ST J)
    (hfree : ∀ t, Free s (flat s (withValues s (boxGrid g.N g.w lo dx lab s) D.ψ J t)))
    (hlinks : AllLinks g.N g.w ST) (hmeth : AllMethods D) (hreads : ReadsFluid D g.N g.w lo dx lab ST J)
    (S : Kernel K s.ns nc d) (hfront : ∀ j, (S.consm j : Nat) < nc) (hEQ : ∀ j w, S.EQ (S.consm j) w = w j)
    (hM : S.invM * S.M = 1) (hS : ∀ i, S.source i = none) (hrel : S.relVel = none) (alg : Algo)
    (a : Fin s.ns → K) (heq : ∀ i, (S.M *ᵥ a) i = S.EQ i fun j => (S.M *ᵥ a) (S.consm j)) (hwall : WallsAgree D a)
    (Q : Proc g → Setup K s.ns nc d dim) (hQ : FluidRun D g lo dx lab S alg Q)
    (σ₀ : Proc g → Simu K s.ns d dim) (h0 : ∀ c, (σ₀ c).Start (Q c))
    (ha : ∀ c x, Owned (size g c) g.w x → fluidMap g.w ST (globalPos (first g c) g.w x) = true →
      (σ₀ c).arr x = a)
    (k : Nat) (σ : Proc g → Simu K s.ns d dim) (hr : PRun g Q σ₀ k σ) (c : Proc g) (x : Cell dim)
    (hx : Owned (size g c) g.w x) (hf : fluidMap g.w ST (globalPos (first g c) g.w x) = true) :
    (σ c).arr x = a :=
  C80_uniform hdim D lo dx lab hD g ST J hJ hfree hlinks hmeth hreads S hfront alg a
    (collide_equilibrium S hEQ hM hS hrel alg a heq) hwall Q hQ σ₀ h0 ha k σ hr c x hx hf

/-- A fluid at rest (the populations of opposite velocities are equal) agrees with walls at rest, for bounce-back,
interpolated or not, and the Neumann conditions. -/
theorem C80_rest {s : Sten dim} (D : WallData K dim s) (a : Fin s.ns → K) (ha : Even a)
    (hm : ∀ label ms, D.dico label = some ms → ∀ p ∈ ms, p.2 ≠ .antiBounceBack ∧ p.2 ≠ .bouzidiAntiBounceBack)
    (hψ : ∀ label t x j j', s.scheme j' = s.scheme j → (∀ i, s.vel j' i = -s.vel j i) →
      D.ψ label t x j' = D.ψ label t x j) : WallsAgree D a := by
  intro label ms hms j j' hs hv m hmm t x
  have h1 := ha j j' hs hv
  have h2 := hψ label t x j j' hs hv
  have h3 := hm label ms hms _ hmm
  cases m <;> simp_all [Agrees]

/-- A uniform flow agrees with walls on which it is imposed, for bounce-back, anti bounce-back and the Neumann
conditions. The interpolated methods are not in the list: see `C33_bouzidi_error`. -/
theorem C80_imposed {s : Sten dim} (D : WallData K dim s) (a : Fin s.ns → K)
    (hm : ∀ label ms, D.dico label = some ms → ∀ p ∈ ms, p.2 ≠ .bouzidiBounceBack ∧ p.2 ≠ .bouzidiAntiBounceBack)
    (hψ : ∀ label t x, D.ψ label t x = a) : WallsAgree D a := by
  intro label ms hms j j' hs hv m hmm t x
  have h3 := hm label ms hms _ hmm
  cases m <;> simp_all [Agrees]

end walls

end Pylbm.Sim
