import Verif.Sim.Rest
/-!
# C82: bounds on the populations
-/

set_option linter.unusedSectionVars false

namespace Pylbm.Sim
open Scheme Halo SchemeSpec Matrix HaloSpec Mpi Boundary

section walls
variable {K : Type} [Field K] [LinearOrder K] [IsStrictOrderedRing K] [FloorRing K] {nc d dim : Nat}

/-- A set of values which contains the weighted means of its values. -/
def Mean (I : Set K) : Prop := ∀ x ∈ I, ∀ y ∈ I, ∀ θ : K, 0 ≤ θ → θ ≤ 1 → θ * x + (1 - θ) * y ∈ I

/-- The walls neither add nor remove anything: bounce-back, interpolated or not, with a fluid at rest on the wall, or
Neumann conditions. -/
structure Passive {s : Sten dim} (D : WallData K dim s) : Prop where
  method : ∀ label ms, D.dico label = some ms → ∀ p ∈ ms, p.2 ≠ .antiBounceBack ∧ p.2 ≠ .bouzidiAntiBounceBack
  rest : ∀ label t x j j', s.scheme j' = s.scheme j → (∀ i, s.vel j' i = -s.vel j i) →
    D.ψ label t x j' = D.ψ label t x j

section
variable {s : Sten dim} {D : WallData K dim s} {N w : Fin dim → Nat} {lo : Fin dim → K} {dx : K}
  {lab : Fin dim → Bool → Int} {ST : Domain.State K dim s.nu} {J : List (Method dim × List (Entry K dim s.ns))}

/-- The value written by a passive method is in the set of its population. -/
theorem value_bounds (m : Method dim) (it : Item K dim s.ns) (I : Fin s.ns → Set K) (hI : ∀ j, Mean (I j))
    (hsym : I (s.sym it.k) = I it.k) (hψ : it.feq (s.sym it.k) = it.feq it.k) (hd : 0 < it.dist)
    (hm : m ≠ .antiBounceBack ∧ m ≠ .bouzidiAntiBounceBack) (f : Dist K dim s.ns) (hf : ∀ k c, f k c ∈ I k) :
    value s m f f it ∈ I it.k := by
  cases m with
  | bounceBack =>
    simp only [value, rhs, hψ, sub_self, add_zero]
    rw [← hsym]; exact hf _ _
  | antiBounceBack => exact absurd rfl hm.1
  | bouzidiBounceBack =>
    simp only [value, rhs, hψ, sub_self, add_zero]
    obtain ⟨h1, h2, -, -⟩ := C34_weights it.dist hd
    refine hI _ _ ?_ _ ?_ _ h1 h2
    · unfold load0; rw [← hsym]; exact hf _ _
    · unfold load1
      split_ifs
      · rw [← hsym]; exact hf _ _
      · exact hf _ _
  | bouzidiAntiBounceBack => exact absurd rfl hm.2
  | neumann => exact hf _ _
  | neumannAxis => exact hf _ _

/-- The populations which enter a fluid cell through passive walls are in their sets, when all the values are. -/
theorem wallBc_bounds (hD : D.WF lab) (hJ : OnGrid D (boxGrid N w lo dx lab s) ST J)
    (hfree : ∀ t, Free s (flat s (withValues s (boxGrid N w lo dx lab s) D.ψ J t)))
    (hpas : Passive D) (I : Fin s.ns → Set K) (hI : ∀ j, Mean (I j))
    (hsym : ∀ j j', s.scheme j' = s.scheme j → (∀ i, s.vel j' i = -s.vel j i) → I j' = I j)
    {y : Cell dim} (hy : y ∈ box N) (j : Fin s.ns) (t : K) (H : Arr K s.ns dim) (hH : ∀ z l, H z l ∈ I l) :
    wallBc D N w lo dx lab J t H (fun i => y i - s.vel j i) j ∈ I j := by
  have o := hJ.onDomain hD t
  have n1 := o.nodup_positions hD.sten
  unfold wallBc
  rw [boundaryCondition_written s _ n1 (hfree t)]
  by_cases hpos : (j, fun i => y i - s.vel j i + (w i : Int)) ∈
      positions s (flat s (withValues s (boxGrid N w lo dx lab s) D.ψ J t))
  · obtain ⟨⟨m, it⟩, hq, hqe⟩ := List.mem_map.1 hpos
    simp only [Prod.mk.injEq] at hqe
    obtain ⟨he, hψ⟩ := (mem_withValues s _ D.ψ J t m it).1 hq
    obtain ⟨label, hl, h1, h2, hms, hlab, -, h3, h4⟩ :=
      (mem_entries s _ ST.link hD.sten _ D.dico J hJ.insts m it.toEntry).1 he
    have w1 := written_mem s n1 hq (fun k X => H (fun i => X i - w i) k)
    simp only [hqe.1, hqe.2] at w1
    rw [w1, ← hqe.1]
    have hsrc : source s it.toEntry = fun i => y i + w i := by
      funext i
      simp only [source, hqe.2, hqe.1]; ring
    have h999 : label ≠ 999 := fun h => no999_list (g := boxGrid N w lo dx lab s) hD (h ▸ hl)
    have hlink := Domain.C23_flagged_links (boxGrid N w lo dx lab s) hJ.wf D.elems hD.sound ST hJ.built _
      (interior_shift (lo := lo) (dx := dx) (lab := lab) (s := s) (w := w) hy) (s.ux (s.sym it.k))
    rw [hsrc] at h3 h4
    have hdist : 0 < it.dist := by
      rw [h4]
      refine (hlink.1 fun h => h999 ?_).2.2.1
      rw [← h3]; exact hlink.2 h
    obtain ⟨ms, h5⟩ : ∃ ms, D.dico label = some ms := by
      cases h : D.dico label with
      | none => rw [h] at hms; simp at hms
      | some ms => exact ⟨ms, rfl⟩
    rw [h5] at hms
    refine value_bounds m it I hI (hsym _ _ (hD.sten.scheme _) (hD.sten.sym _)) ?_ hdist (hpas.method label ms h5 _ hms)
      _ (fun k c => hH _ _)
    rw [hψ]
    exact hpas.rest _ _ _ _ _ (hD.sten.scheme _) (hD.sten.sym _)
  · rw [written_not_mem s hpos]
    exact hH _ _

end

/-- Every cell of the global array is owned by a process. -/
theorem exists_owned (g : Grid dim) (y : Cell dim) (hy : y ∈ box g.N) :
    ∃ c x, Owned (size g c) g.w x ∧ globalPos (first g c) g.w x = y := by
  rw [mem_box] at hy
  have hex : ∀ i, ∃ k, k < g.p i ∧ start g i k ≤ (y i).toNat ∧ (y i).toNat < start g i (k + 1) := by
    intro i
    obtain ⟨k, hk, h1, h2⟩ := exists_region (g.N i) (g.p i) (y i).toNat (g.hp i) (by have := hy i; omega)
    exact ⟨k, hk, by rw [start_eq g i _ (by omega)]; exact h1,
      by rw [start_eq g i _ (by omega)]; exact h2⟩
  choose k hk1 hk2 hk3 using hex
  refine ⟨fun i => ⟨k i, hk1 i⟩, fun i => y i - start g i (k i) + g.w i, ?_, ?_⟩
  · intro i
    have h1 := start_succ g (fun i => ⟨k i, hk1 i⟩) i
    have h2 := hk2 i
    have h3 := hk3 i
    have h4 := hy i
    simp only at h1
    show (g.w i : Int) ≤ y i - start g i (k i) + g.w i ∧ y i - start g i (k i) + g.w i < _
    constructor <;> omega
  · funext i
    simp only [globalPos, first]
    omega

/-- One step of the scheme keeps the sets `I j` on the fluid cells. -/
theorem lbmStep_bounds {s : Sten dim} (D : WallData K dim s) (N w : Fin dim → Nat) (lo : Fin dim → K) (dx : K)
    (lab : Fin dim → Bool → Int) (hD : D.WF lab)
    (ST : Domain.State K dim s.nu) (J : List (Method dim × List (Entry K dim s.ns)))
    (hJ : OnGrid D (boxGrid N w lo dx lab s) ST J)
    (hfree : ∀ t, Free s (flat s (withValues s (boxGrid N w lo dx lab s) D.ψ J t)))
    (hfb : FluidBoundary N s.vel (fluidMap w ST) (wallBc D N w lo dx lab J))
    (hpas : Passive D) (I : Fin s.ns → Set K) (hI : ∀ j, Mean (I j))
    (hsym : ∀ j j', s.scheme j' = s.scheme j → (∀ i, s.vel j' i = -s.vel j i) → I j' = I j)
    (φ : (Fin s.ns → K) → Fin s.ns → K) (hφ : ∀ f : Fin s.ns → K, (∀ j, f j ∈ I j) → ∀ j, φ f j ∈ I j)
    (t : K) (hNpos : ∀ i, 0 < N i) (A : Arr K s.ns dim)
    (hA : ∀ y ∈ box N, fluidMap w ST y = true → ∀ j, A y j ∈ I j) :
    ∀ y ∈ box N, fluidMap w ST y = true → ∀ j, lbmStep N s.vel φ (wallBc D N w lo dx lab J) t A y j ∈ I j := by
  classical
  intro y hy hyf j
  refine hφ _ (fun l => ?_) j
  set H : Arr K s.ns dim := fun z => if periodic N (fluidMap w ST) z = true then periodic N A z else A y
    with hH
  have e := hfb t (periodic N A) H (fun z hz => by rw [hH]; simp only [hz, if_true]) y hy hyf l
  rw [e]
  refine wallBc_bounds hD hJ hfree hpas I hI hsym hy l _ H ?_
  intro z q
  rw [hH]
  beta_reduce
  split_ifs with h
  · exact hA _ (mod_mem_box hNpos z) h q
  · exact hA y hy hyf q

/-- The bounds on the global array. -/
theorem lbmRun_bounds {s : Sten dim} (D : WallData K dim s) (N w : Fin dim → Nat) (lo : Fin dim → K) (dx : K)
    (lab : Fin dim → Bool → Int) (hD : D.WF lab)
    (ST : Domain.State K dim s.nu) (J : List (Method dim × List (Entry K dim s.ns)))
    (hJ : OnGrid D (boxGrid N w lo dx lab s) ST J)
    (hfree : ∀ t, Free s (flat s (withValues s (boxGrid N w lo dx lab s) D.ψ J t)))
    (hfb : FluidBoundary N s.vel (fluidMap w ST) (wallBc D N w lo dx lab J))
    (hpas : Passive D) (I : Fin s.ns → Set K) (hI : ∀ j, Mean (I j))
    (hsym : ∀ j j', s.scheme j' = s.scheme j → (∀ i, s.vel j' i = -s.vel j i) → I j' = I j)
    (φ : (Fin s.ns → K) → Fin s.ns → K) (hφ : ∀ f : Fin s.ns → K, (∀ j, f j ∈ I j) → ∀ j, φ f j ∈ I j)
    (dt : K) (hNpos : ∀ i, 0 < N i) (G : Arr K s.ns dim)
    (hG : ∀ y ∈ box N, fluidMap w ST y = true → ∀ j, G y j ∈ I j) (k : Nat) :
    ∀ y ∈ box N, fluidMap w ST y = true → ∀ j,
      lbmRun N s.vel φ (wallBc D N w lo dx lab J) dt G k y j ∈ I j := by
  induction k with
  | zero => exact hG
  | succ k ih => exact lbmStep_bounds D N w lo dx lab hD ST J hJ hfree hfb hpas I hI hsym φ hφ _ hNpos _ ih

/-- **C82.** Sets `I j` of values of the populations, which contain the weighted means of their values and are the same
for opposite velocities (for example `[0, +∞[`, or an interval); the collision keeps them, and the walls are passive.
If the populations of the fluid cells are in these sets at the beginning, they are there after any number of steps: any
decomposition and schedule of the messages, Base and Pull, all backends, `check_isfluid` or not, obstacles, periodic
faces. -/
theorem C82_bounds (hdim : dim ≤ 3) {s : Sten dim} (D : WallData K dim s) (lo : Fin dim → K) (dx : K)
    (lab : Fin dim → Bool → Int) (hD : D.WF lab) (g : Grid dim)
    (ST : Domain.State K dim s.nu) (J : List (Method dim × List (Entry K dim s.ns)))
    (hJ : OnGrid D (boxGrid g.N g.w lo dx lab s) ST J)
    (hfree : ∀ t, Free s (flat s (withValues s (boxGrid g.N g.w lo dx lab s) D.ψ J t)))
    (hlinks : AllLinks g.N g.w ST) (hmeth : AllMethods D) (hreads : ReadsFluid D g.N g.w lo dx lab ST J)
    (hpas : Passive D) (I : Fin s.ns → Set K) (hI : ∀ j, Mean (I j))
    (hsym : ∀ j j', s.scheme j' = s.scheme j → (∀ i, s.vel j' i = -s.vel j i) → I j' = I j)
    (S : Kernel K s.ns nc d) (hfront : ∀ j, (S.consm j : Nat) < nc) (alg : Algo)
    (hφ : ∀ f : Fin s.ns → K, (∀ j, f j ∈ I j) → ∀ j, collide S alg f j ∈ I j)
    (Q : Proc g → Setup K s.ns nc d dim) (hQ : FluidRun D g lo dx lab S alg Q)
    (σ₀ : Proc g → Simu K s.ns d dim) (h0 : ∀ c, (σ₀ c).Start (Q c))
    (h0I : ∀ c x, Owned (size g c) g.w x → fluidMap g.w ST (globalPos (first g c) g.w x) = true →
      ∀ j, (σ₀ c).arr x j ∈ I j)
    (k : Nat) (σ : Proc g → Simu K s.ns d dim) (hr : PRun g Q σ₀ k σ) (c : Proc g) (x : Cell dim)
    (hx : Owned (size g c) g.w x) (hf : fluidMap g.w ST (globalPos (first g c) g.w x) = true) (j : Fin s.ns) :
    (σ c).arr x j ∈ I j := by
  classical
  have hfb := fluidBoundary_walls D g.N g.w lo dx lab hD ST J hJ hfree hlinks hmeth hreads
  obtain ⟨G, hG⟩ := C15_global_array_exists g fun c => (σ₀ c).arr
  obtain ⟨_, h2⟩ := C73_fluid_cells hdim g hQ.walls.large S hfront s.vel alg _ Q (hQ.uniform hD ST hJ.built) _
    (sameBoundary_walls D g lo dx lab hD Q hQ.walls ST J hJ hfree) hfb σ₀ h0 G (fun c x hx _ => hG c x hx) k σ hr
  rw [h2 c x hx hf]
  have hbox : globalPos (first g c) g.w x ∈ box g.N := by
    rw [mem_box]
    intro i
    have h1 := procGrid_sub g c i
    have h2 := hx i
    simp only [globalPos]
    omega
  have hNpos : ∀ i, 0 < g.N i := fun i => by
    have := (mem_box g.N _).1 hbox i
    omega
  refine lbmRun_bounds D g.N g.w lo dx lab hD ST J hJ hfree hfb hpas I hI hsym _ hφ S.dt hNpos G ?_ k _ hbox hf j
  intro y hy hyf j
  obtain ⟨c, x, hx, rfl⟩ := exists_owned g y hy
  rw [← hG c x hx]
  exact h0I c x hx hyf j

/-- The collision of a scheme with one relaxation parameter `ω` between 0 and 1 (the relaxation parameters of the
conserved moments are not used) keeps the sets `I j` which contain the equilibrium populations. -/
theorem C82_bgk {n : Nat} (S : Kernel K n nc d) (hEQ : ∀ j w, S.EQ (S.consm j) w = w j)
    (hM : S.invM * S.M = 1) (hS : ∀ i, S.source i = none) (hrel : S.relVel = none) (alg : Algo)
    (ω : (Fin nc → K) → K) (hω : ∀ w, 0 ≤ ω w ∧ ω w ≤ 1) (hs : ∀ i w, S.s i w = ω w ∨ ∃ l, i = S.consm l)
    (I : Fin n → Set K) (hI : ∀ j, Mean (I j))
    (heq : ∀ f : Fin n → K, (∀ j, f j ∈ I j) → ∀ j,
      (S.invM *ᵥ fun i => S.EQ i fun l => (S.M *ᵥ f) (S.consm l)) j ∈ I j)
    (f : Fin n → K) (hf : ∀ j, f j ∈ I j) (j : Fin n) : collide S alg f j ∈ I j := by
  have hcol : collide S alg f = collision S.M S.invM S.consm S.EQ S.s f := by
    unfold collide
    rw [prog_eq]
    obtain ⟨h3, h4⟩ := step_collision S hEQ hS f ⟨0, 0, 0⟩
    cases alg with
    | base => simp only [hrel, Option.isSome_none]; exact h4
    | pull => simp only [hrel, Option.isSome_none]; exact h3
  set w : Fin nc → K := (S.M *ᵥ f) ∘ S.consm with hw
  have e : relaxed S.consm S.EQ S.s (S.M *ᵥ f) =
      (1 - ω w) • (S.M *ᵥ f) + ω w • fun i => S.EQ i w := by
    funext i
    simp only [relaxed, Pi.add_apply, Pi.smul_apply, smul_eq_mul]
    rcases hs i w with h | ⟨l, rfl⟩
    · rw [h]
    · rw [← hw, hEQ, show w l = (S.M *ᵥ f) (S.consm l) from rfl]; ring
  rw [hcol]
  unfold collision
  rw [e, Matrix.mulVec_add, Matrix.mulVec_smul, Matrix.mulVec_smul, Matrix.mulVec_mulVec, hM, Matrix.one_mulVec]
  simp only [Pi.add_apply, Pi.smul_apply, smul_eq_mul]
  rw [add_comm]
  exact hI j _ (heq f hf j) _ (hf j) _ (hω w).1 (hω w).2

end walls

end Pylbm.Sim
