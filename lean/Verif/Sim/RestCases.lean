import Verif.Sim.Bounds
import Verif.Sim.MassCases
/-!
# C80, C82: cases and counterexamples
-/

namespace Pylbm.Sim
open Scheme Halo SchemeSpec Matrix HaloSpec Mpi Boundary

/-- The tank with the obstacle `[5/4, 7/4]`, not halfway between the cells, and the values `ψ` on all the walls. -/
def basin (m : Method 1) (ψ : Fin 2 → ℚ) : WallData ℚ 1 sten2 :=
  { tank m (5 / 4) (7 / 4) with ψ := fun _ _ _ => ψ }

theorem basin_wf (m : Method 1) (ψ : Fin 2 → ℚ) : (basin m ψ).WF pipeLab :=
  let h := tank_wf m (by norm_num : (5 / 4 : ℚ) ≤ 7 / 4)
  ⟨h.sten, h.sound, h.labels, h.dict, h.no999, h.noFace⟩

/-- The domain of a process of the basin. -/
def basinData (m : Method 1) (g : Grid 1) (c : Proc g) :
    Option (Domain.State ℚ 1 2 × List (Method 1 × List (Entry ℚ 1 2))) := do
  let st ← Domain.build (procGrid g (fun _ => 0) 1 pipeLab sten2 c) (basin m 0).elems
  let I ← instances sten2 (procGrid g (fun _ => (0 : ℚ)) 1 pipeLab sten2 c).total st.link
    (listOfLabels (procGrid g (fun _ => (0 : ℚ)) 1 pipeLab sten2 c) (basin m 0).els) (basin m 0).dico
  return (st, I)

/-- The setup of a process of the basin, without `check_isfluid`. -/
def basinSetup (S : Kernel ℚ 2 1 0) (m : Method 1) (ψ : Fin 2 → ℚ) (g : Grid 1) (b : Backend) (a : Algo)
    (c : Proc g) : Setup ℚ 2 1 0 1 :=
  { ring S sten2.vel a g c with
    backend := b
    bc := fun t A => match basinData m g c with
      | none => A
      | some p => toArr (boundaryCondition sten2
          (withValues sten2 (procGrid g (fun _ => 0) 1 pipeLab sten2 c) (basin m ψ).ψ p.2 t) (toDist A)) }

/-- The scheme D1Q2 with the equilibrium of a fluid at rest. -/
def still2 : Kernel ℚ 2 1 0 := { d1q2 with EQ := ![fun w => w 0, fun _ => 0] }

theorem basin_away (m : Method 1) (ψ : Fin 2 → ℚ) (g : Grid 1)
    (hbeg : ∀ c : Proc g, first g c 0 = 0 ∨ 4 ≤ first g c 0)
    (hend : ∀ c : Proc g, 4 ≤ first g c 0 + size g c 0) (c : Proc g) (x : Cell 1)
    (hx : (procGrid g (fun _ => (0 : ℚ)) 1 pipeLab sten2 c).Interior x) (k : Fin sten2.nu) :
    (procGrid g (fun _ => (0 : ℚ)) 1 pipeLab sten2 c).Clear
        ((procGrid g (fun _ => (0 : ℚ)) 1 pipeLab sten2 c).target k x) ∨
      ∀ e ∈ (basin m ψ).elems, e.alpha ((procGrid g (fun _ => (0 : ℚ)) 1 pipeLab sten2 c).cellCentre x)
        (fun j => 1 * (sten2.uvel k j : ℚ)) ≤ 0 := by
  by_cases hcl : (procGrid g (fun _ => (0 : ℚ)) 1 pipeLab sten2 c).Clear
      ((procGrid g (fun _ => (0 : ℚ)) 1 pipeLab sten2 c).target k x)
  · exact Or.inl hcl
  · right
    intro e he
    rw [List.mem_singleton.1 he]
    have hx0 := hx 0
    have hc1 := hbeg c
    have hc2 := hend c
    have hcc : (procGrid g (fun _ => (0 : ℚ)) 1 pipeLab sten2 c).cellCentre x 0 =
        (((first g c 0 : Int) + x 0 - g.w 0 : Int) : ℚ) + 1 / 2 := by
      simp [Domain.Grid.cellCentre, procGrid, boxGrid, DomainSpec.centre]
    have hv : (k = 0 ∨ k = 1) := by clear hcl; revert k; decide
    have hn : (procGrid g (fun _ => (0 : ℚ)) 1 pipeLab sten2 c).n 0 = size g c 0 := by
      simp [Domain.Grid.n, procGrid]
    rw [hn] at hx0
    change (g.w 0 : Int) ≤ x 0 ∧ x 0 < g.w 0 + size g c 0 at hx0
    have hcl' : (first g c 0 ≠ 0 ∧ x 0 + sten2.uvel k 0 < g.w 0) ∨
        (g.w 0 + size g c 0 : Int) ≤ x 0 + sten2.uvel k 0 := by
      by_contra hh
      push Not at hh
      apply hcl
      intro j
      obtain rfl : j = 0 := Subsingleton.elim _ _
      rw [hn]
      exact ⟨hh.1, fun _ => hh.2⟩
    simp only [segment, hcc]
    rcases hv with rfl | rfl
    · have e1 : sten2.uvel 0 0 = 1 := rfl
      rw [e1] at hcl'
      have e2 : (![fun _ => 1, fun _ => -1] : Fin 2 → Fin 1 → Int) 0 0 = 1 := rfl
      rw [e2]
      have h4 : (4 : Int) ≤ (first g c 0 : Int) + x 0 - g.w 0 + 1 := by omega
      have h5 : (4 : ℚ) ≤ (((first g c 0 : Int) + x 0 - g.w 0 : Int) : ℚ) + 1 := by exact_mod_cast h4
      rw [if_neg (by rintro ⟨-, h, -⟩; linarith), if_neg (by rintro ⟨h, -⟩; norm_num at h)]
      norm_num
    · have e1 : sten2.uvel 1 0 = -1 := rfl
      rw [e1] at hcl'
      have e2 : (![fun _ => 1, fun _ => -1] : Fin 2 → Fin 1 → Int) 1 0 = -1 := rfl
      rw [e2]
      have h4 : (4 : Int) ≤ (first g c 0 : Int) + x 0 - g.w 0 := by omega
      have h5 : (4 : ℚ) ≤ (((first g c 0 : Int) + x 0 - g.w 0 : Int) : ℚ) := by exact_mod_cast h4
      rw [if_neg (by rintro ⟨h, -⟩; norm_num at h),
        if_neg (by rintro ⟨-, -, h⟩; push_cast at h h5; linarith)]
      norm_num

theorem basin_run (S : Kernel ℚ 2 1 0) (hrel : S.relVel = none) (m : Method 1) (ψ : Fin 2 → ℚ) (b : Backend)
    (a : Algo) (hs : ∀ c, (basinData m grid7 c).isSome) :
    FluidRun (basin m ψ) grid7 (fun _ => 0) 1 pipeLab S a (basinSetup S m ψ grid7 b a) := by
  have h : ∀ c i, grid7.w i ≤ size grid7 c i := (large_iff grid7).2 (by decide)
  have hu := ring_uniform S sten2.vel a grid7
  refine ⟨⟨h, ?_, basin_away m ψ grid7 (by decide +kernel) (by decide +kernel)⟩, hu.scheme, hu.vel, hu.algo, ?_, hu.nodup, hu.loops, fun c => by simp [hrel]⟩
  · intro c
    obtain ⟨⟨st, I⟩, hp⟩ := Option.isSome_iff_exists.1 (hs c)
    refine ⟨st, I, ?_, fun t A => by simp only [basinSetup, hp]⟩
    unfold basinData at hp
    simp only [Option.bind_eq_bind, Option.bind_eq_some_iff, Option.pure_def, Option.some.injEq,
      Prod.mk.injEq] at hp
    obtain ⟨st', h1, I', h2, rfl, rfl⟩ := hp
    exact ⟨procGrid_wf grid7 _ _ one_pos _ _ (by decide) c, rfl, h1, h2⟩
  · intro c hc
    rw [show (basinSetup S m ψ grid7 b a c).cfg.checkFluid = false from hu.all c] at hc
    exact absurd hc (by decide)

theorem basin_start (S : Kernel ℚ 2 1 0) (m : Method 1) (ψ : Fin 2 → ℚ) (al : Algo) (a : Fin 2 → ℚ)
    (c : Proc grid7) : (startWith 2 0 1 fun _ => a : Simu ℚ 2 0 1).Start (basinSetup S m ψ grid7 .c al c) :=
  ⟨show (0 : Fin 2) ≠ 1 by decide, rfl, rfl, rfl⟩

/-- What a case of C80 asks from the domain of a single process: the fluid cells, and methods which read only fluid
cells and none of the populations they write. -/
def basinCheck (m : Method 1) (ψ : Fin 2 → ℚ) (p : Domain.State ℚ 1 2 × List (Method 1 × List (Entry ℚ 1 2))) :
    List Bool × Bool :=
  let fl := flat sten2 (withValues sten2 (boxGrid grid7.N grid7.w (fun _ => 0) 1 pipeLab sten2) (basin m ψ).ψ p.2 0)
  ((List.range 7).map (fun i : Nat => fluidMap grid7.w p.1 fun _ => (i : Int)),
    fl.all fun q => (Boundary.reads sten2 q.1 q.2).all fun r => decide (r ∉ positions sten2 fl) &&
      periodic grid7.N (fluidMap grid7.w p.1) (fun i => r.2 i - grid7.w i))

/-- The domain of a single process of the basin meets the hypotheses of C73. -/
theorem basin_domain (m : Method 1) (ψ : Fin 2 → ℚ)
    (hd : (wallData (basin m ψ) grid7.N grid7.w pipeLab).map (basinCheck m ψ) =
      some ([true, false, true, true, true, true, true], true)) :
    ∃ (ST : Domain.State ℚ 1 2) (J : List (Method 1 × List (Entry ℚ 1 2))),
    OnGrid (basin m ψ) (boxGrid grid7.N grid7.w (fun _ => 0) 1 pipeLab sten2) ST J ∧
    (∀ t, Free sten2 (flat sten2 (withValues sten2 (boxGrid grid7.N grid7.w (fun _ => 0) 1 pipeLab sten2)
      (basin m ψ).ψ J t))) ∧
    AllLinks (s := sten2) grid7.N grid7.w ST ∧ ReadsFluid (basin m ψ) grid7.N grid7.w (fun _ => 0) 1 pipeLab ST J ∧
    (List.range 7).map (fun i : Nat => fluidMap grid7.w ST fun _ => (i : Int)) =
      [true, false, true, true, true, true, true] := by
  obtain ⟨⟨st, I⟩, hp⟩ : ∃ p, wallData (basin m ψ) grid7.N grid7.w pipeLab = some p := by
    cases h : wallData (basin m ψ) grid7.N grid7.w pipeLab with
    | none => rw [h] at hd; simp at hd
    | some p => exact ⟨p, rfl⟩
  rw [hp] at hd
  have hd := Option.some.inj hd
  simp only [basinCheck, Prod.mk.injEq, List.all_eq_true, Bool.and_eq_true, decide_eq_true_eq] at hd
  have ho := wallData_onGrid (by decide) hp
  have hseal : Sealed grid7.N grid7.w st := by
    refine tank_sealed m (by norm_num : (5 / 4 : ℚ) ≤ 7 / 4) grid7.N grid7.w (by decide) (I := I) hp
  refine ⟨st, I, ho, fun t q hq r hr => (hd.2 q hq r hr).1, ?_, fun t q hq r hr => (hd.2 q hq r hr).2, hd.1⟩
  intro y hy hyf u
  by_cases h : Open (st.link u (fun i => y i + grid7.w i)).flag
  · exact Or.inl (hseal y hy hyf u (sten2.usym u) (pipe_wf.sten.usym u) h).1
  · exact Or.inr h

theorem basin_case (S : Kernel ℚ 2 1 0) (hrel : S.relVel = none) (hEQ : ∀ j w, S.EQ (S.consm j) w = w j)
    (hM : S.invM * S.M = 1) (hS : ∀ i, S.source i = none) (hfront : ∀ j, (S.consm j : Nat) < 1)
    (m : Method 1) (ψ a : Fin 2 → ℚ) (alg : Algo)
    (hs : ∀ c, (basinData m grid7 c).isSome)
    (hd : (wallData (basin m ψ) grid7.N grid7.w pipeLab).map (basinCheck m ψ) =
      some ([true, false, true, true, true, true, true], true))
    (heq : ∀ i, (S.M *ᵥ a) i = S.EQ i fun j => (S.M *ᵥ a) (S.consm j)) (hwall : WallsAgree (basin m ψ) a) (k : Nat) :
    ∃ ST : Domain.State ℚ 1 2, ∃ σ,
    (List.range 7).map (fun i : Nat => fluidMap grid7.w ST fun _ => (i : Int)) =
      [true, false, true, true, true, true, true] ∧
    PRun grid7 (basinSetup S m ψ grid7 .c alg) (fun _ => startWith 2 0 1 fun _ => a) k σ ∧
    ∀ c x, Owned (size grid7 c) grid7.w x → fluidMap grid7.w ST (globalPos (first grid7 c) grid7.w x) = true →
      (σ c).arr x = a := by
  obtain ⟨st, I, ho, hfree, hlinks, hreads, hfl⟩ := basin_domain m ψ hd
  have h : ∀ c i, grid7.w i ≤ size grid7 c i := (large_iff grid7).2 (by decide)
  obtain ⟨σ, hσ⟩ := C42_run_exists (by decide) grid7 h (basinSetup S m ψ grid7 .c alg)
    (fun _ => startWith 2 0 1 fun _ => a) k
  refine ⟨st, σ, hfl, hσ, fun c x hx hf => ?_⟩
  exact C80_equilibrium (by decide) (basin m ψ) (fun _ => 0) 1 pipeLab (basin_wf _ _) grid7 st I ho hfree hlinks
    (tank_methods m (5 / 4) (7 / 4)) hreads S hfront
    hEQ hM hS hrel alg a heq hwall _ (basin_run S hrel m ψ .c alg hs) _
    (basin_start _ _ _ _ _) (fun _ _ _ _ => rfl) k σ hσ c x hx hf

/-- A case for C80: the interpolated bounce-back on the walls of the basin and a fluid at rest, on two processes. -/
example (k : Nat) : ∃ ST : Domain.State ℚ 1 2, ∃ σ,
    (List.range 7).map (fun i : Nat => fluidMap grid7.w ST fun _ => (i : Int)) =
      [true, false, true, true, true, true, true] ∧
    PRun grid7 (basinSetup still2 .bouzidiBounceBack ![3, 3] grid7 .c .pull)
      (fun _ => startWith 2 0 1 fun _ => ![5, 5]) k σ ∧
    ∀ c x, Owned (size grid7 c) grid7.w x → fluidMap grid7.w ST (globalPos (first grid7 c) grid7.w x) = true →
      (σ c).arr x = ![5, 5] := by
  refine basin_case still2 rfl (fun j w => by fin_cases j; rfl) (by decide +kernel) (fun _ => rfl) (by decide) _ _ _ _
    (by decide +kernel) (by decide +kernel) ?_ ?_ k
  · intro i
    fin_cases i <;> simp [still2, d1q2, Matrix.mulVec, dotProduct, Fin.sum_univ_two]
  · refine C80_rest _ _ (fun j j' _ _ => ?_) (fun l ms hl p hp => ?_) (fun l t x j j' _ _ => ?_)
    · revert j j'; decide +kernel
    · simp only [basin, tank, Option.some.injEq] at hl
      subst hl
      rw [List.mem_singleton.1 hp]
      exact ⟨by simp, by simp⟩
    · revert j j'; simp only [basin]; decide +kernel

/-- A case for C80: a uniform flow imposed on the walls of the basin by anti bounce-back. -/
example (k : Nat) : ∃ ST : Domain.State ℚ 1 2, ∃ σ,
    (List.range 7).map (fun i : Nat => fluidMap grid7.w ST fun _ => (i : Int)) =
      [true, false, true, true, true, true, true] ∧
    PRun grid7 (basinSetup d1q2 .antiBounceBack ![3, 1] grid7 .c .base)
      (fun _ => startWith 2 0 1 fun _ => ![3, 1]) k σ ∧
    ∀ c x, Owned (size grid7 c) grid7.w x → fluidMap grid7.w ST (globalPos (first grid7 c) grid7.w x) = true →
      (σ c).arr x = ![3, 1] := by
  refine basin_case d1q2 rfl (fun j w => by fin_cases j; rfl) (by decide +kernel) (fun _ => rfl) (by decide) _ _ _ _
    (by decide +kernel) (by decide +kernel) ?_ ?_ k
  · intro i
    fin_cases i <;> (simp [d1q2, Matrix.mulVec, dotProduct, Fin.sum_univ_two]; try norm_num)
  · refine C80_imposed _ _ (fun l ms hl p hp => ?_) (fun l t x => rfl)
    simp only [basin, tank, Option.some.injEq] at hl
    subst hl
    rw [List.mem_singleton.1 hp]
    exact ⟨by simp, by simp⟩

/-- C80 is false for a uniform flow imposed by the interpolated bounce-back or by the interpolated anti bounce-back,
when the wall is not halfway between the cells: the populations `(3, 1)`, at equilibrium and imposed on all the walls
of the basin, are not kept by one step. -/
theorem C80_interpolated_negation : ∀ m : Method 1, m = .bouzidiBounceBack ∨ m = .bouzidiAntiBounceBack →
    ∃ (ST : Domain.State ℚ 1 2) (J : List (Method 1 × List (Entry ℚ 1 2))),
    OnGrid (basin m ![3, 1]) (boxGrid grid7.N grid7.w (fun _ => 0) 1 pipeLab sten2) ST J ∧
    (∀ i, (d1q2.M *ᵥ ![3, 1]) i = d1q2.EQ i fun j => (d1q2.M *ᵥ ![3, 1]) (d1q2.consm j)) ∧
    fluidMap grid7.w ST (fun _ => 0) = true ∧
    lbmStep grid7.N sten2.vel (collide d1q2 .pull) (wallBc (basin m ![3, 1]) grid7.N grid7.w
      (fun _ => 0) 1 pipeLab J) 0 (fun _ => ![3, 1]) (fun _ => 0) ≠ ![3, 1] := by
  intro m hm
  have hd : (wallData (basin m ![3, 1]) grid7.N grid7.w pipeLab).map (fun p =>
      (fluidMap grid7.w p.1 (fun _ => 0), decide (lbmStep grid7.N sten2.vel (collide d1q2 .pull)
        (wallBc (basin m ![3, 1]) grid7.N grid7.w (fun _ => 0) 1 pipeLab p.2) 0 (fun _ => ![3, 1]) (fun _ => 0) =
          ![3, 1]))) = some (true, false) := by
    rcases hm with rfl | rfl <;> decide +kernel
  obtain ⟨⟨st, I⟩, hp⟩ : ∃ p, wallData (basin m ![3, 1]) grid7.N grid7.w pipeLab = some p := by
    cases h : wallData (basin m ![3, 1]) grid7.N grid7.w pipeLab with
    | none => rw [h] at hd; simp at hd
    | some p => exact ⟨p, rfl⟩
  rw [hp] at hd
  have hd := Option.some.inj hd
  simp only [Prod.mk.injEq, decide_eq_false_iff_not] at hd
  refine ⟨st, I, wallData_onGrid (by decide) hp, ?_, hd.1, hd.2⟩
  intro i
  fin_cases i <;> (simp [d1q2, Matrix.mulVec, dotProduct, Fin.sum_univ_two]; try norm_num)

/-- D1Q2 with a relaxation parameter between 0 and 1. -/
def damped : Kernel ℚ 2 1 0 := { d1q2 with s := ![fun _ => 0, fun _ => 1 / 2] }

/-- A case for C82: with the interpolated bounce-back on the walls of the basin and at rest, the populations of
`damped` which are positive stay positive, on two processes, from any positive initial values. -/
example (k : Nat) (A : Arr ℚ 2 1) (hA : ∀ x j, 0 ≤ A x j) : ∃ ST : Domain.State ℚ 1 2, ∃ σ,
    (List.range 7).map (fun i : Nat => fluidMap grid7.w ST fun _ => (i : Int)) =
      [true, false, true, true, true, true, true] ∧
    PRun grid7 (basinSetup damped .bouzidiBounceBack 0 grid7 .c .pull) (fun _ => startWith 2 0 1 A) k σ ∧
    ∀ c x, Owned (size grid7 c) grid7.w x → fluidMap grid7.w ST (globalPos (first grid7 c) grid7.w x) = true →
      ∀ j, 0 ≤ (σ c).arr x j := by
  obtain ⟨st, I, ho, hfree, hlinks, hreads, hfl⟩ := basin_domain .bouzidiBounceBack 0 (by decide +kernel)
  have h : ∀ c i, grid7.w i ≤ size grid7 c i := (large_iff grid7).2 (by decide)
  obtain ⟨σ, hσ⟩ := C42_run_exists (by decide) grid7 h (basinSetup damped .bouzidiBounceBack 0 grid7 .c .pull)
    (fun _ => startWith 2 0 1 A) k
  refine ⟨st, σ, hfl, hσ, fun c x hx hf j => ?_⟩
  have hmean : ∀ _ : Fin 2, Mean (Set.Ici (0 : ℚ)) := by
    intro _ x hx y hy θ h1 h2
    simp only [Set.mem_Ici] at hx hy ⊢
    have := mul_nonneg h1 hx
    have := mul_nonneg (sub_nonneg.2 h2) hy
    linarith
  refine C82_bounds (by decide) (basin .bouzidiBounceBack 0) (fun _ => 0) 1 pipeLab (basin_wf _ _) grid7 st I ho hfree
    hlinks (tank_methods _ (5 / 4) (7 / 4)) hreads ⟨?_, fun _ _ _ _ _ _ _ => rfl⟩ (fun _ => Set.Ici 0) hmean
    (fun _ _ _ _ => rfl) damped (by decide) .pull ?_ _ (basin_run damped rfl _ _ .c .pull (by decide +kernel))
    (fun _ => startWith 2 0 1 A)
    (fun _ => ⟨show (0 : Fin 2) ≠ 1 by decide, rfl, rfl, rfl⟩) (fun _ x _ _ j => hA x j) k σ hσ c x hx hf j
  · intro l ms hl p hp
    simp only [basin, tank, Option.some.injEq] at hl
    subst hl
    rw [List.mem_singleton.1 hp]
    exact ⟨by simp, by simp⟩
  · refine C82_bgk damped (fun j w => by fin_cases j; rfl) (by decide +kernel) (fun _ => rfl) rfl .pull (fun _ => 1 / 2)
      (fun _ => by norm_num) ?_ _ hmean ?_
    · intro i w
      fin_cases i
      · exact Or.inr ⟨0, rfl⟩
      · exact Or.inl rfl
    · intro f hf j
      have h0 := hf 0
      have h1 := hf 1
      simp only [Set.mem_Ici] at h0 h1 ⊢
      fin_cases j <;> simp [damped, d1q2, Matrix.mulVec, dotProduct, Fin.sum_univ_two] <;> linarith

/-- C82 is false for anti bounce-back, even without value on the wall: from populations equal to 1 everywhere, one step
of `damped` gives a negative population. -/
theorem C82_anti_negation : ∃ (ST : Domain.State ℚ 1 2) (J : List (Method 1 × List (Entry ℚ 1 2))),
    OnGrid (basin .antiBounceBack 0) (boxGrid grid7.N grid7.w (fun _ => 0) 1 pipeLab sten2) ST J ∧
    fluidMap grid7.w ST (fun _ => 0) = true ∧
    ∃ j, lbmStep grid7.N sten2.vel (collide damped .pull) (wallBc (basin .antiBounceBack 0) grid7.N grid7.w
      (fun _ => 0) 1 pipeLab J) 0 (fun _ => ![1, 1]) (fun _ => 0) j < 0 := by
  have hd : (wallData (basin .antiBounceBack 0) grid7.N grid7.w pipeLab).map (fun p =>
      (fluidMap grid7.w p.1 (fun _ => 0), decide (∃ j, lbmStep grid7.N sten2.vel (collide damped .pull)
        (wallBc (basin .antiBounceBack 0) grid7.N grid7.w (fun _ => 0) 1 pipeLab p.2) 0 (fun _ => ![1, 1])
          (fun _ => 0) j < 0))) = some (true, true) := by
    decide +kernel
  obtain ⟨⟨st, I⟩, hp⟩ := Option.isSome_iff_exists.1
    (by decide +kernel : (wallData (basin .antiBounceBack 0) grid7.N grid7.w pipeLab).isSome = true)
  rw [hp] at hd
  have hd := Option.some.inj hd
  simp only [Prod.mk.injEq, decide_eq_true_eq] at hd
  exact ⟨st, I, wallData_onGrid (by decide) hp, hd.1, hd.2⟩

end Pylbm.Sim
