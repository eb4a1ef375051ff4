import Verif.Sim.Basis
/-!
# C109: cases
-/

set_option linter.unusedSimpArgs false

namespace Pylbm.Sim
open Scheme Halo SchemeSpec Matrix HaloSpec Mpi Boundary

/-- In a box without element, with periodic axes and walls with one-cell methods, the conditions of the theorems on runs
hold. -/
theorem plate_conditions {dim : Nat} {s : Sten dim} (D : WallData ℚ dim s) (N w : Fin dim → Nat)
    (lab : Fin dim → Bool → Int) (hD : D.WF lab) {ST : Domain.State ℚ dim s.nu}
    {J : List (Method dim × List (Entry ℚ dim s.ns))} (hJ : OnGrid D (boxGrid N w (fun _ => 0) 1 lab s) ST J)
    (hel : D.elems = []) (hels : D.els = []) (hv : ∀ k i, |s.uvel k i| ≤ 1)
    (hlab : ∀ j, (∀ side, lab j side = -1) ∨ ∀ side, lab j side ≠ -1 ∧ lab j side ≠ -2)
    (hone : ∀ label ms, D.dico label = some ms → ∀ p ∈ ms, OneCell p.2) :
    AllLinks N w ST ∧ (∀ t, Free s (flat s (withValues s (boxGrid N w (fun _ => 0) 1 lab s) D.ψ J t))) ∧
    ReadsFluid D N w (fun _ => 0) 1 lab ST J ∧ ∀ y ∈ box N, fluidMap w ST y = true := by
  have hse := C78_channel D N w (fun _ => 0) 1 lab hD ST J hJ hv hlab (by rw [hels]; intro l hl; cases hl)
    (by rw [hel]; intro e he; cases he) (by rw [hel]; intro c _ _ e he; cases he) (by rw [hel]; intro e he; cases he)
  refine ⟨?_, fun t => hJ.free hD hone t, oneCell_reads _ _ _ _ _ _ hD ST J hJ (hJ.oneCell hD hone), ?_⟩
  · intro y hy hyf u
    by_cases h : Open (ST.link u (fun i => y i + w i)).flag
    · exact Or.inl (hse y hy hyf u (s.usym u) (hD.sten.usym u) h).1
    · exact Or.inr h
  · intro y hy
    apply decide_eq_true
    rw [Domain.C21_fluid_map _ hJ.wf D.elems hD.sound ST hJ.built, if_pos ⟨interior_shift hy, by rw [hel]; rfl⟩]

/-- `euler4` with the moments `1, X + Y, X - Y, XY + 1`. -/
def euler4new : Kernel ℚ 4 3 0 :=
  { euler4 with
    M := !![1, 1, 1, 1; 2, -2, 0, 0; 0, 0, -2, 2; 2, 2, 0, 0]
    invM := !![0, 1 / 4, 0, 1 / 4; 0, -1 / 4, 0, 1 / 4; 1 / 2, 0, -1 / 4, -1 / 4; 1 / 2, 0, 1 / 4, -1 / 4]
    EQ := ![fun w => w 0, fun w => w 1, fun w => w 2,
      fun w => (w 1 + w 2) / 2 * ((w 1 - w 2) / 2) / w 0 + w 0] }

/-- The combinations. -/
def euler4B : Matrix (Fin 4) (Fin 4) ℚ := !![1, 0, 0, 0; 0, 1, 1, 0; 0, 1, -1, 0; 1, 0, 0, 1]

/-- The combinations of the conserved moments. -/
def euler4C : Matrix (Fin 3) (Fin 3) ℚ := !![1, 0, 0; 0, 1, 1; 0, 1, -1]

theorem euler4_newMoments : NewMoments euler4 euler4new euler4B euler4C where
  moments := by decide +kernel
  conserved := by
    intro m
    funext j
    rw [Function.comp_apply, mulVec_at, mulVec_at, Fin.sum_univ_four, Fin.sum_univ_three]
    fin_cases j <;> simp [euler4B, euler4C, euler4, euler4new, fluid4]
  equilibrium := by
    intro i w
    have e : euler4C *ᵥ w = ![w 0, w 1 + w 2, w 1 - w 2] := by
      funext j
      rw [mulVec_at, Fin.sum_univ_three]
      fin_cases j <;> simp [euler4C]
      ring
    rw [e]
    rw [Fin.sum_univ_four]
    fin_cases i <;> simp [euler4B, euler4, euler4new, fluid4]
    all_goals ring

theorem euler4_sameRelaxation : SameRelaxation euler4 euler4new euler4B euler4C := by
  intro i k w h hk
  fin_cases i <;> fin_cases k <;> first
    | rfl
    | exact absurd rfl h
    | exact absurd rfl (hk 0)

/-- A case for `C109_runs`: a nonlinear scheme between moving walls on two processes, from any state. -/
example (a a' : Algo) (A : Arr ℚ 4 2) (k : Nat) (σ σ' : Proc gridC → Simu ℚ 4 0 2)
    (hr : PRun gridC (plateSetup shaken wallsFirst euler4 a gridC)
      (fun c => startWith 4 0 2 fun x => A (globalPos (first gridC c) gridC.w x)) k σ)
    (hr' : PRun gridC (plateSetup shaken wallsFirst euler4new a' gridC)
      (fun c => startWith 4 0 2 fun x => A (globalPos (first gridC c) gridC.w x)) k σ')
    (c : Proc gridC) (x : Cell 2) (hx : Owned (size gridC c) gridC.w x) : (σ' c).arr x = (σ c).arr x := by
  have h : ∀ c i, gridC.w i ≤ size gridC c i := (large_iff gridC).2 (by decide)
  have h0 : ∀ c, (plateData (couette 0 0) wallsFirst gridC c).isSome := by decide +kernel
  obtain ⟨⟨st, I⟩, hp⟩ := Option.isSome_iff_exists.1
    (by decide +kernel : (wallData (couette 0 0) gridC.N gridC.w wallsFirst).isSome = true)
  have hp' : wallData shaken gridC.N gridC.w wallsFirst = some (st, I) := by
    rw [shaken_wallData]; exact hp
  have ho := wallData_onGrid (by decide) hp'
  have hwf : shaken.WF wallsFirst := shaken_wf (by decide)
  have hone : ∀ label ms, shaken.dico label = some ms → ∀ p ∈ ms, OneCell p.2 := by
    intro l ms hl q hq
    simp only [shaken, couette] at hl
    cases hl
    rw [List.mem_singleton.1 hq]
    trivial
  obtain ⟨h1, h2, h3, h4⟩ := plate_conditions shaken gridC.N gridC.w wallsFirst hwf ho rfl rfl (by decide) (by decide) hone
  refine (C109_runs (by decide) shaken (fun _ => 0) 1 wallsFirst hwf gridC gridC rfl rfl st I ho h2 h1 ?_ h3
    euler4 (by decide) (fun j w => by fin_cases j <;> rfl) fluid4_inv (fun _ => rfl) rfl a
    euler4new (by decide) (fun j w => by fin_cases j <;> rfl) (by decide +kernel) (fun _ => rfl) rfl a' rfl _ _
    euler4_newMoments euler4_sameRelaxation _ (plate_run shaken wallsFirst euler4 a gridC h (by decide) rfl fun c => ?_) _
    (plate_run shaken wallsFirst euler4new a' gridC h (by decide) rfl fun c => ?_) _
    (fun c => plate_start _ _ _ _ _ _ _) _ (fun c => plate_start _ _ _ _ _ _ _) A (fun _ _ _ _ => rfl)
    (fun _ _ _ _ => rfl) k σ hr σ' hr' c x hx c x hx rfl (h4 _ (owned_box gridC hx))).1
  · intro l ms hl j
    simp only [shaken, couette] at hl
    cases hl
    exact ⟨.bounceBack, by simp⟩
  · rw [shaken_data]; exact h0 c
  · rw [shaken_data]; exact h0 c

/-- Bounce-back at both ends of a pipe. -/
def pipe13 : WallData ℚ 1 sten13 where
  elems := []
  els := []
  dico := fun _ => some [(0, .bounceBack)]
  ψ := fun l t x => ![0, t + x 0, l]

theorem pipe13_wf : pipe13.WF pipeLab where
  sten := sten13_wf
  sound := by intro e he; cases he
  labels := by intro e he; cases he
  dict := by intro l ms h; simp only [pipe13] at h; cases h; simp
  no999 := by simp [pipe13]
  noFace := pipe_wf.noFace

/-- A case for `C109_relative_runs_partial`: a relative velocity and one relaxation parameter, against no relative
velocity, in a pipe on two processes and on one. -/
example (A : Arr ℚ 3 1) (k : Nat) (σ : Proc grid7 → Simu ℚ 3 1 1) (σ' : Proc grid7one → Simu ℚ 3 1 1)
    (hr : PRun grid7 (plateSetup pipe13 pipeLab d1q3single .pull grid7)
      (fun c => startWith 3 1 1 fun x => A (globalPos (first grid7 c) grid7.w x)) k σ)
    (hr' : PRun grid7one (plateSetup pipe13 pipeLab { d1q3single with relVel := none } .base grid7one)
      (fun c => startWith 3 1 1 fun x => A (globalPos (first grid7one c) grid7one.w x)) k σ')
    (c : Proc grid7) (x : Cell 1) (hx : Owned (size grid7 c) grid7.w x)
    (c' : Proc grid7one) (x' : Cell 1) (hx' : Owned (size grid7one c') grid7one.w x')
    (he : globalPos (first grid7 c) grid7.w x = globalPos (first grid7one c') grid7one.w x') :
    (σ c).arr x = (σ' c').arr x' := by
  have h : ∀ c i, grid7.w i ≤ size grid7 c i := (large_iff grid7).2 (by decide)
  have h' : ∀ c i, grid7one.w i ≤ size grid7one c i := (large_iff grid7one).2 (by decide)
  have h0 : ∀ c, (plateData pipe13 pipeLab grid7 c).isSome := by decide +kernel
  have h0' : ∀ c, (plateData pipe13 pipeLab grid7one c).isSome := by decide +kernel
  obtain ⟨⟨st, I⟩, hp⟩ := Option.isSome_iff_exists.1
    (by decide +kernel : (wallData pipe13 grid7.N grid7.w pipeLab).isSome = true)
  have ho := wallData_onGrid (by decide) hp
  have hone : ∀ label ms, pipe13.dico label = some ms → ∀ p ∈ ms, OneCell p.2 := by
    intro l ms hl q hq
    simp only [pipe13] at hl
    cases hl
    rw [List.mem_singleton.1 hq]
    trivial
  obtain ⟨h1, h2, h3, h4⟩ := plate_conditions pipe13 grid7.N grid7.w pipeLab pipe13_wf ho rfl rfl (by decide) (by decide)
    hone
  refine C109_relative_runs_partial (by decide) pipe13 (fun _ => 0) 1 pipeLab pipe13_wf grid7 grid7one rfl rfl st I ho h2 h1
    ?_ h3 d1q3single (by decide) (fun j w => by fin_cases j; rfl) (fun j w => by fin_cases j; rfl) (fun _ => rfl) _ rfl ?_ ?_
    .base _ (plate_run pipe13 pipeLab d1q3single .pull grid7 h (by decide) rfl h0) _
    (plate_run pipe13 pipeLab { d1q3single with relVel := none } .base grid7one h' (by decide) rfl h0') _
    (fun c => plate_start _ _ _ _ _ _ _) _ (fun c => plate_start _ _ _ _ _ _ _) A (fun _ _ _ _ => rfl)
    (fun _ _ _ _ => rfl) k σ hr σ' hr' c x hx c' x' hx' he (h4 _ (owned_box grid7 hx))
  · intro l ms hl j
    simp only [pipe13] at hl
    cases hl
    exact ⟨.bounceBack, by simp [sten13]⟩
  · exact d1q3single_inverse
  · exact d1q3single_same

end Pylbm.Sim
