import Verif.Sim.Energy
import Verif.Sim.BalanceCases
/-!
# C98: cases
-/

set_option linter.unusedSimpArgs false

namespace Pylbm.Sim
open Scheme Halo SchemeSpec Matrix HaloSpec Mpi Boundary

/-- D1Q2 for the advection at velocity `c` (unit of the scheme velocity), relaxation parameter `s`. -/
def advect (c s : ℚ) : Kernel ℚ 2 1 0 := { d1q2 with EQ := ![fun w => w 0, fun w => c * w 0], s := ![fun _ => 0, fun _ => s] }

/-- It is dissipative under the condition of Courant, Friedrichs and Lewy, for all relaxation parameters between 0
and 2. -/
theorem advect_dissipative (c s : ℚ) (hc : |c| < 1) (hs : 0 ≤ s ∧ s ≤ 2) :
    Dissipative (advect c s) ![(1 + c) / 2, (1 - c) / 2] !![1; c] 0 ![0, s] := by
  have h := abs_lt.1 hc
  have hc0 : Conserved (advect c s) 0 := ⟨0, rfl⟩
  have hc1 : ¬ Conserved (advect c s) 1 := by
    rintro ⟨l, hl⟩
    have : ∀ l : Fin 1, d1q2.consm l ≠ 1 := by decide
    exact this l hl
  have key : ∑ j, ![(1 + c) / 2, (1 - c) / 2] j * deviation (advect c s) !![1; c] 0 j *
      deviation (advect c s) !![1; c] 1 j = 0 := by
    rw [Fin.sum_univ_two]
    simp only [deviation, if_pos hc0, if_neg hc1]
    simp [advect, d1q2]
    ring
  refine ⟨?_, ?_, ?_, ?_, ?_⟩
  · intro i v; fin_cases i <;> simp [advect]
  · intro i v; fin_cases i <;> rfl
  · intro j; fin_cases j <;> simp <;> linarith
  · intro i hi
    fin_cases i
    · exact absurd hc0 hi
    · exact hs
  · intro i i' hne
    fin_cases i <;> fin_cases i'
    · exact absurd rfl hne
    · exact key
    · rw [← key]
      exact Finset.sum_congr rfl fun j _ => mul_right_comm _ _ _
    · exact absurd rfl hne

/-- D1Q3 for the diffusion with two relaxation parameters: moments `1, X, 3 X² - 2`, equilibria `0` and `α u`. -/
def heat (α s₁ s₂ : ℚ) : Kernel ℚ 3 1 0 where
  M := !![1, 1, 1; 0, 1, -1; -2, 1, 1]
  invM := !![1 / 3, 0, -1 / 3; 1 / 3, 1 / 2, 1 / 6; 1 / 3, -1 / 2, 1 / 6]
  Tu := fun _ => 1
  Tmu := fun _ => 1
  EQ := ![fun w => w 0, fun _ => 0, fun w => α * w 0]
  s := ![fun _ => 0, fun _ => s₁, fun _ => s₂]
  consm := ![0]
  relVel := none
  source := fun _ => none
  dt := 1

/-- It is dissipative for `-2 < α < 1` and all relaxation parameters between 0 and 2. -/
theorem heat_dissipative (α s₁ s₂ : ℚ) (hα : -2 < α ∧ α < 1) (h1 : 0 ≤ s₁ ∧ s₁ ≤ 2) (h2 : 0 ≤ s₂ ∧ s₂ ≤ 2) :
    Dissipative (heat α s₁ s₂) ![(1 - α) / 3, (2 + α) / 6, (2 + α) / 6] !![1; 0; α] 0 ![0, s₁, s₂] := by
  have hc0 : Conserved (heat α s₁ s₂) 0 := ⟨0, rfl⟩
  have hc1 : ¬ Conserved (heat α s₁ s₂) 1 := by
    rintro ⟨l, hl⟩
    have : ∀ l : Fin 1, (![0] : Fin 1 → Fin 3) l ≠ 1 := by decide
    exact this l hl
  have hc2 : ¬ Conserved (heat α s₁ s₂) 2 := by
    rintro ⟨l, hl⟩
    have : ∀ l : Fin 1, (![0] : Fin 1 → Fin 3) l ≠ 2 := by decide
    exact this l hl
  have key : ∀ i i' : Fin 3, i ≠ i' → ∑ j, ![(1 - α) / 3, (2 + α) / 6, (2 + α) / 6] j *
      deviation (heat α s₁ s₂) !![1; 0; α] i j * deviation (heat α s₁ s₂) !![1; 0; α] i' j = 0 := by
    intro i i' hne
    rw [Fin.sum_univ_three]
    fin_cases i <;> fin_cases i' <;> first
      | exact absurd rfl hne
      | (simp only [deviation]
         simp [hc0, hc1, hc2, heat]
         try ring)
  refine ⟨?_, ?_, ?_, ?_, fun i i' hne => key i i' fun h => hne (h ▸ rfl)⟩
  · intro i v; fin_cases i <;> simp [heat]
  · intro i v; fin_cases i <;> rfl
  · intro j; fin_cases j <;> simp <;> linarith
  · intro i hi
    fin_cases i
    · exact absurd hc0 hi
    · exact h1
    · exact h2

/-- A case for `C98_bound` and `C98_periodic`: D1Q3 on two processes, relaxation parameters 1.9 and 0.3. -/
example (σ : Proc grid7 → Simu ℚ 3 0 1)
    (hr : PRun grid7 (ring (heat (1 / 2) (19 / 10) (3 / 10)) ![fun _ => 0, fun _ => 1, fun _ => -1] .pull grid7)
      (fun _ => startWith 3 0 1 fun x k => if k = 1 then x 0 else 0) 100 σ) :
    ∀ c x j, Owned (size grid7 c) grid7.w x → (σ c).arr x j ^ 2 ≤ ![1 / 6, 5 / 12, 5 / 12] j *
      ∑ c : Proc grid7, ∑ x ∈ inner (size grid7 c) grid7.w,
        energy ![1 / 6, 5 / 12, 5 / 12] ((startWith 3 0 1 fun x k => if k = 1 then (x 0 : ℚ) else 0).arr x) := by
  obtain ⟨h1, h2, h3, h4, -⟩ := ring7_case (heat (1 / 2) (19 / 10) (3 / 10)) ![fun _ => 0, fun _ => 1, fun _ => -1]
    .pull (fun x k => if k = 1 then x 0 else 0) 100
  have hd := heat_dissipative (1 / 2) (19 / 10) (3 / 10) (by norm_num) (by norm_num) (by norm_num)
  have hw : ![(1 - 1 / 2) / 3, (2 + 1 / 2) / 6, (2 + 1 / 2) / 6] = (![1 / 6, 5 / 12, 5 / 12] : Fin 3 → ℚ) := by
    norm_num
  rw [hw] at hd
  exact (C98_bound (by decide) grid7 h1 _ (by decide) (fun j w => by fin_cases j; rfl) (by decide +kernel)
    (fun _ => rfl) rfl _ .pull (by decide) _ h2 h3 _ _ _ hd _ h4 100 σ hr).2

/-- A case for `C98_sharp`: D1Q2 with the relaxation parameter 5/2 on two processes. -/
example : ∃ e : Fin 2 → ℚ, e ≠ 0 ∧ ∀ (f : Fin 2 → ℚ) (k : Nat) (σ τ : Proc grid7 → Simu ℚ 2 0 1),
    PRun grid7 (ring (advect (1 / 2) (5 / 2)) ![fun _ => 1, fun _ => -1] .base grid7)
      (fun _ => startWith 2 0 1 fun _ => f + e) k σ →
    PRun grid7 (ring (advect (1 / 2) (5 / 2)) ![fun _ => 1, fun _ => -1] .base grid7)
      (fun _ => startWith 2 0 1 fun _ => f) k τ →
    ∀ c x, Owned (size grid7 c) grid7.w x → (σ c).arr x - (τ c).arr x = (-(3 / 2) : ℚ) ^ k • e := by
  obtain ⟨h1, h2, h3, -, -⟩ := ring7_case (advect (1 / 2) (5 / 2)) ![fun _ => 1, fun _ => -1] .base (fun _ _ => 0) 0
  have hc1 : ¬ Conserved (advect (1 / 2) (5 / 2)) 1 := by
    rintro ⟨l, hl⟩
    have : ∀ l : Fin 1, d1q2.consm l ≠ 1 := by decide
    exact this l hl
  obtain ⟨-, e, he, h⟩ := C98_sharp (by decide) grid7 h1 _ (by decide) (fun j w => by fin_cases j; rfl)
    (by decide +kernel) (fun _ => rfl) rfl _ .base (by decide) _ h2 h3 !![1; 1 / 2] 0 ![0, 5 / 2]
    (fun i v => by fin_cases i <;> simp [advect]) (fun i v => by fin_cases i <;> rfl) 1 hc1
    (Or.inr (by norm_num))
  refine ⟨e, he, fun f k σ τ hσ hτ c x hx => ?_⟩
  rw [h f _ _ (fun c => startWith_start _ _ _ _ c _) (fun c => startWith_start _ _ _ _ c _)
    (fun c x _ => ⟨rfl, rfl⟩) k σ τ hσ hτ c x hx]
  norm_num

/-- The tank with the obstacle `[1, 2]` on two processes, diffusion; the imposed values depend on the time and on
the place. -/
def tankHeat (c : Proc grid7) : Setup ℚ 2 1 0 1 := { tankSetup grid7 .c .pull c with S := advect 0 (9 / 5) }

theorem tank_reflecting (a b : ℚ) : Reflecting (tank .bounceBack a b) ∧ Reflecting (tank .antiBounceBack a b) := by
  constructor <;> intro l ms hl p hp <;> simp only [tank] at hl <;> cases hl <;>
    rw [List.mem_singleton.1 hp] <;> simp

/-- A case for `C98_walls`. -/
example (A B : Arr ℚ 2 1) : ∃ ST : Domain.State ℚ 1 2,
    (∃ σ, PRun grid7 tankHeat (fun _ => startWith 2 0 1 A) 9 σ) ∧
    (∃ τ, PRun grid7 tankHeat (fun _ => startWith 2 0 1 B) 9 τ) ∧
    ∀ σ τ, PRun grid7 tankHeat (fun _ => startWith 2 0 1 A) 9 σ → PRun grid7 tankHeat (fun _ => startWith 2 0 1 B) 9 τ →
      fluidEnergy (s := sten2) ST grid7 ![1 / 2, 1 / 2] σ τ ≤
        fluidEnergy (d := 0) (s := sten2) ST grid7 ![1 / 2, 1 / 2] (fun _ => startWith 2 0 1 A)
          (fun _ => startWith 2 0 1 B) := by
  obtain ⟨hF, ⟨ST, J, hJ, hseal, hreads, hfree, -⟩, -, -, -⟩ := tank_case
  have hQ : FluidRun (tank .bounceBack 1 2) grid7 (fun _ => 0) 1 pipeLab (advect 0 (9 / 5)) .pull tankHeat :=
    ⟨⟨hF.walls.large, hF.walls.onGrid, hF.walls.away⟩, fun _ => rfl, hF.vel, hF.algo, hF.fluid, hF.nodup, hF.loops,
      fun c => by simp [advect, d1q2]⟩
  have hd := advect_dissipative 0 (9 / 5) (by norm_num) (by norm_num)
  have hw : ![(1 + 0) / 2, (1 - 0) / 2] = (![1 / 2, 1 / 2] : Fin 2 → ℚ) := by norm_num
  rw [hw] at hd
  refine ⟨ST, C42_run_exists (by decide) grid7 hF.walls.large _ _ 9,
    C42_run_exists (by decide) grid7 hF.walls.large _ _ 9, fun σ τ hσ hτ => ?_⟩
  exact C98_walls (by decide) (tank .bounceBack 1 2) (fun _ => 0) 1 pipeLab
    (tank_wf .bounceBack (by norm_num : (1 : ℚ) ≤ 2)) grid7 ST J hJ hfree hseal (tank_methods _ _ _) hreads
    (tank_reflecting 1 2).1 (advect 0 (9 / 5))
    (by decide) (fun j w => by fin_cases j; rfl) (by decide +kernel) (fun _ => rfl) rfl .pull ![1 / 2, 1 / 2]
    (fun j j' _ _ => by fin_cases j <;> fin_cases j' <;> rfl) _ _ _ hd _ hQ _ _
    (fun c => startWith_start (advect 0 (9 / 5)) sten2.vel .pull grid7 c _)
    (fun c => startWith_start (advect 0 (9 / 5)) sten2.vel .pull grid7 c _) 9 σ τ hσ hτ

/-- The energy of the fluid cells of the tank for a difference of two states which is `G`, before and after one step
on the global array: the two states are `G` and 0. -/
def tankEnergy (m : Method 1) (a b : ℚ) (G : Arr ℚ 2 1) : Option (ℚ × ℚ) :=
  (wallData (tank m a b) (fun _ => 7) (fun _ => 1) pipeLab).map fun p =>
    let fl := (List.range 7).filter fun i => fluidMap (fun _ => 1) p.1 fun _ => (i : Int)
    let bc := wallBc (tank m a b) (fun _ => 7) (fun _ => 1) (fun _ => 0) 1 pipeLab p.2
    ((fl.map fun i => energy ![1 / 2, 1 / 2] (G fun _ => (i : Int))).sum,
      (fl.map fun i => energy ![1 / 2, 1 / 2]
        (lbmStep (fun _ => 7) sten2.vel (collide (advect 0 (9 / 5)) .pull) bc 0 G (fun _ => (i : Int)) -
          lbmStep (fun _ => 7) sten2.vel (collide (advect 0 (9 / 5)) .pull) bc 0 (fun _ _ => 0)
            (fun _ => (i : Int)))).sum)

/-- **C98 is false for the interpolated methods** (`BouzidiBounceBack`): when the wall is not halfway between the
cells, one step of a dissipative scheme can increase the energy, in a tank without holes. -/
theorem C98_interpolated_negation : ∃ (ST : Domain.State ℚ 1 2) (J : List (Method 1 × List (Entry ℚ 1 2)))
    (G : Arr ℚ 2 1) (e₀ e₁ : ℚ), (tank .bouzidiBounceBack (5 / 4) (7 / 4)).WF pipeLab ∧
    OnGrid (tank .bouzidiBounceBack (5 / 4) (7 / 4)) (boxGrid (fun _ => 7) (fun _ => 1) (fun _ => 0) 1 pipeLab sten2) ST J ∧
    Sealed (s := sten2) (fun _ => 7) (fun _ => 1) ST ∧ AllMethods (tank .bouzidiBounceBack (5 / 4) (7 / 4)) ∧
    wallData (tank .bouzidiBounceBack (5 / 4) (7 / 4)) (fun _ => 7) (fun _ => 1) pipeLab = some (ST, J) ∧
    Dissipative (advect 0 (9 / 5)) ![1 / 2, 1 / 2] !![1; 0] 0 ![0, 9 / 5] ∧
    tankEnergy .bouzidiBounceBack (5 / 4) (7 / 4) G = some (e₀, e₁) ∧ e₀ < e₁ := by
  obtain ⟨⟨st, I⟩, hp⟩ := Option.isSome_iff_exists.1 (by decide +kernel :
    (wallData (tank .bouzidiBounceBack (5 / 4) (7 / 4)) (fun _ => 7) (fun _ => 1) pipeLab).isSome = true)
  have hd := advect_dissipative 0 (9 / 5) (by norm_num) (by norm_num)
  have hw : ![(1 + 0) / 2, (1 - 0) / 2] = (![1 / 2, 1 / 2] : Fin 2 → ℚ) := by norm_num
  rw [hw] at hd
  refine ⟨st, I, fun x k => if x 0 = 0 ∧ k = 1 then 1 else 0, 2, 464 / 225, tank_wf _ (by norm_num), wallData_onGrid (by decide) hp,
    tank_sealed _ (by norm_num) _ _ (by decide) hp, tank_methods _ _ _, hp, hd, by decide +kernel, by norm_num⟩

end Pylbm.Sim
