import Verif.Sim.Monotone
import Verif.Sim.EnergyCases
/-!
# C110: cases
-/

set_option linter.unusedSimpArgs false

namespace Pylbm.Sim
open Scheme Halo SchemeSpec Matrix HaloSpec Mpi Boundary

/-- D1Q2 for the traffic equation: the flux is `u (1 - u)`, relaxation parameter `ω`. -/
def traffic (ω : ℚ) : Kernel ℚ 2 1 0 :=
  { d1q2 with EQ := ![fun w => w 0, fun w => w 0 * (1 - w 0)], s := ![fun _ => 0, fun _ => ω] }

theorem traffic_scalar (ω : ℚ) : Scalar (traffic ω) ω where
  sum j := by fin_cases j <;> rfl
  conserved w := rfl
  inverse := (by decide +kernel : d1q2.M * d1q2.invM = 1)
  relaxation i w := by
    fin_cases i
    · exact Or.inr rfl
    · exact Or.inl rfl
  source _ := rfl
  relVel := rfl

theorem traffic_eqPop (ω v : ℚ) : eqPop (traffic ω) v = ![v - v ^ 2 / 2, v ^ 2 / 2] := by
  funext j
  unfold eqPop
  fin_cases j <;>
    simp [traffic, d1q2, Matrix.mulVec, dotProduct, Fin.sum_univ_two] <;> ring

/-- The populations of a density between 0 and 1. -/
def halfUnit (_ : Fin 2) : Set ℚ := Set.Icc 0 (1 / 2)

theorem halfUnit_mean (j : Fin 2) : Mean (halfUnit j) := by
  rintro x ⟨h1, h2⟩ y ⟨h3, h4⟩ θ h5 h6
  constructor <;> nlinarith

theorem traffic_monotone : MonotoneOn (eqPop (traffic ω)) (Set.Icc 0 1) := by
  rintro u ⟨h1, h2⟩ v ⟨h3, h4⟩ h j
  rw [traffic_eqPop, traffic_eqPop]
  fin_cases j
  · show u - u ^ 2 / 2 ≤ v - v ^ 2 / 2
    nlinarith
  · show u ^ 2 / 2 ≤ v ^ 2 / 2
    nlinarith

theorem traffic_sum : ∀ f ∈ Region halfUnit, ∑ j, f j ∈ Set.Icc (0 : ℚ) 1 := by
  intro f hf
  rw [Fin.sum_univ_two]
  obtain ⟨h1, h2⟩ := hf 0
  obtain ⟨h3, h4⟩ := hf 1
  constructor <;> linarith

theorem traffic_inside (ω : ℚ) : ∀ v ∈ Set.Icc (0 : ℚ) 1, eqPop (traffic ω) v ∈ Region halfUnit := by
  rintro v ⟨h1, h2⟩ j
  rw [traffic_eqPop]
  fin_cases j
  · show (0 : ℚ) ≤ v - v ^ 2 / 2 ∧ v - v ^ 2 / 2 ≤ 1 / 2
    constructor <;> nlinarith
  · show (0 : ℚ) ≤ v ^ 2 / 2 ∧ v ^ 2 / 2 ≤ 1 / 2
    constructor <;> nlinarith

/-- A case for `C110_scheme`. -/
theorem traffic_scheme (a : Algo) : MonotoneScheme (collide (traffic (3 / 4)) a) halfUnit :=
  C110_scheme (traffic_scalar _) (by norm_num) a halfUnit halfUnit_mean _ traffic_sum traffic_monotone (traffic_inside _)

/-- A case for `C110_density`: a queue of cars and the same queue with one more car, on two processes. -/
example (σ τ : Proc grid7 → Simu ℚ 2 0 1)
    (hr : PRun grid7 (ring (traffic (3 / 4)) ![fun _ => 1, fun _ => -1] .pull grid7)
      (fun _ => startWith 2 0 1 fun x => eqPop (traffic (3 / 4)) (if x 0 ≤ 2 then 1 else 0)) 50 σ)
    (hr' : PRun grid7 (ring (traffic (3 / 4)) ![fun _ => 1, fun _ => -1] .pull grid7)
      (fun _ => startWith 2 0 1 fun x => eqPop (traffic (3 / 4)) (if x 0 ≤ 3 then 1 else 0)) 50 τ) :
    ∀ c x, Owned (size grid7 c) grid7.w x → ∑ j, (σ c).arr x j ≤ ∑ j, (τ c).arr x j := by
  obtain ⟨h1, h2, h3, h4, -⟩ := ring7_case (traffic (3 / 4)) ![fun _ => 1, fun _ => -1]
    .pull (fun x => eqPop (traffic (3 / 4)) (if x 0 ≤ 2 then 1 else 0)) 50
  obtain ⟨-, -, -, h4', -⟩ := ring7_case (traffic (3 / 4)) ![fun _ => 1, fun _ => -1]
    .pull (fun x => eqPop (traffic (3 / 4)) (if x 0 ≤ 3 then 1 else 0)) 50
  refine (C110_density (by decide) grid7 h1 _ (by decide) (traffic_scalar _) (by norm_num) _ .pull (by decide) _ h2 h3
    halfUnit halfUnit_mean _ traffic_sum traffic_monotone (traffic_inside _) _ _ h4 h4'
    (fun _ x => if x 0 ≤ 2 then 1 else 0) (fun _ x => if x 0 ≤ 3 then 1 else 0) ?_ ?_ (fun _ _ _ => rfl)
    (fun _ _ _ => rfl) 50 σ τ hr hr').2 ?_
  · intro c x; split_ifs <;> simp
  · intro c x; split_ifs <;> simp
  · intro c x
    split_ifs <;> first | omega | norm_num

/-- A case for `C110_variation`. -/
example (σ : Proc grid7 → Simu ℚ 2 0 1)
    (hr : PRun grid7 (ring (traffic (3 / 4)) ![fun _ => 1, fun _ => -1] .base grid7)
      (fun _ => startWith 2 0 1 fun x => eqPop (traffic (3 / 4)) (if x 0 ≤ 2 then 1 else 0)) 50 σ) (G H : Arr ℚ 2 1)
    (hG : ∀ c x, Owned (size grid7 c) grid7.w x →
      (startWith 2 0 1 fun x => eqPop (traffic (3 / 4)) (if x 0 ≤ 2 then 1 else 0)).arr x =
        G (globalPos (first grid7 c) grid7.w x))
    (hH : ∀ c x, Owned (size grid7 c) grid7.w x → (σ c).arr x = H (globalPos (first grid7 c) grid7.w x)) :
    variation grid7.N (fun _ => 1) H ≤ variation grid7.N (fun _ => 1) G := by
  obtain ⟨h1, h2, h3, h4, -⟩ := ring7_case (traffic (3 / 4)) ![fun _ => 1, fun _ => -1]
    .base (fun x => eqPop (traffic (3 / 4)) (if x 0 ≤ 2 then 1 else 0)) 50
  refine C110_variation (by decide) grid7 h1 _ (by decide) _ .base (by decide) _ h2 h3
    halfUnit (traffic_scheme .base) _ h4 ?_ 50 σ hr G H hG hH _
  intro c x _
  exact traffic_inside _ _ (by split_ifs <;> simp)

/-- The condition on the equilibrium is not satisfied by densities larger than 1. -/
theorem traffic_not_monotone : ¬ Monotone (eqPop (traffic ω)) := by
  intro h
  have := h (show (1 : ℚ) ≤ 2 by norm_num) 0
  rw [traffic_eqPop, traffic_eqPop] at this
  norm_num at this

/-- A case for `C110_only`: the traffic equation with densities which are not bounded. -/
example : ∃ f f' : Fin 2 → ℚ, f ≤ f' ∧ ¬ collide (traffic (3 / 4)) .pull f ≤ collide (traffic (3 / 4)) .pull f' ∧
    distance f f' < distance (collide (traffic (3 / 4)) .pull f) (collide (traffic (3 / 4)) .pull f') :=
  C110_only (traffic_scalar _) (by norm_num) .pull le_rfl traffic_not_monotone

/-- The tank with the obstacle `[1, 2]` on two processes. -/
def tankTraffic (c : Proc grid7) : Setup ℚ 2 1 0 1 := { tankSetup grid7 .c .pull c with S := traffic (3 / 4) }

theorem tank_inside : NoAnti (tank .bounceBack 1 2) ∧ WallsInside (tank .bounceBack 1 2) halfUnit := by
  have h : NoAnti (tank .bounceBack 1 2) := by
    intro l ms hl p hp
    simp only [tank] at hl
    cases hl
    rw [List.mem_singleton.1 hp]
    simp
  exact ⟨h, Or.inl ⟨⟨h, fun _ _ _ _ _ _ _ => rfl⟩, halfUnit_mean, fun _ _ _ _ => rfl⟩⟩

/-- A case for `C110_order` and `C110_distance`: two queues of cars in a tank with an obstacle. -/
example (A B : Arr ℚ 2 1) (hA : ∀ x, A x ∈ Region halfUnit) (hB : ∀ x, B x ∈ Region halfUnit) (hAB : ∀ x, A x ≤ B x) :
    ∃ ST : Domain.State ℚ 1 2, (∃ x : Cell 1, fluidMap grid7.w ST x = true) ∧
    (∃ σ, PRun grid7 tankTraffic (fun _ => startWith 2 0 1 A) 9 σ) ∧
    (∃ τ, PRun grid7 tankTraffic (fun _ => startWith 2 0 1 B) 9 τ) ∧
    ∀ σ τ, PRun grid7 tankTraffic (fun _ => startWith 2 0 1 A) 9 σ →
      PRun grid7 tankTraffic (fun _ => startWith 2 0 1 B) 9 τ →
      (∀ c x, Owned (size grid7 c) grid7.w x → fluidMap grid7.w ST (globalPos (first grid7 c) grid7.w x) = true →
        (σ c).arr x ≤ (τ c).arr x) ∧
      fluidDistance (s := sten2) ST grid7 σ τ ≤
        fluidDistance (d := 0) (s := sten2) ST grid7 (fun _ => startWith 2 0 1 A) (fun _ => startWith 2 0 1 B) := by
  obtain ⟨hF, ⟨ST, J, hJ, hseal, hreads, hfree, hmap⟩, -, -, -⟩ := tank_case
  have hQ : FluidRun (tank .bounceBack 1 2) grid7 (fun _ => 0) 1 pipeLab (traffic (3 / 4)) .pull tankTraffic :=
    ⟨⟨hF.walls.large, hF.walls.onGrid, hF.walls.away⟩, fun _ => rfl, hF.vel, hF.algo, hF.fluid, hF.nodup, hF.loops,
      fun c => by simp [traffic, d1q2]⟩
  have hwf := tank_wf .bounceBack (by norm_num : (1 : ℚ) ≤ 2)
  have hlinks : AllLinks grid7.N grid7.w ST := by
    intro y hy hyf u
    by_cases h : Open (ST.link u (fun i => y i + grid7.w i)).flag
    · exact Or.inl (hseal y hy hyf u (sten2.usym u) (hwf.sten.usym u) h).1
    · exact Or.inr h
  refine ⟨ST, ⟨fun _ => 0, ?_⟩, C42_run_exists (by decide) grid7 hF.walls.large _ _ 9,
    C42_run_exists (by decide) grid7 hF.walls.large _ _ 9, fun σ τ hσ hτ => ⟨fun c x hx hf => ?_, ?_⟩⟩
  · have h := congrArg (fun l => l[0]?) hmap
    exact Option.some.inj h
  · exact C110_order (by decide) (tank .bounceBack 1 2) (fun _ => 0) 1 pipeLab hwf grid7 ST J hJ hfree hlinks
      (tank_methods _ _ _) hreads tank_inside.1 (traffic (3 / 4)) (by decide) .pull halfUnit tank_inside.2
      (traffic_scheme .pull).inside (traffic_scheme .pull).mono _ hQ _ _
      (fun c => startWith_start (traffic (3 / 4)) sten2.vel .pull grid7 c _)
      (fun c => startWith_start (traffic (3 / 4)) sten2.vel .pull grid7 c _)
      (fun _ x _ _ => hA x) (fun _ x _ _ => hB x) (fun _ x _ _ => hAB x) 9 σ τ hσ hτ c x hx hf
  · exact C110_distance (by decide) (tank .bounceBack 1 2) (fun _ => 0) 1 pipeLab hwf grid7 ST J hJ hfree hseal
      (tank_methods _ _ _) hreads (tank_reflecting 1 2).1 (traffic (3 / 4)) (by decide) .pull halfUnit tank_inside.2
      (traffic_scheme .pull) _ hQ _ _
      (fun c => startWith_start (traffic (3 / 4)) sten2.vel .pull grid7 c _)
      (fun c => startWith_start (traffic (3 / 4)) sten2.vel .pull grid7 c _)
      (fun _ x _ _ => hA x) (fun _ x _ _ => hB x) 9 σ τ hσ hτ

/-- The diffusion with the relaxation parameter 1 is monotone. -/
theorem advect_scheme (a : Algo) : MonotoneScheme (collide (advect 0 1) a) fun _ => Set.univ := by
  have hs : Scalar (advect 0 1) 1 :=
    ⟨fun j => by fin_cases j <;> rfl, fun w => rfl, (by decide +kernel : d1q2.M * d1q2.invM = 1),
      fun i w => by
        fin_cases i
        · exact Or.inr rfl
        · exact Or.inl rfl,
      fun _ => rfl, rfl⟩
  refine C110_scheme hs (by norm_num) a _ (fun _ _ _ _ _ _ _ _ => Set.mem_univ _) Set.univ (fun _ _ => Set.mem_univ _) ?_
    fun _ _ _ => Set.mem_univ _
  intro u _ v _ h j
  have e : ∀ v, eqPop (advect 0 1) v = fun _ => v / 2 := by
    intro v
    funext j
    unfold eqPop
    fin_cases j <;> simp [advect, d1q2, Matrix.mulVec, dotProduct, Fin.sum_univ_two] <;> ring
  rw [e, e]
  show u / 2 ≤ v / 2
  linarith

/-- One step of the diffusion in the tank, on the global array: the populations of the fluid cells. -/
def tankStep (m : Method 1) (a b : ℚ) (G : Arr ℚ 2 1) : Option (List (ℚ × ℚ)) :=
  (wallData (tank m a b) (fun _ => 7) (fun _ => 1) pipeLab).map fun p =>
    let bc := wallBc (tank m a b) (fun _ => 7) (fun _ => 1) (fun _ => 0) 1 pipeLab p.2
    ((List.range 7).filter fun i => fluidMap (fun _ => 1) p.1 fun _ => (i : Int)).map fun i =>
      (lbmStep (fun _ => 7) sten2.vel (collide (advect 0 1) .pull) bc 0 G (fun _ => (i : Int)) 0,
        lbmStep (fun _ => 7) sten2.vel (collide (advect 0 1) .pull) bc 0 G (fun _ => (i : Int)) 1)

/-- A state with one population. -/
def onePop : Arr ℚ 2 1 := fun x k => if x 0 = 0 ∧ k = 1 then 1 else 0

/-- **C110, order, is false for the anti bounce-back**: one step of a monotone scheme in a tank, two states in order, and a
population of the first fluid cell which is smaller from the larger state. -/
theorem C110_anti_negation : ∃ (G G' : Arr ℚ 2 1) (p p' : ℚ × ℚ) (l l' : List (ℚ × ℚ)), (∀ x, G x ≤ G' x) ∧
    MonotoneScheme (collide (advect 0 1) .pull) (fun _ => Set.univ) ∧
    tankStep .antiBounceBack 1 2 G = some (p :: l) ∧ tankStep .antiBounceBack 1 2 G' = some (p' :: l') ∧
    p'.1 < p.1 := by
  refine ⟨fun _ _ => 0, onePop, (1, 1), (1 / 2, 1 / 2), [(2, 2), (0, 0), (0, 0), (0, 0), (7, 7)],
    [(2, 2), (0, 0), (0, 0), (0, 0), (7, 7)], fun x k => ?_, advect_scheme .pull, by decide +kernel, by decide +kernel,
    by norm_num⟩
  simp only [onePop]
  split_ifs
  · norm_num
  · exact le_rfl

/-- **C110, distance, is false for the interpolated bounce-back** when the wall is not halfway between the cells: one step of a
monotone scheme in a tank, two states which differ in the first cell. -/
theorem C110_interpolated_negation : ∃ (G G' : Arr ℚ 2 1) (l l' : List (ℚ × ℚ)),
    MonotoneScheme (collide (advect 0 1) .pull) (fun _ => Set.univ) ∧
    tankStep .bouzidiBounceBack (5 / 4) (7 / 4) G = some l ∧ tankStep .bouzidiBounceBack (5 / 4) (7 / 4) G' = some l' ∧
    (∀ x : Cell 1, x 0 ≠ 0 → G x = G' x) ∧ distance (G fun _ => 0) (G' fun _ => 0) <
      ((l.zip l').map fun p => |p.1.1 - p.2.1| + |p.1.2 - p.2.2|).sum := by
  refine ⟨fun _ _ => 0, onePop, [(0, 0), (0, 0), (0, 0), (0, 0), (0, 0), (0, 0)],
    [(2 / 3, 2 / 3), (0, 0), (0, 0), (0, 0), (0, 0), (0, 0)], advect_scheme .pull, by decide +kernel, by decide +kernel,
    fun x hx => ?_, by decide +kernel⟩
  funext k
  simp [onePop, hx]

end Pylbm.Sim
