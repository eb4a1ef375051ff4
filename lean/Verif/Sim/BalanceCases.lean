import Verif.Sim.Balance
import Verif.Sim.MassCases
/-!
# C97: cases
-/

namespace Pylbm.Sim
open Scheme Halo SchemeSpec Matrix HaloSpec Mpi Boundary

/-- D1Q2 with a mass which decays and is produced, `rho' = -rho/3 + 4`, and a nonlinear source on the flux. -/
def d1q2decay : Kernel ℚ 2 1 0 :=
  { d1q2 with source := ![some fun m => -(1 / 3) * m 0 + 4, some fun m => m 0 * m 1] }

/-- D1Q2 with a nonlinear source on the flux only. -/
def d1q2force : Kernel ℚ 2 1 0 := { d1q2 with source := ![none, some fun m => m 0 * m 1] }

/-- D1Q3 in the frame of the fluid with a constant production of mass. -/
def d1q3prod : Kernel ℚ 3 2 1 := { d1q3rel with source := ![some fun _ => 4, none, none] }

/-- Two conserved moments at rest: the second one becomes the first one. -/
def exchange : Kernel ℚ 2 2 0 := { rotation with source := ![some fun m => (m 1) ^ 2, some fun m => -(m 1) ^ 2] }

/-- The first one becomes the second one. -/
def exchangeBack : Kernel ℚ 2 2 0 :=
  { rotation with source := ![some fun m => -(1 / 2) * m 0, some fun m => 1 / 2 * m 0] }

/-- Hypotheses of the theorems of C97 on the seven cells, for any kernel, and runs. -/
theorem ring7_case {n nc d : Nat} (S : Kernel ℚ n nc d) (vel : Fin n → Cell 1) (a : Algo) (A : Arr ℚ n 1) (k : Nat) :
    (∀ c i, grid7.w i ≤ size grid7 c i) ∧ Uniform grid7 S vel a (ring S vel a grid7) ∧
    (∀ c t A, (ring S vel a grid7 c).bc t A = A) ∧
    (∀ c, (startWith n d 1 A).Start (ring S vel a grid7 c)) ∧
    ∃ σ, PRun grid7 (ring S vel a grid7) (fun _ => startWith n d 1 A) k σ := by
  have h : ∀ c i, grid7.w i ≤ size grid7 c i := (large_iff grid7).2 (by decide)
  exact ⟨h, ring_uniform _ _ _ _, fun _ _ _ => rfl, fun c => startWith_start _ _ _ _ c _,
    C42_run_exists (by omega) grid7 h _ _ k⟩

/-- A case for `C97_rate`: the hypotheses hold, so that the total mass of the seven cells after two time steps is
computed from the one at the beginning. -/
example (σ : Proc grid7 → Simu ℚ 2 0 1)
    (hr : PRun grid7 (ring d1q2decay ![fun _ => 1, fun _ => -1] .pull grid7)
      (fun _ => startWith 2 0 1 fun x k => x 0 + 10 * k) 2 σ) :
    total grid7 (d1q2decay.M (d1q2decay.consm 0)) σ =
      (5 / 6 : ℚ) ^ 4 * total (d := 0) grid7 (d1q2decay.M (d1q2decay.consm 0))
        (fun _ => startWith 2 0 1 fun x k => x 0 + 10 * k) + 14 * (1 + 5 / 6 + (5 / 6) ^ 2 + (5 / 6) ^ 3) := by
  obtain ⟨h1, h2, h3, h4, -⟩ := ring7_case d1q2decay ![fun _ => 1, fun _ => -1] .pull (fun x k => x 0 + 10 * k) 2
  rw [C97_rate (by omega) grid7 h1 d1q2decay (by decide) (fun j w => by fin_cases j; rfl) (by decide +kernel) rfl _ _
    (by decide) _ h2 h3 _ h4 2 σ hr 0 (-(1 / 3)) 4 _ rfl fun m => rfl]
  have e1 : (∏ i, grid7.N i : Nat) = 7 := by decide
  have e2 : d1q2decay.dt = 1 := rfl
  rw [e1, e2]
  simp only [Function.iterate_succ, Function.iterate_zero, Function.comp_apply, id]
  push_cast
  ring

/-- A case for `C97_no_source`. -/
example (σ : Proc grid7 → Simu ℚ 2 0 1)
    (hr : PRun grid7 (ring d1q2force ![fun _ => 1, fun _ => -1] .base grid7)
      (fun _ => startWith 2 0 1 fun x k => x 0 + 10 * k) 5 σ) :
    total grid7 (d1q2force.M (d1q2force.consm 0)) σ =
      total grid7 (d1q2force.M (d1q2force.consm 0)) fun _ => startWith 2 0 1 fun x k => (x 0 : ℚ) + 10 * k := by
  obtain ⟨h1, h2, h3, h4, -⟩ := ring7_case d1q2force ![fun _ => 1, fun _ => -1] .base (fun x k => x 0 + 10 * k) 5
  exact C97_no_source (by omega) grid7 h1 d1q2force (by decide) (fun j w => by fin_cases j; rfl) (by decide +kernel) rfl
    _ _ (by decide) _ h2 h3 _ h4 5 σ hr 0 rfl

/-- A case for `C97_relative_negation`: a production of 4 per cell and unit of time gives 2 per cell and unit of
time. -/
example (σ : Proc grid7 → Simu ℚ 3 1 1)
    (hr : PRun grid7 (ring d1q3prod ![fun _ => 0, fun _ => 1, fun _ => -1] .pull grid7)
      (fun _ => startWith 3 1 1 fun _ => ![1, 2, 0]) 3 σ) :
    total grid7 (d1q3prod.M (d1q3prod.consm 0)) σ =
      total (d := 1) grid7 (d1q3prod.M (d1q3prod.consm 0)) (fun _ => startWith 3 1 1 fun _ => (![1, 2, 0] : Fin 3 → ℚ)) +
        3 * 7 * 2 := by
  obtain ⟨h1, h2, h3, h4, -⟩ := ring7_case d1q3prod ![fun _ => 0, fun _ => 1, fun _ => -1] .pull
    (fun _ => ![1, 2, 0]) 3
  rw [C97_relative_negation (by omega) grid7 h1 d1q3prod (by decide) (by decide +kernel) rfl _
    (by decide) _ h2 h3 _ h4 3 σ hr 0 ?_ ?_ 0 4 (fun _ => 4) rfl fun m => by simp]
  · have e1 : (∏ i, grid7.N i : Nat) = 7 := by decide
    have e2 : d1q3prod.dt = 1 := rfl
    rw [e1, e2]
    simp only [Function.iterate_succ, Function.iterate_zero, Function.comp_apply, id]
    push_cast
    ring
  · intro u
    funext i
    fin_cases i <;> simp [d1q3prod, d1q3rel]
  · intro u
    funext i
    fin_cases i <;> simp [d1q3prod, d1q3rel]

/-- A case for `C97_exchange_partial`: the nonlinear exchange is triangular and the sources compensate each other. -/
example : Triangular exchange.source ∧
    (∀ m, ∑ j, (fun _ => 1 : Fin 2 → ℚ) j *
      ((exchange.source (exchange.consm j)).getD fun _ => 0) m = 0) ∧
    (∀ j w, exchange.EQ (exchange.consm j) w = w j) ∧ exchange.M * exchange.invM = 1 := by
  refine ⟨?_, ?_, fun _ _ => rfl, by decide +kernel⟩
  · intro i r hr m m' h
    have h1 : m 1 = m' 1 := h 1 (Or.inl (by fin_cases i <;> decide))
    fin_cases i <;> simp [exchange] at hr <;> rw [← hr] <;> simp only [h1]
  · intro m
    simp [exchange, rotation, Fin.sum_univ_two]

/-- A case for `C97_linear_partial`: the moment 0 receives what the moment 1 loses, `q_0' = q_1`, `q_1' = -q_1`. -/
example : let S : Kernel ℚ 2 2 0 := { rotation with source := ![some fun m => m 1, some fun m => -m 1] }
    Triangular S.source ∧ ∀ j m, ((S.source (S.consm j)).getD fun _ => 0) m =
      (!![0, 1; 0, -1] *ᵥ fun l => m (S.consm l)) j + ![0, 0] j := by
  refine ⟨?_, ?_⟩
  · intro i r hr m m' h
    have h1 : m 1 = m' 1 := h 1 (Or.inl (by fin_cases i <;> decide))
    fin_cases i <;> simp at hr <;> rw [← hr] <;> simp only [h1]
  · intro j m
    fin_cases j <;> simp [rotation, Matrix.mulVec, dotProduct, Fin.sum_univ_two]

/-- A case for `C97_order_negation`: the total of 21 becomes 21 - 7 * (1/2)^2 * (3/2). -/
example (σ : Proc grid7 → Simu ℚ 2 0 1)
    (hr : PRun grid7 (ring exchangeBack (fun _ _ => 0) .pull grid7)
      (fun _ => startWith 2 0 1 fun _ => ![1, 2]) 1 σ) :
    total grid7 (exchangeBack.M 0) σ + total grid7 (exchangeBack.M 1) σ = 21 - 7 * (1 / 2) ^ 2 * (3 / 2) := by
  obtain ⟨h1, h2, h3, h4, -⟩ := ring7_case exchangeBack (fun _ _ => 0) .pull (fun _ => ![1, 2]) 1
  have h := C97_order_negation (by omega) grid7 h1 exchangeBack (by decide) (fun j w => rfl) (by decide +kernel) rfl _ _
    (by decide) _ h2 h3 _ h4 σ hr 0 1 (by decide) (1 / 2) rfl rfl
  refine h.trans ?_
  have e : ∀ v : ℚ, ∑ _c : Proc grid7, ∑ _x ∈ inner (size grid7 _c) grid7.w, v = 7 * v := by
    intro v
    rw [sum_owned grid7 fun _ => v, Finset.sum_const, card_box]
    have : (∏ i, grid7.N i : Nat) = 7 := by decide
    rw [this, nsmul_eq_mul]; push_cast; ring
  have t0 : total (d := 0) grid7 (exchangeBack.M 0) (fun _ => startWith 2 0 1 fun _ => (![1, 2] : Fin 2 → ℚ)) = 7 := by
    refine (e (exchangeBack.M 0 ⬝ᵥ ![1, 2])).trans ?_
    decide +kernel
  have t1 : total (d := 0) grid7 (exchangeBack.M 1) (fun _ => startWith 2 0 1 fun _ => (![1, 2] : Fin 2 → ℚ)) = 14 := by
    refine (e (exchangeBack.M 1 ⬝ᵥ ![1, 2])).trans ?_
    decide +kernel
  have ed : exchangeBack.dt = 2 := rfl
  change total grid7 (exchangeBack.M 0) _ + total grid7 (exchangeBack.M 1) _ -
    (1 / 2 * exchangeBack.dt / 2) ^ 2 * (2 - 1 / 2 * exchangeBack.dt / 2) *
      total grid7 (exchangeBack.M 0) _ = _
  rw [t0, t1, ed]
  norm_num

/-- The tank with the obstacle `[1, 2]` on two processes, production and decay of mass. -/
def tankDecay (c : Proc grid7) : Setup ℚ 2 1 0 1 := { tankSetup grid7 .c .pull c with S := d1q2decay }

/-- A case for `C97_rate_walls`: six of the seven cells are fluid. -/
example : ∃ ST : Domain.State ℚ 1 2, fluidCells (s := sten2) ST grid7 = 6 ∧
    (∃ σ, PRun grid7 tankDecay (fun _ => startWith 2 0 1 fun x k => x 0 + 10 * k) 1 σ) ∧
    ∀ σ, PRun grid7 tankDecay (fun _ => startWith 2 0 1 fun x k => x 0 + 10 * k) 1 σ →
      fluidTotal (s := sten2) ST grid7 (d1q2decay.M (d1q2decay.consm 0)) σ =
        (5 / 6) ^ 2 * fluidTotal (d := 0) (s := sten2) ST grid7 (d1q2decay.M (d1q2decay.consm 0))
          (fun _ => startWith 2 0 1 fun x k => x 0 + 10 * k) + 22 := by
  obtain ⟨hF, ⟨ST, J, hJ, hseal, hreads, hfree, hmap⟩, -, -, -⟩ := tank_case
  have hcells : fluidCells (s := sten2) ST grid7 = 6 := by
    have hb : box grid7.N = (Finset.range 7).map ⟨fun i : Nat => fun _ => (i : Int), fun i j h => by
        have := congrFun h 0; simpa using this⟩ := by
      ext y
      rw [mem_box]
      simp only [Finset.mem_map, Finset.mem_range]
      constructor
      · intro h
        have h0 := h 0
        simp only [grid7] at h0
        refine ⟨(y 0).toNat, by omega, ?_⟩
        funext i
        obtain rfl : i = 0 := Subsingleton.elim _ _
        show (((y 0).toNat : Nat) : Int) = y 0
        omega
      · rintro ⟨i, hi, rfl⟩ l
        show (0 : Int) ≤ (i : Int) ∧ (i : Int) < 7
        omega
    unfold fluidCells
    rw [hb, Finset.filter_map, Finset.card_map]
    have hm : ∀ i : Nat, i < 7 → fluidMap grid7.w ST (fun _ => (i : Int)) = decide (i ≠ 1) := by
      intro i hi
      have h := congrArg (fun l => l[i]?) hmap
      interval_cases i <;> exact Option.some.inj h
    have : (Finset.range 7).filter ((fun y => fluidMap grid7.w ST y = true) ∘
        fun i : Nat => fun _ => (i : Int)) = (Finset.range 7).filter fun i => i ≠ 1 := by
      refine Finset.filter_congr fun i hi => ?_
      rw [Function.comp_apply, hm i (Finset.mem_range.1 hi)]
      simp
    refine (congrArg Finset.card this).trans ?_
    decide
  have hQ : FluidRun (tank .bounceBack 1 2) grid7 (fun _ => 0) 1 pipeLab d1q2decay .pull tankDecay :=
    ⟨⟨hF.walls.large, hF.walls.onGrid, hF.walls.away⟩, fun _ => rfl, hF.vel, hF.algo, hF.fluid, hF.nodup, hF.loops,
      fun c => by simp [d1q2decay, d1q2]⟩
  refine ⟨ST, hcells, C42_run_exists (by decide) grid7 hF.walls.large _ _ 1, fun σ hr => ?_⟩
  have h := C97_rate_walls (by decide) (tank .bounceBack 1 2) (fun _ => 0) 1 pipeLab
    (tank_wf .bounceBack (by norm_num : (1 : ℚ) ≤ 2)) grid7 ST J hJ hfree hseal (tank_methods _ _ _) hreads d1q2decay
    (by decide) (fun j w => by fin_cases j; rfl) (by decide +kernel) rfl .pull 0 tank_even (tank_atRest _ _ _)
    (-(1 / 3)) 4 _ rfl (fun _ => rfl) _ hQ _ (fun c => startWith_start d1q2decay sten2.vel .pull grid7 c _) 1 σ hr
  refine h.trans ?_
  have e2 : d1q2decay.dt = 1 := rfl
  rw [hcells, e2]
  simp only [Function.iterate_succ, Function.iterate_zero, Function.comp_apply, id]
  push_cast
  ring

end Pylbm.Sim
