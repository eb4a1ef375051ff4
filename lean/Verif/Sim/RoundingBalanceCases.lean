import Verif.Sim.RoundingBalance
import Verif.Sim.RoundingCases
import Verif.Sim.BalanceCases
/-!
# C101 with sources, a relative velocity and walls: cases
-/

set_option linter.unusedSimpArgs false

namespace Pylbm.Sim
open Scheme Halo SchemeSpec Matrix HaloSpec Mpi Boundary

/-- D1Q2 at the velocity `c` with a mass which decays and is produced, `rho' = -rho/3 + 4`. -/
def decay (c : ℚ) : Kernel ℚ 2 1 0 := { advect c 1 with source := ![some fun m => -(1 / 3) * m 0 + 4, none] }

/-- The expressions of the new populations: `0.5 * (A * (f_0 + f_1) + B + z)`, where the two half steps of the source
are `A = 25/36` and `B = 11/3`, and `z` is the second moment. -/
def decayTerms : Fin 2 → Term ℚ (Fin 2 ⊕ Unit) :=
  ![.mul (.const (1 / 2)) (.add (.add (.mul (.const (25 / 36)) (.add (.var (.inl 0)) (.var (.inl 1)))) (.const (11 / 3)))
      (.var (.inr ()))),
    .mul (.const (1 / 2)) (.add (.add (.mul (.const (25 / 36)) (.add (.var (.inl 0)) (.var (.inl 1)))) (.const (11 / 3)))
      (.neg (.var (.inr ()))))]

theorem decay_treats (c : ℚ) : Treats (decay c) decayTerms 0 (fun v => v + 1 / 2 * (-(1 / 3) * v + 4))^[2] := by
  intro p z
  simp [decayTerms, Term.val, decay, advect, d1q2, Matrix.mulVec, dotProduct, Fin.sum_univ_two]
  ring

theorem decay_collide (c : ℚ) (p : Fin 2 → ℚ) : collide (decay c) .pull p =
    ![(5 / 6 + c) / 2 * (5 / 6 * (p 0 + p 1) + 2) + 1, (5 / 6 - c) / 2 * (5 / 6 * (p 0 + p 1) + 2) + 1] := by
  unfold collide
  rw [prog_eq]
  funext l
  fin_cases l <;>
  simp [pullStep, f2mLocal, sourceLocal, relaxLocal, m2fLocal, List.finRange_succ, Kernel.run, Kernel.exec, Kernel.dot,
    Kernel.cons, decay, advect, d1q2, Matrix.mulVec, dotProduct, Fin.sum_univ_two] <;> ring

/-- The roundings of one step: all the operations are exact, but the last product is rounded towards zero by `u`. -/
theorem decay_rounds (c u : ℚ) (hu : 0 ≤ u) (p : Fin 2 → ℚ) (l : Fin 2) :
    (decayTerms l).Rounds u (Sum.elim p fun _ => c * (5 / 6 * (p 0 + p 1) + 2))
      ((1 - u) * collide (decay c) .pull p l) := by
  have key : ∀ x : ℚ, |x * (-u)| = u * |x| := fun x => by
    rw [abs_mul, abs_neg, abs_of_nonneg hu, mul_comm]
  have zero : ∀ x : ℚ, |x - x| ≤ u * |x| := fun x => by
    rw [sub_self, abs_zero]; positivity
  have ha : Term.Rounds u (Sum.elim p fun _ => c * (5 / 6 * (p 0 + p 1) + 2))
      (.add (.mul (.const (25 / 36)) (.add (.var (.inl 0)) (.var (.inl 1)))) (.const (11 / 3)) : Term ℚ (Fin 2 ⊕ Unit))
      (25 / 36 * (p 0 + p 1) + 11 / 3) :=
    .add _ _ _ _ _ (.mul _ _ _ _ _ (.const _ _ (zero _)) (.add _ _ _ _ _ (.var (Sum.inl 0)) (.var (Sum.inl 1)) (zero _))
      (zero _)) (.const _ _ (zero _)) (zero _)
  have hz : Term.Rounds u (Sum.elim p fun _ => c * (5 / 6 * (p 0 + p 1) + 2)) (.var (.inr ()) : Term ℚ (Fin 2 ⊕ Unit))
      (c * (5 / 6 * (p 0 + p 1) + 2)) := .var (Sum.inr ())
  rw [decay_collide]
  fin_cases l
  · refine .mul _ _ (1 / 2) (25 / 36 * (p 0 + p 1) + 11 / 3 + c * (5 / 6 * (p 0 + p 1) + 2)) _ (.const _ _ (zero _))
      (.add _ _ _ _ _ ha hz (zero _)) (le_of_eq ?_)
    rw [← key]
    congr 1
    simp
    ring
  · refine .mul _ _ (1 / 2) (25 / 36 * (p 0 + p 1) + 11 / 3 + -(c * (5 / 6 * (p 0 + p 1) + 2))) _ (.const _ _ (zero _))
      (.add _ _ _ _ _ ha (.neg _ _ hz) (zero _)) (le_of_eq ?_)
    rw [← key]
    congr 1
    simp
    ring

/-- A case for `C101_rate`: two processes, all the populations rounded towards zero by 1/1000; the runs exist. -/
example (k : Nat) : ∃ σ : Proc grid7 → Simu ℚ 2 0 1,
    ERun grid7 (ring (decay (1 / 2)) ![fun _ => 1, fun _ => -1] .pull grid7) (fun _ => true)
      (fun e r => RoundedStep (decay (1 / 2)) .pull decayTerms (1 / 1000) 18 0 0 e r ∧
        r = fun l => (1 - 1 / 1000) * e l) (fun _ => startWith 2 0 1 fun _ k => if k = 0 then 2 else 1 / 2) k σ ∧
    |total grid7 ((decay (1 / 2)).M 0) σ - (fun T => T + 1 / 2 * (-(1 / 3) * T + 7 * 4))^[2 * k]
        (total (d := 0) grid7 ((decay (1 / 2)).M 0) fun _ => startWith 2 0 1 fun _ k => if k = 0 then 2 else 1 / 2)| ≤
      (∑ m ∈ Finset.range k, ((5 / 6) ^ 2) ^ m) * (7 * (((1 + 1 / 1000) ^ 7 - 1) * 18)) := by
  obtain ⟨h1, h2, h3, h4, -⟩ := ring7_case (decay (1 / 2)) ![fun _ => 1, fun _ => -1]
    .pull (fun _ k => if k = 0 then 2 else 1 / 2) k
  have hfl : FluidBoundary grid7.N ![fun _ => 1, fun _ => -1] (fun _ => true) fun (_ : ℚ) (H : Arr ℚ 2 1) => H :=
    fun t H H' h y _ _ j => congrFun (h _ rfl) j
  have key := C101_run_exists (by decide) grid7 h1 (decay (1 / 2)) (by decide)
    ![fun _ => 1, fun _ => -1] .pull (fun _ => true) _
    ⟨h2.scheme, h2.vel, h2.algo, fun c h => absurd (h2.all c) (by rw [h]; decide), h2.nodup, h2.loops, h2.split⟩
    (fun _ H => H) (sameBoundary_periodic grid7 _ (by decide) _ h3) hfl
    (fun e r => RoundedStep (decay (1 / 2)) .pull decayTerms (1 / 1000) 18 0 0 e r ∧
        r = fun l => (1 - 1 / 1000) * e l) ![Set.Icc 0 9, Set.Icc 0 3]
    (fun t A hA y hy _ j => hA _ (mod_mem_box (by decide) _) rfl j) ?_
    (fun _ => startWith 2 0 1 fun _ k => if k = 0 then 2 else 1 / 2)
    h4 ?_ k
  · obtain ⟨σ, hσ, -⟩ := key
    refine ⟨σ, hσ, ?_⟩
    have h := C101_rate (by decide) grid7 h1 (decay (1 / 2)) (by decide) (fun j w => by fin_cases j; rfl)
      (by decide +kernel) rfl _ .pull (by decide) _ h2 h3 0 (-(1 / 3)) 4 _ rfl (fun _ => rfl) decayTerms
      (decay_treats _) (1 / 1000) (by norm_num) 7 (by decide) 18 _ h4 k σ (hσ.mono fun _ _ h => h.1)
    have e1 : (∏ i, grid7.N i : Nat) = 7 := by decide
    have e2 : (decay (1 / 2)).dt = 1 := rfl
    have e3 : (1 + 1 / 2 * -(1 / 3) : ℚ) = 5 / 6 := by norm_num
    rw [e1, e2, e3] at h
    exact_mod_cast h
  · intro p hp
    have hp0 : 0 ≤ p 0 ∧ p 0 ≤ 9 := hp 0
    have hp1 : 0 ≤ p 1 ∧ p 1 ≤ 3 := hp 1
    refine ⟨fun l => (1 - 1 / 1000) * collide (decay (1 / 2)) .pull p l, ?_,
      ⟨p, p, fun _ => 1 / 2 * (5 / 6 * (p 0 + p 1) + 2), rfl, by simp,
        decay_rounds (1 / 2) (1 / 1000) (by norm_num) p, ?_⟩, rfl⟩
    · intro j
      rw [decay_collide]
      fin_cases j <;> simp [Set.mem_Icc] <;> constructor <;> linarith
    · rw [Fin.sum_univ_two]
      have e1 : |p 0| = p 0 := abs_of_nonneg hp0.1
      have e2 : |p 1| = p 1 := abs_of_nonneg hp1.1
      have e3 : |5 / 6 * (p 0 + p 1) + 2| = 5 / 6 * (p 0 + p 1) + 2 := abs_of_nonneg (by linarith)
      simp [decayTerms, Term.mag, decay, advect, d1q2, e1, e2, e3]
      linarith
  · intro c x _ _ j
    fin_cases j <;> simp [startWith, Simu.arr, Set.mem_Icc] <;> norm_num

/-- The tank with the obstacle `[1, 2]` on two processes, production and decay of mass, velocity zero. -/
def tankDecay0 (c : Proc grid7) : Setup ℚ 2 1 0 1 := { tankSetup grid7 .c .pull c with S := decay 0 }

theorem tank_passive : Passive (tank .bounceBack 1 2) where
  method := by
    intro l ms hl p hp
    simp only [tank] at hl
    cases hl
    simp only [List.mem_singleton] at hp
    subst hp
    exact ⟨by decide, by decide⟩
  rest := fun _ _ _ _ _ _ _ => rfl

/-- A case for `C101_balance_walls`: the same with walls and an obstacle. -/
example (k : Nat) : ∃ (ST : Domain.State ℚ 1 2) (σ : Proc grid7 → Simu ℚ 2 0 1),
    ERun grid7 tankDecay0 (fluidMap grid7.w ST)
      (fun e r => RoundedStep (decay 0) .pull decayTerms (1 / 1000) 12 0 0 e r ∧ r = fun l => (1 - 1 / 1000) * e l)
      (fun _ => startWith 2 0 1 fun _ k => if k = 0 then 2 else 1 / 2) k σ ∧
    |fluidTotal (s := sten2) ST grid7 ((decay 0).M 0) σ - (fun T => 25 / 36 * T + (fluidCells (s := sten2) ST grid7 : ℚ) * (11 / 3))^[k]
        (fluidTotal (s := sten2) (d := 0) ST grid7 ((decay 0).M 0)
          fun _ => startWith 2 0 1 fun _ k => if k = 0 then 2 else 1 / 2)| ≤
      (∑ m ∈ Finset.range k, (25 / 36) ^ m) *
        ((fluidCells (s := sten2) ST grid7 : ℚ) * (((1 + 1 / 1000) ^ 7 - 1) * 12)) := by
  obtain ⟨hF, ⟨ST, J, hJ, hseal, hreads, hfree, -⟩, -, -, -⟩ := tank_case
  have hQ : FluidRun (tank .bounceBack 1 2) grid7 (fun _ => 0) 1 pipeLab (decay 0) .pull tankDecay0 :=
    ⟨⟨hF.walls.large, hF.walls.onGrid, hF.walls.away⟩, fun _ => rfl, hF.vel, hF.algo, hF.fluid, hF.nodup, hF.loops,
      fun c => by simp [decay, advect, d1q2]⟩
  have hD := tank_wf .bounceBack (by norm_num : (1 : ℚ) ≤ 2)
  have hlinks : AllLinks (s := sten2) grid7.N grid7.w ST := by
    intro y hy hyf u
    by_cases h : Open (ST.link u (fun i => y i + grid7.w i)).flag
    · exact Or.inl (hseal y hy hyf u (sten2.usym u) (hD.sten.usym u) h).1
    · exact Or.inr h
  have hfb := fluidBoundary_walls (tank .bounceBack 1 2) grid7.N grid7.w (fun _ => 0) 1 pipeLab hD ST J hJ hfree hlinks
    (tank_methods _ _ _) hreads
  have hmean : Mean (Set.Icc (0 : ℚ) 6) := by
    intro x hx y hy θ h0 h1
    rw [Set.mem_Icc] at *
    constructor <;> nlinarith [mul_nonneg h0 hx.1, mul_nonneg (sub_nonneg.2 h1) hy.1,
      mul_le_mul_of_nonneg_left hx.2 h0, mul_le_mul_of_nonneg_left hy.2 (sub_nonneg.2 h1)]
  have key := C101_run_exists (by decide) grid7 hQ.walls.large (decay 0) (by decide) sten2.vel .pull
    (fluidMap grid7.w ST) tankDecay0 (hQ.uniform hD ST hJ.built) _
    (sameBoundary_walls (tank .bounceBack 1 2) grid7 (fun _ => 0) 1 pipeLab hD tankDecay0 hQ.walls ST J hJ hfree)
    hfb (fun e r => RoundedStep (decay 0) .pull decayTerms (1 / 1000) 12 0 0 e r ∧ r = fun l => (1 - 1 / 1000) * e l)
    (fun _ => Set.Icc 0 6)
    (fun t A hA => lbmStep_bounds (tank .bounceBack 1 2) grid7.N grid7.w (fun _ => 0) 1 pipeLab hD ST J hJ hfree hfb
      tank_passive (fun _ => Set.Icc 0 6) (fun _ => hmean) (fun _ _ _ _ => rfl) id (fun _ h => h) t (by decide) A hA)
    ?_ (fun _ => startWith 2 0 1 fun _ k => if k = 0 then 2 else 1 / 2)
    (fun c => startWith_start (decay 0) sten2.vel .pull grid7 c _) ?_ k
  · obtain ⟨σ, hσ, -⟩ := key
    refine ⟨ST, σ, hσ, ?_⟩
    have h := C101_balance_walls (by decide) (tank .bounceBack 1 2) (fun _ => 0) 1 pipeLab hD grid7 ST J hJ hfree hseal
      (tank_methods _ _ _) hreads (decay 0) (by decide) .pull 0 tank_even (tank_atRest _ _ _) (25 / 36) (11 / 3)
      (fun f => by
        rw [decay_collide]
        simp [decay, advect, d1q2, Matrix.mulVec, dotProduct, Fin.sum_univ_two]
        ring) _ hQ decayTerms
      (fun p z => by
        rw [decay_treats 0 p z]
        simp only [Function.iterate_succ, Function.iterate_zero, Function.comp_apply, id]
        ring) (1 / 1000) (by norm_num) 7 (by decide) 12 0 _
      (fun c => startWith_start (decay 0) sten2.vel .pull grid7 c _) k σ (hσ.mono fun _ _ h => h.1)
    rw [abs_of_pos (by norm_num : (0 : ℚ) < 25 / 36), mul_zero, add_zero] at h
    exact h
  · intro p hp
    have hp0 : 0 ≤ p 0 ∧ p 0 ≤ 6 := hp 0
    have hp1 : 0 ≤ p 1 ∧ p 1 ≤ 6 := hp 1
    refine ⟨fun l => (1 - 1 / 1000) * collide (decay 0) .pull p l, ?_,
      ⟨p, p, fun _ => 0 * (5 / 6 * (p 0 + p 1) + 2), rfl, by simp,
        decay_rounds 0 (1 / 1000) (by norm_num) p, ?_⟩, rfl⟩
    · intro j
      rw [decay_collide]
      fin_cases j <;> simp [Set.mem_Icc] <;> constructor <;> linarith
    · rw [Fin.sum_univ_two]
      have e1 : |p 0| = p 0 := abs_of_nonneg hp0.1
      have e2 : |p 1| = p 1 := abs_of_nonneg hp1.1
      simp [decayTerms, Term.mag, decay, advect, d1q2, e1, e2]
      linarith
  · intro c x _ _ j
    fin_cases j <;> simp [startWith, Simu.arr, Set.mem_Icc] <;> norm_num

/-- A case for `C101_no_source`: a nonlinear source on the flux, computed with any error. -/
example (k : Nat) (σ : Proc grid7 → Simu ℚ 2 0 1)
    (hr : ERun grid7 (ring d1q2force ![fun _ => 1, fun _ => -1] .base grid7) (fun _ => true)
      (RoundedStep d1q2force .base advectTerms (1 / 10 ^ 16) 100 0 0) (fun _ => startWith 2 0 1 fun x k => x 0 + 10 * k)
      k σ) :
    |total grid7 (d1q2force.M 0) σ - total (d := 0) grid7 (d1q2force.M 0) fun _ => startWith 2 0 1 fun x k => x 0 + 10 * k| ≤
      k * (7 * (((1 + 1 / 10 ^ 16) ^ 4 - 1) * 100)) := by
  obtain ⟨h1, h2, h3, h4, -⟩ := ring7_case d1q2force ![fun _ => 1, fun _ => -1] .base (fun x k => x 0 + 10 * k) k
  have h := C101_no_source (by decide) grid7 h1 d1q2force (by decide) (fun j w => by fin_cases j; rfl)
    (by decide +kernel) rfl _ .base (by decide) _ h2 h3 0 rfl advectTerms
    (fun p z => by
      simp [advectTerms, Term.val, d1q2force, d1q2, Matrix.mulVec, dotProduct, Fin.sum_univ_two]
      ring) (1 / 10 ^ 16) (by norm_num) 4 (by decide) 100 _ h4 k σ hr
  have e1 : (∏ i, grid7.N i : Nat) = 7 := by decide
  rw [e1] at h
  exact_mod_cast h

/-- A case for `C101_boundary`: D1Q2 at the velocity 1/2, boundary values and collision computed with errors. -/
example (p q r : Fin 2 → ℚ) (hγ : ∀ j, |q j - p j| ≤ 1 / 10 ^ 16 * ![3 / 4, 1 / 4] j)
    (hδ : ∀ j, |r j - collide (advect (1 / 2) 1) .pull q j| ≤ 3 / 10 ^ 16 * ![3 / 4, 1 / 4] j) (j : Fin 2) :
    |r j - collide (advect (1 / 2) 1) .pull p j| ≤ (1 / 10 ^ 16 + 3 / 10 ^ 16) * ![3 / 4, 1 / 4] j := by
  refine C101_boundary (advect (1 / 2) 1) .pull ![3 / 4, 1 / 4] (fun ρ f f' hf j => ?_) _ _ p q r hγ hδ j
  have h0 := abs_le.1 (hf 0)
  have h1 := abs_le.1 (hf 1)
  rw [advect_collide, advect_collide, abs_le]
  simp at h0 h1
  fin_cases j <;> simp <;> constructor <;> linarith

/-- The expressions of the new populations of D1Q3 with the relative velocity `u` (variable `2`): the mass `a` and the
relaxed relative moments `b`, `c` (variables `0` and `1`); the moments are `a`, `u a + b` and `u² a + 2 u b + c`. -/
def relTerms : Fin 3 → Term ℚ (Fin 3 ⊕ Fin 3) :=
  let a : Term ℚ (Fin 3 ⊕ Fin 3) := .add (.add (.var (.inl 0)) (.var (.inl 1))) (.var (.inl 2))
  let u : Term ℚ (Fin 3 ⊕ Fin 3) := .var (.inr 2)
  let m1 : Term ℚ (Fin 3 ⊕ Fin 3) := .add (.mul u a) (.var (.inr 0))
  let m2 : Term ℚ (Fin 3 ⊕ Fin 3) := .add (.add (.mul (.mul u u) a) (.mul (.const 2) (.mul u (.var (.inr 0)))))
    (.var (.inr 1))
  ![.add a (.neg m2), .mul (.const (1 / 2)) (.add m1 m2), .mul (.const (1 / 2)) (.add (.neg m1) m2)]

/-- They keep the mass, whatever the relative velocity and the relaxed moments are. -/
theorem rel_treats : Treats d1q3rel1 relTerms 0 id := by
  intro p z
  simp [relTerms, Term.val, d1q3rel1, d1q3rel, Matrix.mulVec, dotProduct, Fin.sum_univ_three]
  ring

/-- A case for `C101_relative`. -/
example (k : Nat) (σ : Proc grid7 → Simu ℚ 3 1 1)
    (hr : ERun grid7 (ring d1q3rel1 ![fun _ => 0, fun _ => 1, fun _ => -1] .pull grid7) (fun _ => true)
      (RoundedStep d1q3rel1 .pull relTerms (1 / 10 ^ 16) 100 0 0) (fun _ => startWith 3 1 1 fun x k => x 0 + 10 * k) k σ) :
    |total grid7 (d1q3rel1.M 0) σ - total (d := 1) grid7 (d1q3rel1.M 0) fun _ => startWith 3 1 1 fun x k => x 0 + 10 * k| ≤
      k * (7 * (((1 + 1 / 10 ^ 16) ^ 10 - 1) * 100)) := by
  obtain ⟨h1, h2, h3, h4, -⟩ := ring7_case d1q3rel1 ![fun _ => 0, fun _ => 1, fun _ => -1] .pull
    (fun x k => x 0 + 10 * k) k
  have h := C101_relative (by decide) grid7 h1 d1q3rel1 (by decide) (by decide +kernel) rfl d1q3rel_inverse
    (fun u j b hb => by fin_cases j; fin_cases b <;> simp_all [d1q3rel1, d1q3rel]) (fun _ => rfl) _ (by decide) _ h2 h3 0
    relTerms rel_treats (1 / 10 ^ 16) (by norm_num) 10 (by decide) 100 _ h4 k σ hr
  have e1 : (∏ i, grid7.N i : Nat) = 7 := by decide
  rw [e1] at h
  exact_mod_cast h

end Pylbm.Sim
