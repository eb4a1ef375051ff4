import Verif.Sim.Rounding
import Verif.Sim.EnergyCases
import Verif.Sim.LinearCases
/-!
# C101: cases
-/

set_option linter.unusedSimpArgs false

namespace Pylbm.Sim
open Scheme Halo SchemeSpec Matrix HaloSpec Mpi Boundary

/-- The expressions of the new populations of D1Q2: `0.5 * (m + z)` and `0.5 * (m - z)` where `m` is the sum of the two
populations and `z` the second moment. -/
def advectTerms : Fin 2 → Term ℚ (Fin 2 ⊕ Fin 2) :=
  ![.mul (.const (1 / 2)) (.add (.add (.var (.inl 0)) (.var (.inl 1))) (.var (.inr 1))),
    .mul (.const (1 / 2)) (.add (.add (.var (.inl 0)) (.var (.inl 1))) (.neg (.var (.inr 1))))]

theorem advect_conserved (c s : ℚ) : Conserved (advect c s) 0 ∧ ¬ Conserved (advect c s) 1 := by
  refine ⟨⟨0, rfl⟩, ?_⟩
  rintro ⟨l, hl⟩
  have : ∀ l : Fin 1, d1q2.consm l ≠ 1 := by decide
  exact this l hl

theorem advect_exact (c s : ℚ) : Exact (advect c s) advectTerms := by
  intro p z l
  obtain ⟨h0, h1⟩ := advect_conserved c s
  show _ = (advect c s).invM l ⬝ᵥ _
  rw [dotProduct, Fin.sum_univ_two, if_pos h0, if_neg h1]
  fin_cases l <;> simp [advectTerms, Term.val, advect, d1q2, Matrix.mulVec, dotProduct, Fin.sum_univ_two] <;> ring

theorem advect_collide (c : ℚ) (a : Algo) (p : Fin 2 → ℚ) :
    collide (advect c 1) a p = ![(1 + c) / 2 * (p 0 + p 1), (1 - c) / 2 * (p 0 + p 1)] := by
  have h : collide (advect c 1) a p = collision (advect c 1).M (advect c 1).invM (advect c 1).consm (advect c 1).EQ
      (advect c 1).s p := by
    unfold collide
    rw [prog_eq]
    obtain ⟨h3, h4⟩ := step_collision (advect c 1) (fun j w => by fin_cases j; rfl) (fun _ => rfl) p ⟨0, 0, 0⟩
    cases a with
    | base => exact h4
    | pull => exact h3
  rw [h]
  funext l
  fin_cases l <;> simp [collision, relaxed, advect, d1q2, Matrix.mulVec, dotProduct, Fin.sum_univ_two] <;> ring

/-- A case for `C101_conservation` and `C101_run_exists`: D1Q2 at the velocity 1/2 on two processes, a relative error of
1/1000; a run in which all the populations are rounded towards zero as much as possible. -/
example : ∃ σ : Proc grid7 → Simu ℚ 2 0 1,
    ERun grid7 (ring (advect (1 / 2) 1) ![fun _ => 1, fun _ => -1] .pull grid7) (fun _ => true)
      (fun e r => RoundedCollision (advect (1 / 2) 1) .pull advectTerms (1 / 1000) 6 0 e r ∧
        r = fun l => (1 - 1 / 1000) * e l)
      (fun _ => startWith 2 0 1 fun _ k => if k = 0 then 2 else 1 / 2) 100 σ ∧
    |∑ c : Proc grid7, ∑ x ∈ inner (size grid7 c) grid7.w, ((advect (1 / 2) 1).M *ᵥ (σ c).arr x) 0 -
      ∑ c : Proc grid7, ∑ x ∈ inner (size grid7 c) grid7.w, ((advect (1 / 2) 1).M *ᵥ
        (startWith 2 0 1 fun _ k => if k = 0 then (2 : ℚ) else 1 / 2).arr x) 0| ≤
      (100 : Nat) * ((∏ i, (grid7.N i : ℚ)) * (((1 + 1 / 1000) ^ 4 - 1) * 6)) := by
  obtain ⟨h1, h2, h3, h4, -⟩ := ring7_case (advect (1 / 2) 1) ![fun _ => 1, fun _ => -1]
    .pull (fun _ k => if k = 0 then 2 else 1 / 2) 100
  have hfl : FluidBoundary grid7.N ![fun _ => 1, fun _ => -1] (fun _ => true) fun (_ : ℚ) (H : Arr ℚ 2 1) => H :=
    fun t H H' h y _ _ j => congrFun (h _ rfl) j
  have key := C101_run_exists (by decide) grid7 h1 (advect (1 / 2) 1) (by decide)
    ![fun _ => 1, fun _ => -1] .pull (fun _ => true) _
    ⟨h2.scheme, h2.vel, h2.algo, fun c h => absurd (h2.all c) (by rw [h]; decide), h2.nodup, h2.loops, h2.split⟩
    (fun _ H => H) (sameBoundary_periodic grid7 _ (by decide) _ h3) hfl
    (fun e r => RoundedCollision (advect (1 / 2) 1) .pull advectTerms (1 / 1000) 6 0 e r ∧
        r = fun l => (1 - 1 / 1000) * e l) ![Set.Icc 0 3, Set.Icc 0 1]
    (fun t A hA y hy _ j => hA _ (mod_mem_box (by decide) _) rfl j) ?_
    (fun _ => startWith 2 0 1 fun _ k => if k = 0 then 2 else 1 / 2)
    h4 ?_ 100
  · obtain ⟨σ, hσ, -⟩ := key
    refine ⟨σ, hσ, ?_⟩
    exact C101_conservation (by decide) grid7 h1 (advect (1 / 2) 1) (by decide) (fun j w => by fin_cases j; rfl)
      (by decide +kernel) (fun _ => rfl) rfl _ .pull (by decide) _ h2 h3 advectTerms (advect_exact _ _) (1 / 1000)
      (by norm_num) 4 (by decide) 6 0 _ h4 100 σ (hσ.mono fun _ _ h => h.1)
  · intro p hp
    have hp0 : 0 ≤ p 0 ∧ p 0 ≤ 3 := hp 0
    have hp1 : 0 ≤ p 1 ∧ p 1 ≤ 1 := hp 1
    refine ⟨fun l => (1 - 1 / 1000) * collide (advect (1 / 2) 1) .pull p l, ?_,
      ⟨p, ![0, (p 0 + p 1) / 2], rfl, ?_, ?_⟩, rfl⟩
    · intro j
      rw [advect_collide]
      fin_cases j <;> simp [Set.mem_Icc] <;> constructor <;> linarith
    · have h0 : |(1 / 2 : ℚ) * (p 0 + p 1 + (p 0 + p 1) / 2) * (-(1 / 1000))| =
          1 / 1000 * |(1 / 2 : ℚ) * (p 0 + p 1 + (p 0 + p 1) / 2)| := by
        rw [abs_mul, mul_comm]; norm_num
      have h1 : |(1 / 2 : ℚ) * (p 0 + p 1 + -((p 0 + p 1) / 2)) * (-(1 / 1000))| =
          1 / 1000 * |(1 / 2 : ℚ) * (p 0 + p 1 + -((p 0 + p 1) / 2))| := by
        rw [abs_mul, mul_comm]; norm_num
      intro l
      rw [advect_collide]
      have hc : Term.Rounds (1 / 1000) (Sum.elim p ![0, (p 0 + p 1) / 2]) (.const (1 / 2)) (1 / 2) :=
        .const _ _ (by norm_num)
      have hm : Term.Rounds (1 / 1000) (Sum.elim p ![0, (p 0 + p 1) / 2])
          (.add (.var (.inl 0)) (.var (.inl 1))) (p 0 + p 1) :=
        .add _ _ (p 0) (p 1) _ (.var (Sum.inl 0)) (.var (Sum.inl 1)) (by rw [sub_self, abs_zero]; positivity)
      have hz : Term.Rounds (1 / 1000) (Sum.elim p ![0, (p 0 + p 1) / 2]) (.var (.inr 1)) ((p 0 + p 1) / 2) :=
        .var (Sum.inr 1)
      fin_cases l
      · refine .mul _ _ (1 / 2) (p 0 + p 1 + (p 0 + p 1) / 2) _ hc
          (.add _ _ _ _ _ hm hz (by rw [sub_self, abs_zero]; positivity)) (le_of_eq ?_)
        rw [← h0]
        congr 1
        simp
        ring
      · refine .mul _ _ (1 / 2) (p 0 + p 1 + -((p 0 + p 1) / 2)) _ hc
          (.add _ _ _ _ _ hm (.neg _ _ hz) (by rw [sub_self, abs_zero]; positivity)) (le_of_eq ?_)
        rw [← h1]
        congr 1
        simp
        ring
    · rw [Fin.sum_univ_two]
      have e1 : |p 0| = p 0 := abs_of_nonneg hp0.1
      have e2 : |p 1| = p 1 := abs_of_nonneg hp1.1
      have e3 : |(p 0 + p 1) / 2| = (p 0 + p 1) / 2 := abs_of_nonneg (by linarith)
      simp [advectTerms, Term.mag, advect, d1q2, e1, e2, e3]
      linarith
  · intro c x _ _ j
    fin_cases j <;> simp [startWith, Simu.arr, Set.mem_Icc] <;> norm_num

/-- A case for `C101_totals`: nothing is known of the rounding but its effect on the mass. -/
example (σ : Proc grid7 → Simu ℚ 2 0 1)
    (hr : ERun grid7 (ring d1q2 ![fun _ => 1, fun _ => -1] .base grid7) (fun _ => true)
      (fun e r => |(d1q2.M *ᵥ r) 0 - (d1q2.M *ᵥ e) 0| ≤ 1 / 10 ^ 15) (fun _ => startWith 2 0 1 fun x k => x 0 + 10 * k)
      (10 ^ 6) σ) :
    |∑ c : Proc grid7, ∑ x ∈ inner (size grid7 c) grid7.w, (d1q2.M *ᵥ (σ c).arr x) 0 -
      ∑ c : Proc grid7, ∑ x ∈ inner (size grid7 c) grid7.w, (d1q2.M *ᵥ
        (startWith 2 0 1 fun x k => (x 0 : ℚ) + 10 * k).arr x) 0| ≤
      (10 ^ 6 : Nat) * ((∏ i, (grid7.N i : ℚ)) * (1 / 10 ^ 15)) := by
  obtain ⟨h1, h2, h3, h4, -⟩ := ring7_case d1q2 ![fun _ => 1, fun _ => -1] .base (fun x k => x 0 + 10 * k) (10 ^ 6)
  exact C101_totals (by decide) grid7 h1 d1q2 (by decide) _ .base (by decide) _ h2 h3 0
    (collide_conserved d1q2 (fun j w => by fin_cases j; rfl) (by decide +kernel) (fun _ => rfl) rfl .base 0 ⟨0, rfl⟩)
    _ _ h4 _ σ hr

/-- The tank with bounce-back: the fluid cells, and a run in which each population is increased by `ε` after each
step. -/
theorem tank_disturbed (A : Arr ℚ 2 1) (ε : ℚ) (k : Nat) : ∃ (ST : Domain.State ℚ 1 2)
    (J : List (Method 1 × List (Entry ℚ 1 2))),
    FluidRun (tank .bounceBack 1 2) grid7 (fun _ => 0) 1 pipeLab (advect 0 (9 / 5)) .pull tankHeat ∧
    OnGrid (tank .bounceBack 1 2) (boxGrid grid7.N grid7.w (fun _ => 0) 1 pipeLab sten2) ST J ∧
    Sealed (s := sten2) grid7.N grid7.w ST ∧
    ReadsFluid (tank .bounceBack 1 2) grid7.N grid7.w (fun _ => 0) 1 pipeLab ST J ∧
    (∀ t, Free sten2 (flat sten2 (withValues sten2 (boxGrid grid7.N grid7.w (fun _ => 0) 1 pipeLab sten2)
        (tank .bounceBack 1 2).ψ J t))) ∧
    ∃ σ, ERun grid7 tankHeat (fluidMap grid7.w ST) (fun e r => r = fun l => e l + ε)
      (fun _ => startWith 2 0 1 A) k σ := by
  obtain ⟨hF, ⟨ST, J, hJ, hseal, hreads, hfree, -⟩, -, -, -⟩ := tank_case
  have hQ : FluidRun (tank .bounceBack 1 2) grid7 (fun _ => 0) 1 pipeLab (advect 0 (9 / 5)) .pull tankHeat :=
    ⟨⟨hF.walls.large, hF.walls.onGrid, hF.walls.away⟩, fun _ => rfl, hF.vel, hF.algo, hF.fluid, hF.nodup, hF.loops,
      fun c => by simp [advect, d1q2]⟩
  have hD := tank_wf .bounceBack (by norm_num : (1 : ℚ) ≤ 2)
  have hlinks : AllLinks (s := sten2) grid7.N grid7.w ST := by
    intro y hy hyf u
    by_cases h : Open (ST.link u (fun i => y i + grid7.w i)).flag
    · exact Or.inl (hseal y hy hyf u (sten2.usym u) (hD.sten.usym u) h).1
    · exact Or.inr h
  refine ⟨ST, J, hQ, hJ, hseal, hreads, hfree, ?_⟩
  obtain ⟨σ, hσ, -⟩ := C101_run_exists (by decide) grid7 hQ.walls.large (advect 0 (9 / 5)) (by decide) sten2.vel .pull
    (fluidMap grid7.w ST) tankHeat (hQ.uniform hD ST hJ.built) _
    (sameBoundary_walls (tank .bounceBack 1 2) grid7 (fun _ => 0) 1 pipeLab hD tankHeat hQ.walls ST J hJ hfree)
    (fluidBoundary_walls (tank .bounceBack 1 2) grid7.N grid7.w (fun _ => 0) 1 pipeLab hD ST J hJ hfree hlinks
      (tank_methods _ _ _) hreads) (fun e r => r = fun l => e l + ε) (fun _ => Set.univ)
    (fun _ _ _ _ _ _ _ => Set.mem_univ _) (fun p _ => ⟨_, fun _ => Set.mem_univ _, rfl⟩) (fun _ => startWith 2 0 1 A)
    (fun c => startWith_start (advect 0 (9 / 5)) sten2.vel .pull grid7 c _) (fun _ _ _ _ _ => Set.mem_univ _) k
  exact ⟨σ, hσ⟩

/-- A case for `C101_mass` and `C101_energy`: such a run compared with the exact one after `k` steps. -/
example (A : Arr ℚ 2 1) (ε : ℚ) (k : Nat) : ∃ (ST : Domain.State ℚ 1 2) (σ τ : Proc grid7 → Simu ℚ 2 0 1),
    ERun grid7 tankHeat (fluidMap grid7.w ST) (fun e r => r = fun l => e l + ε) (fun _ => startWith 2 0 1 A) k σ ∧
    PRun grid7 tankHeat (fun _ => startWith 2 0 1 A) k τ ∧
    fluidEnergy (s := sten2) ST grid7 ![1 / 2, 1 / 2] σ τ ≤ (k : ℚ) ^ 2 *
      ((∑ c : Proc grid7, ∑ x ∈ inner (size grid7 c) grid7.w with
        fluidMap grid7.w ST (globalPos (first grid7 c) grid7.w x) = true, 1) * (4 * ε ^ 2)) ∧
    |∑ c : Proc grid7, ∑ x ∈ inner (size grid7 c) grid7.w with
        fluidMap grid7.w ST (globalPos (first grid7 c) grid7.w x) = true, ((advect 0 (9 / 5)).M *ᵥ (σ c).arr x) 0 -
      ∑ c : Proc grid7, ∑ x ∈ inner (size grid7 c) grid7.w with
        fluidMap grid7.w ST (globalPos (first grid7 c) grid7.w x) = true,
          ((advect 0 (9 / 5)).M *ᵥ (startWith 2 0 1 A).arr x) 0| ≤
      k * ((∑ c : Proc grid7, ∑ x ∈ inner (size grid7 c) grid7.w with
        fluidMap grid7.w ST (globalPos (first grid7 c) grid7.w x) = true, 1) * |2 * ε|) := by
  obtain ⟨ST, J, hQ, hJ, hseal, hreads, hfree, σ, hσ⟩ := tank_disturbed A ε k
  obtain ⟨τ, hτ⟩ := C42_run_exists (by decide) grid7 hQ.walls.large tankHeat (fun _ => startWith 2 0 1 A) k
  have hd := advect_dissipative 0 (9 / 5) (by norm_num) (by norm_num)
  have hw : ![(1 + 0) / 2, (1 - 0) / 2] = (![1 / 2, 1 / 2] : Fin 2 → ℚ) := by norm_num
  rw [hw] at hd
  have hD := tank_wf .bounceBack (by norm_num : (1 : ℚ) ≤ 2)
  refine ⟨ST, σ, τ, hσ, hτ, ?_, ?_⟩
  · refine C101_energy (by decide) (tank .bounceBack 1 2) (fun _ => 0) 1 pipeLab hD grid7 ST J hJ hfree hseal
      (tank_methods _ _ _) hreads (tank_reflecting 1 2).1 (advect 0 (9 / 5)) (by decide) (fun j w => by fin_cases j; rfl)
      (by decide +kernel) (fun _ => rfl) rfl .pull ![1 / 2, 1 / 2]
      (fun j j' _ _ => by fin_cases j <;> fin_cases j' <;> rfl) _ _ _ hd _ hQ _ _ _
      (fun c => startWith_start (advect 0 (9 / 5)) sten2.vel .pull grid7 c _)
      (fun c => startWith_start (advect 0 (9 / 5)) sten2.vel .pull grid7 c _) (fun _ _ _ => rfl) k σ τ
      (hσ.mono fun e r h => ?_) hτ
    subst h
    unfold energy
    rw [Fin.sum_univ_two]
    simp
    linarith
  · refine C101_mass (by decide) (tank .bounceBack 1 2) (fun _ => 0) 1 pipeLab hD grid7 ST J hJ hfree hseal
      (tank_methods _ _ _) hreads (advect 0 (9 / 5)) (by decide) .pull 0 ?_ ?_
      (collide_conserved (advect 0 (9 / 5)) (fun j w => by fin_cases j; rfl) (by decide +kernel) (fun _ => rfl) rfl .pull 0
        ⟨0, rfl⟩) _ hQ _ _
      (fun c => startWith_start (advect 0 (9 / 5)) sten2.vel .pull grid7 c _) k σ (hσ.mono fun e r h => ?_)
    · intro j j' _ _
      fin_cases j <;> fin_cases j' <;> rfl
    · exact tank_atRest 1 2 _
    · subst h
      refine le_of_eq (congrArg _ ?_)
      simp [advect, d1q2, Matrix.mulVec, dotProduct, Fin.sum_univ_two]
      ring

/-- A case for `C101_difference`: seven cells on two processes and on one, D1Q2 at the velocity 1/2. The weights are
those of the equilibrium. -/
example (σ : Proc grid7 → Simu ℚ 2 0 1) (σ' : Proc grid7one → Simu ℚ 2 0 1) (ε : ℚ)
    (hr : ERun grid7 (ring (advect (1 / 2) 1) ![fun _ => 1, fun _ => -1] .pull grid7) (fun _ => true)
      (fun e r => ∀ j, |r j - e j| ≤ ε * ![3, 1] j) (fun _ => startWith 2 0 1 fun _ k => k) 1000 σ)
    (hr' : PRun grid7one (ring (advect (1 / 2) 1) ![fun _ => 1, fun _ => -1] .pull grid7one)
      (fun _ => startWith 2 0 1 fun _ k => k) 1000 σ')
    (c : Proc grid7) (x : Cell 1) (hx : Owned (size grid7 c) grid7.w x)
    (c' : Proc grid7one) (x' : Cell 1) (hx' : Owned (size grid7one c') grid7one.w x')
    (he : globalPos (first grid7 c) grid7.w x = globalPos (first grid7one c') grid7one.w x') :
    |(σ c).arr x 1 - (σ' c').arr x' 1| ≤ 1000 * ε := by
  obtain ⟨h1, h2, h3, h4, -⟩ := ring7_case (advect (1 / 2) 1) ![fun _ => 1, fun _ => -1] .pull (fun _ k => (k : ℚ)) 0
  have h := C101_difference (by decide) grid7 grid7one rfl h1 ((large_iff grid7one).2 (by decide)) (advect (1 / 2) 1)
    (by decide) _ .pull (by decide) (by decide) ![3, 1] ?_ _ h2 h3 _ (ring_uniform _ _ _ _) (fun _ _ _ => rfl) _ h4 _
    (fun c => startWith_start (advect (1 / 2) 1) _ .pull grid7one c _) 0 ε 0 ?_ 1000 σ hr σ'
    ((hr'.disturbed _).mono fun e r h j => by rw [h, sub_self, abs_zero, zero_mul]) c x hx c' x' hx' he 1
  · refine h.trans_eq ?_
    simp
  · intro ρ f f' hf j
    have f0 := hf 0
    have f1 := hf 1
    simp only [Matrix.cons_val_zero, Matrix.cons_val_one] at f0 f1
    have a0 := abs_le.1 f0
    have a1 := abs_le.1 f1
    rw [advect_collide, advect_collide, abs_le]
    fin_cases j <;> simp <;> constructor <;> linarith [a0.1, a0.2, a1.1, a1.2]
  · intro c x c' x' _ _ _ j
    show |(j : ℚ) - j| ≤ _
    rw [sub_self, abs_zero, zero_mul]

/-- A case for `C101_difference_walls`: the basin with interpolated bounce-back, the exact run and one in which each
population is increased by `ε` after each step. -/
example (A : Arr ℚ 2 1) (ε : ℚ) (hε : 0 ≤ ε) (k : Nat) : ∃ (ST : Domain.State ℚ 1 2) (σ σ' : Proc grid7 → Simu ℚ 2 0 1),
    ERun grid7 (basinSetup (advect 0 1) .bouzidiBounceBack 0 grid7 .c .pull) (fluidMap grid7.w ST)
      (fun e r => r = fun l => e l + ε) (startC A) k σ ∧
    PRun grid7 (basinSetup (advect 0 1) .bouzidiBounceBack 0 grid7 .c .pull) (startC A) k σ' ∧
    fluidMap grid7.w ST (fun _ => 0) = true ∧
    ∀ c x, Owned (size grid7 c) grid7.w x → fluidMap grid7.w ST (globalPos (first grid7 c) grid7.w x) = true →
      ∀ j, |(σ c).arr x j - (σ' c).arr x j| ≤ k * ε := by
  obtain ⟨st, I, ho, hfree, hlinks, hreads, hfl⟩ := basin_domain .bouzidiBounceBack 0 (by decide +kernel)
  have h : ∀ c i, grid7.w i ≤ size grid7 c i := (large_iff grid7).2 (by decide)
  have hrun := basin_run (advect 0 1) rfl .bouzidiBounceBack 0 .c .pull (by decide +kernel)
  have hD := basin_wf .bouzidiBounceBack 0
  have hmeth := tank_methods .bouzidiBounceBack (5 / 4) (7 / 4)
  obtain ⟨σ', hσ'⟩ := C42_run_exists (by decide) grid7 h (basinSetup (advect 0 1) .bouzidiBounceBack 0 grid7 .c .pull)
    (startC A) k
  obtain ⟨σ, hσ, -⟩ := C101_run_exists (by decide) grid7 h (advect 0 1) (by decide) sten2.vel .pull
    (fluidMap grid7.w st) _ (hrun.uniform hD st ho.built) _
    (sameBoundary_walls (basin .bouzidiBounceBack 0) grid7 (fun _ => 0) 1 pipeLab hD _ hrun.walls st I ho hfree)
    (fluidBoundary_walls (basin .bouzidiBounceBack 0) grid7.N grid7.w (fun _ => 0) 1 pipeLab hD st I ho hfree hlinks
      hmeth hreads) (fun e r => r = fun l => e l + ε) (fun _ => Set.univ)
    (fun _ _ _ _ _ _ _ => Set.mem_univ _) (fun p _ => ⟨_, fun _ => Set.mem_univ _, rfl⟩) (startC A)
    (fun _ => ⟨show (0 : Fin 2) ≠ 1 by decide, rfl, rfl, rfl⟩) (fun _ _ _ _ _ => Set.mem_univ _) k
  refine ⟨st, σ, σ', hσ, hσ', Option.some.inj (congrArg (fun l => l.head?) hfl), fun c x hx hf j => ?_⟩
  have key := C101_difference_walls (by decide) (basin .bouzidiBounceBack 0) (fun _ => 0) 1 pipeLab hD grid7 grid7
    rfl rfl st I ho hfree hlinks hmeth hreads ?_ (advect 0 1) (by decide) .pull ?_ (fun _ => 1) (fun _ _ _ _ => rfl) ?_
    _ hrun _ hrun (startC A) (fun _ => ⟨show (0 : Fin 2) ≠ 1 by decide, rfl, rfl, rfl⟩) (startC A)
    (fun _ => ⟨show (0 : Fin 2) ≠ 1 by decide, rfl, rfl, rfl⟩) 0 ε 0 ?_ k σ
    (hσ.mono fun e r h j => by rw [h, add_sub_cancel_left, abs_of_nonneg hε, mul_one]) σ'
    ((hσ'.disturbed _).mono fun e r h j => by rw [h, sub_self, abs_zero, zero_mul]) c x hx c x hx rfl hf j
  · refine key.trans_eq ?_
    ring
  · intro l ms hl p hp
    simp only [basin, tank, Option.some.injEq] at hl
    subst hl
    rw [List.mem_singleton.1 hp]
    exact ⟨by simp, by simp⟩
  · refine ⟨fun i w w' => ?_, by intro i w w'; fin_cases i <;> rfl, (d1q2_combines 1 (-1)).rel,
      (d1q2_combines 1 (-1)).source⟩
    fin_cases i <;> simp [advect]
  · intro ρ f hf j
    have a0 := abs_le.1 (hf 0)
    have a1 := abs_le.1 (hf 1)
    rw [advect_collide, abs_le]
    fin_cases j <;> simp <;> constructor <;> linarith [a0.1, a0.2, a1.1, a1.2]
  · intro c x c' x' _ _ he _ j
    show |A (globalPos (first grid7 c) grid7.w x) j - A (globalPos (first grid7 c') grid7.w x') j| ≤ _
    rw [he, sub_self, abs_zero, zero_mul]

end Pylbm.Sim
