import Verif.Sim.Energy
import Verif.Stability.Stable
import Verif.Stability.Equivalent
/-!
# C98: the answer of the stability analysis for dissipative schemes
-/

namespace Pylbm.Stability
open Scheme Halo SchemeSpec Matrix HaloSpec Mpi Sim

variable {n nc d dim : Nat}

/-- **C98, the stability analysis.** `Stability` never says that a dissipative scheme is not stable, for any number of
wave vectors and any tolerance. -/
theorem C98_announced (hn : 0 < n) (S : Kernel ℝ n nc d) (hfront : ∀ j, (S.consm j : Nat) = j)
    (hEQ : ∀ j w, S.EQ (S.consm j) w = w j) (hM : S.M * S.invM = 1) (hS : ∀ i, S.source i = none)
    (hrel : S.relVel = none) (w : Fin n → ℝ) (E : Matrix (Fin n) (Fin nc) ℝ) (s : Fin n → ℝ)
    (hdis : Dissipative S w E 0 s) (vel : Fin n → Cell dim) (n0 : Nat) (hn0 : 0 < n0) (τ : ℝ) (hτ : 0 < τ) :
    verdict τ vel (relaxF S.M S.invM s E) n0 ≠ 2 := by
  intro hv
  have hlin : ∀ i v, S.EQ i v = (E *ᵥ v) i := by
    intro i v
    rw [hdis.equilibrium]
    simp [Matrix.mulVec, dotProduct]
  obtain ⟨G, j, h⟩ := C63_unstable hn S .pull hfront hEQ hS hrel E hlin s hdis.relaxation vel n0 τ hτ 1 hv
  set e := ∑ y ∈ box (fun _ : Fin dim => n0), energy w (G y) with he
  have hz : ∀ k, lbmRun (fun _ => n0) vel (collide S .pull) (fun _ H => H) 1 (fun _ => 0) k = fun _ => 0 := by
    intro k
    induction k with
    | zero => rfl
    | succ k ih =>
      show lbmStep _ vel (collide S .pull) (fun _ H => H) (k * 1) (lbmRun _ _ _ _ _ _ k) = _
      rw [ih]
      funext y
      exact collide_zero S hEQ hM hS hrel .pull E (fun i v => by rw [hdis.equilibrium]; simp)
  have hb : ∀ t, lbmRun (fun _ => n0) vel (collide S .pull) (fun _ H => H) 1 G t 0 j ^ 2 ≤ w j * e := by
    intro t
    have h1 := energy_run (fun _ => n0) vel w _ (C98_collision S hEQ hM hS hrel .pull w E 0 s hdis) 1 G (fun _ => 0) t
    simp only [hz, sub_zero] at h1
    have h2 : lbmRun (fun _ => n0) vel (collide S .pull) (fun _ H => H) 1 G t 0 j ^ 2 / w j ≤
        energy w (lbmRun (fun _ => n0) vel (collide S .pull) (fun _ H => H) 1 G t 0) :=
      Finset.single_le_sum (f := fun j => lbmRun (fun _ => n0) vel (collide S .pull) (fun _ H => H) 1 G t 0 j ^ 2 / w j)
        (fun j _ => div_nonneg (sq_nonneg _) (hdis.pos j).le) (Finset.mem_univ j)
    have h3 : energy w (lbmRun (fun _ => n0) vel (collide S .pull) (fun _ H => H) 1 G t 0) ≤
        ∑ y ∈ box (fun _ : Fin dim => n0), energy w (lbmRun (fun _ => n0) vel (collide S .pull) (fun _ H => H) 1 G t y) :=
      Finset.single_le_sum (f := fun y => energy w (lbmRun (fun _ => n0) vel (collide S .pull) (fun _ H => H) 1 G t y))
        (fun y _ => energy_nonneg hdis.pos _) ((mem_box _ _).2 fun i => ⟨le_rfl, by
          show (0 : Int) < (n0 : Int)
          exact_mod_cast hn0⟩)
    have h4 := (h2.trans h3).trans h1
    rwa [div_le_iff₀ (hdis.pos j), mul_comm] at h4
  obtain ⟨t, ht⟩ := h (w j * e + 1)
  have h0 : 0 ≤ w j * e := le_trans (sq_nonneg _) (hb 0)
  have h5 := hb t
  rw [← sq_abs] at h5
  nlinarith

/-- A case for `C98_announced`: the upwind scheme of C67. -/
example : Dissipative upwind ![3 / 4, 1 / 4] !![1; 1 / 2] 0 ![0, 3 / 2] := by
  have hc0 : Conserved upwind 0 := ⟨0, rfl⟩
  have hc1 : ¬ Conserved upwind 1 := by
    rintro ⟨l, hl⟩
    have : ∀ l : Fin 1, (![0] : Fin 1 → Fin (1 + 1)) l ≠ 1 := by decide
    exact this l hl
  have key : ∑ j, ![3 / 4, 1 / 4] j * deviation upwind !![1; 1 / 2] 0 j * deviation upwind !![1; 1 / 2] 1 j = 0 := by
    rw [Fin.sum_univ_two]
    simp only [deviation, if_pos hc0, if_neg hc1]
    simp [upwind]
    norm_num
  refine ⟨?_, ?_, ?_, ?_, ?_⟩
  · intro i v; fin_cases i <;> simp [upwind] <;> ring
  · intro i v; fin_cases i <;> rfl
  · intro j; fin_cases j <;> simp
  · intro i hi
    fin_cases i
    · exact absurd hc0 hi
    · constructor <;> norm_num
  · intro i i' hne
    fin_cases i <;> fin_cases i'
    · exact absurd rfl hne
    · exact key
    · rw [← key]
      exact Finset.sum_congr rfl fun j _ => mul_right_comm _ _ _
    · exact absurd rfl hne

end Pylbm.Stability
