import Verif.Stability.SecondOrder
import Verif.Stability.StructureCases
import Verif.Stability.MonotoneCases
/-!
# Cases for the second order of runs which are started at equilibrium (C67)
-/
namespace Pylbm.Stability
open Matrix Sim Scheme Halo SchemeSpec HaloSpec Mpi
open scoped ContDiff

/-- The hypotheses of `C67_equilibrium_second_order` hold for Burgers' equation with a monotone collision. -/
example (T : ℝ) (hT : 0 ≤ T) : ∃ ε₀ > (0 : ℝ), ∃ C : ℝ, ∀ ε : ℝ, 0 < ε → ε ≤ ε₀ → ∀ N : Fin 1 → Nat, (∀ i, N i * (1 * ε) = 1) →
    ∀ k : Nat, k * ε ≤ T → ∀ b, ∑ y ∈ box N, |(slowBurgers.M *ᵥ lbmRun N pm (collide slowBurgers .pull) (fun _ H => H) ε
      (fun y => slowBurgers.invM *ᵥ fun i => slowBurgers.EQ i (smallWave ε 0 fun l => 1 * ε * y l)) k y) (slowBurgers.consm b) -
        smallWave ε (k * ε) (fun l => 1 * ε * y l) b| ≤ (box N).card * (C * ε ^ 2) := by
  refine C67_equilibrium_second_order slowBurgers .pull (by intro j; fin_cases j; rfl) slowBurgers_eq (fun _ => rfl) rfl
    slowBurgers_inv Set.univ isOpen_univ ?_ ?_ ?_ pm 1 one_pos (fun _ => 1) smallWave ?_ (fun _ _ _ => Set.mem_univ _) ?_
    Set.univ isOpen_univ smallWave_solves ![Set.Ioo (-1 / 4) (3 / 4), Set.Ioo (-3 / 4) (1 / 4)] ?_ slowBurgers_contracts ?_ T hT
    (Set.subset_univ _)
  · intro i
    fin_cases i
    change ContDiffOn ℝ ∞ (fun w : Fin 1 → ℝ => w 0 ^ 2 / 2) _
    exact (((contDiff_apply ℝ ℝ (0 : Fin 1)).pow 2).div_const 2).contDiffOn
  · intro i
    fin_cases i
    change ContDiffOn ℝ ∞ (fun _ : Fin 1 → ℝ => (1 / 2 : ℝ)) _
    exact contDiffOn_const
  · intro i w _
    fin_cases i
    change (0 : ℝ) < 1 / 2 ∧ (1 / 2 : ℝ) < 2
    norm_num
  · refine contDiff_pi.2 fun _ => ?_
    change ContDiff ℝ ∞ fun p : ℝ × ℝ × (Fin 1 → ℝ) => 1 / 4 + p.1 * Real.sin (2 * Real.pi * (p.2.2 0 - p.2.1 / 4))
    fun_prop
  · intro ε t k x
    funext b
    simp only [smallWave]
    have : 2 * Real.pi * (x 0 + k 0 * 1 - t / 4) = 2 * Real.pi * (x 0 - t / 4) + k 0 * (2 * Real.pi) := by ring
    rw [this, Real.sin_add_int_mul_two_pi]
  · intro j
    fin_cases j
    · exact isOpen_Ioo
    · exact isOpen_Ioo
  · intro t _ x j
    have h : ∀ i, slowBurgers.EQ i (smallWave 0 t x) = ![1 / 4, 1 / 32] i := by
      intro i
      fin_cases i <;> simp [slowBurgers, smallWave] <;> norm_num
    simp only [h]
    fin_cases j
    · change (slowBurgers.invM *ᵥ fun i => ![1 / 4, 1 / 32] i) 0 ∈ Set.Ioo _ _
      simp [slowBurgers, Matrix.mulVec, dotProduct, Fin.sum_univ_two]
      norm_num
    · change (slowBurgers.invM *ᵥ fun i => ![1 / 4, 1 / 32] i) 1 ∈ Set.Ioo _ _
      simp [slowBurgers, Matrix.mulVec, dotProduct, Fin.sum_univ_two]
      norm_num

/-- The hypotheses of `C67_equilibrium_second_order_one_dimension` hold for Burgers' equation with a relaxation parameter for
which the collision is not monotone. -/
example (T : ℝ) : ∃ ε₀ > (0 : ℝ), ∃ C : ℝ, ∀ ε, 0 < ε → ε ≤ ε₀ → ∀ N : Fin 1 → Nat,
    (∀ i : Fin 1, N i * (1 * ε) = (fun _ => 1 : Fin 1 → ℝ) i) → ∀ k : Nat, k * ε ≤ T → ∀ b,
      ∑ y ∈ box N, ((fastBurgers.M *ᵥ lbmRun N pm (collide fastBurgers .pull) (fun _ H => H) ε
        (fun y => fastBurgers.invM *ᵥ fun i => fastBurgers.EQ i (tameWave ε 0 fun l => 1 * ε * y l)) k y) (fastBurgers.consm b) -
          tameWave ε (k * ε) (fun l => 1 * ε * y l) b) ^ 2 ≤ (box N).card * (C * ε ^ 4) := by
  refine C67_equilibrium_second_order_one_dimension fastBurgers .pull (by intro j; fin_cases j; rfl) fastBurgers_eq
    (fun _ => rfl) rfl fastBurgers_inv subsonic subsonic_open fastBurgers_eqSmooth fastBurgers_sSmooth ?_ pm 1 one_pos
    (fun _ => 1) tameWave ?_ tameWave_subsonic ?_ Set.univ isOpen_univ tameWave_solves weights fastBurgers_structured T
    (Set.subset_univ _)
  · intro i w _
    fin_cases i
    change (0 : ℝ) < 3 / 2 ∧ (3 / 2 : ℝ) < 2
    norm_num
  · refine contDiff_pi.2 fun _ => ?_
    change ContDiff ℝ ∞ fun p : ℝ × ℝ × (Fin 1 → ℝ) => 1 / 4 + p.1 / (1 + p.1 ^ 2) * Real.sin (2 * Real.pi * (p.2.2 0 - p.2.1 / 4))
    have hq : ContDiff ℝ ∞ fun p : ℝ × ℝ × (Fin 1 → ℝ) => p.1 / (1 + p.1 ^ 2) :=
      contDiff_fst.div (by fun_prop) fun p => by positivity
    refine contDiff_const.add (hq.mul ?_)
    fun_prop
  · intro ε t k x
    funext b
    simp only [tameWave]
    have : 2 * Real.pi * (x 0 + k 0 * 1 - t / 4) = 2 * Real.pi * (x 0 - t / 4) + k 0 * (2 * Real.pi) := by ring
    rw [this, Real.sin_add_int_mul_two_pi]

end Pylbm.Stability
