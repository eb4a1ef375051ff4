import Verif.Scheme.Props
/-!
# The collision with a relative velocity: property C46
-/
namespace Pylbm.SchemeSpec
open Matrix
variable {K : Type} [Field K] {n nc d : Nat}

/-- The collision in the frame of the velocity `u`, itself a function of the conserved moments: the moments in this
frame relax towards the equilibrium seen in this frame, all at the same time. -/
def relativeCollision (M invM : Matrix (Fin n) (Fin n) K) (Tu Tmu : (Fin d → K) → Matrix (Fin n) (Fin n) K)
    (cons : Fin nc → Fin n) (EQ s : Fin n → (Fin nc → K) → K) (v : (Fin nc → K) → Fin d → K) (f : Fin n → K) :
    Fin n → K :=
  let w : Fin nc → K := fun j => (M *ᵥ f) (cons j)
  (invM * Tmu (v w)) *ᵥ fun i =>
    (1 - s i w) * (Tu (v w) *ᵥ (M *ᵥ f)) i + s i w * (Tu (v w) *ᵥ fun j => EQ j w) i

end Pylbm.SchemeSpec

namespace Pylbm.Scheme
open Matrix SchemeSpec
set_option linter.unusedSectionVars false

section relative
variable {K : Type} [Field K] {n nc d : Nat}

theorem run_f2m_rel (S : Kernel K n nc d) (hpos : ∀ j, (S.consm j : Nat) = j) (v : (Fin nc → K) → Fin d → K)
    (hv : S.relVel = some v) (f : Fin n → K) (x : Local K n d) :
    S.run f x (f2mLocal n nc d false true) =
      { x with
        u := v fun j => (S.M *ᵥ f) (S.consm j)
        m := fun i => if (i : Nat) < nc then (S.M *ᵥ f) i
          else ((S.Tu (v fun j => (S.M *ᵥ f) (S.consm j)) * S.M) *ᵥ f) i } := by
  unfold f2mLocal
  rw [if_pos rfl, run_append, run_append, run_mom S f x false false (front n nc) ((List.nodup_finRange n).filter _),
    run_vel S f _ v hv, run_mom S f _ false true (backIdx n nc) ((List.nodup_finRange n).filter _)]
  have hw : (S.cons fun i => if i ∈ front n nc then (S.M *ᵥ f) i else x.m i) =
      fun j => (S.M *ᵥ f) (S.consm j) := by
    funext j
    simp only [Kernel.cons]
    rw [if_pos (by simp [front, hpos])]
  simp only [Bool.false_eq_true, if_false, if_true]
  rw [hw]
  congr 1
  funext i
  by_cases hi : (i : Nat) < nc
  · rw [if_pos hi, if_neg (by simp [backIdx, hi]), if_pos (by simp [front, hi])]
  · rw [if_neg hi, if_pos (by simp [backIdx]; omega)]

/-- **C46, relative collision (partial).** With a relative velocity and without sources, the step of the Pull algorithm
is the collision in the frame of the relative velocity when the relaxation parameters of the conserved moments are 0.
What is missing (other parameters for the conserved moments) is false: see `C46_parameters_negation`. -/
theorem C46_frame_partial (S : Kernel K n nc d) (hpos : ∀ j, (S.consm j : Nat) = j) (v : (Fin nc → K) → Fin d → K)
    (hv : S.relVel = some v) (hs : ∀ j w, S.s (S.consm j) w = 0) (hS : ∀ i, S.source i = none)
    (f : Fin n → K) (x : Local K n d) :
    (S.run f x (pullStep n nc d true)).fnew =
      relativeCollision S.M S.invM S.Tu S.Tmu S.consm S.EQ S.s v f := by
  unfold pullStep
  rw [run_append, run_append, run_append, run_append, run_append, run_source_none S _ _ hS,
    run_source_none S _ _ hS, run_back, run_f2m_rel S hpos v hv]
  set w : Fin nc → K := fun j => (S.M *ᵥ f) (S.consm j) with hw
  rw [run_relax S f _ true (fun j => by rw [hs]; ring)]
  simp only [if_true]
  have hcons : (S.cons fun i => if (i : Nat) < nc then (S.M *ᵥ f) i else ((S.Tu (v w) * S.M) *ᵥ f) i) = w := by
    funext j
    simp only [Kernel.cons]
    rw [if_pos (by rw [hpos]; exact j.2)]
  rw [hcons]
  unfold restoreLocal
  rw [run_mom S f _ false true (front n nc) ((List.nodup_finRange n).filter _)]
  simp only [if_true, Bool.false_eq_true, if_false, relativeCollision]
  congr 1
  funext i
  by_cases hi : (i : Nat) < nc
  · have hsi : ∀ w, S.s i w = 0 := by
      intro w
      have := hs ⟨i, hi⟩ w
      rwa [show S.consm ⟨i, hi⟩ = i from Fin.ext (hpos _)] at this
    rw [if_pos (by simp [front, hi]), hsi, Matrix.mulVec_mulVec]
    ring
  · rw [if_neg (by simp [front, hi]), if_neg hi, Matrix.mulVec_mulVec]

/-- **C46: the relative velocity is ignored when the matrix of the moments is given** (scheme.py 161-166 takes identity
translation matrices): the step is the collision without relative velocity. -/
theorem C46_matrix (S : Kernel K n nc d) (hpos : ∀ j, (S.consm j : Nat) = j) (v : (Fin nc → K) → Fin d → K)
    (hv : S.relVel = some v) (hs : ∀ j w, S.s (S.consm j) w = 0) (hS : ∀ i, S.source i = none)
    (hTu : ∀ u, S.Tu u = 1) (hTmu : ∀ u, S.Tmu u = 1) (f : Fin n → K) (x : Local K n d) :
    (S.run f x (pullStep n nc d true)).fnew = collision S.M S.invM S.consm S.EQ S.s f := by
  rw [C46_frame_partial S hpos v hv hs hS]
  simp only [relativeCollision, collision, hTu, hTmu, Matrix.mul_one, Matrix.one_mulVec]
  rfl

end relative

/-- D1Q3 with polynomials `1, X, X²`, one conserved moment `u`, relative velocity 1/2. -/
def d1q3adv : Kernel ℚ 3 1 1 where
  M := !![1, 1, 1; 0, 1, -1; 0, 1, 1]
  invM := !![1, 0, -1; 0, 1 / 2, 1 / 2; 0, -1 / 2, 1 / 2]
  Tu := fun u => !![1, 0, 0; -u 0, 1, 0; u 0 ^ 2, -2 * u 0, 1]
  Tmu := fun u => !![1, 0, 0; u 0, 1, 0; u 0 ^ 2, 2 * u 0, 1]
  EQ := ![fun w => w 0, fun w => w 0 / 2, fun w => w 0 / 2]
  s := ![fun _ => 0, fun _ => 1, fun _ => 3 / 2]
  consm := ![0]
  relVel := some fun _ _ => 1 / 2
  source := fun _ => none
  dt := 1

/-- `d1q3adv` where the matrix of the moments is given in place of the polynomials, scheme.py 161-166. -/
def d1q3mat : Kernel ℚ 3 1 1 := { d1q3adv with Tu := fun _ => 1, Tmu := fun _ => 1 }

/-- **C46: a scheme given by its matrix is not the scheme given by the polynomials of this matrix** when there is a
relative velocity: the same matrix, the same equilibrium, parameters and relative velocity, another result, which is not
the collision in the frame of the relative velocity. -/
theorem C46_matrix_negation : d1q3mat.M = d1q3adv.M ∧ d1q3mat.EQ = d1q3adv.EQ ∧ d1q3mat.s = d1q3adv.s ∧
    d1q3mat.relVel = d1q3adv.relVel ∧ ∃ (f : Fin 3 → ℚ) (x : Local ℚ 3 1),
    (d1q3adv.run f x (pullStep 3 1 1 true)).fnew =
      relativeCollision d1q3adv.M d1q3adv.invM d1q3adv.Tu d1q3adv.Tmu d1q3adv.consm d1q3adv.EQ d1q3adv.s
        (fun _ _ => 1 / 2) f ∧
    (d1q3mat.run f x (pullStep 3 1 1 true)).fnew ≠ (d1q3adv.run f x (pullStep 3 1 1 true)).fnew := by
  have h := C46_frame_partial d1q3adv (by decide) _ rfl (fun j w => by fin_cases j; rfl) (fun _ => rfl) ![1, 2, 0]
    ⟨0, 0, 0⟩
  refine ⟨rfl, rfl, rfl, rfl, ![1, 2, 0], ⟨0, 0, 0⟩, h, ?_⟩
  rw [h, C46_matrix d1q3mat (by decide) _ rfl (fun j w => by fin_cases j; rfl) (fun _ => rfl) (fun _ => rfl)
    (fun _ => rfl)]
  decide +kernel

/-- `d1q3rel` with the parameters 1 for the conserved moments. -/
def d1q3one : Kernel ℚ 3 2 1 := { d1q3rel with s := ![fun _ => 1, fun _ => 1, fun _ => 3 / 2] }

/-- **C46: the parameters of the conserved moments matter.** The collision in the frame of the relative velocity does
not depend on them, but the generated code computes the equilibrium of the other moments with conserved moments already
relaxed towards their values in the frame of the relative velocity. -/
theorem C46_parameters_negation : ∃ (f : Fin 3 → ℚ) (x : Local ℚ 3 1),
    relativeCollision d1q3one.M d1q3one.invM d1q3one.Tu d1q3one.Tmu d1q3one.consm d1q3one.EQ d1q3one.s
        (fun w _ => w 1 / w 0) f =
      relativeCollision d1q3rel.M d1q3rel.invM d1q3rel.Tu d1q3rel.Tmu d1q3rel.consm d1q3rel.EQ d1q3rel.s
        (fun w _ => w 1 / w 0) f ∧
    (d1q3one.run f x (pullStep 3 2 1 true)).fnew ≠
      relativeCollision d1q3one.M d1q3one.invM d1q3one.Tu d1q3one.Tmu d1q3one.consm d1q3one.EQ d1q3one.s
        (fun w _ => w 1 / w 0) f :=
  ⟨![1, 2, 0], ⟨0, 0, 0⟩, by decide +kernel, by decide +kernel⟩

/-- The case of `C46_frame_partial` and `C46_matrix`: `d1q3mat`; `d1q3adv` is used in `C46_matrix_negation`. -/
example : (∀ j, (d1q3mat.consm j : Nat) = j) ∧ (∀ j w, d1q3mat.s (d1q3mat.consm j) w = 0) ∧
    (∀ i, d1q3mat.source i = none) ∧ (∀ u, d1q3mat.Tu u = 1) ∧ ∀ u, d1q3mat.Tmu u = 1 :=
  ⟨by decide, fun j w => by fin_cases j; rfl, fun _ => rfl, fun _ => rfl, fun _ => rfl⟩

end Pylbm.Scheme
