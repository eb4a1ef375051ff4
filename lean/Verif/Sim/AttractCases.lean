import Verif.Sim.AttractAffine
import Verif.Sim.ClosedCases
import Mathlib.Tactic.FieldSimp
/-!
# C121: a case for the attraction by exact flows
-/

namespace Pylbm.Sim
open Scheme Halo SchemeSpec Matrix HaloSpec Mpi Boundary

/-- The steady conduction `u = v + g x`, with the flux of the gradient. -/
noncomputable def conduction (α r₁ v g : ℝ) : Flow ℝ 1 3 := fun _ p =>
  ![(1 - α) * (v + g * p 0), α / 2 * (v + g * p 0) - (1 - r₁) * α * g / r₁ / 2, α / 2 * (v + g * p 0) + (1 - r₁) * α * g / r₁ / 2]

/-- A case for `C121_flow`: the steady conduction between two ends with the values of the flow attracts all the simulations. -/
example (α r₁ r₂ v g : ℝ) (hα : 0 < α ∧ α < 1) (h₁ : 0 < r₁ ∧ r₁ < 2) (h₂ : 0 < r₂ ∧ r₂ < 2) (a : Algo) :
    ∃ q : ℝ, q < 1 ∧ ∀ A : Arr ℝ 3 1, ∃ C : ℝ, ∀ k σ,
      PRun gridTube (tubeSetup true (fun _ => conduction α r₁ v g) (heatR α r₁ r₂) a) (fun _ => startWith 3 0 1 A) k σ →
      ∀ c x j, Owned (size gridTube c) gridTube.w x →
        ((σ c).arr x j - conduction α r₁ v g 0 (cellPoint (fun _ => 0) 1 (globalPos (first gridTube c) gridTube.w x)) j) ^ 2 ≤
          C * q ^ k := by
  obtain ⟨⟨st, I⟩, hp⟩ := Option.isSome_iff_exists.1 (tubeData_one true)
  have hcomb : Combines (heatR α r₁ r₂) 1 (-1) := C90_schemes _ (fun i _ => ![1, 0, α] i) 0 0 0
    (fun i w => by fin_cases i <;> simp [heatR]) (fun i _ _ => by fin_cases i <;> rfl) (fun q hq => by cases hq)
    (fun i q hq => by cases hq) _ _ (.inr ⟨rfl, rfl⟩)
  have v0 : sten3.vel 0 0 = 0 := rfl
  have v1 : sten3.vel 1 0 = 1 := rfl
  have v2 : sten3.vel 2 0 = -1 := rfl
  have hr : r₁ ≠ 0 := h₁.1.ne'
  have hF : Solves (collide (heatR α r₁ r₂) a) sten3.vel 1 1 (conduction α r₁ v g) := by
    intro t p
    rw [collide_linear (heatR α r₁ r₂) (fun j w => by fin_cases j; rfl) (fun _ => rfl) rfl a !![1; 0; α]
      (fun i w => by fin_cases i <;> simp [heatR, Matrix.mulVec, dotProduct]) ![0, r₁, r₂] (fun i w => by fin_cases i <;> rfl)]
    funext j
    fin_cases j <;>
      simp [heatR, conduction, Matrix.mulVec, dotProduct, Fin.sum_univ_three, v0, v1, v2] <;> field_simp <;> ring
  have hch := tube_chamber hp
  have hwall : WallsReturn (otherValues (tube true) fun _ => conduction α r₁ v g) gridTube.N gridTube.w (fun _ => 0) 1 st
      (conduction α r₁ v g) := by
    intro y hy hyf u j j' ho hu hs hjj ms hms m hm t
    have hd := hch.links.2 y hy u ho
    have hm' : m = .antiBounceBack := by
      cases hms
      simpa using (List.mem_singleton.1 hm)
    subst hm'
    unfold Returns reflection
    rw [hd]
    have hj := hjj 0
    simp only [otherValues]
    fin_cases j <;> fin_cases j' <;> simp [v0, v1, v2] at hj <;> simp [conduction, v0, v1, v2] <;> ring
  obtain ⟨q, -, h1, h⟩ := C121_flow (D := otherValues (tube true) fun _ => conduction α r₁ v g) (ε := fun _ => -1) (by omega)
    (by decide) hch (show ∀ j : Fin 1, ((![0] : Fin 1 → Fin 3) j : Nat) < 1 by decide) (heatR_damped α r₁ r₂ hα h₁ h₂) hcomb
    (fun i _ f => heatR_mirrors α r₁ r₂ (-1) (.inr rfl) a i f) (fun j => by fin_cases j <;> rfl)
    (connects_rest _ _ 0 (by decide) (by decide)) hF (by
      intro t p q hq
      have : q = p := by
        funext i
        refine (hq i).resolve_right fun hh => ?_
        have := hh.1 true
        revert this
        simp [wallsLine]
      rw [this]) hwall
  refine ⟨q, h1, fun A => ?_⟩
  obtain ⟨G, hG⟩ := C15_global_array_exists gridTube fun _ => A
  obtain ⟨C, hC⟩ := h gridTube rfl rfl _ (tube_run true _ _ a) (fun _ => startWith 3 0 1 A)
    (fun c => ⟨show (0 : Fin 2) ≠ 1 by decide, rfl, rfl, rfl⟩) G hG (.inl ⟨0, rfl, rfl⟩)
  exact ⟨C, fun k σ hr c x j hx => hC k σ hr c x hx j⟩

/-- A case for `C121_affine`: the equilibrium of the values `v + g x` imposed at the ends of the tube. -/
example (α r₁ r₂ v g : ℝ) (hα : 0 < α ∧ α < 1) (h₁ : 0 < r₁ ∧ r₁ < 2) (h₂ : 0 < r₂ ∧ r₂ < 2) (a : Algo) :
    ∃ q : ℝ, q < 1 ∧ ∀ A : Arr ℝ 3 1, ∃ C : ℝ, ∀ k σ,
      PRun gridTube (tubeSetup true (fun _ _ p => ![(1 - α) * (v + g * p 0), α / 2 * (v + g * p 0), α / 2 * (v + g * p 0)])
        (heatR α r₁ r₂) a) (fun _ => startWith 3 0 1 A) k σ →
      ∀ c x, Owned (size gridTube c) gridTube.w x →
        ((σ c).arr x 0 + (σ c).arr x 1 + (σ c).arr x 2 -
          (v + g * ((globalPos (first gridTube c) gridTube.w x 0 : ℝ) + 1 / 2))) ^ 2 ≤ C * q ^ k := by
  obtain ⟨⟨st, I⟩, hp⟩ := Option.isSome_iff_exists.1 (tubeData_one true)
  have hcomb : Combines (heatR α r₁ r₂) 1 (-1) := C90_schemes _ (fun i _ => ![1, 0, α] i) 0 0 0
    (fun i w => by fin_cases i <;> simp [heatR]) (fun i _ _ => by fin_cases i <;> rfl) (fun q hq => by cases hq)
    (fun i q hq => by cases hq) _ _ (.inr ⟨rfl, rfl⟩)
  have v0 : sten3.vel 0 0 = 0 := rfl
  have v1 : sten3.vel 1 0 = 1 := rfl
  have v2 : sten3.vel 2 0 = -1 := rfl
  obtain ⟨q, -, h1, h⟩ := C121_affine
    (D := otherValues (tube true) fun _ _ p => ![(1 - α) * (v + g * p 0), α / 2 * (v + g * p 0), α / 2 * (v + g * p 0)])
    (ε := fun _ => -1) (by omega)
    (by decide) (tube_chamber hp) (show ∀ j : Fin 1, ((![0] : Fin 1 → Fin 3) j : Nat) < 1 by decide)
    (heatR_damped α r₁ r₂ hα h₁ h₂) hcomb
    (fun i _ f => heatR_mirrors α r₁ r₂ (-1) (.inr rfl) a i f) (fun j => by fin_cases j <;> rfl)
    (connects_rest _ _ 0 (by decide) (by decide)) ⟨0, rfl, rfl⟩
    (by
      intro l ms hms q hq
      cases hms
      rw [List.mem_singleton.1 hq]
      rfl)
    (fun i w => by fin_cases i <;> simp [heatR, Matrix.mulVec, dotProduct])
    (fun u j => by
      fin_cases j <;> simp [heatR, linearEq, Matrix.mulVec, dotProduct, Fin.sum_univ_three])
    (fun _ => v) (fun _ _ => g)
    (by
      intro i hi
      have := hi true
      revert this
      simp [wallsLine])
    (by
      intro l t p j
      fin_cases j <;>
        simp [otherValues, heatR, steadyFlow, affineFlow, steadyPart, eqVariation, alongLink, eqGradient, linearEq, Matrix.mulVec,
          dotProduct, Fin.sum_univ_three, v0, v1, v2] <;> ring)
  refine ⟨q, h1, fun A => ?_⟩
  obtain ⟨C, hC⟩ := h gridTube rfl rfl _ (tube_run true _ _ a) (fun _ => startWith 3 0 1 A)
    (fun c => ⟨show (0 : Fin 2) ≠ 1 by decide, rfl, rfl, rfl⟩)
  refine ⟨C, fun k σ hr c x hx => ?_⟩
  have := hC k σ hr c x hx
  simpa [heatR, Matrix.mulVec, dotProduct, Fin.sum_univ_three, cellPoint] using this

end Pylbm.Sim
