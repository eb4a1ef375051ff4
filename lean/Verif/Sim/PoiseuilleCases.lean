import Verif.Sim.Poiseuille
import Verif.Sim.ShearCases
/-!
# C111: the scheme D2Q9
-/

set_option linter.unusedSectionVars false

namespace Pylbm.Sim
open Scheme Halo SchemeSpec Matrix HaloSpec Mpi Boundary

/-- The nine velocities of D2Q9, in the order of `Stencil`. -/
abbrev sten9 : Sten 2 where
  nu := 9
  ns := 9
  uvel := ![![0, 0], ![1, 0], ![0, 1], ![-1, 0], ![0, -1], ![1, 1], ![-1, 1], ![-1, -1], ![1, -1]]
  usym := ![0, 3, 4, 1, 2, 7, 8, 5, 6]
  ux := id
  scheme := fun _ => 0
  sym := ![0, 3, 4, 1, 2, 7, 8, 5, 6]

theorem sten9_wf : sten9.WF :=
  ⟨by unfold Function.Injective; decide +kernel, by decide +kernel, by decide +kernel, by decide +kernel,
    by decide +kernel⟩

/-- The moments 1, X, Y, 3(X²+Y²)-4, (9(X²+Y²)²-21(X²+Y²)+8)/2, 3X(X²+Y²)-5X, 3Y(X²+Y²)-5Y, X²-Y², XY at the velocities. -/
def mom9 (i j : Fin 9) : ℤ :=
  let X := sten9.vel j 0
  let Y := sten9.vel j 1
  let r := X * X + Y * Y
  (![1, X, Y, 3 * r - 4, (9 * r * r - 21 * r + 8) / 2, 3 * X * r - 5 * X, 3 * Y * r - 5 * Y, X * X - Y * Y, X * Y] : Fin 9 → ℤ) i

/-- The squares of the norms of the moments. -/
def norm9 : Fin 9 → ℤ := ![9, 6, 6, 36, 36, 12, 12, 4, 4]

/-- The equilibria, linear in the density and the momentum. -/
def eq9 : Fin 9 → Fin 3 → ℤ :=
  ![![1, 0, 0], ![0, 1, 0], ![0, 0, 1], ![-2, 0, 0], ![1, 0, 0], ![0, -1, 0], ![0, 0, -1], ![0, 0, 0], ![0, 0, 0]]

theorem mom9_orth : ∀ i k, ∑ j, mom9 i j * mom9 k j = if i = k then norm9 i else 0 := by decide +kernel

/-- The equilibrium populations of the momentum along y, times 36. -/
def even9 : Fin 9 → ℤ := ![0, 0, 12, 0, -12, 3, 3, -3, -3]

theorem even9_eq : ∀ j, ∑ i, mom9 i j * (36 / norm9 i) * eq9 i 2 = even9 j := by decide +kernel

section field
variable {K : Type} [Field K] [LinearOrder K] [IsStrictOrderedRing K]

/-- The matrix of D2Q9. -/
def mat9 : Matrix (Fin 9) (Fin 9) K := fun i j => (mom9 i j : K)

/-- Its inverse. -/
def inv9 : Matrix (Fin 9) (Fin 9) K := fun j i => (mom9 i j : K) / norm9 i

/-- The equilibria. -/
def lin9 : Matrix (Fin 9) (Fin 3) K := fun i c => (eq9 i c : K)

/-- The relaxation parameters: `sp` for the even moments, `sm` for the odd ones. -/
def rate9 (sp sm : K) : Fin 9 → K := ![0, 0, 0, sp, sp, sm, sm, sp, sp]

/-- The source terms: `G` on the momentum along y, `κ G` on the flux of energy along y. -/
def source9 (G κ : K) : Fin 9 → K := ![0, 0, G, 0, 0, 0, κ * G, 0, 0]

/-- D2Q9 with two relaxation parameters and a constant force. -/
def d2q9 (sp sm G κ h : K) : Kernel K 9 3 0 where
  M := mat9
  invM := inv9
  Tu := fun _ => 1
  Tmu := fun _ => 1
  EQ := fun i w => (lin9 *ᵥ w) i
  s := fun i _ => rate9 sp sm i
  consm := ![0, 1, 2]
  relVel := none
  source := ![none, none, some fun _ => G, none, none, none, some fun _ => κ * G, none, none]
  dt := h

/-- The field of constant `ρ` and of momentum along y. -/
def alongY (ρ v : K) : Fin 3 → K := ![ρ, 0, v]

theorem norm9_ne (i : Fin 9) : (norm9 i : K) ≠ 0 := by
  have : norm9 i ≠ 0 := by revert i; decide
  exact_mod_cast this

theorem mat9_inv : (mat9 * inv9 : Matrix (Fin 9) (Fin 9) K) = 1 := by
  ext i k
  rw [Matrix.mul_apply]
  have h : ∀ j, (mat9 i j : K) * inv9 j k = ((mom9 i j * mom9 k j : ℤ) : K) / norm9 k := by
    intro j
    simp only [mat9, inv9]
    push_cast
    ring
  simp only [h]
  rw [← Finset.sum_div, ← Int.cast_sum, mom9_orth i k, Matrix.one_apply]
  by_cases e : i = k
  · subst e
    simpa using norm9_ne (K := K) i
  · simp [e]

theorem lin9_alongY (v : K) (j : Fin 9) : linearEq inv9 lin9 (alongY 0 v) j = v / 36 * (even9 j : K) := by
  have e : ∀ i, (lin9 *ᵥ alongY 0 v) i = v * (eq9 i 2 : K) := by
    intro i
    simp [Matrix.mulVec, dotProduct, Fin.sum_univ_three, lin9, alongY]
    ring
  have h36 : ∀ i, norm9 i * (36 / norm9 i) = 36 := by decide
  unfold linearEq
  simp only [Matrix.mulVec, dotProduct] at e ⊢
  rw [← even9_eq j, Int.cast_sum, Finset.mul_sum]
  refine Finset.sum_congr rfl fun i _ => ?_
  rw [e]
  have h := norm9_ne (K := K) i
  have h' : (norm9 i : K) * ((36 / norm9 i : ℤ) : K) = 36 := by exact_mod_cast h36 i
  simp only [inv9]
  push_cast
  field_simp
  linear_combination (-(mom9 i j : K) * (eq9 i 2 : K) * v) * h'

/-- The equilibrium populations of the fluid at rest, times 9 times 4. -/
def rest9 : Fin 9 → ℤ := ![16, 4, 4, 4, 4, 1, 1, 1, 1]

theorem rest9_eq : ∀ j, ∑ i, mom9 i j * (36 / norm9 i) * eq9 i 0 = rest9 j := by decide +kernel

theorem lin9_rest (ρ : K) (j : Fin 9) : linearEq inv9 lin9 (alongY ρ 0) j = ρ / 36 * (rest9 j : K) := by
  have e : ∀ i, (lin9 *ᵥ alongY ρ 0) i = ρ * (eq9 i 0 : K) := by
    intro i
    simp [Matrix.mulVec, dotProduct, Fin.sum_univ_three, lin9, alongY]
    ring
  have h36 : ∀ i, norm9 i * (36 / norm9 i) = 36 := by decide
  unfold linearEq
  simp only [Matrix.mulVec, dotProduct] at e ⊢
  rw [← rest9_eq j, Int.cast_sum, Finset.mul_sum]
  refine Finset.sum_congr rfl fun i _ => ?_
  rw [e]
  have h := norm9_ne (K := K) i
  have h' : (norm9 i : K) * ((36 / norm9 i : ℤ) : K) = 36 := by exact_mod_cast h36 i
  simp only [inv9]
  push_cast
  field_simp
  linear_combination (-(mom9 i j : K) * (eq9 i 0 : K) * ρ) * h'

theorem forcing9 (G κ h : K) (j : Fin 9) : forcing inv9 h (source9 G κ) j =
    h * G / 6 * (mom9 2 j : K) + h * (κ * G) / 12 * (mom9 6 j : K) := by
  have e : ∀ i, inv9 j i * (h * source9 G κ i) = (if i = 2 then h * G / 6 * (mom9 2 j : K) else 0) +
      if i = 6 then h * (κ * G) / 12 * (mom9 6 j : K) else 0 := by
    intro i
    fin_cases i <;> simp [inv9, source9, norm9] <;> ring
  unfold forcing
  simp only [Matrix.mulVec, dotProduct, e]
  rw [Finset.sum_add_distrib]
  simp

/-- A moment of populations which are multiples of integers. -/
theorem mom9_sum (i : Fin 9) (t : K) (b : Fin 9 → ℤ) :
    (mat9 *ᵥ fun l => t * (b l : K)) i = t * ((∑ l, mom9 i l * b l : ℤ) : K) := by
  simp only [Matrix.mulVec, dotProduct, mat9]
  rw [Int.cast_sum, Finset.mul_sum]
  refine Finset.sum_congr rfl fun l _ => ?_
  push_cast
  ring

theorem mat9_parity : Parity (mat9 : Matrix (Fin 9) (Fin 9) K) sten9.sym where
  invol := by decide
  moment := by
    intro i
    have h : (∀ j, mom9 i (sten9.sym j) = mom9 i j) ∨ ∀ j, mom9 i (sten9.sym j) = -mom9 i j := by
      revert i; decide +kernel
    rcases h with h | h
    · left; intro j; simp only [mat9, h]
    · right; intro j; simp only [mat9, h, Int.cast_neg]

theorem d2q9_odd (G κ h v₁ v₂ : K) : OddParabola mat9 inv9 lin9 h (source9 G κ) (alongY 0 v₁) (alongY 0 v₂) sten9.vel
    sten9.sym where
  inv := mat9_inv
  parity := mat9_parity
  opposite := sten9_wf.sym
  slope := by
    intro j
    rw [lin9_alongY, lin9_alongY, (by decide : ∀ j, even9 (sten9.sym j) = -even9 j) j]
    push_cast
    ring
  curvature := by
    intro j
    rw [lin9_alongY, lin9_alongY, (by decide : ∀ j, even9 (sten9.sym j) = -even9 j) j]
    push_cast
    ring
  force := by
    intro j
    rw [forcing9, forcing9, (by decide +kernel : ∀ j, mom9 2 (sten9.sym j) = -mom9 2 j) j,
      (by decide +kernel : ∀ j, mom9 6 (sten9.sym j) = -mom9 6 j) j]
    push_cast
    ring

theorem d2q9_flux (h v : K) (c : Fin 3) :
    (mat9 *ᵥ fun l => h * (sten9.vel l 0 : K) * linearEq inv9 lin9 (alongY 0 v) l) ((![0, 1, 2] : Fin 3 → Fin 9) c) = 0 := by
  have e : (fun l => h * (sten9.vel l 0 : K) * linearEq inv9 lin9 (alongY 0 v) l) =
      fun l => (h * v / 36) * ((sten9.vel l 0 * even9 l : ℤ) : K) := by
    funext l
    rw [lin9_alongY]
    push_cast
    ring
  rw [e, mom9_sum, (by decide +kernel : ∀ c : Fin 3,
    ∑ l, mom9 ((![0, 1, 2] : Fin 3 → Fin 9) c) l * (sten9.vel l 0 * even9 l) = 0) c]
  simp

theorem d2q9_parity (sp sm : K) (i : Fin 9) : (∃ c, i = (![0, 1, 2] : Fin 3 → Fin 9) c) ∨
    (∀ j, (mat9 i (sten9.sym j) : K) = mat9 i j) ∧ rate9 sp sm i = sp ∨
    (∀ j, (mat9 i (sten9.sym j) : K) = -mat9 i j) ∧ rate9 sp sm i = sm := by
  have h : (∃ c, i = (![0, 1, 2] : Fin 3 → Fin 9) c) ∨
      (∀ j, mom9 i (sten9.sym j) = mom9 i j) ∧ (i = 3 ∨ i = 4 ∨ i = 7 ∨ i = 8) ∨
      (∀ j, mom9 i (sten9.sym j) = -mom9 i j) ∧ (i = 5 ∨ i = 6) := by
    revert i; decide +kernel
  rcases h with h | h | h
  · exact Or.inl h
  · refine Or.inr (Or.inl ⟨fun j => by simp only [mat9, h.1], ?_⟩)
    rcases h.2 with rfl | rfl | rfl | rfl <;> rfl
  · refine Or.inr (Or.inr ⟨fun j => by simp only [mat9, h.1, Int.cast_neg], ?_⟩)
    rcases h.2 with rfl | rfl <;> rfl

/-- The balance of the viscous force and the source. -/
theorem d2q9_balance (sp G κ h v₁ v₂ : K) (hG : (2 / sp - 1) * h * v₂ = -3 * G) (c : Fin 3) :
    (mat9 *ᵥ fun j => (2 / sp - 1) * (h * (sten9.vel j 0 : K)) ^ 2 * linearEq inv9 lin9 (alongY 0 v₂) j +
      forcing inv9 h (source9 G κ) j) ((![0, 1, 2] : Fin 3 → Fin 9) c) =
    (mat9 *ᵥ fun l => h * (sten9.vel l 0 : K) * linearEq inv9 lin9 (alongY 0 v₁) l) ((![0, 1, 2] : Fin 3 → Fin 9) c) := by
  rw [d2q9_flux]
  have e : (fun j => (2 / sp - 1) * (h * (sten9.vel j 0 : K)) ^ 2 * linearEq inv9 lin9 (alongY 0 v₂) j +
      forcing inv9 h (source9 G κ) j) = (fun j => ((2 / sp - 1) * h ^ 2 * v₂ / 36) * ((sten9.vel j 0 ^ 2 * even9 j : ℤ) : K)) +
      (fun j => (h * G / 6) * (mom9 2 j : K)) + fun j => (h * (κ * G) / 12) * (mom9 6 j : K) := by
    funext j
    rw [lin9_alongY, forcing9]
    simp only [Pi.add_apply]
    push_cast
    ring
  rw [e, Matrix.mulVec_add, Matrix.mulVec_add, Pi.add_apply, Pi.add_apply, mom9_sum, mom9_sum, mom9_sum]
  have h1 : ∀ c : Fin 3, ∑ l, mom9 ((![0, 1, 2] : Fin 3 → Fin 9) c) l * (sten9.vel l 0 ^ 2 * even9 l) = if c = 2 then 12 else 0 := by
    decide +kernel
  have h2 : ∀ c : Fin 3, ∑ l, mom9 ((![0, 1, 2] : Fin 3 → Fin 9) c) l * mom9 2 l = if c = 2 then 6 else 0 := by
    decide +kernel
  have h3 : ∀ c : Fin 3, ∑ l, mom9 ((![0, 1, 2] : Fin 3 → Fin 9) c) l * mom9 6 l = 0 := by
    decide +kernel
  rw [h1, h2, h3]
  by_cases hc : c = 2
  · simp [hc]
    linear_combination (h / 3) * hG
  · simp [hc]

theorem d2q9_wall (sp sm G κ h v₂ : K) (hh : h ≠ 0) (hG : (2 / sp - 1) * h * v₂ = -3 * G) (j : Fin 9)
    (hj : sten9.vel j 0 ≠ 0) :
    ((2 / sm - 1) * ((2 / sp - 1) * (h * (sten9.vel j 0 : K)) ^ 2 * linearEq inv9 lin9 (alongY 0 v₂) j +
      forcing inv9 h (source9 G κ) j) = (h * (sten9.vel j 0 : K)) ^ 2 / 2 * linearEq inv9 lin9 (alongY 0 v₂) j) ↔
    (sten9.vel j 1 ≠ 0 → v₂ ≠ 0 → (1 - κ) * ((1 / sp - 1 / 2) * (1 / sm - 1 / 2)) = 3 / 8) := by
  obtain ⟨h1, h2, h3, h4⟩ := (by decide +kernel : ∀ j, sten9.vel j 0 ≠ 0 → sten9.vel j 0 ^ 2 = 1 ∧
    even9 j = 3 * sten9.vel j 1 ∧ mom9 2 j = sten9.vel j 1 ∧ mom9 6 j = sten9.vel j 1) j hj
  have h1' : (sten9.vel j 0 : K) ^ 2 = 1 := by exact_mod_cast h1
  rw [lin9_alongY, forcing9, h2, h3, h4, mul_pow, h1', ← sub_eq_zero]
  have e : (2 / sm - 1) * ((2 / sp - 1) * (h ^ 2 * 1) * (v₂ / 36 * ((3 * sten9.vel j 1 : ℤ) : K)) +
        (h * G / 6 * (sten9.vel j 1 : K) + h * (κ * G) / 12 * (sten9.vel j 1 : K))) -
      h ^ 2 * 1 / 2 * (v₂ / 36 * ((3 * sten9.vel j 1 : ℤ) : K)) =
        (sten9.vel j 1 : K) * (h ^ 2 * v₂ / 9) * ((1 - κ) * ((1 / sp - 1 / 2) * (1 / sm - 1 / 2)) - 3 / 8) := by
    push_cast
    linear_combination ((2 / sm - 1) * h * (2 + κ) * (sten9.vel j 1 : K) / 36) * hG
  rw [e, mul_eq_zero, mul_eq_zero, sub_eq_zero]
  have hz : h ^ 2 * v₂ / 9 = 0 ↔ v₂ = 0 := by
    constructor
    · intro h0
      have : h ^ 2 ≠ 0 := pow_ne_zero 2 hh
      field_simp at h0
      simpa [hh] using h0
    · rintro rfl; simp
  rw [hz, Int.cast_eq_zero]
  tauto

/-- **C111, the scheme D2Q9.** With the linear equilibria, a constant force `G` along the channel (and `κ G` on the flux of
energy) and two relaxation parameters, `sp` for the even moments and `sm` for the odd ones, the parabola whose curvature
balances the force is a steady flow of the scheme, whatever `sm`. Bounce-back on walls halfway between the cells, where the
user imposes the velocity of the parabola, returns it on all the links if and only if
`(1 - κ) (1/sp - 1/2) (1/sm - 1/2) = 3/8`. With `κ = 0` (the source term on the momentum alone) the product is `3/8`, and not the
`3/16` known for the forces which enter both moments (`κ = -1`). -/
theorem C111_d2q9 (sp sm G κ h ρ v₀ v₁ v₂ : K) (hsp : sp ≠ 0) (hsm : sm ≠ 0) (hh : h ≠ 0)
    (hG : (2 / sp - 1) * h * v₂ = -3 * G) (hv₂ : v₂ ≠ 0) (alg : Algo) :
    let F := parabolicFlow mat9 inv9 lin9 (rate9 sp sm) h (source9 G κ) (alongY ρ v₀) (alongY 0 v₁) (alongY 0 v₂) sten9.vel h 0
    Solves (collide (d2q9 sp sm G κ h) alg) sten9.vel h h F ∧
    (∀ t p, (mat9 *ᵥ F t p) 0 = ρ ∧ (mat9 *ᵥ F t p) 1 = 0 ∧
      (mat9 *ᵥ F t p) 2 = v₀ + p 0 * v₁ + p 0 ^ 2 * v₂ + h / 2 * G) ∧
    ∀ ψ : Flow K 2 9, (∀ t x j, ψ t x j - ψ t x (sten9.sym j) =
        linearEq inv9 lin9 (parabola (alongY ρ v₀) (alongY 0 v₁) (alongY 0 v₂) (x 0)) j -
        linearEq inv9 lin9 (parabola (alongY ρ v₀) (alongY 0 v₁) (alongY 0 v₂) (x 0)) (sten9.sym j)) →
      ((∀ j t p, sten9.vel j 0 ≠ 0 → Returns .bounceBack sten9.vel h (1 / 2) F ψ j (sten9.sym j) t p) ↔
        (1 - κ) * ((1 / sp - 1 / 2) * (1 / sm - 1 / 2)) = 3 / 8) := by
  intro F
  have hodd := d2q9_odd G κ h v₁ v₂
  have hb := balance_two (mat9 : Matrix _ _ K) inv9 sten9.sym ![0, 1, 2] lin9 (rate9 sp sm) sp sm (d2q9_parity sp sm) h
    (source9 G κ) (alongY 0 v₁) (alongY 0 v₂) sten9.vel h 0 (d2q9_flux h v₂) hodd
  have hst := C111_steady (d2q9 sp sm G κ h) (fun j w => by
      fin_cases j <;> simp [d2q9, Matrix.mulVec, dotProduct, Fin.sum_univ_three, lin9, eq9]) mat9_inv (source9 G κ)
    (fun i => by fin_cases i <;> simp [d2q9, source9]) rfl alg lin9 (rate9 sp sm) (alongY ρ v₀) (alongY 0 v₁) (alongY 0 v₂)
    (fun _ _ => rfl) (fun _ _ => rfl)
    (fun i => by
      rcases d2q9_parity sp sm i with hi | hi | hi
      · exact Or.inl hi
      · right; rw [hi.2]; exact hsp
      · right; rw [hi.2]; exact hsm) sten9.vel h 0 (d2q9_flux h v₂)
    (fun c => by
      show (mat9 *ᵥ balance mat9 inv9 (rate9 sp sm) h (source9 G κ) (fun m => h * (sten9.vel m 0 : K))
        (linearEq inv9 lin9 (alongY 0 v₂))) _ = _
      rw [hb]
      exact d2q9_balance sp G κ h v₁ v₂ hG c)
  refine ⟨hst.1, fun t p => ⟨?_, ?_, ?_⟩, fun ψ hψ => ?_⟩
  · refine (hst.2 t p 0).trans ?_
    simp [d2q9, parabola, alongY, source9]
  · refine (hst.2 t p 1).trans ?_
    simp [d2q9, parabola, alongY, source9]
  · refine (hst.2 t p 2).trans ?_
    simp [d2q9, parabola, alongY, source9]
  · have key : ∀ j t p, sten9.vel j 0 ≠ 0 → (Returns .bounceBack sten9.vel h (1 / 2) F ψ j (sten9.sym j) t p ↔
        (sten9.vel j 1 ≠ 0 → v₂ ≠ 0 → (1 - κ) * ((1 / sp - 1 / 2) * (1 / sm - 1 / 2)) = 3 / 8)) := by
      intro j t p hj
      rw [← d2q9_wall sp sm G κ h v₂ hh hG j hj]
      exact C111_two_rates mat9 inv9 sten9.sym ![0, 1, 2] lin9 (rate9 sp sm) sp sm (d2q9_parity sp sm) h (source9 G κ)
        (alongY ρ v₀) (alongY 0 v₁) (alongY 0 v₂) sten9.vel h 0 (d2q9_flux h v₂) (d2q9_balance sp G κ h v₁ v₂ hG) hodd ψ j t p
        (hψ _ _ _)
    constructor
    · intro hall
      exact (key 5 0 0 (by decide)).1 (hall 5 0 0 (by decide)) (by decide) hv₂
    · intro hm j t p hj
      exact (key j t p hj).2 fun _ _ => hm

/-- A case for C111: `sp = 1`, `sm = 4/5`, a force `-1/3` and the curvature 1. -/
example : (1 - 0) * ((1 / 1 - 1 / 2) * (1 / (4 / 5) - 1 / 2)) = (3 / 8 : ℚ) ∧ (2 / 1 - 1) * 1 * 1 = -3 * (-1 / 3 : ℚ) := by
  norm_num

end field

/-! ## Between two walls at rest -/

section run
variable {K : Type} [Field K] [LinearOrder K] [IsStrictOrderedRing K] [FloorRing K]

/-- **C111, the Poiseuille flow of D2Q9.** In a box of any size, periodic along y, between two walls at rest across x with
bounce-back, on any number of processes, for every number of steps: with `(1 - κ) (1/sp - 1/2) (1/sm - 1/2) = 3/8` the
simulation which starts from the populations of the parabola `v₂ (x - x₀) (x - x₁)`, zero on the walls and balanced by the force,
keeps it exactly. -/
theorem C111_d2q9_channel (D : WallData K 2 sten9) (lo : Fin 2 → K) (h : K) (lab : Fin 2 → Bool → Int) (hD : D.WF lab)
    (g : Grid 2) (ST : Domain.State K 2 sten9.nu) (J : List (Method 2 × List (Entry K 2 sten9.ns)))
    (hJ : OnGrid D (boxGrid g.N g.w lo h lab sten9) ST J)
    (hempty : D.elems = []) (hels : ∀ l ∈ D.els, l ≠ -1 ∧ l ≠ -2)
    (hlab : ∀ side, lab 0 side ≠ -1 ∧ lab 0 side ≠ -2) (hper : PerAxis lab 1)
    (hmeth : AllMethods D) (hbb : ∀ l ms, D.dico l = some ms → ∀ q ∈ ms, q.2 = .bounceBack)
    (hrest : ∀ l t x j, x 0 = lo 0 ∨ x 0 = lo 0 + h * g.N 0 → D.ψ l t x j = D.ψ l t x (sten9.sym j))
    (sp sm G κ ρ v₂ : K) (hsp : sp ≠ 0) (hsm : sm ≠ 0) (hh : h ≠ 0) (hG : (2 / sp - 1) * h * v₂ = -3 * G)
    (hmagic : (1 - κ) * ((1 / sp - 1 / 2) * (1 / sm - 1 / 2)) = 3 / 8) (alg : Algo)
    (Q : Proc g → Setup K 9 3 0 2) (hQ : FluidRun D g lo h lab (d2q9 sp sm G κ h) alg Q)
    (σ₀ : Proc g → Simu K 9 0 2) (h0 : ∀ c, (σ₀ c).Start (Q c))
    (ha : ∀ c x, Owned (size g c) g.w x → (σ₀ c).arr x = parabolicFlow mat9 inv9 lin9 (rate9 sp sm) h (source9 G κ)
      (alongY ρ (v₂ * lo 0 * (lo 0 + h * g.N 0))) (alongY 0 (-v₂ * (2 * lo 0 + h * g.N 0))) (alongY 0 v₂) sten9.vel h 0 0
      (cellPoint lo h (globalPos (first g c) g.w x)))
    (k : Nat) (σ : Proc g → Simu K 9 0 2) (hrun : PRun g Q σ₀ k σ) (c : Proc g) (x : Cell 2)
    (hx : Owned (size g c) g.w x) :
    (σ c).arr x = (σ₀ c).arr x ∧ (mat9 *ᵥ (σ c).arr x) 0 = ρ ∧ (mat9 *ᵥ (σ c).arr x) 1 = 0 ∧
      (mat9 *ᵥ (σ c).arr x) 2 = v₂ * (cellPoint lo h (globalPos (first g c) g.w x) 0 - lo 0) *
        (cellPoint lo h (globalPos (first g c) g.w x) 0 - (lo 0 + h * g.N 0)) + h / 2 * G := by
  set v₀ := v₂ * lo 0 * (lo 0 + h * g.N 0) with hv₀
  set v₁ := -v₂ * (2 * lo 0 + h * g.N 0) with hv₁
  have hodd := d2q9_odd G κ h v₁ v₂
  have hb := balance_two (mat9 : Matrix _ _ K) inv9 sten9.sym ![0, 1, 2] lin9 (rate9 sp sm) sp sm (d2q9_parity sp sm) h
    (source9 G κ) (alongY 0 v₁) (alongY 0 v₂) sten9.vel h 0 (d2q9_flux h v₂) hodd
  have key := C111_poiseuille (by decide) D lo h lab hD g ST J hJ hempty hels (by decide +kernel) 0 hlab
    (fun j => by
      fin_cases j
      · exact Or.inl rfl
      · exact Or.inr ⟨by decide, hper⟩) hmeth hbb (d2q9 sp sm G κ h) (fun j => by fin_cases j <;> simp [d2q9]) alg
    (fun j w => by
      fin_cases j <;> simp [d2q9, Matrix.mulVec, dotProduct, Fin.sum_univ_three, lin9, eq9]) (source9 G κ)
    (fun i => by fin_cases i <;> simp [d2q9, source9]) rfl lin9 (rate9 sp sm) (alongY ρ v₀) (alongY 0 v₁) (alongY 0 v₂)
    (fun _ _ => rfl) (fun _ _ => rfl)
    (fun i => by
      rcases d2q9_parity sp sm i with hi | hi | hi
      · exact Or.inl hi
      · right; rw [hi.2]; exact hsp
      · right; rw [hi.2]; exact hsm) (d2q9_flux h v₂)
    (fun c => by
      show (mat9 *ᵥ balance mat9 inv9 (rate9 sp sm) h (source9 G κ) (fun m => h * (sten9.vel m 0 : K))
        (linearEq inv9 lin9 (alongY 0 v₂))) _ = _
      rw [hb]
      exact d2q9_balance sp G κ h v₁ v₂ hG c) hodd
    (fun j hj => by
      have h1 := (d2q9_wall sp sm G κ h v₂ hh hG j hj).2 fun _ _ => hmagic
      have h2 := C111_two_rates mat9 inv9 sten9.sym ![0, 1, 2] lin9 (rate9 sp sm) sp sm (d2q9_parity sp sm) h (source9 G κ)
        (alongY ρ v₀) (alongY 0 v₁) (alongY 0 v₂) sten9.vel h 0 (d2q9_flux h v₂) (d2q9_balance sp G κ h v₁ v₂ hG) hodd
        (fun _ x => linearEq inv9 lin9 (parabola (alongY ρ v₀) (alongY 0 v₁) (alongY 0 v₂) (x 0))) j 0 0 rfl
      have h3 := C111_bounce_back mat9 inv9 lin9 (rate9 sp sm) h (source9 G κ)
        (alongY ρ v₀) (alongY 0 v₁) (alongY 0 v₂) sten9.vel sten9.sym h 0 hodd
        (fun _ x => linearEq inv9 lin9 (parabola (alongY ρ v₀) (alongY 0 v₁) (alongY 0 v₂) (x 0))) j 0 0 rfl
      exact h3.1 (h2.2 h1))
    (fun l t x j hx => by
      rw [hrest l t x j hx, sub_self]
      have hz : parabola (alongY ρ v₀) (alongY 0 v₁) (alongY 0 v₂) (x 0) = alongY ρ 0 := by
        funext c
        fin_cases c
        · simp [parabola, alongY]
        · simp [parabola, alongY]
        · simp only [parabola, alongY, hv₀, hv₁]
          rcases hx with hx | hx <;> rw [hx] <;> simp <;> ring
      show _ = linearEq inv9 lin9 _ _ - linearEq inv9 lin9 _ _
      rw [hz, lin9_rest, lin9_rest]
      rw [(by decide : ∀ j, rest9 (sten9.sym j) = rest9 j) j, sub_self])
    Q hQ σ₀ h0 ha k σ hrun c x hx
  refine ⟨key.1, ?_, ?_, ?_⟩
  · refine (key.2 0).trans ?_
    simp [d2q9, parabola, alongY, source9]
  · refine (key.2 1).trans ?_
    simp [d2q9, parabola, alongY, source9]
  · refine (key.2 2).trans ?_
    simp [d2q9, parabola, alongY, source9, hv₀, hv₁]
    ring

end run

/-- Bounce-back on both walls, at rest. -/
def atRest9 : WallData ℚ 2 sten9 where
  elems := []
  els := []
  dico := fun _ => some [(0, .bounceBack)]
  ψ := fun _ _ _ => linearEq inv9 lin9 (alongY 1 0)

theorem atRest9_wf : atRest9.WF wallsFirst where
  sten := sten9_wf
  sound := by intro e he; cases he
  labels := by intro e he; cases he
  dict := by intro l ms h; simp only [atRest9] at h; cases h; simp
  no999 := by simp [atRest9]
  noFace := by decide

/-- A case for C111: the Poiseuille flow `v x (x - 3)` on the grid 3 × 4 and two processes, with `sp = 1`, `sm = 4/5` and the
force `-v/3` along y. -/
theorem poiseuille_case (v : ℚ) (alg : Algo) (k : Nat) :
    ∃ σ, PRun gridC (plateSetup atRest9 wallsFirst (d2q9 1 (4 / 5) (-v / 3) 0 1) alg gridC)
      (fun c => startWith 9 0 2 fun x => parabolicFlow mat9 inv9 lin9 (rate9 1 (4 / 5)) 1 (source9 (-v / 3) 0)
        (alongY 1 (v * 0 * (0 + 1 * gridC.N 0))) (alongY 0 (-v * (2 * 0 + 1 * gridC.N 0))) (alongY 0 v) sten9.vel 1 0 0
        (cellPoint (fun _ => 0) 1 (globalPos (first gridC c) gridC.w x))) k σ ∧
    ∀ c x, Owned (size gridC c) gridC.w x → (mat9 *ᵥ (σ c).arr x) 2 =
      v * (globalPos (first gridC c) gridC.w x 0 + 1 / 2) * (globalPos (first gridC c) gridC.w x 0 - 5 / 2) - v / 6 := by
  have h : ∀ c i, gridC.w i ≤ size gridC c i := (large_iff gridC).2 (by decide)
  have hs : ∀ c, (plateData atRest9 wallsFirst gridC c).isSome := by decide +kernel
  obtain ⟨⟨st, I⟩, hp⟩ := Option.isSome_iff_exists.1
    (by decide +kernel : (wallData atRest9 gridC.N gridC.w wallsFirst).isSome = true)
  have ho := wallData_onGrid (by decide) hp
  obtain ⟨σ, hσ⟩ := C42_run_exists (by decide) gridC h (plateSetup atRest9 wallsFirst (d2q9 1 (4 / 5) (-v / 3) 0 1) alg gridC)
    (fun c => startWith 9 0 2 fun x => parabolicFlow mat9 inv9 lin9 (rate9 1 (4 / 5)) 1 (source9 (-v / 3) 0)
        (alongY 1 (v * 0 * (0 + 1 * gridC.N 0))) (alongY 0 (-v * (2 * 0 + 1 * gridC.N 0))) (alongY 0 v) sten9.vel 1 0 0
        (cellPoint (fun _ => 0) 1 (globalPos (first gridC c) gridC.w x))) k
  refine ⟨σ, hσ, fun c x hx => ?_⟩
  have hsym : ∀ j, rest9 (sten9.sym j) = rest9 j := by decide
  have := (C111_d2q9_channel atRest9 (fun _ => 0) 1 wallsFirst atRest9_wf gridC st I ho rfl (by simp [atRest9]) (by decide) (by unfold PerAxis; decide)
    (by
      intro l ms hl j
      simp only [atRest9] at hl
      cases hl
      exact ⟨.bounceBack, by simp⟩)
    (by
      intro l ms hl q hq
      simp only [atRest9] at hl
      cases hl
      rw [List.mem_singleton.1 hq])
    (fun l t x j _ => by simp only [atRest9, lin9_rest, hsym]) 1 (4 / 5) (-v / 3) 0 1 v (by norm_num) (by norm_num) (by norm_num)
    (by ring) (by norm_num) alg _
    (plate_run atRest9 wallsFirst (d2q9 1 (4 / 5) (-v / 3) 0 1) alg gridC h (by decide) rfl hs) _
    (fun c => plate_start _ _ _ _ _ _ _) (fun _ _ _ => rfl) k σ hσ c x hx).2.2.2
  rw [this]
  simp [cellPoint, gridC]
  ring

/-! ## D2Q4 -/

theorem fluid4_parity : Parity fluid4.M stenX.sym where
  invol := by decide
  moment := by
    intro i
    fin_cases i
    · left; decide +kernel
    · right; decide +kernel
    · right; decide +kernel
    · left; decide +kernel

theorem fluid4_eqY (v : ℚ) (j : Fin 4) : linearEq fluid4.invM fluid4Eq (alongY 0 v) j = v / 4 * ![1, -1, 1, -1] j := by
  fin_cases j <;> simp [linearEq, fluid4, fluid4Eq, alongY, Matrix.mulVec, dotProduct, Fin.sum_univ_four,
    Fin.sum_univ_three] <;> ring

theorem fluid4_forcing (G : ℚ) (j : Fin 4) : forcing fluid4.invM 1 ![0, 0, G, 0] j = G / 4 * ![1, -1, 1, -1] j := by
  fin_cases j <;> simp [forcing, fluid4, Matrix.mulVec, dotProduct, Fin.sum_univ_four] <;> ring

theorem fluid4_parabola (G v₁ v₂ : ℚ) : OddParabola fluid4.M fluid4.invM fluid4Eq 1 ![0, 0, G, 0] (alongY 0 v₁) (alongY 0 v₂)
    stenX.vel stenX.sym where
  inv := fluid4_inv
  parity := fluid4_parity
  opposite := stenX_wf.sym
  slope := by intro j; rw [fluid4_eqY, fluid4_eqY]; fin_cases j <;> simp
  curvature := by intro j; rw [fluid4_eqY, fluid4_eqY]; fin_cases j <;> simp
  force := by intro j; rw [fluid4_forcing, fluid4_forcing]; fin_cases j <;> simp

/-- A case for the limit of C111: the parabola of curvature `v₂ ≠ 0` balanced by the force `-(2/s - 1) v₂` with the relaxation
parameter `s` of the stress: D2Q4 keeps it in the open space, and no value of `s` makes bounce-back return it. -/
example (s v₀ v₁ v₂ : ℚ) (hs : s ≠ 0) (hv : v₂ ≠ 0) (j : Fin 4) (t : ℚ) (p : Fin 2 → ℚ) :
    ¬ Returns .bounceBack stenX.vel 1 (1 / 2) (parabolicFlow fluid4.M fluid4.invM fluid4Eq ![0, 0, 0, s] 1
      ![0, 0, -(2 / s - 1) * v₂, 0] (alongY 1 v₀) (alongY 0 v₁) (alongY 0 v₂) stenX.vel 1 0)
      (fun _ x => linearEq fluid4.invM fluid4Eq (parabola (alongY 1 v₀) (alongY 0 v₁) (alongY 0 v₂) (x 0))) j (stenX.sym j) t p := by
  have h0 : ∀ j : Fin 4, (stenX.vel j 0 : ℚ) = ![1, -1, -1, 1] j := by decide +kernel
  refine C111_even_negation fluid4.M fluid4.invM fluid4Eq fluid4.consm ![0, 0, 0, s] 1 _ _ _ _ stenX.vel stenX.sym 1
    one_ne_zero 0 (fun i => ?_) (fun c => ?_) (fluid4_parabola _ v₁ v₂) _ j t p rfl ?_ ?_
  · fin_cases i
    · exact Or.inl ⟨0, rfl⟩
    · exact Or.inl ⟨1, rfl⟩
    · exact Or.inl ⟨2, rfl⟩
    · exact Or.inr (by decide +kernel)
  · have e : balance fluid4.M fluid4.invM ![0, 0, 0, s] 1 ![0, 0, -(2 / s - 1) * v₂, 0] (fun m => 1 * (stenX.vel m 0 : ℚ))
        (linearEq fluid4.invM fluid4Eq (alongY 0 v₂)) = 0 := by
      funext j
      unfold balance delay
      rw [fluid4_forcing]
      simp only [fluid4_eqY, h0]
      fin_cases j <;> simp [fluid4, Matrix.mulVec, dotProduct, Fin.sum_univ_four] <;> field_simp <;> ring
    rw [e, Matrix.mulVec_zero]
    simp only [fluid4_eqY, h0]
    fin_cases c <;> simp [fluid4, Matrix.mulVec, dotProduct, Fin.sum_univ_four]
  · revert j; decide
  · rw [fluid4_eqY]
    fin_cases j <;> simpa using hv

end Pylbm.Sim
