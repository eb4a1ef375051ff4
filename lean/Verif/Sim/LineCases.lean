import Verif.Sim.Line
import Verif.Sim.PoiseuilleCases
/-!
# C112: D2Q9 with quadratic equilibria, D1Q3
-/

set_option linter.unusedSectionVars false

namespace Pylbm.Sim
open Scheme Halo SchemeSpec Matrix HaloSpec Mpi Boundary

section field
variable {K : Type} [Field K] [LinearOrder K] [IsStrictOrderedRing K]

/-- The quadratic part of the equilibria of D2Q9. -/
def quad9 (w : Fin 3 → K) : Fin 9 → K :=
  ![0, 0, 0, 3 * (w 1 ^ 2 + w 2 ^ 2), -3 * (w 1 ^ 2 + w 2 ^ 2), 0, 0, w 1 ^ 2 - w 2 ^ 2, w 1 * w 2]

/-- D2Q9 with the equilibria of the demos for the equations of Navier-Stokes (`β` is the inverse of the reference density),
any relaxation parameters `r` and a constant force `G` along y (`κ G` on the flux of energy). -/
def d2q9q (r : Fin 9 → K) (β G κ h : K) : Kernel K 9 3 0 :=
  { d2q9 0 0 G κ h with
    EQ := fun i w => (lin9 *ᵥ w) i + β * quad9 w i
    s := fun i _ => r i }

/-- The three velocities of D1Q3. -/
abbrev sten3 : Sten 1 where
  nu := 3
  ns := 3
  uvel := ![fun _ => 0, fun _ => 1, fun _ => -1]
  usym := ![0, 2, 1]
  ux := id
  scheme := fun _ => 0
  sym := ![0, 2, 1]

theorem sten3_wf : sten3.WF :=
  ⟨by unfold Function.Injective; decide +kernel, by decide +kernel, by decide +kernel, by decide +kernel,
    by decide +kernel⟩

/-- D1Q3 with the moments 1, X, X² and the equilibrium `ρ/3 + β q²` of the last one. -/
def d1q3 (s β h : K) : Kernel K 3 2 0 where
  M := !![1, 1, 1; 0, 1, -1; 0, 1, 1]
  invM := !![1, 0, -1; 0, 1 / 2, 1 / 2; 0, -1 / 2, 1 / 2]
  Tu := fun _ => 1
  Tmu := fun _ => 1
  EQ := fun i w => ![w 0, w 1, w 0 / 3 + β * w 1 ^ 2] i
  s := fun i _ => ![0, 0, s] i
  consm := ![0, 1]
  relVel := none
  source := fun _ => none
  dt := h

/-- The velocity along x of the three populations of D1Q3, twice. -/
def speed6 : Fin 6 → ℤ := ![0, 1, -1, 0, 1, -1]

/-- The opposites. -/
def sym6 : Fin 6 → Fin 6 := ![0, 2, 1, 3, 5, 4]

/-- The sums of the populations of D2Q9 with the same velocity along x, without a weight and with the weight Y. -/
def proj6 (i : Fin 6) (j : Fin 9) : ℤ :=
  if speed6 i = sten9.vel j 0 then (if i < 3 then 1 else sten9.vel j 1) else 0

/-- The moments 1, X, X², Y, XY, X²Y. -/
def form6 (i : Fin 6) (j : Fin 9) : ℤ :=
  let X := sten9.vel j 0
  let Y := sten9.vel j 1
  (![1, X, X * X, Y, X * Y, X * X * Y] : Fin 6 → ℤ) i

/-- The sums. -/
def sums9 : Matrix (Fin 6) (Fin 9) K := fun i j => (proj6 i j : K)

/-- The sums without a weight: the populations of D1Q3. -/
def marginal9 : Matrix (Fin 3) (Fin 9) K := fun i j => (proj6 (Fin.castLE (by decide) i) j : K)

/-- The moments of `form6`. -/
def forms9 : Matrix (Fin 6) (Fin 9) K := fun i j => (form6 i j : K)

theorem form6_eq : ∀ j, (form6 0 j = mom9 0 j ∧ form6 1 j = mom9 1 j ∧
    6 * form6 2 j = 4 * mom9 0 j + mom9 3 j + 3 * mom9 7 j) ∧
    form6 3 j = mom9 2 j ∧ form6 4 j = mom9 8 j ∧ 3 * form6 5 j = mom9 6 j + 2 * mom9 2 j := by decide +kernel

theorem form6_proj : ∀ j, (form6 0 j = proj6 0 j + proj6 1 j + proj6 2 j ∧ form6 1 j = proj6 1 j - proj6 2 j ∧
    form6 2 j = proj6 1 j + proj6 2 j) ∧ form6 3 j = proj6 3 j + proj6 4 j + proj6 5 j ∧
    form6 4 j = proj6 4 j - proj6 5 j ∧ form6 5 j = proj6 4 j + proj6 5 j := by decide +kernel

/-- The sums and the moments determine each other. -/
theorem forms_sums (f : Fin 9 → K) :
    ((forms9 *ᵥ f) 0 = (sums9 *ᵥ f) 0 + (sums9 *ᵥ f) 1 + (sums9 *ᵥ f) 2 ∧ (forms9 *ᵥ f) 1 = (sums9 *ᵥ f) 1 - (sums9 *ᵥ f) 2 ∧
      (forms9 *ᵥ f) 2 = (sums9 *ᵥ f) 1 + (sums9 *ᵥ f) 2) ∧
    (forms9 *ᵥ f) 3 = (sums9 *ᵥ f) 3 + (sums9 *ᵥ f) 4 + (sums9 *ᵥ f) 5 ∧
      (forms9 *ᵥ f) 4 = (sums9 *ᵥ f) 4 - (sums9 *ᵥ f) 5 ∧ (forms9 *ᵥ f) 5 = (sums9 *ᵥ f) 4 + (sums9 *ᵥ f) 5 := by
  simp only [Matrix.mulVec, dotProduct, ← Finset.sum_add_distrib, ← Finset.sum_sub_distrib, ← add_mul, ← sub_mul, forms9,
    sums9]
  refine ⟨⟨?_, ?_, ?_⟩, ?_, ?_, ?_⟩ <;> refine Finset.sum_congr rfl fun j _ => ?_ <;> congr 1 <;> norm_cast
  · exact (form6_proj j).1.1
  · exact (form6_proj j).1.2.1
  · exact (form6_proj j).1.2.2
  · exact (form6_proj j).2.1
  · exact (form6_proj j).2.2.1
  · exact (form6_proj j).2.2.2

/-- The moments of `form6` in those of the scheme. -/
theorem forms_moments (f : Fin 9 → K) :
    ((forms9 *ᵥ f) 0 = (mat9 *ᵥ f) 0 ∧ (forms9 *ᵥ f) 1 = (mat9 *ᵥ f) 1 ∧
      6 * (forms9 *ᵥ f) 2 = 4 * (mat9 *ᵥ f) 0 + (mat9 *ᵥ f) 3 + 3 * (mat9 *ᵥ f) 7) ∧
    (forms9 *ᵥ f) 3 = (mat9 *ᵥ f) 2 ∧ (forms9 *ᵥ f) 4 = (mat9 *ᵥ f) 8 ∧
      3 * (forms9 *ᵥ f) 5 = (mat9 *ᵥ f) 6 + 2 * (mat9 *ᵥ f) 2 := by
  simp only [Matrix.mulVec, dotProduct, Finset.mul_sum, ← Finset.sum_add_distrib, ← mul_assoc, ← add_mul, forms9, mat9]
  refine ⟨⟨?_, ?_, ?_⟩, ?_, ?_, ?_⟩ <;> refine Finset.sum_congr rfl fun j _ => ?_ <;> congr 1 <;> norm_cast
  · exact (form6_eq j).1.2.2
  · exact (form6_eq j).2.2.2

theorem sums_forms (f : Fin 9 → K) :
    ((sums9 *ᵥ f) 0 = (forms9 *ᵥ f) 0 - (forms9 *ᵥ f) 2 ∧ (sums9 *ᵥ f) 1 = ((forms9 *ᵥ f) 1 + (forms9 *ᵥ f) 2) / 2 ∧
      (sums9 *ᵥ f) 2 = ((forms9 *ᵥ f) 2 - (forms9 *ᵥ f) 1) / 2) ∧
    (sums9 *ᵥ f) 3 = (forms9 *ᵥ f) 3 - (forms9 *ᵥ f) 5 ∧ (sums9 *ᵥ f) 4 = ((forms9 *ᵥ f) 4 + (forms9 *ᵥ f) 5) / 2 ∧
      (sums9 *ᵥ f) 5 = ((forms9 *ᵥ f) 5 - (forms9 *ᵥ f) 4) / 2 := by
  obtain ⟨⟨h0, h1, h2⟩, h3, h4, h5⟩ := forms_sums f
  rw [h0, h1, h2, h3, h4, h5]
  refine ⟨⟨?_, ?_, ?_⟩, ?_, ?_, ?_⟩ <;> ring

theorem sums_eq_iff (f g : Fin 9 → K) : sums9 *ᵥ f = sums9 *ᵥ g ↔ forms9 *ᵥ f = forms9 *ᵥ g := by
  constructor
  · intro h
    obtain ⟨⟨h0, h1, h2⟩, h3, h4, h5⟩ := forms_sums f
    obtain ⟨⟨g0, g1, g2⟩, g3, g4, g5⟩ := forms_sums g
    funext i
    fin_cases i
    · exact h0.trans (by rw [h]; exact g0.symm)
    · exact h1.trans (by rw [h]; exact g1.symm)
    · exact h2.trans (by rw [h]; exact g2.symm)
    · exact h3.trans (by rw [h]; exact g3.symm)
    · exact h4.trans (by rw [h]; exact g4.symm)
    · exact h5.trans (by rw [h]; exact g5.symm)
  · intro h
    obtain ⟨⟨h0, h1, h2⟩, h3, h4, h5⟩ := sums_forms f
    obtain ⟨⟨g0, g1, g2⟩, g3, g4, g5⟩ := sums_forms g
    funext i
    fin_cases i
    · exact h0.trans (by rw [h]; exact g0.symm)
    · exact h1.trans (by rw [h]; exact g1.symm)
    · exact h2.trans (by rw [h]; exact g2.symm)
    · exact h3.trans (by rw [h]; exact g3.symm)
    · exact h4.trans (by rw [h]; exact g4.symm)
    · exact h5.trans (by rw [h]; exact g5.symm)

theorem d2q9q_moments (r : Fin 9 → K) (β G κ h : K) (alg : Algo) (f : Fin 9 → K) (i : Fin 9) :
    (mat9 *ᵥ collide (d2q9q r β G κ h) alg f) i = (1 - r i) * ((mat9 *ᵥ f) i + h / 2 * source9 G κ i) +
      r i * ((lin9 *ᵥ ![(mat9 *ᵥ f) 0, (mat9 *ᵥ f) 1, (mat9 *ᵥ f) 2 + h / 2 * G]) i +
        β * quad9 ![(mat9 *ᵥ f) 0, (mat9 *ᵥ f) 1, (mat9 *ᵥ f) 2 + h / 2 * G] i) + h / 2 * source9 G κ i := by
  have hEQ : ∀ j w, (d2q9q r β G κ h).EQ ((d2q9q r β G κ h).consm j) w = w j := by
    intro j w
    fin_cases j <;> simp [d2q9q, d2q9, Matrix.mulVec, dotProduct, Fin.sum_univ_three, lin9, eq9, quad9]
  rw [collide_sources (d2q9q r β G κ h) hEQ (source9 G κ)
    (fun i => by fin_cases i <;> simp [d2q9q, d2q9, source9]) rfl alg f]
  show (mat9 *ᵥ (inv9 *ᵥ _)) i = _
  rw [Matrix.mulVec_mulVec, mat9_inv, Matrix.one_mulVec]
  have hw : ((fun l => (mat9 *ᵥ f) l + h / 2 * source9 G κ l) ∘ (![0, 1, 2] : Fin 3 → Fin 9)) =
      ![(mat9 *ᵥ f) 0, (mat9 *ᵥ f) 1, (mat9 *ᵥ f) 2 + h / 2 * G] := by
    funext c
    fin_cases c <;> simp [source9]
  show relaxed ![0, 1, 2] (fun i w => (lin9 *ᵥ w) i + β * quad9 w i) (fun i _ => r i)
    (fun l => (mat9 *ᵥ f) l + h / 2 * source9 G κ l) i + h / 2 * source9 G κ i = _
  unfold relaxed
  rw [hw]

/-- The six moments are closed: `X²` has the equilibrium `ρ/3 + β qx²`. -/
theorem d2q9q_forms (r : Fin 9 → K) (hr : r 7 = r 3) (β G κ h : K) (alg : Algo) (f : Fin 9 → K) :
    ((forms9 *ᵥ collide (d2q9q r β G κ h) alg f) 0 = (forms9 *ᵥ f) 0 ∧
      (forms9 *ᵥ collide (d2q9q r β G κ h) alg f) 1 = (forms9 *ᵥ f) 1 ∧
      (forms9 *ᵥ collide (d2q9q r β G κ h) alg f) 2 =
        (1 - r 3) * (forms9 *ᵥ f) 2 + r 3 * ((forms9 *ᵥ f) 0 / 3 + β * (forms9 *ᵥ f) 1 ^ 2)) ∧
    (forms9 *ᵥ collide (d2q9q r β G κ h) alg f) 3 = (forms9 *ᵥ f) 3 + h * G ∧
      (forms9 *ᵥ collide (d2q9q r β G κ h) alg f) 4 =
        (1 - r 8) * (forms9 *ᵥ f) 4 + r 8 * (β * ((forms9 *ᵥ f) 1 * ((forms9 *ᵥ f) 3 + h / 2 * G))) ∧
      (forms9 *ᵥ collide (d2q9q r β G κ h) alg f) 5 = (1 - r 6) * (forms9 *ᵥ f) 5 + r 6 * ((forms9 *ᵥ f) 3 / 3) +
        (2 * h * G + h * κ * G - r 6 * (h / 2 * (κ + 1) * G)) / 3 := by
  obtain ⟨⟨h0, h1, h2⟩, h3, h4, h5⟩ := forms_moments f
  obtain ⟨⟨g0, g1, g2⟩, g3, g4, g5⟩ := forms_moments (collide (d2q9q r β G κ h) alg f)
  have m := d2q9q_moments r β G κ h alg f
  generalize mat9 *ᵥ collide (d2q9q r β G κ h) alg f = a' at *
  generalize forms9 *ᵥ collide (d2q9q r β G κ h) alg f = b' at *
  generalize mat9 *ᵥ f = a at *
  generalize forms9 *ᵥ f = b at *
  have m0 := m 0
  have m1 := m 1
  have m2 := m 2
  have m3 := m 3
  have m6 := m 6
  have m7 := m 7
  have m8 := m 8
  simp [source9, lin9, eq9, quad9, Matrix.mulVec, dotProduct, Fin.sum_univ_three] at m0 m1 m2 m3 m6 m7 m8
  rw [hr] at m7
  refine ⟨⟨?_, ?_, ?_⟩, ?_, ?_, ?_⟩
  · rw [g0, m0, h0]; ring
  · rw [g1, m1, h1]; ring
  · linear_combination (1 / 6) * g2 + (2 / 3) * m0 + (1 / 6) * m3 + (1 / 2) * m7 - (1 - r 3) / 6 * h2 - r 3 * h0 / 3 -
      r 3 * β * (b 1 + a 1) * h1
  · rw [g3, m2, h3]; ring
  · rw [g4, m8, h4, h1, h3]
  · linear_combination (1 / 3) * g5 + (1 / 3) * m6 + (2 / 3) * m2 - (1 - r 6) / 3 * h5 - r 6 / 3 * h3

theorem d2q9_linear (sp sm G κ h : K) : d2q9 sp sm G κ h = d2q9q (rate9 sp sm) 0 G κ h := by
  simp [d2q9q, d2q9]

/-- The reflection of y. -/
def refl9 : Fin 9 → Fin 9 := ![0, 1, 4, 3, 2, 8, 7, 6, 5]

theorem moment_refl (v : Fin 9 → K) (hv : ∀ j, v (refl9 j) = -v j) (i : Fin 9) (hi : ∀ j, mom9 i (refl9 j) = mom9 i j) :
    (mat9 *ᵥ v) i = 0 := by
  let e : Equiv.Perm (Fin 9) := ⟨refl9, refl9, by decide, by decide⟩
  have h : (mat9 *ᵥ v) i = -(mat9 *ᵥ v) i := by
    show ∑ j, mat9 i j * v j = -∑ j, mat9 i j * v j
    conv_lhs => rw [← Equiv.sum_comp e fun j => mat9 i j * v j]
    rw [← Finset.sum_neg_distrib]
    refine Finset.sum_congr rfl fun j _ => ?_
    show mat9 i (refl9 j) * v (refl9 j) = _
    rw [hv]
    simp only [mat9, hi]
    ring
  linarith

/-- The first sums of the parabolic flow are those of the fluid at rest. -/
theorem parabola_forms (sp sm G κ h ρ v₀ v₁ v₂ t : K) (p : Fin 2 → K) :
    let F := parabolicFlow mat9 inv9 lin9 (rate9 sp sm) h (source9 G κ) (alongY ρ v₀) (alongY 0 v₁) (alongY 0 v₂) sten9.vel h 0 t p
    (forms9 *ᵥ F) 0 = ρ ∧ (forms9 *ᵥ F) 1 = 0 ∧ (forms9 *ᵥ F) 2 = ρ / 3 := by
  intro F
  have hodd := d2q9_odd G κ h v₁ v₂
  have hb := balance_two (mat9 : Matrix _ _ K) inv9 sten9.sym ![0, 1, 2] lin9 (rate9 sp sm) sp sm (d2q9_parity sp sm) h
    (source9 G κ) (alongY 0 v₁) (alongY 0 v₂) sten9.vel h 0 (d2q9_flux h v₂) hodd
  set v : Fin 9 → K := fun l => balance mat9 inv9 (rate9 sp sm) h (source9 G κ) (fun m => h * (sten9.vel m 0 : K))
      (linearEq inv9 lin9 (alongY 0 v₂)) l -
      h * (sten9.vel l 0 : K) * linearEq inv9 lin9 (fun c => alongY 0 v₁ c + 2 * p 0 * alongY 0 v₂ c) l with hv
  have hslope : (fun c => alongY 0 v₁ c + 2 * p 0 * alongY 0 v₂ c) = alongY (0 : K) (v₁ + 2 * p 0 * v₂) := by
    funext c
    fin_cases c <;> simp [alongY]
  have hrefl : ∀ j, v (refl9 j) = -v j := by
    intro j
    simp only [hv, hb, hslope, lin9_alongY, forcing9]
    obtain ⟨e1, e2, e3, e4⟩ := (by decide +kernel : ∀ j, even9 (refl9 j) = -even9 j ∧ mom9 2 (refl9 j) = -mom9 2 j ∧
      mom9 6 (refl9 j) = -mom9 6 j ∧ sten9.vel (refl9 j) 0 = sten9.vel j 0) j
    rw [e1, e2, e3, e4]
    push_cast
    ring
  have hM : ∀ x : Fin 9 → K, mat9 *ᵥ (inv9 *ᵥ x) = x := by
    intro x; rw [Matrix.mulVec_mulVec, mat9_inv, Matrix.one_mulVec]
  have hw : parabola (alongY ρ v₀) (alongY 0 v₁) (alongY 0 v₂) (p 0) = alongY ρ (v₀ + p 0 * v₁ + p 0 ^ 2 * v₂) := by
    funext c
    fin_cases c <;> simp [parabola, alongY]
  have hmF : ∀ i, (∀ j, mom9 i (refl9 j) = mom9 i j) → (mat9 *ᵥ F) i =
      (lin9 *ᵥ alongY ρ (v₀ + p 0 * v₁ + p 0 ^ 2 * v₂)) i + h / 2 * source9 G κ i := by
    intro i hi
    have e : F = linearEq inv9 lin9 (parabola (alongY ρ v₀) (alongY 0 v₁) (alongY 0 v₂) (p 0)) +
        delay mat9 inv9 (rate9 sp sm) v + (1 / 2 : K) • forcing inv9 h (source9 G κ) := by
      funext j
      rfl
    rw [e, Matrix.mulVec_add, Matrix.mulVec_add, Matrix.mulVec_smul]
    unfold linearEq delay forcing
    rw [hM, hM, hM, hw]
    simp only [Pi.add_apply, Pi.smul_apply, smul_eq_mul, moment_refl v hrefl i hi]
    ring
  have m0 := hmF 0 (by decide +kernel)
  have m1 := hmF 1 (by decide +kernel)
  have m3 := hmF 3 (by decide +kernel)
  have m7 := hmF 7 (by decide +kernel)
  obtain ⟨⟨h0, h1, h2⟩, -⟩ := forms_moments F
  clear_value F
  generalize mat9 *ᵥ F = a at *
  generalize forms9 *ᵥ F = b at *
  simp [lin9, eq9, alongY, source9, Matrix.mulVec, dotProduct, Fin.sum_univ_three] at m0 m1 m3 m7
  refine ⟨h0.trans m0, h1.trans m1, ?_⟩
  linear_combination (1 / 6) * h2 + (2 / 3) * m0 + (1 / 6) * m3 + (1 / 2) * m7

/-- The transport of D2Q9 between walls at rest with bounce-back: the weighted sums meet anti bounce-back. -/
theorem sums9_carries : Carries (sums9 : Matrix _ _ K) (fun j => sten9.vel j 0) sten9.sym (fun _ _ => 1) (fun _ _ => 0)
    (fun _ _ _ => 0) speed6 sym6 (fun _ i => if i < 3 then 1 else -1) (fun _ _ => 0) (fun _ _ _ => 0) where
  speed := by
    intro i j h
    by_contra h'
    apply h
    simp only [sums9, proj6, h', if_false, Int.cast_zero]
  wall := by
    intro _ i _ f
    let e : Equiv.Perm (Fin 9) := ⟨sten9.sym, sten9.sym, by decide, by decide⟩
    simp only [one_mul, zero_mul, add_zero]
    rw [← Equiv.sum_comp e fun j => sums9 i j * f (sten9.sym j)]
    have h1 : ∀ j, sten9.sym (sten9.sym j) = j := by decide
    have h2 : ∀ j, proj6 i (sten9.sym j) = (if i < 3 then 1 else -1) * proj6 (sym6 i) j := by
      revert i; decide +kernel
    simp only [Matrix.mulVec, dotProduct, Finset.mul_sum]
    refine Finset.sum_congr rfl fun j _ => ?_
    show sums9 i (sten9.sym j) * f (sten9.sym (sten9.sym j)) = _
    rw [h1]
    simp only [sums9, h2]
    split_ifs <;> push_cast <;> ring
  given := by
    intro _ _ i _
    simp [Matrix.mulVec, dotProduct]

theorem d1q3_collide (s β h : K) (alg : Algo) (f : Fin 3 → K) : collide (d1q3 s β h) alg f =
    ![f 0 + f 1 + f 2 - ((1 - s) * (f 1 + f 2) + s * ((f 0 + f 1 + f 2) / 3 + β * (f 1 - f 2) ^ 2)),
      (f 1 - f 2 + ((1 - s) * (f 1 + f 2) + s * ((f 0 + f 1 + f 2) / 3 + β * (f 1 - f 2) ^ 2))) / 2,
      ((1 - s) * (f 1 + f 2) + s * ((f 0 + f 1 + f 2) / 3 + β * (f 1 - f 2) ^ 2) - (f 1 - f 2)) / 2] := by
  rw [collide_sources (d1q3 s β h) (fun j w => by fin_cases j <;> rfl) 0 (fun i => Or.inr ⟨rfl, rfl⟩) rfl alg f]
  funext i
  fin_cases i <;> simp [d1q3, relaxed, Matrix.mulVec, dotProduct, Fin.sum_univ_three] <;> ring

theorem marginal9_sums (f : Fin 9 → K) : marginal9 *ᵥ f = ![(sums9 *ᵥ f) 0, (sums9 *ᵥ f) 1, (sums9 *ᵥ f) 2] := by
  funext i
  fin_cases i <;> rfl

/-- The collisions agree. -/
theorem marginal9_collide (r : Fin 9 → K) (hr : r 7 = r 3) (β G κ h : K) (alg alg' : Algo) (f : Fin 9 → K) :
    marginal9 *ᵥ collide (d2q9q r β G κ h) alg f = collide (d1q3 (r 3) β h) alg' (marginal9 *ᵥ f) := by
  rw [d1q3_collide, marginal9_sums, marginal9_sums]
  obtain ⟨⟨a0, a1, a2⟩, -⟩ := d2q9q_forms r hr β G κ h alg f
  obtain ⟨⟨s0, s1, s2⟩, -⟩ := sums_forms (collide (d2q9q r β G κ h) alg f)
  obtain ⟨⟨b0, b1, b2⟩, -⟩ := forms_sums f
  rw [s0, s1, s2, a0, a1, a2, b0, b1, b2]
  funext i
  fin_cases i <;> simp

/-- The transport of the sums over y: each side of the channel has one method. -/
theorem marginal9_carries (out back : Bool → K) (given : K → Bool → Fin 9 → K) (given' : K → Bool → Fin 3 → K)
    (hg : ∀ t side i, i ≠ 0 → (marginal9 *ᵥ given t side) i = given' t side i) :
    Carries (marginal9 : Matrix _ _ K) (fun j => sten9.vel j 0) sten9.sym (fun side _ => out side) (fun side _ => back side)
      given (fun i => sten3.vel i 0) sten3.sym (fun side _ => out side) (fun side _ => back side) given' where
  speed := by
    intro i j h
    by_contra h'
    apply h
    rw [(by decide : ∀ i : Fin 3, sten3.vel i 0 = speed6 (Fin.castLE (by decide) i)) i] at h'
    simp only [marginal9, proj6, h', if_false, Int.cast_zero]
  wall := by
    intro side i _ f
    let e : Equiv.Perm (Fin 9) := ⟨sten9.sym, sten9.sym, by decide, by decide⟩
    have h1 : ∀ j, sten9.sym (sten9.sym j) = j := by decide
    have h2 : ∀ j, proj6 (Fin.castLE (by decide) i) (sten9.sym j) = proj6 (Fin.castLE (by decide) (sten3.sym i)) j := by
      revert i; decide +kernel
    simp only [mul_add, Finset.sum_add_distrib]
    congr 1
    · rw [← Equiv.sum_comp e fun j => marginal9 i j * (out side * f (sten9.sym j))]
      simp only [Matrix.mulVec, dotProduct, Finset.mul_sum]
      refine Finset.sum_congr rfl fun j _ => ?_
      show marginal9 i (sten9.sym j) * (_ * f (sten9.sym (sten9.sym j))) = _
      rw [h1]
      simp only [marginal9, h2]
      ring
    · simp only [Matrix.mulVec, dotProduct, Finset.mul_sum]
      refine Finset.sum_congr rfl fun j _ => ?_
      ring
  given := by
    intro t side i hi
    refine hg t side i ?_
    rintro rfl
    exact hi rfl

/-- **C112, the same relaxation parameter is needed.** The sums over y of the populations after the collision of D2Q9 are a
function of the sums before it if and only if the energy and X²-Y² have the same relaxation parameter. -/
theorem C112_closed_iff (r : Fin 9 → K) (β G κ h : K) (alg : Algo) :
    (∃ φ : (Fin 3 → K) → Fin 3 → K, ∀ f, marginal9 *ᵥ collide (d2q9q r β G κ h) alg f = φ (marginal9 *ᵥ f)) ↔ r 7 = r 3 := by
  constructor
  · rintro ⟨φ, hφ⟩
    set a : Fin 9 → K := ![0, 0, 0, 3, 0, 0, 0, -1, 0] with ha
    have hM : mat9 *ᵥ (inv9 *ᵥ a) = a := by rw [Matrix.mulVec_mulVec, mat9_inv, Matrix.one_mulVec]
    have hz : mat9 *ᵥ (0 : Fin 9 → K) = 0 := Matrix.mulVec_zero _
    have hsame : marginal9 *ᵥ (inv9 *ᵥ a) = marginal9 *ᵥ (0 : Fin 9 → K) := by
      rw [marginal9_sums, Matrix.mulVec_zero]
      obtain ⟨⟨h0, h1, h2⟩, -⟩ := forms_moments (inv9 *ᵥ a)
      obtain ⟨⟨s0, s1, s2⟩, -⟩ := sums_forms (inv9 *ᵥ a)
      rw [hM] at h0 h1 h2
      have e0 : (forms9 *ᵥ (inv9 *ᵥ a)) 0 = 0 := by rw [h0]; simp [ha]
      have e1 : (forms9 *ᵥ (inv9 *ᵥ a)) 1 = 0 := by rw [h1]; simp [ha]
      have e2 : (forms9 *ᵥ (inv9 *ᵥ a)) 2 = 0 := by
        have : 6 * (forms9 *ᵥ (inv9 *ᵥ a)) 2 = 0 := by rw [h2]; simp [ha]
        linarith
      rw [s0, s1, s2, e0, e1, e2]
      funext i
      fin_cases i <;> simp
    have key : marginal9 *ᵥ collide (d2q9q r β G κ h) alg (inv9 *ᵥ a) = marginal9 *ᵥ collide (d2q9q r β G κ h) alg 0 := by
      rw [hφ, hφ, hsame]
    rw [marginal9_sums, marginal9_sums] at key
    have k1 : (sums9 *ᵥ collide (d2q9q r β G κ h) alg (inv9 *ᵥ a)) 1 = (sums9 *ᵥ collide (d2q9q r β G κ h) alg 0) 1 :=
      congrFun key 1
    have k2 : (sums9 *ᵥ collide (d2q9q r β G κ h) alg (inv9 *ᵥ a)) 2 = (sums9 *ᵥ collide (d2q9q r β G κ h) alg 0) 2 :=
      congrFun key 2
    have f1 := (forms_sums (collide (d2q9q r β G κ h) alg (inv9 *ᵥ a))).1.2.2
    have f2 := (forms_sums (collide (d2q9q r β G κ h) alg 0)).1.2.2
    have g1 := (forms_moments (collide (d2q9q r β G κ h) alg (inv9 *ᵥ a))).1.2.2
    have g2 := (forms_moments (collide (d2q9q r β G κ h) alg 0)).1.2.2
    simp only [d2q9q_moments, hM, hz] at g1 g2
    simp [ha, source9, lin9, eq9, quad9, Matrix.mulVec, dotProduct, Fin.sum_univ_three] at g1 g2
    have : (3 : K) * (r 7 - r 3) = 0 := by
      simp only [Matrix.mulVec, dotProduct] at k1 k2 f1 f2
      linear_combination g2 - g1 + 6 * f1 - 6 * f2 + 6 * k1 + 6 * k2
    linarith
  · intro hr
    exact ⟨collide (d1q3 (r 3) β h) alg, fun f => marginal9_collide r hr β G κ h alg alg f⟩

end field

section run
variable {K : Type} [Field K] [LinearOrder K] [IsStrictOrderedRing K] [FloorRing K]

/-- **C112, the Poiseuille flow of D2Q9 with the quadratic equilibria.** In a box of any size, periodic along y, between two
walls at rest across x with bounce-back, on any number of processes, for every number of steps: with
`(1 - κ) (1/sp - 1/2) (1/sm - 1/2) = 3/8`, `sp` the relaxation parameter of XY and `sm` that of the flux of energy along y, when the
energy and X²-Y² have the same relaxation parameter, a simulation which starts with the sums along the channel of the populations
of the parabola keeps exactly the density, the momentum across the channel and the parabola: the quadratic terms have no
effect on them. -/
theorem C112_d2q9_channel (D : WallData K 2 sten9) (lo : Fin 2 → K) (h : K) (lab : Fin 2 → Bool → Int)
    (g : Grid 2) (ST : Domain.State K 2 sten9.nu) (J : List (Method 2 × List (Entry K 2 sten9.ns)))
    (hch : Channel D g.N g.w lo h lab ST J 0) (hlab : ∀ side, lab 0 side ≠ -1 ∧ lab 0 side ≠ -2)
    (hbb : ∀ l ms, D.dico l = some ms → ∀ q ∈ ms, q.2 = .bounceBack)
    (hrest : ∀ l t x j, x 0 = lo 0 ∨ x 0 = lo 0 + h * g.N 0 → D.ψ l t x j = D.ψ l t x (sten9.sym j))
    (sp sm G κ ρ v₂ β : K) (r : Fin 9 → K) (hr7 : r 7 = r 3) (hr8 : r 8 = sp) (hr6 : r 6 = sm)
    (hsp : sp ≠ 0) (hsm : sm ≠ 0) (hh : h ≠ 0) (hG : (2 / sp - 1) * h * v₂ = -3 * G)
    (hmagic : (1 - κ) * ((1 / sp - 1 / 2) * (1 / sm - 1 / 2)) = 3 / 8) (alg : Algo)
    (Q : Proc g → Setup K 9 3 0 2) (hQ : FluidRun D g lo h lab (d2q9q r β G κ h) alg Q)
    (σ₀ : Proc g → Simu K 9 0 2) (h0 : ∀ c, (σ₀ c).Start (Q c)) (U : ℤ → Fin 9 → K)
    (ha : ∀ c x, Owned (size g c) g.w x → (σ₀ c).arr x = U (globalPos (first g c) g.w x 0))
    (hU : ∀ x : ℤ, sums9 *ᵥ U x = sums9 *ᵥ parabolicFlow mat9 inv9 lin9 (rate9 sp sm) h (source9 G κ)
      (alongY ρ (v₂ * lo 0 * (lo 0 + h * g.N 0))) (alongY 0 (-v₂ * (2 * lo 0 + h * g.N 0))) (alongY 0 v₂) sten9.vel h 0 0
      (cellPoint lo h fun _ => x))
    (k : Nat) (σ : Proc g → Simu K 9 0 2) (hrun : PRun g Q σ₀ k σ) (c : Proc g) (x : Cell 2)
    (hx : Owned (size g c) g.w x) :
    sums9 *ᵥ (σ c).arr x = sums9 *ᵥ (σ₀ c).arr x ∧ (mat9 *ᵥ (σ c).arr x) 0 = ρ ∧ (mat9 *ᵥ (σ c).arr x) 1 = 0 ∧
      (mat9 *ᵥ (σ c).arr x) 2 = v₂ * (cellPoint lo h (globalPos (first g c) g.w x) 0 - lo 0) *
        (cellPoint lo h (globalPos (first g c) g.w x) 0 - (lo 0 + h * g.N 0)) + h / 2 * G := by
  set v₀ := v₂ * lo 0 * (lo 0 + h * g.N 0) with hv₀
  set v₁ := -v₂ * (2 * lo 0 + h * g.N 0) with hv₁
  set V : ℤ → Fin 9 → K := fun x => parabolicFlow mat9 inv9 lin9 (rate9 sp sm) h (source9 G κ)
      (alongY ρ v₀) (alongY 0 v₁) (alongY 0 v₂) sten9.vel h 0 0 (cellPoint lo h fun _ => x) with hV
  have hbox := (mem_box _ _).1 (owned_box g hx)
  have hside : SideData D g.N lo h lab 0 (fun _ _ => .bounceBack) (fun _ _ _ => 0) := by
    refine ⟨fun side ms hms j m hm => hbb _ ms hms _ hm, fun side t y j hy => ?_⟩
    show _ - _ = (0 : K)
    rw [sub_eq_zero]
    refine hrest _ t y j ?_
    cases side
    · left; simpa using hy
    · right; simpa using hy
  have hper : (false = true) ↔ PerAxis lab 0 := by
    constructor
    · intro h'; cases h'
    · intro h'; exact absurd (h' true) (hlab true).1
  have hfront : ∀ j, ((![0, 1, 2] : Fin 3 → Fin 9) j : Nat) < 3 := by decide
  have R : ChannelRun D lo h lab g ST J 0 (fun _ _ => .bounceBack) (fun _ _ _ => 0) false (d2q9q r β G κ h) alg Q σ₀ U :=
    ⟨hch, hside, hper, hfront, hQ, h0, ha⟩
  -- the linear scheme, on the same processes
  let Q₂ : Proc g → Setup K 9 3 0 2 := fun c => { Q c with S := d2q9 sp sm G κ h }
  have hQ₂ : FluidRun D g lo h lab (d2q9 sp sm G κ h) alg Q₂ :=
    ⟨⟨hQ.walls.large, hQ.walls.onGrid, hQ.walls.away⟩, fun _ => rfl, hQ.vel, hQ.algo, hQ.fluid, hQ.nodup, hQ.loops,
      fun c => by simp [d2q9]⟩
  let τ₀ : Proc g → Simu K 9 0 2 := fun c => { σ₀ c with mem := ⟨fun _ x => V (globalPos (first g c) g.w x 0), fun _ _ => 0, fun _ _ => 0⟩ }
  have R₂ : ChannelRun D lo h lab g ST J 0 (fun _ _ => .bounceBack) (fun _ _ _ => 0) false (d2q9 sp sm G κ h) alg Q₂ τ₀ V :=
    ⟨hch, hside, hper, hfront, hQ₂, h0, fun _ _ _ => rfl⟩
  have hper1 : PerAxis lab 1 := by
    rcases hch.along 1 with h' | h'
    · exact absurd h' (by decide)
    · exact h'.2
  have hpt : ∀ y : Cell 2, V (y 0) = parabolicFlow mat9 inv9 lin9 (rate9 sp sm) h (source9 G κ)
      (alongY ρ v₀) (alongY 0 v₁) (alongY 0 v₂) sten9.vel h 0 0 (cellPoint lo h y) := fun y => rfl
  have hlin : ∀ k (y : ℤ), 0 ≤ y ∧ y < g.N 0 → lineRun (g.N 0) false (fun j => sten9.vel j 0) sten9.sym
      (collide (d2q9 sp sm G κ h) alg) (fun _ _ => 1) (fun _ _ => 0) (fun _ _ _ => 0) h V k y = V y :=
    fun k y hy => R₂.steady (by decide)
      (fun i => by have := hbox i; omega)
      (fun k τ hτ c z hz => (C111_d2q9_channel D lo h lab hch.wf g ST J hch.onGrid hch.empty hch.els hlab hper1 hch.methods hbb hrest
        sp sm G κ ρ v₂ hsp hsm hh hG hmagic alg Q₂ hQ₂ τ₀ h0 (fun _ _ _ => rfl) k τ hτ c z hz).1) k y hy
  -- the sums without a weight are those of the fluid at rest
  have hsum : ∀ y, (sums9 *ᵥ V y) 0 = ρ - ρ / 3 ∧ (sums9 *ᵥ V y) 1 = ρ / 6 ∧ (sums9 *ᵥ V y) 2 = ρ / 6 := by
    intro y
    obtain ⟨f0, f1, f2⟩ := parabola_forms sp sm G κ h ρ v₀ v₁ v₂ 0 (cellPoint lo h fun _ => y)
    obtain ⟨⟨s0, s1, s2⟩, -⟩ := sums_forms (V y)
    rw [s0, s1, s2]
    simp only [hV, f0, f1, f2]
    refine ⟨trivial, ?_, ?_⟩ <;> ring
  have key : ∀ k (y : ℤ), 0 ≤ y ∧ y < g.N 0 →
      sums9 *ᵥ lineRun (g.N 0) false (fun j => sten9.vel j 0) sten9.sym (collide (d2q9q r β G κ h) alg) (fun _ _ => 1)
        (fun _ _ => 0) (fun _ _ _ => 0) h U k y =
      sums9 *ᵥ lineRun (g.N 0) false (fun j => sten9.vel j 0) sten9.sym (collide (d2q9 sp sm G κ h) alg) (fun _ _ => 1)
        (fun _ _ => 0) (fun _ _ _ => 0) h V k y := by
    refine lineRun_map sums9_carries sums9_carries (g.N 0) false h _ _ U V (fun k y hy f hf => ?_) (fun y _ => hU y)
    have hN : 0 < (g.N 0 : ℤ) := by omega
    set W := lineStream (g.N 0) false (fun j => sten9.vel j 0) sten9.sym (fun _ _ => 1) (fun _ _ => 0) (fun _ _ => (0 : K))
      (lineRun (g.N 0) false (fun j => sten9.vel j 0) sten9.sym (collide (d2q9 sp sm G κ h) alg) (fun _ _ => 1)
        (fun _ _ => 0) (fun _ _ _ => 0) h V k) y with hW
    have hstr := lineStream_map (K := K) sums9_carries (g.N 0) false (k * h) (lineRun (g.N 0) false (fun j => sten9.vel j 0)
      sten9.sym (collide (d2q9 sp sm G κ h) alg) (fun _ _ => 1) (fun _ _ => 0) (fun _ _ _ => 0) h V k) y hy
    have hrow : ∀ i, (sums9 *ᵥ W) i = (if false = true ∨ 0 ≤ y - speed6 i ∧ y - speed6 i < g.N 0
        then (sums9 *ᵥ V ((y - speed6 i) % g.N 0)) i
        else (if i < 3 then 1 else -1) * (sums9 *ᵥ V y) (sym6 i) + 0 * (sums9 *ᵥ V y) i + 0) := by
      intro i
      rw [← hlin k y hy, ← hlin k ((y - speed6 i) % g.N 0) ⟨Int.emod_nonneg _ hN.ne', Int.emod_lt_of_pos _ hN⟩]
      exact congrFun hstr i
    have w0 : (sums9 *ᵥ W) 0 = ρ - ρ / 3 := by
      rw [hrow]
      split
      · exact (hsum _).1
      · show 1 * (sums9 *ᵥ V y) 0 + _ + _ = _
        rw [(hsum y).1]; ring
    have w1 : (sums9 *ᵥ W) 1 = ρ / 6 := by
      rw [hrow]
      split
      · exact (hsum _).2.1
      · show 1 * (sums9 *ᵥ V y) 2 + _ + _ = _
        rw [(hsum y).2.2]; ring
    have w2 : (sums9 *ᵥ W) 2 = ρ / 6 := by
      rw [hrow]
      split
      · exact (hsum _).2.2
      · show 1 * (sums9 *ᵥ V y) 1 + _ + _ = _
        rw [(hsum y).2.1]; ring
    obtain ⟨⟨b0, b1, b2⟩, -⟩ := forms_sums W
    rw [w0, w1, w2] at b0
    rw [w1, w2] at b1 b2
    have hff := (sums_eq_iff f W).1 hf
    rw [sums_eq_iff, d2q9_linear]
    obtain ⟨⟨a0, a1, a2⟩, a3, a4, a5⟩ := d2q9q_forms r hr7 β G κ h alg f
    obtain ⟨⟨c0, c1, c2⟩, c3, c4, c5⟩ := d2q9q_forms (rate9 sp sm) rfl 0 G κ h alg W
    rw [hff] at a0 a1 a2 a3 a4 a5
    funext i
    fin_cases i
    · exact a0.trans c0.symm
    · exact a1.trans c1.symm
    · refine a2.trans (Eq.trans ?_ c2.symm)
      rw [b0, b1, b2]; ring
    · exact a3.trans c3.symm
    · refine a4.trans (Eq.trans ?_ c4.symm)
      rw [b1, hr8, show rate9 sp sm 8 = sp from rfl]; ring
    · refine a5.trans (Eq.trans ?_ c5.symm)
      rw [hr6, show rate9 sp sm 6 = sm from rfl]
  have hfin : sums9 *ᵥ (σ c).arr x = sums9 *ᵥ V (globalPos (first g c) g.w x 0) := by
    rw [C112_line (by decide) R k σ hrun c x hx]
    refine (key k _ (hbox 0)).trans ?_
    rw [hlin k _ (hbox 0)]
  have hforms := (sums_eq_iff _ _).1 hfin
  have hini : sums9 *ᵥ (σ₀ c).arr x = sums9 *ᵥ V (globalPos (first g c) g.w x 0) := by
    rw [ha c x hx, hU]
  obtain ⟨p0, p1, -⟩ := parabola_forms sp sm G κ h ρ v₀ v₁ v₂ 0 (cellPoint lo h fun _ => globalPos (first g c) g.w x 0)
  have hvel : (mat9 *ᵥ V (globalPos (first g c) g.w x 0)) 2 = _ :=
    (C111_d2q9_channel D lo h lab hch.wf g ST J hch.onGrid hch.empty hch.els hlab hper1 hch.methods hbb hrest
      sp sm G κ ρ v₂ hsp hsm hh hG hmagic alg Q₂ hQ₂ τ₀ h0 (fun _ _ _ => rfl) 0 τ₀ .init c x hx).2.2.2
  obtain ⟨⟨m0, m1, -⟩, m3, -⟩ := forms_moments ((σ c).arr x)
  obtain ⟨-, n3, -⟩ := forms_moments (V (globalPos (first g c) g.w x 0))
  rw [hforms] at m0 m1 m3
  refine ⟨hfin.trans hini.symm, m0.symm.trans p0, m1.symm.trans p1, ?_⟩
  rw [← m3, n3, hvel]

/-- **C112, D2Q9 and D1Q3.** A simulation of D2Q9 in two dimensions, with the equilibria of the demos and the same relaxation
parameter for the energy and X²-Y², whose data do not depend on y, and a simulation of D1Q3 in one dimension, with the same
method on each side: at all times, on any processes, the sums over y of the populations are the populations of D1Q3, so the
density and the momentum along x are the same. -/
theorem C112_d2q9_d1q3 {D : WallData K 2 sten9} {lo : Fin 2 → K} {dx : K} {lab : Fin 2 → Bool → Int}
    {g : Grid 2} {ST : Domain.State K 2 sten9.nu} {J : List (Method 2 × List (Entry K 2 sten9.ns))}
    {M : Bool → Method 2} {given : K → Bool → Fin 9 → K} {per : Bool} {r : Fin 9 → K} {β G κ h : K} {alg : Algo}
    {Q : Proc g → Setup K 9 3 0 2} {σ₀ : Proc g → Simu K 9 0 2} {U : ℤ → Fin 9 → K}
    (R : ChannelRun D lo dx lab g ST J 0 (fun side _ => M side) given per (d2q9q r β G κ h) alg Q σ₀ U)
    (hr : r 7 = r 3)
    {D₁ : WallData K 1 sten3} {lo₁ : Fin 1 → K} {dx₁ : K} {lab₁ : Fin 1 → Bool → Int}
    {g₁ : Grid 1} {ST₁ : Domain.State K 1 sten3.nu} {J₁ : List (Method 1 × List (Entry K 1 sten3.ns))}
    {M₁ : Bool → Method 1} {given₁ : K → Bool → Fin 3 → K} {alg₁ : Algo}
    {Q₁ : Proc g₁ → Setup K 3 2 0 1} {τ₀ : Proc g₁ → Simu K 3 0 1} {U₁ : ℤ → Fin 3 → K}
    (R₁ : ChannelRun D₁ lo₁ dx₁ lab₁ g₁ ST₁ J₁ 0 (fun side _ => M₁ side) given₁ per (d1q3 (r 3) β h) alg₁ Q₁ τ₀ U₁)
    (hN : g₁.N 0 = g.N 0)
    (hM : ∀ side, outPart (M side) = (outPart (M₁ side) : K) ∧ backPart (M side) = (backPart (M₁ side) : K))
    (hgiven : ∀ t side i, i ≠ 0 → (marginal9 *ᵥ given t side) i = given₁ t side i)
    (hU : ∀ x : ℤ, 0 ≤ x ∧ x < g.N 0 → marginal9 *ᵥ U x = U₁ x)
    (k : Nat) (σ : Proc g → Simu K 9 0 2) (hr' : PRun g Q σ₀ k σ)
    (τ : Proc g₁ → Simu K 3 0 1) (hr₁ : PRun g₁ Q₁ τ₀ k τ) (c : Proc g) (x : Cell 2)
    (hx : Owned (size g c) g.w x) (c₁ : Proc g₁) (x₁ : Cell 1) (hx₁ : Owned (size g₁ c₁) g₁.w x₁)
    (hxx : globalPos (first g₁ c₁) g₁.w x₁ 0 = globalPos (first g c) g.w x 0) :
    marginal9 *ᵥ (σ c).arr x = (τ c₁).arr x₁ ∧ (mat9 *ᵥ (σ c).arr x) 0 = ∑ j, (τ c₁).arr x₁ j ∧
      (mat9 *ᵥ (σ c).arr x) 1 = ∑ j, (sten3.vel j 0 : K) * (τ c₁).arr x₁ j := by
  have hA : Carries (marginal9 : Matrix _ _ K) (fun j => sten9.vel j 0) sten9.sym (fun side _ => outPart (M side))
      (fun side _ => backPart (M side)) given (fun i => sten3.vel i 0) sten3.sym (fun side _ => outPart (M side))
      (fun side _ => backPart (M side)) given₁ := marginal9_carries _ _ _ _ hgiven
  have hA₁ : Carries (1 : Matrix (Fin 3) (Fin 3) K) (fun j => sten3.vel j 0) sten3.sym (fun side _ => outPart (M₁ side))
      (fun side _ => backPart (M₁ side)) given₁ (fun i => sten3.vel i 0) sten3.sym (fun side _ => outPart (M side))
      (fun side _ => backPart (M side)) given₁ := by
    refine ⟨fun i j h => ?_, fun side i _ f => ?_, fun t side i _ => by rw [Matrix.one_mulVec]⟩
    · have : i = j := by
        by_contra h'
        exact h (Matrix.one_apply_ne h')
      rw [this]
    · rw [(hM side).1, (hM side).2, Matrix.one_mulVec]
      exact congrFun (Matrix.one_mulVec (fun j => outPart (M₁ side) * f (sten3.sym j) + backPart (M₁ side) * f j)) i
  have key := C112_reduced (by decide) R (by decide) R₁ hN rfl marginal9 1 _ _ _ _ _ hA hA₁
    (fun f f₁ hf => by
      rw [Matrix.one_mulVec] at hf ⊢
      rw [← hf]
      exact marginal9_collide r hr β G κ h alg alg₁ f)
    (fun y hy => by rw [Matrix.one_mulVec]; exact hU y hy) k σ hr' τ hr₁ c x hx c₁ x₁ hx₁ hxx
  rw [Matrix.one_mulVec] at key
  refine ⟨key, ?_, ?_⟩
  · rw [← key, marginal9_sums, ← (forms_moments _).1.1, (forms_sums _).1.1]
    simp [Fin.sum_univ_three]
  · rw [← key, marginal9_sums, ← (forms_moments _).1.2.1, (forms_sums _).1.2.1]
    simp [Fin.sum_univ_three, Sten.vel]
    ring

end run

/-! ## Cases -/

/-- D1Q3 with bounce-back at both ends, at rest. -/
def atRest3 : WallData ℚ 1 sten3 where
  elems := []
  els := []
  dico := fun _ => some [(0, .bounceBack)]
  ψ := fun _ _ _ => 0

/-- Walls at the ends of a segment. -/
def wallsLine : Fin 1 → Bool → Int := fun _ side => if side then 1 else 0

/-- Three cells, one process. -/
def gridL : Grid 1 := ⟨![3], ![1], fun _ => 1, by decide⟩

theorem atRest3_wf : atRest3.WF wallsLine where
  sten := sten3_wf
  sound := by intro e he; cases he
  labels := by intro e he; cases he
  dict := by intro l ms h; simp only [atRest3] at h; cases h; simp
  no999 := by simp [atRest3]
  noFace := by decide

theorem atRest9_channel {st I} (hp : wallData atRest9 gridC.N gridC.w wallsFirst = some (st, I)) :
    Channel atRest9 gridC.N gridC.w (fun _ => 0) 1 wallsFirst st I 0 where
  wf := atRest9_wf
  onGrid := wallData_onGrid (by decide) hp
  empty := rfl
  els := by simp [atRest9]
  unit := by decide +kernel
  across := Or.inr (by decide)
  along := by
    intro j
    fin_cases j
    · exact Or.inl rfl
    · exact Or.inr ⟨by decide, by unfold PerAxis; decide⟩
  methods := by
    intro l ms hl j
    simp only [atRest9] at hl
    cases hl
    exact ⟨.bounceBack, by simp⟩
  simple := by
    intro l ms hl q hq a
    simp only [atRest9] at hl
    cases hl
    rw [List.mem_singleton.1 hq]
    simp

theorem atRest3_channel {st I} (hp : wallData atRest3 gridL.N gridL.w wallsLine = some (st, I)) :
    Channel atRest3 gridL.N gridL.w (fun _ => 0) 1 wallsLine st I 0 where
  wf := atRest3_wf
  onGrid := wallData_onGrid (by decide) hp
  empty := rfl
  els := by simp [atRest3]
  unit := by decide +kernel
  across := Or.inr (by decide)
  along := fun j => Or.inl (Subsingleton.elim _ _)
  methods := by
    intro l ms hl j
    simp only [atRest3] at hl
    cases hl
    exact ⟨.bounceBack, by simp⟩
  simple := by
    intro l ms hl q hq a
    simp only [atRest3] at hl
    cases hl
    rw [List.mem_singleton.1 hq]
    simp

theorem atRest9_sym (l : Int) (t : ℚ) (x : Fin 2 → ℚ) (j : Fin 9) : atRest9.ψ l t x j = atRest9.ψ l t x (sten9.sym j) := by
  show linearEq inv9 lin9 (alongY 1 0) j = linearEq inv9 lin9 (alongY 1 0) (sten9.sym j)
  rw [lin9_rest, lin9_rest, (by decide : ∀ j, rest9 (sten9.sym j) = rest9 j) j]

/-- A case for C112: the nonlinear scheme on the grid 3 × 4 and two processes keeps the flow `v x (x - 3)`, with the relaxation
parameters 1/2 of the energy and of X²-Y², 3/2 of the fourth order moment, 7/5 of the flux of energy along x. -/
theorem nonlinear_case (v β : ℚ) (alg : Algo) (k : Nat) :
    let V : ℤ → Fin 9 → ℚ := fun x => parabolicFlow mat9 inv9 lin9 (rate9 1 (4 / 5)) 1 (source9 (-v / 3) 0)
        (alongY 1 (v * 0 * (0 + 1 * gridC.N 0))) (alongY 0 (-v * (2 * 0 + 1 * gridC.N 0))) (alongY 0 v) sten9.vel 1 0 0
        (cellPoint (fun _ => 0) 1 fun _ => x)
    ∃ σ, PRun gridC (plateSetup atRest9 wallsFirst (d2q9q ![0, 0, 0, 1 / 2, 3 / 2, 7 / 5, 4 / 5, 1 / 2, 1] β (-v / 3) 0 1) alg gridC)
      (fun c => startWith 9 0 2 fun x => V (globalPos (first gridC c) gridC.w x 0)) k σ ∧
    ∀ c x, Owned (size gridC c) gridC.w x → (mat9 *ᵥ (σ c).arr x) 2 =
      v * (globalPos (first gridC c) gridC.w x 0 + 1 / 2) * (globalPos (first gridC c) gridC.w x 0 - 5 / 2) - v / 6 := by
  intro V
  have h : ∀ c i, gridC.w i ≤ size gridC c i := (large_iff gridC).2 (by decide)
  have hs : ∀ c, (plateData atRest9 wallsFirst gridC c).isSome := by decide +kernel
  obtain ⟨⟨st, I⟩, hp⟩ := Option.isSome_iff_exists.1
    (by decide +kernel : (wallData atRest9 gridC.N gridC.w wallsFirst).isSome = true)
  obtain ⟨σ, hσ⟩ := C42_run_exists (by decide) gridC h
    (plateSetup atRest9 wallsFirst (d2q9q ![0, 0, 0, 1 / 2, 3 / 2, 7 / 5, 4 / 5, 1 / 2, 1] β (-v / 3) 0 1) alg gridC)
    (fun c => startWith 9 0 2 fun x => V (globalPos (first gridC c) gridC.w x 0)) k
  refine ⟨σ, hσ, fun c x hx => ?_⟩
  have := (C112_d2q9_channel atRest9 (fun _ => 0) 1 wallsFirst gridC st I (atRest9_channel hp) (by decide)
    (by
      intro l ms hl q hq
      simp only [atRest9] at hl
      cases hl
      rw [List.mem_singleton.1 hq])
    (fun l t x j _ => atRest9_sym l t x j) 1 (4 / 5) (-v / 3) 0 1 v β _ rfl rfl rfl
    (by norm_num) (by norm_num) (by norm_num) (by ring) (by norm_num) alg _
    (plate_run atRest9 wallsFirst _ alg gridC h (by decide) rfl hs) _
    (fun c => plate_start _ _ _ _ _ _ _) V (fun _ _ _ => rfl) (fun _ => rfl) k σ hσ c x hx).2.2.2
  rw [this]
  simp [cellPoint, gridC]
  ring

/-- A case for C112: the same walls, any initial populations `U` which do not depend on y; D1Q3 on three cells. -/
theorem marginal_case (U : ℤ → Fin 9 → ℚ) (β G : ℚ) (alg : Algo) (k : Nat) :
    ∃ σ τ, PRun gridC (plateSetup atRest9 wallsFirst (d2q9q ![0, 0, 0, 3 / 2, 1, 1, 1, 3 / 2, 1] β G 0 1) alg gridC)
      (fun c => startWith 9 0 2 fun x => U (globalPos (first gridC c) gridC.w x 0)) k σ ∧
    PRun gridL (plateSetup atRest3 wallsLine (d1q3 (3 / 2) β 1) alg gridL)
      (fun c => startWith 3 0 1 fun x => marginal9 *ᵥ U (globalPos (first gridL c) gridL.w x 0)) k τ ∧
    ∀ c x, Owned (size gridC c) gridC.w x → ∀ c₁ x₁, Owned (size gridL c₁) gridL.w x₁ →
      globalPos (first gridL c₁) gridL.w x₁ 0 = globalPos (first gridC c) gridC.w x 0 →
      (mat9 *ᵥ (σ c).arr x) 0 = ∑ j, (τ c₁).arr x₁ j := by
  have h : ∀ c i, gridC.w i ≤ size gridC c i := (large_iff gridC).2 (by decide)
  have hs : ∀ c, (plateData atRest9 wallsFirst gridC c).isSome := by decide +kernel
  have h₁ : ∀ c i, gridL.w i ≤ size gridL c i := (large_iff gridL).2 (by decide)
  have hs₁ : ∀ c, (plateData atRest3 wallsLine gridL c).isSome := by decide +kernel
  obtain ⟨⟨st, I⟩, hp⟩ := Option.isSome_iff_exists.1
    (by decide +kernel : (wallData atRest9 gridC.N gridC.w wallsFirst).isSome = true)
  obtain ⟨⟨st₁, I₁⟩, hp₁⟩ := Option.isSome_iff_exists.1
    (by decide +kernel : (wallData atRest3 gridL.N gridL.w wallsLine).isSome = true)
  obtain ⟨σ, hσ⟩ := C42_run_exists (by decide) gridC h
    (plateSetup atRest9 wallsFirst (d2q9q ![0, 0, 0, 3 / 2, 1, 1, 1, 3 / 2, 1] β G 0 1) alg gridC)
    (fun c => startWith 9 0 2 fun x => U (globalPos (first gridC c) gridC.w x 0)) k
  obtain ⟨τ, hτ⟩ := C42_run_exists (by decide) gridL h₁
    (plateSetup atRest3 wallsLine (d1q3 (3 / 2) β 1) alg gridL)
    (fun c => startWith 3 0 1 fun x => marginal9 *ᵥ U (globalPos (first gridL c) gridL.w x 0)) k
  refine ⟨σ, τ, hσ, hτ, fun c x hx c₁ x₁ hx₁ hxx => ?_⟩
  have R : ChannelRun atRest9 (fun _ => 0) 1 wallsFirst gridC st I 0 (fun _ _ => .bounceBack) (fun _ _ _ => 0) false
      (d2q9q ![0, 0, 0, 3 / 2, 1, 1, 1, 3 / 2, 1] β G 0 1) alg _ _ U :=
    ⟨atRest9_channel hp, ⟨fun _ ms hms j m hm => by
      simp only [atRest9] at hms
      cases hms
      simpa using hm, fun side t x j _ => by
        exact sub_eq_zero.2 (atRest9_sym _ t x j)⟩,
      by unfold PerAxis; decide, show ∀ j : Fin 3, ((![0, 1, 2] : Fin 3 → Fin 9) j : Nat) < 3 by decide,
      plate_run atRest9 wallsFirst _ alg gridC h (by decide) rfl hs,
      fun c => plate_start _ _ _ _ _ _ _, fun _ _ _ => rfl⟩
  have R₁ : ChannelRun atRest3 (fun _ => 0) 1 wallsLine gridL st₁ I₁ 0 (fun _ _ => .bounceBack) (fun _ _ _ => 0) false
      (d1q3 (3 / 2) β 1) alg _ _ (fun x => marginal9 *ᵥ U x) :=
    ⟨atRest3_channel hp₁, ⟨fun _ ms hms j m hm => by
      simp only [atRest3] at hms
      cases hms
      simpa using hm, fun side t x j _ => by
        show _ - _ = (0 : ℚ)
        simp [atRest3]⟩,
      by unfold PerAxis; decide, show ∀ j : Fin 2, ((![0, 1] : Fin 2 → Fin 3) j : Nat) < 2 by decide,
      plate_run atRest3 wallsLine _ alg gridL h₁ (by decide) rfl hs₁,
      fun c => plate_start _ _ _ _ _ _ _, fun _ _ _ => rfl⟩
  exact (C112_d2q9_d1q3 (M := fun _ => .bounceBack) (M₁ := fun _ => .bounceBack) R rfl R₁ rfl (fun _ => ⟨rfl, rfl⟩)
    (fun _ _ _ _ => by simp [Matrix.mulVec, dotProduct]) (fun _ _ => rfl) k σ hσ τ hτ c x hx c₁ x₁ hx₁ hxx).2.1

end Pylbm.Sim
