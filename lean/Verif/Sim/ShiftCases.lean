import Verif.Sim.Shift
import Verif.Sim.LineCases
import Verif.Sim.LinearCases
import Mathlib.Tactic.LinearCombination
/-!
# Cases for C116
-/
set_option linter.unusedSectionVars false
namespace Pylbm.Sim
open Scheme Halo SchemeSpec Matrix HaloSpec Mpi Boundary

/-- D2Q9 at rest with the density `c`. -/
def still9 (c : ℚ) : Fin 9 → ℚ := inv9 *ᵥ (lin9 *ᵥ ![c, 0, 0])

theorem still9_moments (c : ℚ) : mat9 *ᵥ still9 c = lin9 *ᵥ ![c, 0, 0] := by
  rw [still9, Matrix.mulVec_mulVec, mat9_inv, Matrix.one_mulVec]

theorem still9_even (c : ℚ) : Even (s := sten9) (still9 c) := by
  have h : ∀ j, still9 c j = c * (inv9 *ᵥ (lin9 *ᵥ ![1, 0, 0])) j := by
    intro j
    have : lin9 *ᵥ ![c, 0, 0] = c • (lin9 *ᵥ (![1, 0, 0] : Fin 3 → ℚ)) := by
      rw [← Matrix.mulVec_smul]
      simp
    rw [still9, this, Matrix.mulVec_smul]
    rfl
  intro j j' _ hv
  rw [h, h]
  congr 1
  revert j j'
  decide +kernel

/-- The density can be shifted in the schemes of the demos for the equations of Navier-Stokes, with or without a force. -/
theorem d2q9q_shifts (r : Fin 9 → ℚ) (β G κ h c : ℚ) :
    Shifts (d2q9q r β G κ h) ((d2q9q r β G κ h).M *ᵥ still9 c) := by
  have e : (d2q9q r β G κ h).M *ᵥ still9 c = lin9 *ᵥ ![c, 0, 0] := still9_moments c
  rw [e]
  refine ⟨fun i w => ?_, fun _ _ => rfl, fun i q hq m => ?_⟩
  · show (lin9 *ᵥ _) i + β * quad9 _ i = (lin9 *ᵥ w) i + β * quad9 w i + _
    fin_cases i <;> simp [d2q9q, d2q9, Matrix.mulVec, dotProduct, Fin.sum_univ_three, lin9, eq9, quad9] <;> ring
  · fin_cases i <;> simp [d2q9q, d2q9] at hq <;> rw [← hq]

/-- A case for `C116_rest`: the channel of C112 on the grid 3 × 4, with a force and the nonlinear equilibrium, on two
processes; the density is shifted by `c` and the momentum is the same. -/
theorem gauge_case (r : Fin 9 → ℚ) (β G c : ℚ) (A : Arr ℚ 9 2) (alg : Algo) (k : Nat) :
    ∃ σ σ', PRun gridC (plateSetup atRest9 wallsFirst (d2q9q r β G 0 1) alg gridC)
      (fun p => startWith 9 0 2 fun x => A (globalPos (first gridC p) gridC.w x)) k σ ∧
    PRun gridC (plateSetup atRest9 wallsFirst (d2q9q r β G 0 1) alg gridC)
      (fun p => startWith 9 0 2 fun x j => A (globalPos (first gridC p) gridC.w x) j + still9 c j) k σ' ∧
    ∀ p x, Owned (size gridC p) gridC.w x → (mat9 *ᵥ (σ' p).arr x) 0 = (mat9 *ᵥ (σ p).arr x) 0 + c ∧
      (mat9 *ᵥ (σ' p).arr x) 1 = (mat9 *ᵥ (σ p).arr x) 1 ∧ (mat9 *ᵥ (σ' p).arr x) 2 = (mat9 *ᵥ (σ p).arr x) 2 := by
  have h : ∀ c i, gridC.w i ≤ size gridC c i := (large_iff gridC).2 (by decide)
  have hs : ∀ c, (plateData atRest9 wallsFirst gridC c).isSome := by decide +kernel
  obtain ⟨⟨st, I⟩, hp⟩ := Option.isSome_iff_exists.1
    (by decide +kernel : (wallData atRest9 gridC.N gridC.w wallsFirst).isSome = true)
  have hc := atRest9_channel hp
  have hrun := plate_run atRest9 wallsFirst (d2q9q r β G 0 1) alg gridC h (by decide) rfl hs
  obtain ⟨σ, hσ⟩ := C42_run_exists (by decide) gridC h (plateSetup atRest9 wallsFirst (d2q9q r β G 0 1) alg gridC)
    (fun p => startWith 9 0 2 fun x => A (globalPos (first gridC p) gridC.w x)) k
  obtain ⟨σ', hσ'⟩ := C42_run_exists (by decide) gridC h (plateSetup atRest9 wallsFirst (d2q9q r β G 0 1) alg gridC)
    (fun p => startWith 9 0 2 fun x j => A (globalPos (first gridC p) gridC.w x) j + still9 c j) k
  refine ⟨σ, σ', hσ, hσ', fun p x hx => ?_⟩
  have key := (C116_rest (by decide) atRest9 (fun _ => 0) 1 wallsFirst atRest9_wf gridC gridC rfl rfl st I hc.onGrid hc.free
    (allLinks_of_open hc.links.1) hc.methods hc.readsFluid
    (by
      intro l ms hl q hq
      simp only [atRest9] at hl
      cases hl
      rw [List.mem_singleton.1 hq]
      simp)
    (d2q9q r β G 0 1) (show ∀ j : Fin 3, ((![0, 1, 2] : Fin 3 → Fin 9) j : Nat) < 3 by decide)
    (fun j w => by fin_cases j <;> simp [d2q9q, d2q9, Matrix.mulVec, dotProduct, Fin.sum_univ_three, lin9, eq9, quad9])
    (mul_eq_one_comm.1 mat9_inv)
    (by
      intro i q hq m m' _
      fin_cases i <;> simp [d2q9q, d2q9] at hq <;> rw [← hq])
    rfl alg (still9 c) (d2q9q_shifts r β G 0 1 c) (still9_even c) _ hrun _ hrun _ (fun p => plate_start _ _ _ _ _ _ p) _
    (fun p => plate_start _ _ _ _ _ _ p) A (fun _ _ _ _ => rfl) (fun _ _ _ _ _ => rfl) k σ hσ σ' hσ' p x hx p x hx rfl
    (hc.fluid _ (owned_box gridC hx))).2
  have e : (d2q9q r β G 0 1).M *ᵥ still9 c = lin9 *ᵥ ![c, 0, 0] := still9_moments c
  rw [e] at key
  have e0 : (lin9 *ᵥ ![c, 0, 0]) 0 = c ∧ (lin9 *ᵥ ![c, 0, 0]) 1 = 0 ∧ (lin9 *ᵥ ![c, 0, 0]) 2 = 0 := by
    simp [Matrix.mulVec, dotProduct, Fin.sum_univ_three, lin9, eq9]
  refine ⟨(key 0).trans ?_, (key 1).trans ?_, (key 2).trans ?_⟩
  · rw [e0.1]; rfl
  · rw [e0.2.1, add_zero]; rfl
  · rw [e0.2.2, add_zero]; rfl

/-- The equilibrium populations of `d1q2` with the mass `c`. -/
def mass2 (c : ℚ) : Fin 2 → ℚ := ![3 / 4 * c, 1 / 4 * c]

theorem mass2_moments (c : ℚ) : d1q2.M *ᵥ mass2 c = ![c, c / 2] := by
  funext i
  fin_cases i <;> simp [d1q2, mass2, Matrix.mulVec, dotProduct, Fin.sum_univ_two] <;> ring

theorem d1q2_shifts (c : ℚ) : Shifts d1q2 (d1q2.M *ᵥ mass2 c) := by
  rw [mass2_moments]
  refine ⟨fun i w => ?_, fun i w => ?_, fun i q hq => ?_⟩
  · fin_cases i <;> simp [d1q2]
    ring
  · fin_cases i <;> rfl
  · cases hq

theorem d1q2_eq (j : Fin 1) (w : Fin 1 → ℚ) : d1q2.EQ (d1q2.consm j) w = w j := by
  obtain rfl : j = 0 := Subsingleton.elim _ _
  rfl

/-- A case for `C116_shift`: the pipe on two processes with `check_isfluid`, and on one process with the mass `c` more,
imposed at its ends and on the obstacle. -/
example (k : Nat) (G : Arr ℚ 2 1) (c₀ : ℚ) : ∃ σ σ' ST,
    Domain.build (boxGrid grid7.N grid7.w (fun _ => 0) 1 pipeLab sten2) pipe.elems = some ST ∧
    PRun grid7 (pipeFluid grid7 .c .pull) (startC G) k σ ∧
    PRun grid7one (pipeOther fun l t x j => pipe.ψ l t x j + mass2 c₀ j) (startN fun x j => G x j + mass2 c₀ j) k σ' ∧
    ∀ c x, Owned (size grid7 c) grid7.w x → ∀ c' x', Owned (size grid7one c') grid7one.w x' →
      globalPos (first grid7 c) grid7.w x = globalPos (first grid7one c') grid7one.w x' →
      fluidMap grid7.w ST (globalPos (first grid7 c) grid7.w x) = true → ∀ j,
      (σ' c').arr x' j = (σ c).arr x j + mass2 c₀ j := by
  obtain ⟨hQ, _, hmeth, ST, J, hJ, hlinks, hreads, hfree, _⟩ := pipe_case
  have h' : ∀ c i, grid7one.w i ≤ size grid7one c i := (large_iff grid7one).2 (by decide)
  obtain ⟨σ, hσ⟩ := C42_run_exists (by decide) grid7 ((large_iff grid7).2 (by decide)) (pipeFluid grid7 .c .pull)
    (startC G) k
  obtain ⟨σ', hσ'⟩ := C42_run_exists (by decide) grid7one h' (pipeOther fun l t x j => pipe.ψ l t x j + mass2 c₀ j)
    (startN fun x j => G x j + mass2 c₀ j) k
  refine ⟨σ, σ', ST, hJ.built, hσ, hσ', fun c x hx c' x' hx' he hf => ?_⟩
  refine (C116_shift (by decide) pipe (fun _ => 0) 1 pipeLab pipe_wf grid7 grid7one rfl rfl ST J hJ
    hfree hlinks hmeth hreads d1q2 (by decide) .pull (mass2 c₀) (C116_collision d1q2 d1q2_eq (by decide +kernel)
      (fun i q hq => by cases hq) rfl _ (d1q2_shifts c₀) .pull) _ hQ (fun _ _ _ => mass2 c₀) _ (fun _ _ _ _ => rfl)
    (C80_imposed _ _ ?_ fun _ _ _ => rfl) _ (pipeOther_run _).1 (fun c => startC G c)
    (fun c => ⟨show (0 : Fin 2) ≠ 1 by decide, rfl, rfl, rfl⟩) (fun c => startN (fun x j => G x j + mass2 c₀ j) c)
    (fun c => ⟨rfl, rfl, rfl, rfl⟩) G (fun _ _ _ _ => rfl) (fun _ _ _ _ _ => rfl) k σ hσ σ' hσ' c x hx c' x' hx' he hf).1
  intro l ms hl p hp
  simp only [otherValues, pipe] at hl
  split_ifs at hl <;> (cases hl; rw [List.mem_singleton.1 hp]; simp)

/-- A case for `C116_initial`: the density `v`, and `v` plus `c₀`, on seven cells and two processes. -/
example (v : (Fin 1 → ℚ) → ℚ) (c₀ : ℚ) (c : Proc grid7) (x : Cell 1) (hx : InLocal (size grid7 c) grid7.w x) (i : Fin 2) :
    ((startWith 2 0 1 0).init (ring d1q2 sten2.vel .pull grid7 c) (procCoords grid7 (fun _ => 0) 1 c) .moments
      (some (density fun y => v y + c₀))).arr x i =
    ((startWith 2 0 1 0).init (ring d1q2 sten2.vel .pull grid7 c) (procCoords grid7 (fun _ => 0) 1 c) .moments
      (some (density v))).arr x i + mass2 c₀ i := by
  have hm : (d1q2.M *ᵥ mass2 c₀) (d1q2.consm 0) = c₀ := by rw [mass2_moments]; rfl
  refine C116_initial grid7 (fun _ => 0) 1 d1q2 (mass2 c₀) (d1q2_shifts c₀) d1q2_eq (by decide +kernel)
    (fun _ => ring d1q2 sten2.vel .pull grid7) (fun _ _ => rfl) (fun _ c => ring_nodup c) (fun _ c x => ring_full c x)
    (fun _ _ => startWith 2 0 1 0) (fun _ c => startWith_start _ _ _ _ c _) (fun _ _ _ => rfl)
    ![density v, density fun y => v y + c₀] ?_ (fun y _ => v y) ?_ ?_ c x hx i
  · intro r; fin_cases r <;> exact List.pairwise_singleton _ _
  · intro r z y kv hkv j hj
    obtain rfl : j = 0 := Subsingleton.elim _ _
    rw [hm]
    fin_cases r <;> (rw [List.mem_singleton.1 hkv]; exact .fn _)
  · intro r y j hno
    exfalso
    obtain rfl : j = 0 := Subsingleton.elim _ _
    fin_cases r <;> exact hno _ (List.mem_singleton.2 rfl) (.sym 0)

/-- A case for `C116_imposed`: the density on a wall. -/
example (c t : ℚ) (i : Fin 2) :
    (⟨fun _ => true, fun t x _ => t * x 0 + c⟩ : Imposed ℚ 1 1).feq d1q2.invM d1q2.EQ t (fun _ => 1) i =
      (⟨fun _ => true, fun t x _ => t * x 0⟩ : Imposed ℚ 1 1).feq d1q2.invM d1q2.EQ t (fun _ => 1) i + mass2 c i := by
  refine C116_imposed d1q2 (by decide +kernel) (mass2 c) (d1q2_shifts c) ⟨fun _ => true, fun t x _ => t * x 0⟩
    ⟨fun _ => true, fun t x _ => t * x 0 + c⟩ rfl (fun j h => by cases h) (fun t x j => ?_) t (fun _ => 1) i
  obtain rfl : j = 0 := Subsingleton.elim _ _
  rw [mass2_moments]
  rfl

/-- D1Q3 with the equilibrium `ρ/3 + q²/ρ` of the last moment. -/
def compressible3 (r : ℚ) : Kernel ℚ 3 2 0 := { d1q3 r 0 1 with EQ := fun i w => ![w 0, w 1, w 0 / 3 + w 1 ^ 2 / w 0] i }

theorem compressible3_energy (r : ℚ) (al : Algo) (f : Fin 3 → ℚ) :
    collide (compressible3 r) al f 1 + collide (compressible3 r) al f 2 = (1 - r) * (f 1 + f 2) +
      r * ((f 0 + f 1 + f 2) / 3 + (f 1 - f 2) ^ 2 / (f 0 + f 1 + f 2)) := by
  have hcol : collide (compressible3 r) al f = collision (compressible3 r).M (compressible3 r).invM (compressible3 r).consm
      (compressible3 r).EQ (compressible3 r).s f := by
    unfold collide
    rw [prog_eq]
    obtain ⟨h3, h4⟩ := step_collision (compressible3 r) (fun j w => by fin_cases j <;> rfl) (fun _ => rfl) f ⟨0, 0, 0⟩
    cases al with
    | base => exact h4
    | pull => exact h3
  rw [hcol]
  simp [collision, relaxed, compressible3, d1q3, Matrix.mulVec, dotProduct, Fin.sum_univ_three]
  ring

/-- C116 is not for all the schemes: with the equilibrium `ρ/3 + q²/ρ` no populations which change the density shift the
collision. -/
theorem C116_compressible_negation (r : ℚ) (hr : r ≠ 0) (al : Algo) (u : Fin 3 → ℚ) (hu : u 0 + u 1 + u 2 ≠ 0) :
    ∃ f : Fin 3 → ℚ, collide (compressible3 r) al (fun j => f j + u j) ≠ fun j => collide (compressible3 r) al f j + u j := by
  by_contra hall
  push Not at hall
  have key : ∀ f : Fin 3 → ℚ, (1 - r) * ((f 1 + u 1) + (f 2 + u 2)) + r * (((f 0 + u 0) + (f 1 + u 1) + (f 2 + u 2)) / 3 +
      ((f 1 + u 1) - (f 2 + u 2)) ^ 2 / ((f 0 + u 0) + (f 1 + u 1) + (f 2 + u 2))) =
      (1 - r) * (f 1 + f 2) + r * ((f 0 + f 1 + f 2) / 3 + (f 1 - f 2) ^ 2 / (f 0 + f 1 + f 2)) + u 1 + u 2 := by
    intro f
    rw [← compressible3_energy r al f, ← compressible3_energy r al fun j => f j + u j, hall f]
    ring
  have k0 := key ![1, 0, 0]
  have k1 := key ![0, 1, 0]
  have k2 := key ![0, 0, 1]
  simp only [Matrix.cons_val] at k0 k1 k2
  set X := (1 + (u 0 + u 1 + u 2))⁻¹ with hX
  have d0 : 1 + u 0 + (0 + u 1) + (0 + u 2) = 1 + (u 0 + u 1 + u 2) := by ring
  have d1 : 0 + u 0 + (1 + u 1) + (0 + u 2) = 1 + (u 0 + u 1 + u 2) := by ring
  have d2 : 0 + u 0 + (0 + u 1) + (1 + u 2) = 1 + (u 0 + u 1 + u 2) := by ring
  rw [d0, div_eq_mul_inv _ (1 + (u 0 + u 1 + u 2)), ← hX] at k0
  rw [d1, div_eq_mul_inv _ (1 + (u 0 + u 1 + u 2)), ← hX] at k1
  rw [d2, div_eq_mul_inv _ (1 + (u 0 + u 1 + u 2)), ← hX] at k2
  have h1 : r * (X - 1) = 0 := by linear_combination (k1 + k2 - 2 * k0) / 2
  have h2 : X = 1 := by
    rcases mul_eq_zero.1 h1 with h | h
    · exact absurd h hr
    · linarith
  apply hu
  have h3 : 1 + (u 0 + u 1 + u 2) = 1 := inv_eq_one.1 (hX ▸ h2)
  linarith

end Pylbm.Sim
