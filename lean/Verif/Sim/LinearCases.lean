import Verif.Sim.Linear
import Verif.Sim.ConeCases
import Verif.Sim.RestCases
/-!
# Cases for C90
-/
set_option linter.unusedSectionVars false
namespace Pylbm.Sim
open Scheme Halo SchemeSpec Matrix HaloSpec Mpi Boundary

/-- The linear advection of `d1q2` respects all the combinations. -/
theorem d1q2_combines (α β : ℚ) : Combines d1q2 α β := by
  refine C90_schemes d1q2 ![fun _ => 1, fun _ => 1 / 2] 0 0 0 ?_ ?_ ?_ ?_ α β (Or.inr ⟨rfl, rfl⟩)
  · intro i w; fin_cases i
    · simp [d1q2]
    · simp [d1q2]; ring
  · intro i w w'; fin_cases i <;> rfl
  · intro q h; cases h
  · intro i q h; cases h

/-- A case for `C90_superposition`: the pipe on two processes with `check_isfluid`, and two runs on one process with
other values at its ends. -/
example (k : Nat) (G G' : Arr ℚ 2 1) (ψ' : Int → ℚ → (Fin 1 → ℚ) → Fin 2 → ℚ) (α β : ℚ) : ∃ σ σ' σ'' ST,
    Domain.build (boxGrid grid7.N grid7.w (fun _ => 0) 1 pipeLab sten2) pipe.elems = some ST ∧
    PRun grid7 (pipeFluid grid7 .c .pull) (startC G) k σ ∧
    PRun grid7one (pipeOther ψ') (startN G') k σ' ∧
    PRun grid7one (pipeOther (combValues (s := sten2) α β pipe.ψ ψ')) (startN (comb α β G G')) k σ'' ∧
    ∀ c x, Owned (size grid7 c) grid7.w x → ∀ c' x', Owned (size grid7one c') grid7one.w x' →
      globalPos (first grid7 c) grid7.w x = globalPos (first grid7one c') grid7one.w x' →
      fluidMap grid7.w ST (globalPos (first grid7 c) grid7.w x) = true → ∀ j,
      (σ'' c').arr x' j = α * (σ c).arr x j + β * (σ' c').arr x' j := by
  obtain ⟨hQ, _, hmeth, ST, J, hJ, hlinks, hreads, hfree, _⟩ := pipe_case
  have h' : ∀ c i, grid7one.w i ≤ size grid7one c i := (large_iff grid7one).2 (by decide)
  obtain ⟨σ, hσ⟩ := C42_run_exists (by decide) grid7 ((large_iff grid7).2 (by decide)) (pipeFluid grid7 .c .pull)
    (startC G) k
  obtain ⟨σ', hσ'⟩ := C42_run_exists (by decide) grid7one h' (pipeOther ψ') (startN G') k
  obtain ⟨σ'', hσ''⟩ := C42_run_exists (by decide) grid7one h' (pipeOther (combValues (s := sten2) α β pipe.ψ ψ'))
    (startN (comb α β G G')) k
  refine ⟨σ, σ', σ'', ST, hJ.built, hσ, hσ', hσ'', fun c x hx c' x' hx' he hf => ?_⟩
  exact (C90_superposition (by decide) pipe (fun _ => 0) 1 pipeLab pipe_wf grid7 grid7one grid7one rfl rfl rfl rfl ST J hJ
    hfree hlinks hmeth hreads d1q2 (by decide) .pull α β (d1q2_combines α β) _ hQ ψ' _ (pipeOther_run _).1 _
    (pipeOther_run _).1 (fun c => startC G c) (fun c => ⟨show (0 : Fin 2) ≠ 1 by decide, rfl, rfl, rfl⟩)
    (fun c => startN G' c) (fun c => ⟨rfl, rfl, rfl, rfl⟩) (fun c => startN (comb α β G G') c)
    (fun c => ⟨rfl, rfl, rfl, rfl⟩) G G' (fun _ _ _ _ => rfl) (fun _ _ _ _ => rfl) (fun _ _ _ _ _ => rfl) k σ hσ σ' hσ'
    σ'' hσ'' c x hx c' x' hx' c' x' hx' he he hf).1

/-- A case for `C90_difference`: two runs of the basin with interpolated bounce-back, from ordered initial values, stay
ordered. -/
example (k : Nat) (A B : Arr ℚ 2 1) (hAB : ∀ x j, B x j ≤ A x j) : ∃ ST : Domain.State ℚ 1 2, ∃ σ σ',
    PRun grid7 (basinSetup damped .bouzidiBounceBack 0 grid7 .c .pull) (startC A) k σ ∧
    PRun grid7 (basinSetup damped .bouzidiBounceBack 0 grid7 .c .pull) (startC B) k σ' ∧
    fluidMap grid7.w ST (fun _ => 0) = true ∧
    ∀ c x, Owned (size grid7 c) grid7.w x → fluidMap grid7.w ST (globalPos (first grid7 c) grid7.w x) = true →
      ∀ j, (σ' c).arr x j ≤ (σ c).arr x j := by
  obtain ⟨st, I, ho, hfree, hlinks, hreads, hfl⟩ := basin_domain .bouzidiBounceBack 0 (by decide +kernel)
  have h : ∀ c i, grid7.w i ≤ size grid7 c i := (large_iff grid7).2 (by decide)
  obtain ⟨σ, hσ⟩ := C42_run_exists (by decide) grid7 h (basinSetup damped .bouzidiBounceBack 0 grid7 .c .pull) (startC A) k
  obtain ⟨σ', hσ'⟩ := C42_run_exists (by decide) grid7 h (basinSetup damped .bouzidiBounceBack 0 grid7 .c .pull) (startC B) k
  refine ⟨st, σ, σ', hσ, hσ', Option.some.inj (congrArg (fun l => l.head?) hfl), fun c x hx hf j => ?_⟩
  have hmean : ∀ _ : Fin 2, Mean (Set.Ici (0 : ℚ)) := by
    intro _ x hx y hy θ h1 h2
    simp only [Set.mem_Ici] at hx hy ⊢
    have := mul_nonneg h1 hx
    have := mul_nonneg (sub_nonneg.2 h2) hy
    linarith
  have hrun := basin_run damped rfl .bouzidiBounceBack 0 .c .pull (by decide +kernel)
  have key := C90_difference (by decide) (basin .bouzidiBounceBack 0) (fun _ => 0) 1 pipeLab (basin_wf _ _) grid7 grid7
    rfl rfl st I ho hfree hlinks (tank_methods _ (5 / 4) (7 / 4)) hreads damped (by decide) .pull ?_ _ hrun
    (basin .bouzidiBounceBack 0).ψ ⟨?_, fun _ _ _ _ _ _ _ => rfl⟩ (fun _ => Set.Ici 0) hmean (fun _ _ _ _ => rfl) ?_ _ hrun
    (startC A) (fun _ => ⟨show (0 : Fin 2) ≠ 1 by decide, rfl, rfl, rfl⟩) (startC B)
    (fun _ => ⟨show (0 : Fin 2) ≠ 1 by decide, rfl, rfl, rfl⟩) A B (fun _ _ _ _ => rfl) (fun _ _ _ _ => rfl)
    (fun y _ _ j => sub_nonneg.2 (hAB y j)) k σ hσ σ' hσ' c x hx c x hx rfl hf j
  · exact sub_nonneg.1 key
  · exact ⟨(d1q2_combines 1 (-1)).EQ, by intro i w w'; fin_cases i <;> rfl, (d1q2_combines 1 (-1)).rel,
      (d1q2_combines 1 (-1)).source⟩
  · intro l ms hl p hp
    simp only [otherValues, basin, tank, Option.some.injEq] at hl
    subst hl
    rw [List.mem_singleton.1 hp]
    exact ⟨by simp, by simp⟩
  · refine C82_bgk damped (fun j w => by fin_cases j; rfl) (by decide +kernel) (fun _ => rfl) rfl .pull (fun _ => 1 / 2)
      (fun _ => by norm_num) ?_ _ hmean ?_
    · intro i w
      fin_cases i
      · exact Or.inr ⟨0, rfl⟩
      · exact Or.inl rfl
    · intro f hf j
      have h0 := hf 0
      have h1 := hf 1
      simp only [Set.mem_Ici] at h0 h1 ⊢
      fin_cases j <;> simp [damped, d1q2, Matrix.mulVec, dotProduct, Fin.sum_univ_two] <;> linarith

/-- The scheme of the Burgers equation: the flux is `w² / 2`. -/
def quadFlux : Kernel ℚ 2 1 0 := { d1q2 with EQ := ![fun w => w 0, fun w => w 0 ^ 2 / 2] }

/-- C90 is about linear schemes: the collision of `quadFlux` does not respect the sum. -/
theorem C90_nonlinear_negation (a : Algo) : ∃ f f' : Fin 2 → ℚ,
    collide quadFlux a (fun j => 1 * f j + 1 * f' j) ≠ fun j => 1 * collide quadFlux a f j + 1 * collide quadFlux a f' j := by
  refine ⟨![1, 0], ![1, 0], ?_⟩
  cases a <;> decide +kernel

/-- A case for `C90_imposed`: the density on a wall. -/
example (t : ℚ) (i : Fin 2) :
    (⟨fun _ => true, fun t x _ => 2 * t + 3 * x 0⟩ : Imposed ℚ 1 1).feq d1q2.invM d1q2.EQ t (fun _ => 1) i =
      2 * (⟨fun _ => true, fun t _ _ => t⟩ : Imposed ℚ 1 1).feq d1q2.invM d1q2.EQ t (fun _ => 1) i +
      3 * (⟨fun _ => true, fun _ x _ => x 0⟩ : Imposed ℚ 1 1).feq d1q2.invM d1q2.EQ t (fun _ => 1) i :=
  C90_imposed d1q2 2 3 (d1q2_combines 2 3) ⟨fun _ => true, fun t _ _ => t⟩ ⟨fun _ => true, fun _ x _ => x 0⟩
    ⟨fun _ => true, fun t x _ => 2 * t + 3 * x 0⟩ rfl rfl (fun _ _ _ => rfl) t (fun _ => 1) i

/-- A dictionary which gives the density. -/
def density (f : (Fin 1 → ℚ) → ℚ) : List (InitKey 2 1 × InitVal ℚ 1) := [(.sym 0, .fn f)]

/-- A case for `C90_initial`: three densities on seven cells and two processes. -/
example (u v : (Fin 1 → ℚ) → ℚ) (c : Proc grid7) (x : Cell 1) (hx : InLocal (size grid7 c) grid7.w x) (i : Fin 2) :
    ((startWith 2 0 1 0).init (ring d1q2 sten2.vel .pull grid7 c) (procCoords grid7 (fun _ => 0) 1 c) .moments
      (some (density fun y => 2 * u y + 3 * v y))).arr x i =
    2 * ((startWith 2 0 1 0).init (ring d1q2 sten2.vel .pull grid7 c) (procCoords grid7 (fun _ => 0) 1 c) .moments
      (some (density u))).arr x i +
    3 * ((startWith 2 0 1 0).init (ring d1q2 sten2.vel .pull grid7 c) (procCoords grid7 (fun _ => 0) 1 c) .moments
      (some (density v))).arr x i := by
  refine C90_initial grid7 (fun _ => 0) 1 d1q2 2 3 (d1q2_combines 2 3) ?_ (by decide +kernel)
    (fun _ => ring d1q2 sten2.vel .pull grid7) (fun _ _ => rfl) (fun _ c => ring_nodup c) ?_
    (fun _ _ => startWith 2 0 1 0) (fun _ c => startWith_start _ _ _ _ c _) (fun _ _ _ => rfl)
    ![density u, density v, density fun y => 2 * u y + 3 * v y] ?_ (fun y _ => u y) (fun y _ => v y) ?_ ?_ c x hx i
  · intro j w; obtain rfl : j = 0 := Subsingleton.elim _ _; rfl
  · exact fun _ c x => ring_full c x
  · intro r; fin_cases r <;> exact List.pairwise_singleton _ _
  · intro r z y kv hkv j hj
    fin_cases r <;> (rw [List.mem_singleton.1 hkv]; exact .fn _)
  · intro r y j hno
    exfalso
    obtain rfl : j = 0 := Subsingleton.elim _ _
    fin_cases r <;> exact hno _ (List.mem_singleton.2 rfl) (.sym 0)

end Pylbm.Sim
