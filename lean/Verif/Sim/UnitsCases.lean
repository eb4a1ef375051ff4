import Verif.Sim.Units
import Verif.Sim.ConeCases
import Verif.Sim.MassCases
/-!
# Cases for C89: the pipe of C42 in other units
-/
set_option linter.unusedSectionVars false
namespace Pylbm.Sim
open Scheme Halo SchemeSpec Matrix HaloSpec Mpi Boundary
open Domain (newCoords Elem)

/-- The scheme `d1q2` with lengths multiplied by 10 and times by 2: the velocities are multiplied by 5. -/
def d1q2u : Kernel ℚ 2 1 0 :=
  { d1q2 with
    M := !![1, 1; 5, -5]
    invM := !![1 / 2, 1 / 10; 1 / 2, -1 / 10]
    EQ := ![fun w => w 0, fun w => 5 * w 0 / 2]
    dt := 2 }

theorem d1q2u_inUnits : InUnits d1q2 d1q2u ![1, 5] 5 2 where
  factor := by decide +kernel
  time := by norm_num
  M := by intro i j; fin_cases i <;> fin_cases j <;> simp [d1q2u, d1q2]
  invM := by intro i j; fin_cases i <;> fin_cases j <;> norm_num [d1q2u, d1q2]
  Tu := by
    intro u i j
    show (1 : Matrix (Fin 2) (Fin 2) ℚ) i j = ![1, 5] i * (1 : Matrix (Fin 2) (Fin 2) ℚ) i j / ![1, 5] j
    fin_cases i <;> fin_cases j <;> norm_num
  Tmu := by
    intro u i j
    show (1 : Matrix (Fin 2) (Fin 2) ℚ) i j = ![1, 5] i * (1 : Matrix (Fin 2) (Fin 2) ℚ) i j / ![1, 5] j
    fin_cases i <;> fin_cases j <;> norm_num
  consm := rfl
  EQ := by
    intro i w
    fin_cases i
    · show (1 : ℚ) * w 0 = 1 * w 0
      rfl
    · show 5 * ((1 : ℚ) * w 0) / 2 = 5 * (w 0 / 2)
      ring
  s := by intro i w; fin_cases i <;> rfl
  noRel := fun _ => rfl
  rel := by intro q h; cases h
  noSource := fun _ _ => rfl
  source := by intro i q h; cases h
  dt := by norm_num [d1q2u, d1q2]

/-- The pipe in the new coordinates `10 x + 3`, with the imposed values of the new times and points. -/
def pipeU : WallData ℚ 1 sten2 where
  elems := [segment 13 23]
  els := [5]
  dico := pipe.dico
  ψ := fun l t x k => if l = 5 then 0 else t / 2 + (x 0 - 3) / 10 + k

theorem pipe_units : OtherUnits pipe pipeU 10 (fun _ => 3) 2 where
  elems := by
    refine .cons ⟨rfl, ?_, ?_, fun x => ?_, fun x v => ?_, fun _ _ => rfl⟩ .nil
    · funext j; simp only [plug, segment, newCoords]; norm_num
    · funext j; simp only [plug, segment, newCoords]; norm_num
    · unfold segment plug newCoords
      refine decide_eq_decide.2 ?_
      constructor <;> rintro ⟨h1, h2⟩ <;> constructor <;> linarith
    · simp only [segment, plug, newCoords]
      have e1 : (13 - (10 * x 0 + 3)) / (10 * v 0) = (1 - x 0) / v 0 := by
        rw [show (13 : ℚ) - (10 * x 0 + 3) = 10 * (1 - x 0) by ring, mul_div_mul_left _ _ (by norm_num)]
      have e2 : (23 - (10 * x 0 + 3)) / (10 * v 0) = (2 - x 0) / v 0 := by
        rw [show (23 : ℚ) - (10 * x 0 + 3) = 10 * (2 - x 0) by ring, mul_div_mul_left _ _ (by norm_num)]
      have a1 : (0 < 10 * v 0 ∧ 10 * x 0 + 3 ≤ 13 ∧ 13 ≤ 10 * x 0 + 3 + 10 * v 0) ↔
          (0 < v 0 ∧ x 0 ≤ 1 ∧ 1 ≤ x 0 + v 0) := by
        constructor <;> rintro ⟨p, q, r⟩ <;> refine ⟨?_, ?_, ?_⟩ <;> linarith
      have a2 : (10 * v 0 < 0 ∧ 23 ≤ 10 * x 0 + 3 ∧ 10 * x 0 + 3 + 10 * v 0 ≤ 23) ↔
          (v 0 < 0 ∧ 2 ≤ x 0 ∧ x 0 + v 0 ≤ 2) := by
        constructor <;> rintro ⟨p, q, r⟩ <;> refine ⟨?_, ?_, ?_⟩ <;> linarith
      simp only [a1, a2, e1, e2]
  els := rfl
  dico := rfl
  values := by
    intro label t x
    funext k
    simp only [pipeU, pipe, newCoords]
    split_ifs
    · rfl
    · ring

/-- The domain of the pipe in the new units on one process and the entries of its boundary methods. -/
def pipeDataU (c : Proc grid7one) : Option (Domain.State ℚ 1 2 × List (Method 1 × List (Entry ℚ 1 2))) := do
  let st ← Domain.build (procGrid grid7one (fun _ => 10 * 0 + 3) (10 * 1) pipeLab sten2 c) pipeU.elems
  let I ← instances sten2 (procGrid grid7one (fun _ => (10 * 0 + 3 : ℚ)) (10 * 1) pipeLab sten2 c).total st.link
    (listOfLabels (procGrid grid7one (fun _ => (10 * 0 + 3 : ℚ)) (10 * 1) pipeLab sten2 c) pipeU.els) pipeU.dico
  return (st, I)

theorem pipeU_onGrid (c : Proc grid7one) {st I} (h : pipeDataU c = some (st, I)) :
    OnGrid pipeU (procGrid grid7one (newCoords 10 (fun _ => 3) fun _ => 0) (10 * 1) pipeLab sten2 c) st I := by
  unfold pipeDataU at h
  simp only [Option.bind_eq_bind, Option.bind_eq_some_iff, Option.pure_def, Option.some.injEq,
    Prod.mk.injEq] at h
  obtain ⟨st', h1, I', h2, rfl, rfl⟩ := h
  exact ⟨procGrid_wf _ _ _ (by norm_num) _ _ (by decide) c, rfl, h1, h2⟩

/-- The setup of the pipe in the new units on one process. -/
def pipeSetupU (c : Proc grid7one) : Setup ℚ 2 1 0 1 :=
  { ring d1q2u sten2.vel .pull grid7one c with
    backend := .numpy
    bc := fun t A => match pipeDataU c with
      | none => A
      | some p => toArr (boundaryCondition sten2
          (withValues sten2 (procGrid grid7one (fun _ => 10 * 0 + 3) (10 * 1) pipeLab sten2 c) pipeU.ψ p.2 t)
          (toDist A)) }

theorem pipeU_fluidRun : FluidRun pipeU grid7one (newCoords 10 (fun _ => 3) fun _ => 0) (10 * 1) pipeLab d1q2u .pull
    pipeSetupU := by
  have hs : ∀ c, (pipeDataU c).isSome := by decide +kernel
  have h := ring_uniform d1q2u sten2.vel .pull grid7one
  refine ⟨⟨(large_iff grid7one).2 (by decide), fun c => ?_, fun c x hx k => Or.inl fun j => ?_⟩, h.scheme, h.vel, h.algo,
    fun c hc => ?_, h.nodup, h.loops, fun c => by simp [pipeSetupU]⟩
  · obtain ⟨⟨st, I⟩, hp⟩ := Option.isSome_iff_exists.1 (hs c)
    exact ⟨st, I, pipeU_onGrid c hp, fun t A => by simp only [pipeSetupU, hp]; rfl⟩
  · have h1 : ∀ (c : Proc grid7one) (j : Fin 1), first grid7one c j = 0 ∧ first grid7one c j + size grid7one c j = 7 := by
      decide +kernel
    refine ⟨fun h => absurd (h1 c j).1 h, fun h => absurd (h1 c j).2 h⟩
  · have : (pipeSetupU c).cfg.checkFluid = false := rfl
    rw [this] at hc
    exact absurd hc (by decide)

/-- A case for `C89_units`: the pipe on two processes with `check_isfluid`, and in the new units on one process without
it. -/
example (k : Nat) (G : Arr ℚ 2 1) : ∃ σ σ' ST,
    Domain.build (boxGrid grid7.N grid7.w (fun _ => 0) 1 pipeLab sten2) pipe.elems = some ST ∧
    PRun grid7 (pipeFluid grid7 .c .pull) (startC G) k σ ∧ PRun grid7one pipeSetupU (startN G) k σ' ∧
    ∀ c x, Owned (size grid7 c) grid7.w x → ∀ c' x', Owned (size grid7one c') grid7one.w x' →
      globalPos (first grid7 c) grid7.w x = globalPos (first grid7one c') grid7one.w x' →
      fluidMap grid7.w ST (globalPos (first grid7 c) grid7.w x) = true →
      (σ' c').arr x' = (σ c).arr x ∧ (σ' c').t = 2 * (σ c).t ∧
      (d1q2u.M *ᵥ (σ' c').arr x') 1 = 5 * (d1q2.M *ᵥ (σ c).arr x) 1 := by
  obtain ⟨hQ, _, hmeth, ST, J, hJ, hlinks, hreads, hfree, _⟩ := pipe_case
  obtain ⟨σ, hσ⟩ := C42_run_exists (by decide) grid7 ((large_iff grid7).2 (by decide)) (pipeFluid grid7 .c .pull)
    (startC G) k
  obtain ⟨σ', hσ'⟩ := C42_run_exists (by decide) grid7one ((large_iff grid7one).2 (by decide)) pipeSetupU (startN G) k
  refine ⟨σ, σ', ST, hJ.built, hσ, hσ', fun c x hx c' x' hx' he hf => ?_⟩
  obtain ⟨h1, h2, h3⟩ := C89_units (by decide) pipe pipeU (fun _ => 0) 1 pipeLab pipe_wf 10 (by norm_num) (fun _ => 3) 2
    pipe_units grid7 grid7one rfl rfl ST J hJ hfree hlinks hmeth hreads d1q2 d1q2u (by decide) _ _ d1q2u_inUnits .pull
    _ hQ _ pipeU_fluidRun (fun c => startC G c) (fun c => ⟨show (0 : Fin 2) ≠ 1 by decide, rfl, rfl, rfl⟩)
    (fun c => startN G c) (fun c => ⟨rfl, rfl, rfl, rfl⟩) G (fun _ _ _ _ => rfl) (fun _ _ _ _ => rfl) k σ hσ σ' hσ'
    c x hx c' x' hx' he hf
  exact ⟨h1, h2, h3 1⟩

/-- A case for `C89_matrices`: the moments `1, X` of two velocities `±1`. -/
example (A A' : Matrix (Fin 2) (Fin 2) ℚ)
    (hA : Scheme.inv (localM 1 ![fun _ => 1, fun _ => -1] ![fun _ => 1, fun x : Fin 1 → ℚ => x 0]) = some A)
    (hA' : Scheme.inv (localM (5 * 1) ![fun _ => 1, fun _ => -1] ![fun _ => 1, fun x : Fin 1 → ℚ => x 0]) = some A') :
    A' 0 1 = A 0 1 / 5 := by
  have := (C89_matrices (1 : ℚ) 5 (by norm_num) ![fun _ => 1, fun _ => -1] ![fun _ => 1, fun x : Fin 1 → ℚ => x 0]
    ![0, 1] (by intro i c x; fin_cases i <;> simp) A A' hA hA').2.1 0 1
  simpa using this

end Pylbm.Sim
