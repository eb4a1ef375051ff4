import Verif.Sim.Order
import Verif.Sim.ConeCases
/-!
# Cases for C100: the pipe of C42 with the velocities in the other order
-/
set_option linter.unusedSectionVars false
namespace Pylbm.Sim
open Scheme Halo SchemeSpec Matrix HaloSpec Mpi Boundary

/-- The scheme `d1q2` with the velocities `-1, 1` in place of `1, -1`. -/
def d1q2o : Kernel ℚ 2 1 0 :=
  { d1q2 with
    M := !![1, 1; -1, 1]
    invM := !![1 / 2, -1 / 2; 1 / 2, 1 / 2] }

/-- The two velocities are exchanged. -/
abbrev turn2 : Equiv.Perm (Fin sten2.ns) := Equiv.swap (0 : Fin 2) 1

/-- The scheme is the second one of the dictionary in place of the first one. -/
abbrev second : Equiv.Perm Nat := Equiv.swap 0 1

theorem d1q2o_same : SameScheme d1q2 d1q2o 1 turn2 1 where
  M := by
    show ∀ a b : Fin 2, (!![1, 1; -1, 1] a b : ℚ) = !![1, 1; 1, -1] a (Equiv.swap (0 : Fin 2) 1 b)
    intro a b
    fin_cases a <;> fin_cases b <;> simp
  invM := by
    show ∀ b a : Fin 2, (!![1 / 2, -1 / 2; 1 / 2, 1 / 2] b a : ℚ) =
      !![1 / 2, 1 / 2; 1 / 2, -1 / 2] (Equiv.swap (0 : Fin 2) 1 b) a
    intro b a
    fin_cases a <;> fin_cases b <;> simp
  Tu := fun _ _ _ => rfl
  Tmu := fun _ _ _ => rfl
  EQ := fun _ _ => rfl
  s := fun _ _ => rfl
  consm := fun _ => rfl
  dt := rfl
  noRel := ⟨fun _ => rfl, fun _ => rfl⟩
  rel := by intro v v' h; cases h
  noSource := fun _ => ⟨fun _ => rfl, fun _ => rfl⟩
  source := by intro a r r' h; cases h

/-- The pipe for the scheme in the other order. -/
def pipeO : WallData ℚ 1 (sten2.relabel turn2 second) where
  elems := pipe.elems
  els := pipe.els
  dico := fun l => if l = 5 then some [(1, .bounceBack)] else some [(1, .antiBounceBack)]
  ψ := fun l t x j => pipe.ψ l t x (turn2 j)

theorem pipeO_wf : pipeO.WF pipeLab where
  sten := relabel_wf pipe_wf.sten
  sound := pipe_wf.sound
  labels := pipe_wf.labels
  dict := by intro l ms h; simp only [pipeO] at h; split_ifs at h <;> cases h <;> simp
  no999 := pipe_wf.no999
  noFace := pipe_wf.noFace

theorem pipeO_same : SameWalls turn2 second pipe pipeO where
  elems := rfl
  els := rfl
  given := by intro l; simp only [pipeO, pipe]; split_ifs <;> rfl
  dico := by
    intro l i m
    have h : (second i = 1) ↔ i = 0 := by
      rw [← Equiv.eq_symm_apply]
      simp
    simp only [pipeO, pipe]
    split_ifs <;> simp [h]
  values := fun _ _ _ _ => rfl

/-- The domain of the pipe on one process and the entries of its boundary methods, in the other order. -/
def pipeDataO (c : Proc grid7one) : Option (Domain.State ℚ 1 2 × List (Method 1 × List (Entry ℚ 1 2))) := do
  let st ← Domain.build (procGrid grid7one (fun _ => 0) 1 pipeLab (sten2.relabel turn2 second) c) pipeO.elems
  let I ← instances (sten2.relabel turn2 second)
    (procGrid grid7one (fun _ => (0 : ℚ)) 1 pipeLab (sten2.relabel turn2 second) c).total st.link
    (listOfLabels (procGrid grid7one (fun _ => (0 : ℚ)) 1 pipeLab (sten2.relabel turn2 second) c) pipeO.els) pipeO.dico
  return (st, I)

theorem pipeO_onGrid (c : Proc grid7one) {st I} (h : pipeDataO c = some (st, I)) :
    OnGrid pipeO (procGrid grid7one (fun _ => 0) 1 pipeLab (sten2.relabel turn2 second) c) st I := by
  unfold pipeDataO at h
  simp only [Option.bind_eq_bind, Option.bind_eq_some_iff, Option.pure_def, Option.some.injEq,
    Prod.mk.injEq] at h
  obtain ⟨st', h1, I', h2, rfl, rfl⟩ := h
  exact ⟨procGrid_wf _ _ _ (by norm_num) _ _ (by decide) c, rfl, h1, h2⟩

/-- The setup of the pipe in the other order on one process. -/
def pipeSetupO (c : Proc grid7one) : Setup ℚ 2 1 0 1 :=
  { ring d1q2o (sten2.relabel turn2 second).vel .pull grid7one c with
    backend := .numpy
    bc := fun t A => match pipeDataO c with
      | none => A
      | some p => toArr (boundaryCondition (sten2.relabel turn2 second)
          (withValues (sten2.relabel turn2 second)
            (procGrid grid7one (fun _ => 0) 1 pipeLab (sten2.relabel turn2 second) c) pipeO.ψ p.2 t)
          (toDist A)) }

theorem pipeO_fluidRun : FluidRun pipeO grid7one (fun _ => 0) 1 pipeLab d1q2o .pull pipeSetupO := by
  have hs : ∀ c, (pipeDataO c).isSome := by decide +kernel
  have h := ring_uniform d1q2o (sten2.relabel turn2 second).vel .pull grid7one
  refine ⟨⟨(large_iff grid7one).2 (by decide), fun c => ?_, fun c x hx k => Or.inl fun j => ?_⟩, h.scheme, h.vel, h.algo,
    fun c hc => ?_, h.nodup, h.loops, fun c => by simp [pipeSetupO]⟩
  · obtain ⟨⟨st, I⟩, hp⟩ := Option.isSome_iff_exists.1 (hs c)
    exact ⟨st, I, pipeO_onGrid c hp, fun t A => by simp only [pipeSetupO, hp]⟩
  · have h1 : ∀ (c : Proc grid7one) (j : Fin 1), first grid7one c j = 0 ∧ first grid7one c j + size grid7one c j = 7 := by
      decide +kernel
    refine ⟨fun h => absurd (h1 c j).1 h, fun h => absurd (h1 c j).2 h⟩
  · have : (pipeSetupO c).cfg.checkFluid = false := rfl
    rw [this] at hc
    exact absurd hc (by decide)

/-- A case for `C100_order_partial`: the pipe on two processes, and with the velocities and schemes in the other order on
one process. -/
example (k : Nat) (G : Arr ℚ 2 1) : ∃ σ σ' ST,
    Domain.build (boxGrid grid7.N grid7.w (fun _ => 0) 1 pipeLab sten2) pipe.elems = some ST ∧
    PRun grid7 (pipeFluid grid7 .c .pull) (startC G) k σ ∧
    PRun grid7one pipeSetupO (startN fun y => G y ∘ Equiv.swap 0 1) k σ' ∧
    ∀ c x, Owned (size grid7 c) grid7.w x → ∀ c' x', Owned (size grid7one c') grid7one.w x' →
      globalPos (first grid7 c) grid7.w x = globalPos (first grid7one c') grid7one.w x' →
      fluidMap grid7.w ST (globalPos (first grid7 c) grid7.w x) = true →
      (σ' c').arr x' 0 = (σ c).arr x 1 ∧ (σ' c').arr x' 1 = (σ c).arr x 0 ∧
      (d1q2o.M *ᵥ (σ' c').arr x') 1 = (d1q2.M *ᵥ (σ c).arr x) 1 := by
  obtain ⟨hQ, _, hmeth, ST, J, hJ, hlinks, hreads, hfree, _⟩ := pipe_case
  obtain ⟨σ, hσ⟩ := C42_run_exists (by decide) grid7 ((large_iff grid7).2 (by decide)) (pipeFluid grid7 .c .pull)
    (startC G) k
  obtain ⟨σ', hσ'⟩ := C42_run_exists (by decide) grid7one ((large_iff grid7one).2 (by decide)) pipeSetupO
    (startN fun y => G y ∘ Equiv.swap 0 1) k
  refine ⟨σ, σ', ST, hJ.built, hσ, hσ', fun c x hx c' x' hx' he hf => ?_⟩
  obtain ⟨h1, h2, h3, h4⟩ := C100_order_partial (by decide) turn2 second pipe pipeO (fun _ => 0) 1 pipeLab pipe_wf pipeO_wf
    pipeO_same grid7 grid7one rfl rfl ST J hJ hfree hlinks hmeth hreads d1q2 d1q2o 1 1 d1q2o_same (by decide) (by decide)
    rfl (by intro j w; fin_cases j; rfl) (by intro i q h; cases h) (by intro i q h; cases h) .pull
    _ hQ _ pipeO_fluidRun (fun c => startC G c) (fun c => ⟨show (0 : Fin 2) ≠ 1 by decide, rfl, rfl, rfl⟩)
    (fun c => startN (fun y => G y ∘ Equiv.swap 0 1) c) (fun c => ⟨rfl, rfl, rfl, rfl⟩) G (fun _ _ _ _ => rfl)
    (fun _ _ _ _ _ => rfl) k σ hσ σ' hσ' c x hx c' x' hx' he hf
  exact ⟨h1 0, h1 1, h3 1⟩

end Pylbm.Sim
