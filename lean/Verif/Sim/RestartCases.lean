import Verif.Sim.Restart
import Verif.Sim.LinearCases
/-!
# Cases and witnesses for C102
-/

namespace Pylbm.Sim
open Scheme Halo SchemeSpec Matrix HaloSpec Mpi Boundary
open scoped Matrix

/-- The dictionary of all the moments which a simulation returns: `init = {i: sol.m_halo[i]}`. -/
def allMoments {n nc d dim : Nat} (P : Setup ℚ n nc d dim) (s : Simu ℚ n d dim) : List (InitKey n nc × InitVal ℚ dim) :=
  (List.finRange n).map fun i => (.idx i, .arr fun x => (s.apply P .readM).mem.m (some x) i)

/-- **C102 is false for a restart from the moments**: with `inittype = "moments"` and all the saved moments, the
populations of the new simulation are not the saved ones, and the next step differs from that of the
simulation which goes on. -/
theorem C102_inittype_negation :
    ∃ (P : Setup ℚ 2 1 0 1) (s s₀ : Simu ℚ 2 0 1), s.Start P ∧ s₀.Start P ∧ P.S.M * P.S.invM = 1 ∧
      (∀ j w, P.S.EQ (P.S.consm j) w = w j) ∧ ∃ x ∈ P.Lin,
        let s₁ := s.apply P .step
        let r := (s₀.init P (fun _ => [0, 1, 2, 3]) .moments (some (allMoments P s₁))).setTime s₁.t s₁.nt
        r.arr x ≠ s₁.arr x ∧ (r.apply P .step).arr x ≠ (s₁.apply P .step).arr x := by
  refine ⟨line .c pullCfg, line0 1, startWith 2 0 1 0, ⟨show (0 : Fin 2) ≠ 1 by decide, rfl, rfl, rfl⟩,
    ⟨show (0 : Fin 2) ≠ 1 by decide, rfl, rfl, rfl⟩, by decide +kernel, ?_, fun _ => 1, by decide, ?_⟩
  · intro j w; fin_cases j; rfl
  · intro s₁ r
    refine ⟨fun h => ?_, fun h => ?_⟩
    · have := congrFun h 1
      revert this
      decide +kernel
    · have := congrFun h 1
      revert this
      decide +kernel

/-- **C102 needs the time**: the saved populations of the pipe, whose walls have values which depend on the time; a new
simulation where `t` is not assigned gives other fluid cells at the next step, and `nt` counts from zero. -/
theorem C102_time_negation :
    ∃ (s : Simu ℚ 2 0 1) (c : Proc grid7one) (x : Cell 1), s.Start (pipeSetup grid7one .numpy .pull c) ∧
      Owned (size grid7one c) grid7one.w x ∧
      ((s.setTime 1 1).apply (pipeSetup grid7one .numpy .pull c) .step).arr x ≠
        (s.apply (pipeSetup grid7one .numpy .pull c) .step).arr x ∧
      ((s.setTime 1 1).apply (pipeSetup grid7one .numpy .pull c) .step).nt ≠
        (s.apply (pipeSetup grid7one .numpy .pull c) .step).nt := by
  refine ⟨{ startWith 2 0 1 0 with Fnew := 0 }, fun i => ⟨0, grid7one.hp i⟩, fun _ => 1, ⟨rfl, rfl, rfl, rfl⟩, ?_, ?_,
    by decide⟩
  · intro i
    obtain rfl : i = 0 := Subsingleton.elim _ _
    decide +kernel
  · intro h
    have := congrFun h 0
    revert this
    decide +kernel

theorem pipe_full (g : Grid 1) (b : Backend) (a : Algo) (c : Proc g) : (pipeSetup g b a c).Lfull.Nodup ∧
    ∀ x, Owned (size g c) g.w x → x ∈ (pipeSetup g b a c).Lfull := by
  constructor
  · refine List.Nodup.map ?_ List.nodup_range
    intro a b h
    have := congrFun h 0
    simpa using this
  · intro x hx
    have := hx 0
    simp only [pipeSetup, ring, List.mem_map, List.mem_range]
    refine ⟨(x 0).toNat, by omega, ?_⟩
    funext i
    obtain rfl : i = 0 := Subsingleton.elim _ _
    omega

/-- A case for C102: the pipe with `check_isfluid` on two processes, restarted on one process with another
backend from its moments; with `pipe_case` the hypotheses of `C102_restart` hold. -/
example (k j : Nat) : d1q2.invM * d1q2.M = 1 ∧
    ∃ σ, PRun grid7 (pipeFluid grid7 .c .pull)
      (fun c => startWith 2 0 1 fun x k => (first grid7 c 0 : ℚ) + x 0 + 10 * k) k σ ∧
    ∃ B M' : Proc grid7one → Arr ℚ 2 1,
      (∀ c x c' x', Owned (size grid7 c) grid7.w x → Owned (size grid7one c') grid7one.w x' →
        globalPos (first grid7 c) grid7.w x = globalPos (first grid7one c') grid7one.w x' →
        B c' x' = (σ c).arr x ∧ M' c' x' = ((σ c).apply (pipeFluid grid7 .c .pull c) .readM).mem.m (some x)) ∧
      ∃ σ₁ : Proc grid7one → Simu ℚ 2 0 1,
        (∀ c, Restores (pipeSetup grid7one .numpy .pull c) (procCoords grid7one (fun _ => 0) 1 c)
          (Owned (size grid7one c) grid7one.w) (B c) (M' c) { startWith 2 0 1 0 with Fnew := 0 } (σ₁ c)) ∧
        ∃ σ', PRun grid7one (pipeSetup grid7one .numpy .pull) (fun c => (σ₁ c).setTime (k * d1q2.dt) k) j σ' := by
  have h : ∀ c i, grid7.w i ≤ size grid7 c i := (large_iff grid7).2 (by decide)
  have h' : ∀ c i, grid7one.w i ≤ size grid7one c i := (large_iff grid7one).2 (by decide)
  obtain ⟨σ, hσ⟩ := C42_run_exists (by omega) grid7 h (pipeFluid grid7 .c .pull)
    (fun c => startWith 2 0 1 fun x k => (first grid7 c 0 : ℚ) + x 0 + 10 * k) k
  obtain ⟨H, hH, -⟩ := assemble grid7 (fun c x => ((σ c).arr x,
    ((σ c).apply (pipeFluid grid7 .c .pull c) .readM).mem.m (some x))) 0
  refine ⟨by decide +kernel, σ, hσ, fun c x => (H (globalPos (first grid7one c) grid7one.w x)).1,
    fun c x => (H (globalPos (first grid7one c) grid7one.w x)).2, ?_, ?_⟩
  · intro c x c' x' hx hx' he
    have := hH c x hx
    rw [he] at this
    beta_reduce
    rw [← this]
    exact ⟨rfl, rfl⟩
  · exact ⟨_, fun c => .moments (fun i x => (H (globalPos (first grid7one c) grid7one.w x)).2 i)
      (fun _ _ _ => rfl), C42_run_exists (by omega) grid7one h' (pipeSetup grid7one .numpy .pull) _ j⟩

/-- The dictionary for the other way: the saved populations as arrays. -/
example (B : Arr ℚ 2 1) (R : Cell 1 → Prop) (M' : Arr ℚ 2 1) (s : Simu ℚ 2 0 1) :
    Restores (line .c pullCfg) (fun _ => [0, 1, 2, 3]) R B M' s (s.init (line .c pullCfg) (fun _ => [0, 1, 2, 3])
      .distributions (some ((List.finRange 2).map fun i => (.idx i, .arr fun x => B x i)))) := by
  refine .distributions _ ?_ ?_
  · rw [clear_iff, List.map_map]
    exact (List.nodup_finRange 2).map fun i j h => h
  · intro i
    exact ⟨_, List.mem_map.2 ⟨i, List.mem_finRange i, rfl⟩, .idx i, fun x _ => .arr _⟩

/-- The hypotheses of `C102_inittype_partial` and of `C102_lazy_negation` hold for `line`, and what is assigned before the
first step would change it. -/
example : (line .c pullCfg).Lfull.Nodup ∧ Clear (line .c pullCfg).S (allMoments (line .c pullCfg) (line0 1)) ∧
    (∀ i, ∃ kv ∈ allMoments (nc := 1) (line .c pullCfg) (line0 1), kv.1.Names (line .c pullCfg).S i) ∧
    (∀ x ∈ (line .c pullCfg).Lin, ∀ j, (fun i => x i - (line .c pullCfg).vel j i) ∈ (line .c pullCfg).Lfull) ∧
    (((line0 1).run (line .c pullCfg) [.writeF 0 fun _ => 100]).apply (line .c pullCfg) .step).arr (fun _ => 1) 0 ≠
      ((line0 1).apply (line .c pullCfg) .step).arr (fun _ => 1) 0 := by
  refine ⟨by decide, ?_, ?_, by decide, by decide +kernel⟩
  · rw [clear_iff, allMoments, List.map_map]
    exact (List.nodup_finRange 2).map fun i j h => h
  · intro i
    exact ⟨_, List.mem_map.2 ⟨i, List.mem_finRange i, rfl⟩, .idx i⟩

/-- D1Q2 with the relaxation parameter 1, for `C102_inittype_unit`. -/
def unitLine : Setup ℚ 2 1 0 1 := { line .c pullCfg with S := { d1q2 with s := ![fun _ => 0, fun _ => 1] } }

example : (∀ i w, (∀ j, i ≠ unitLine.S.consm j) → unitLine.S.s i w = 1) ∧
    Clear unitLine.S (allMoments unitLine ((line0 1).apply unitLine .step)) ∧
    ∀ i, ∃ kv ∈ allMoments (nc := 1) unitLine ((line0 1).apply unitLine .step), kv.1.Names unitLine.S i ∧
      kv.2.Means (fun _ => 1) (coordAt (fun _ => [0, 1, 2, 3]) fun _ => 1)
        ((((line0 1).apply unitLine .step).apply unitLine .readM).mem.m (some fun _ => 1) i) := by
  refine ⟨?_, ?_, ?_⟩
  · intro i w h
    fin_cases i
    · exact absurd rfl (h 0)
    · rfl
  · rw [clear_iff, allMoments, List.map_map]
    exact (List.nodup_finRange 2).map fun i j h => h
  · intro i
    exact ⟨_, List.mem_map.2 ⟨i, List.mem_finRange i, rfl⟩, .idx i, .arr _⟩

end Pylbm.Sim
