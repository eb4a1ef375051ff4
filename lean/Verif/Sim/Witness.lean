import Verif.Sim.Props
/-!
# Concrete runs: non-vacuity and counterexamples for C39 and C44
-/

namespace Pylbm.Sim
open Scheme Halo SchemeSpec Matrix

/-- D1Q2: velocities 1 and -1, moments `f0 + f1` (conserved) and `f0 - f1`. -/
def d1q2 : Kernel ℚ 2 1 0 where
  M := !![1, 1; 1, -1]
  invM := !![1 / 2, 1 / 2; 1 / 2, -1 / 2]
  Tu := fun _ => 1
  Tmu := fun _ => 1
  EQ := ![fun w => w 0, fun w => w 0 / 2]
  s := ![fun _ => 0, fun _ => 3 / 2]
  consm := ![0]
  relVel := none
  source := fun _ => none
  dt := 1

/-- Two interior cells, halo of width 1, no boundary condition. -/
def line (b : Backend) (cfg : Settings) : Setup ℚ 2 1 0 1 where
  S := d1q2
  vel := ![fun _ => 1, fun _ => -1]
  backend := b
  cfg := cfg
  fluid := fun _ => true
  Lin := [fun _ => 1, fun _ => 2]
  Lfull := [fun _ => 0, fun _ => 1, fun _ => 2, fun _ => 3]
  bc := fun _ a => a

/-- `f_k(x) = x + 4 k`, `m = 0`. -/
def line0 (Fnew : Fin 2) : Simu ℚ 2 0 1 where
  mem := ⟨fun _ c k => c 0 + 4 * (k : ℚ), fun _ _ => 0, fun _ => Fin.elim0⟩
  F := 0
  Fnew := Fnew
  dirty := true
  t := 0
  nt := 0

def pullCfg : Settings := ⟨.pull, true, false, false⟩

/-- The hypotheses of C39, C40, C43, C44 hold for `line`. -/
example : (line .c pullCfg).S.M * (line .c pullCfg).S.invM = 1 ∧ (line .c pullCfg).Lin.Nodup ∧
    (line .c pullCfg).Lfull.Nodup ∧ (∀ c ∈ (line .c pullCfg).Lin, c ∈ (line .c pullCfg).Lfull) ∧
    (∀ j, ((line .c pullCfg).S.consm j : Nat) < 1) ∧ (line0 1).Start (line .c pullCfg) ∧
    (line0 0).Start (line .numpy pullCfg) ∧
    (∀ j w, (line .c pullCfg).S.EQ ((line .c pullCfg).S.consm j) w = w j) := by
  refine ⟨by decide +kernel, by decide, by decide, by decide, by decide, ⟨show (0 : Fin 2) ≠ 1 by decide, rfl, rfl, rfl⟩,
    ⟨rfl, rfl, rfl, rfl⟩, ?_⟩
  intro j w
  fin_cases j
  rfl

/-- A value after one step, in all the combinations. -/
example : ∀ b ∈ [Backend.numpy, Backend.c], ∀ a ∈ [Algo.base, Algo.pull], ∀ ml ∈ [true, false],
    ∀ sp ∈ [true, false],
    let s := (line0 (if b = .c then 1 else 0)).apply (line b ⟨a, ml, sp, false⟩) .step
    s.mem.buf s.F (fun _ => 1) 0 = 27 / 4 := by
  decide +kernel

/-- **C39 is false for the C backends**: `transport` writes in `Fnew`, which `f2m` does not read, so that
the documented phases applied one after the other do not transport. -/
theorem C39_composition_negation :
    ∃ (P : Setup ℚ 2 1 0 1) (s : Simu ℚ 2 0 1), s.Start P ∧ P.Lin.Nodup ∧ P.Lfull.Nodup ∧
      (∀ c ∈ P.Lin, c ∈ P.Lfull) ∧ (∀ j w, P.S.EQ (P.S.consm j) w = w j) ∧ P.S.M * P.S.invM = 1 ∧
      ∃ c ∈ P.Lin,
        let s' := s.run P [.boundary, .transport, .f2m, .relaxation, .m2f]
        (s.apply P .step).mem.buf (s.apply P .step).F c ≠ s'.mem.buf s'.F c := by
  refine ⟨line .c pullCfg, line0 1, ⟨show (0 : Fin 2) ≠ 1 by decide, rfl, rfl, rfl⟩, by decide, by decide, by decide, ?_,
    by decide +kernel, fun _ => 1, by decide, ?_⟩
  · intro j w; fin_cases j; rfl
  · intro s' h
    have := congrFun h 0
    revert this
    decide +kernel

/-- D1Q3 with polynomials `1, X, X²`, one conserved moment `rho` and the relative velocity `rho / 4`. -/
def d1q3rel1 : Kernel ℚ 3 1 1 where
  M := d1q3rel.M
  invM := d1q3rel.invM
  Tu := d1q3rel.Tu
  Tmu := d1q3rel.Tmu
  EQ := ![fun w => w 0, fun w => w 0 / 2, fun w => w 0 / 3]
  s := ![fun _ => 0, fun _ => 1, fun _ => 3 / 2]
  consm := ![0]
  relVel := some fun w _ => w 0 / 4
  source := fun _ => none
  dt := 1

/-- The same scheme on two interior cells. -/
def relLine (cfg : Settings) (b : Backend) : Setup ℚ 3 1 1 1 where
  S := d1q3rel1
  vel := ![fun _ => 0, fun _ => 1, fun _ => -1]
  backend := b
  cfg := cfg
  fluid := fun _ => true
  Lin := [fun _ => 1, fun _ => 2]
  Lfull := [fun _ => 0, fun _ => 1, fun _ => 2, fun _ => 3]
  bc := fun _ a => a

def relLine0 (Fnew : Fin 2) : Simu ℚ 3 1 1 where
  mem := ⟨fun _ c k => 1 + c 0 * (k : ℚ), fun _ _ => 0, fun _ _ => 0⟩
  F := 0
  Fnew := Fnew
  dirty := true
  t := 0
  nt := 0

/-- **C39: `split` with a relative velocity**: the relative velocity is one scalar, and after its loop it
holds the value of the last cell; the result differs from the fused loop. -/
theorem C39_split_negation :
    ∃ c ∈ (relLine pullCfg .c).Lin,
      let s := (relLine0 1).apply (relLine pullCfg .c) .step
      let s' := (relLine0 1).apply (relLine ⟨.pull, true, true, false⟩ .c) .step
      s.mem.buf s.F c ≠ s'.mem.buf s'.F c := by
  refine ⟨fun _ => 1, by decide, ?_⟩
  intro s s' h
  have := congrFun h 0
  revert this
  decide +kernel

/-- **C39: phases with a relative velocity**: the public `relaxation` and `m2f` ignore the relative
velocity, so the composition of the phases differs from `one_time_step` also with NumPy. -/
theorem C39_relative_velocity_negation :
    ∃ c ∈ (relLine pullCfg .numpy).Lin,
      let s := (relLine0 0).apply (relLine pullCfg .numpy) .step
      let s' := (relLine0 0).run (relLine pullCfg .numpy) [.boundary, .transport, .f2m, .relaxation, .m2f]
      s.mem.buf s.F c ≠ s'.mem.buf s'.F c := by
  refine ⟨fun _ => 1, by decide, ?_⟩
  intro s s' h
  have := congrFun h 0
  revert this
  decide +kernel

/-- **C44: `transport()` with NumPy** changes `F` and leaves the flag, so `m` is stale. -/
theorem C44_transport_negation :
    ∃ (P : Setup ℚ 2 1 0 1) (s : Simu ℚ 2 0 1), s.Start P ∧ userWrote ([.readM, .transport] : List (Op ℚ 2 1)) = false ∧
      ∃ c ∈ P.Lin, let r := (s.run P [.readM, .transport]).apply P .readM
        r.mem.m (some c) ≠ P.S.M *ᵥ (r.mem.buf r.F c) := by
  refine ⟨line .numpy ⟨.pull, false, false, false⟩, line0 0, ⟨rfl, rfl, rfl, rfl⟩, rfl, fun _ => 1, by decide, ?_⟩
  intro r h
  have := congrFun h 1
  revert this
  decide +kernel

/-- **C44: writing through the array returned by `F[i]`** leaves the flag, so `m` is stale. -/
theorem C44_view_negation :
    ∃ (P : Setup ℚ 2 1 0 1) (s : Simu ℚ 2 0 1), s.Start P ∧
      userWrote ([.readM, .writeView 0 fun _ => 7] : List (Op ℚ 2 1)) = false ∧
      ∃ c ∈ P.Lin, let r := (s.run P [.readM, .writeView 0 fun _ => 7]).apply P .readM
        r.mem.m (some c) ≠ P.S.M *ᵥ (r.mem.buf r.F c) := by
  refine ⟨line .c pullCfg, line0 1, ⟨show (0 : Fin 2) ≠ 1 by decide, rfl, rfl, rfl⟩, rfl, fun _ => 1, by decide, ?_⟩
  intro r h
  have := congrFun h 0
  revert this
  decide +kernel

/-- **C44: writing one moment** clears the flag although the other moments have not been computed since
the last step: reading another moment gives its value before the step. -/
theorem C44_other_moment_negation :
    ∃ (P : Setup ℚ 2 1 0 1) (s : Simu ℚ 2 0 1), s.Start P ∧
      ∃ c ∈ P.Lin, let r := (s.run P [.readM, .step, .writeM 0 fun _ => 7]).apply P .readM
        r.mem.m (some c) 1 ≠ (P.S.M *ᵥ (r.mem.buf r.F c)) 1 := by
  refine ⟨line .c pullCfg, line0 1, ⟨show (0 : Fin 2) ≠ 1 by decide, rfl, rfl, rfl⟩, fun _ => 1, by decide, ?_⟩
  decide +kernel

end Pylbm.Sim
