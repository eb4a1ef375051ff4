import Verif.Sim.Reverse
import Verif.Sim.ShearCases
import Verif.Sim.EnergyCases
/-!
# C108: cases and counterexamples
-/

set_option linter.unusedSimpArgs false

namespace Pylbm.Sim
open Scheme Halo SchemeSpec Matrix HaloSpec Mpi Boundary

/-! ## A nonlinear scheme between moving walls -/

/-- D2Q4 with the moments 1, X, Y, XY, the stress relaxed to `q_x q_y / ρ` with the parameter 2. -/
def euler4 : Kernel ℚ 4 3 0 :=
  { fluid4 with
    EQ := ![fun w => w 0, fun w => w 1, fun w => w 2, fun w => w 1 * w 2 / w 0]
    s := ![fun _ => 0, fun _ => 0, fun _ => 0, fun _ => 2] }

/-- The density and the stress are even, the momentum is odd. -/
def euler4Sign : Fin 4 → ℚ := ![1, -1, -1, 1]

theorem euler4_reversible : Reversible stenX euler4 euler4Sign where
  relaxation := by
    intro i v hi
    fin_cases i
    · exact absurd ⟨0, rfl⟩ hi
    · exact absurd ⟨1, rfl⟩ hi
    · exact absurd ⟨2, rfl⟩ hi
    · exact Or.inr rfl
  sign := by decide +kernel
  moments := by
    have : ∀ (i : Fin 4) (j j' : Fin stenX.ns), (∀ i, stenX.vel j' i = -stenX.vel j i) →
        euler4.M i j' = euler4Sign i * euler4.M i j := by decide +kernel
    intro i j j' h
    exact this i j j' h.2
  equilibrium := by
    intro i v
    fin_cases i <;> simp [euler4, fluid4, euler4Sign]
  rates := by intro i v; fin_cases i <;> rfl

/-- Bounce-back on walls which move: the values depend on the time, the position and the velocity. -/
def shaken : WallData ℚ 2 stenX :=
  { couette 0 0 with ψ := fun l t x => ![1 + t, x 1 - t, t * t, l] }

/-- The same walls for the run backwards. -/
def shakenBack (τ : ℚ) : WallData ℚ 2 stenX :=
  { couette 0 0 with ψ := fun l t x => ![x 1 - (τ - t), 1 + (τ - t), l, (τ - t) * (τ - t)] }

theorem shaken_reversed (τ : ℚ) : ReversedWalls shaken (shakenBack τ) τ where
  elems := rfl
  els := rfl
  dico := rfl
  values := by
    intro l t x
    rw [reversed_iff stenX_wf]
    funext j
    fin_cases j <;> simp [shaken, shakenBack, turn]

theorem shaken_wf {lab : Fin 2 → Bool → Int} (h : ∀ j side, lab j side ≠ 999) : shaken.WF lab :=
  ⟨stenX_wf, (couette_wf 0 0 h).sound, (couette_wf 0 0 h).labels, (couette_wf 0 0 h).dict, (couette_wf 0 0 h).no999, h⟩

theorem shaken_data (g : Grid 2) (lab : Fin 2 → Bool → Int) (c : Proc g) :
    plateData shaken lab g c = plateData (couette 0 0) lab g c := by
  simp only [plateData, shaken]

theorem shakenBack_data (τ : ℚ) (g : Grid 2) (lab : Fin 2 → Bool → Int) (c : Proc g) :
    plateData (shakenBack τ) lab g c = plateData (couette 0 0) lab g c := by
  simp only [plateData, shakenBack]

theorem shaken_wallData (N w : Fin 2 → Nat) (lab : Fin 2 → Bool → Int) :
    wallData shaken N w lab = wallData (couette 0 0) N w lab := by
  simp only [wallData, shaken]

/-- A case for `C108_backwards`: three steps of a nonlinear scheme between two moving walls on two processes, from any
state, then two steps backwards: the state after the first step is found again. -/
theorem shaken_case (a a' : Algo) (A : Proc gridC → Arr ℚ 4 2) : ∃ ρ σ τ,
    PRun gridC (plateSetup shaken wallsFirst euler4 a gridC) (fun c => startWith 4 0 2 (A c)) 1 ρ ∧
    PRun gridC (plateSetup shaken wallsFirst euler4 a gridC) (fun c => startWith 4 0 2 (A c)) 3 σ ∧
    PRun gridC (plateSetup (shakenBack 2) wallsFirst euler4 a' gridC) (fun c => startWith 4 0 2 fun x =>
      turn stenX (collision euler4.M euler4.invM euler4.consm euler4.EQ euler4.s ((σ c).arr x))) 2 τ ∧
    ∀ c x, Owned (size gridC c) gridC.w x →
      Reversed stenX (collision euler4.M euler4.invM euler4.consm euler4.EQ euler4.s ((τ c).arr x)) ((ρ c).arr x) := by
  have h : ∀ c i, gridC.w i ≤ size gridC c i := (large_iff gridC).2 (by decide)
  have h0 : ∀ c, (plateData (couette 0 0) wallsFirst gridC c).isSome := by decide +kernel
  obtain ⟨⟨st, I⟩, hp⟩ := Option.isSome_iff_exists.1
    (by decide +kernel : (wallData (couette 0 0) gridC.N gridC.w wallsFirst).isSome = true)
  have hp' : wallData shaken gridC.N gridC.w wallsFirst = some (st, I) := by
    rw [shaken_wallData]; exact hp
  have ho := wallData_onGrid (by decide) hp'
  have hwf : shaken.WF wallsFirst := shaken_wf (by decide)
  have hse := C78_channel shaken gridC.N gridC.w (fun _ => 0) 1 wallsFirst hwf st I ho (by decide)
    (by decide) (by simp [shaken, couette]) (by intro e he; cases he) (by intro c _ _ e he; cases he)
    (by intro e he; cases he)
  have hfl : ∀ y ∈ box gridC.N, fluidMap gridC.w st y = true := by
    intro y hy
    apply decide_eq_true
    rw [Domain.C21_fluid_map _ ho.wf shaken.elems hwf.sound st ho.built, if_pos ⟨interior_shift hy, rfl⟩]
  obtain ⟨ρ, hρ⟩ := C42_run_exists (by decide) gridC h (plateSetup shaken wallsFirst euler4 a gridC)
    (fun c => startWith 4 0 2 (A c)) 1
  obtain ⟨σ, hσ⟩ := C42_run_exists (by decide) gridC h (plateSetup shaken wallsFirst euler4 a gridC)
    (fun c => startWith 4 0 2 (A c)) 3
  obtain ⟨τ, hτ⟩ := C42_run_exists (by decide) gridC h (plateSetup (shakenBack 2) wallsFirst euler4 a' gridC)
    (fun c => startWith 4 0 2 fun x =>
      turn stenX (collision euler4.M euler4.invM euler4.consm euler4.EQ euler4.s ((σ c).arr x))) 2
  refine ⟨ρ, σ, τ, hρ, hσ, hτ, fun c x hx => ?_⟩
  refine (C108_backwards (by decide) shaken (shakenBack 2) (fun _ => 0) 1 wallsFirst hwf gridC st I ho
    hse ?_ ?_ euler4 (by decide) (fun j w => by fin_cases j <;> rfl) fluid4_inv (fun _ => rfl) rfl euler4Sign
    euler4_reversible a a' 2 1 ?_ _ (plate_run shaken wallsFirst euler4 a gridC h (by decide) rfl fun c => ?_) _
    (plate_run (shakenBack 2) wallsFirst euler4 a' gridC h (by decide) rfl fun c => ?_) _
    (fun c => plate_start _ _ _ _ _ _ _) σ hσ ρ hρ _ (fun c => plate_start _ _ _ _ _ _ _)
    (fun c x _ _ => (reversed_iff stenX_wf _ _).2 rfl) τ hτ c x hx (hfl _ (owned_box gridC hx))).2
  · intro l ms hl j
    simp only [shaken, couette] at hl
    cases hl
    exact ⟨.bounceBack, by simp⟩
  · intro l ms hl q hq
    simp only [shaken, couette] at hl
    cases hl
    rw [List.mem_singleton.1 hq]
    exact Or.inl rfl
  · have : ((2 + 1 : Nat) : ℚ) * euler4.dt - euler4.dt = 2 := by
      show ((2 + 1 : Nat) : ℚ) * 1 - 1 = 2
      norm_num
    rw [this]
    exact shaken_reversed 2
  · rw [shaken_data]; exact h0 c
  · rw [shakenBack_data]; exact h0 c

/-- A case for `C108_moments`: the density of the run backwards is the former one, the momentum is opposite. -/
example (f f' : Fin 4 → ℚ)
    (h : Reversed stenX (collision euler4.M euler4.invM euler4.consm euler4.EQ euler4.s f) f') :
    (euler4.M *ᵥ f') 0 = (euler4.M *ᵥ f) 0 ∧ (euler4.M *ᵥ f') 1 = -(euler4.M *ᵥ f) 1 ∧
      (euler4.M *ᵥ f') 2 = -(euler4.M *ᵥ f) 2 := by
  have := C108_moments stenX_wf euler4 (fun j w => by fin_cases j <;> rfl) fluid4_inv euler4Sign euler4_reversible f f' h
  refine ⟨?_, ?_, ?_⟩
  · exact (this 0).trans (one_mul _)
  · exact (this 1).trans (neg_one_mul _)
  · exact (this 2).trans (neg_one_mul _)

/-! ## A ring of seven cells -/

/-- The telegraph equation: the flux relaxed to 0 with the parameter `s`. -/
theorem advect0_moments (s : ℚ) (i : Fin 2) (j j' : Fin 2) (h : Opposite sten2 j j') :
    (advect 0 s).M i j' = (![1, -1] : Fin 2 → ℚ) i * (advect 0 s).M i j := by
  have : ∀ (i : Fin 2) (j j' : Fin sten2.ns), (∀ i, sten2.vel j' i = -sten2.vel j i) →
      d1q2.M i j' = (![1, -1] : Fin 2 → ℚ) i * d1q2.M i j := by decide +kernel
  exact this i j j' h.2

theorem advect0_reversible : Reversible sten2 (advect 0 2) ![1, -1] where
  relaxation := by
    intro i v hi
    fin_cases i
    · exact absurd ⟨0, rfl⟩ hi
    · exact Or.inr rfl
  sign := by decide +kernel
  moments := advect0_moments 2
  equilibrium := by
    intro i v
    fin_cases i
    · show ((![1, -1] : Fin 2 → ℚ) 0) * v 0 = 1 * v 0
      rfl
    · show (0 : ℚ) * _ = -1 * (0 * v 0)
      simp
  rates := by intro i v; fin_cases i <;> rfl

/-- The fluid cells of the tank after one step of the scheme on the global array, relaxed and turned round. -/
def tankTurned (m : Method 1) (a b : ℚ) (G : Arr ℚ 2 1) : Option (List (ℚ × ℚ)) :=
  (wallData (tank m a b) (fun _ => 7) (fun _ => 1) pipeLab).map fun p =>
    let φ := collision (advect 0 2).M (advect 0 2).invM (advect 0 2).consm (advect 0 2).EQ (advect 0 2).s
    ((List.range 7).filter fun i => fluidMap (fun _ => 1) p.1 fun _ => (i : Int)).map fun i =>
      let f := turn sten2 (φ (lbmStep (fun _ => 7) sten2.vel φ
        (wallBc (tank m a b) (fun _ => 7) (fun _ => 1) (fun _ => 0) 1 pipeLab p.2) 0 G fun _ => (i : Int)))
      (f 0, f 1)

/-- The fluid cells 0, 2, …, 6 of the tank, the solid cell 1 being arbitrary. -/
def tankState (l : List (ℚ × ℚ)) : Arr ℚ 2 1 := fun x j =>
  let v := l.getD (if x 0 = 0 then 0 else (x 0 - 1).toNat) 0
  if j = 0 then v.1 else v.2

/-- C108 is false for the interpolated bounce-back: in a tank without holes, with the fluid at rest on the walls (the values
are the same for both velocities), the state `l₀` after one step, relaxed and turned round, is `l₁`, which after one
step, relaxed and turned round, is not `l₀`. With bounce-back it is. -/
theorem C108_interpolated_negation : ∃ (ST : Domain.State ℚ 1 2) (J : List (Method 1 × List (Entry ℚ 1 2)))
    (l₀ l₁ l₂ l₃ : List (ℚ × ℚ)), (tank .bouzidiBounceBack (5 / 4) (7 / 4)).WF pipeLab ∧
    OnGrid (tank .bouzidiBounceBack (5 / 4) (7 / 4)) (boxGrid (fun _ => 7) (fun _ => 1) (fun _ => 0) 1 pipeLab sten2) ST J ∧
    Sealed (s := sten2) (fun _ => 7) (fun _ => 1) ST ∧ AllMethods (tank .bouzidiBounceBack (5 / 4) (7 / 4)) ∧
    Reversible sten2 (advect 0 2) ![1, -1] ∧
    wallData (tank .bouzidiBounceBack (5 / 4) (7 / 4)) (fun _ => 7) (fun _ => 1) pipeLab = some (ST, J) ∧
    tankTurned .bouzidiBounceBack (5 / 4) (7 / 4) (tankState l₀) = some l₁ ∧
    tankTurned .bouzidiBounceBack (5 / 4) (7 / 4) (tankState l₁) = some l₂ ∧ l₂ ≠ l₀ ∧
    tankTurned .bounceBack (5 / 4) (7 / 4) (tankState l₀) = some l₃ ∧
    tankTurned .bounceBack (5 / 4) (7 / 4) (tankState l₃) = some l₀ := by
  obtain ⟨⟨st, I⟩, hp⟩ := Option.isSome_iff_exists.1 (by decide +kernel :
    (wallData (tank .bouzidiBounceBack (5 / 4) (7 / 4)) (fun _ => 7) (fun _ => 1) pipeLab).isSome = true)
  exact ⟨st, I, [(0, 10), (2, 12), (3, 13), (4, 14), (5, 15), (6, 16)],
    [(10 / 3, 10), (13, 26 / 3), (14, 2), (15, 3), (16, 4), (6, 5)],
    [(50 / 9, 10), (2, 91 / 9), (3, 13), (4, 14), (5, 15), (6, 16)],
    [(0, 10), (13, 12), (14, 2), (15, 3), (16, 4), (6, 5)], tank_wf _ (by norm_num), wallData_onGrid (by decide) hp,
    tank_sealed _ (by norm_num) _ _ (by decide) hp, tank_methods _ _ _, advect0_reversible, hp, by decide +kernel,
    by decide +kernel, by decide +kernel, by decide +kernel, by decide +kernel⟩


/-- A case for `C108_periodic`: on a ring of seven cells shared among processes, any initial state, one step forwards
more than backwards. -/
example (A : Arr ℚ 2 1) (k : Nat) (σ : Proc grid7 → Simu ℚ 2 0 1)
    (hσ : PRun grid7 (ring (advect 0 2) sten2.vel .pull grid7) (fun _ => startWith 2 0 1 A) (k + 1) σ)
    (ρ : Proc grid7 → Simu ℚ 2 0 1)
    (hρ : PRun grid7 (ring (advect 0 2) sten2.vel .pull grid7) (fun _ => startWith 2 0 1 A) 1 ρ)
    (τ : Proc grid7 → Simu ℚ 2 0 1)
    (hτ : PRun grid7 (ring (advect 0 2) sten2.vel .base grid7) (fun c => startWith 2 0 1 fun x =>
      turn sten2 (collision (advect 0 2).M (advect 0 2).invM (advect 0 2).consm (advect 0 2).EQ (advect 0 2).s
        ((σ c).arr x))) k τ) (c : Proc grid7) (x : Cell 1) (hx : Owned (size grid7 c) grid7.w x) :
    Reversed sten2 (collision (advect 0 2).M (advect 0 2).invM (advect 0 2).consm (advect 0 2).EQ (advect 0 2).s
      ((τ c).arr x)) ((ρ c).arr x) := by
  obtain ⟨h1, h2, h3, h4, -⟩ := ring7_case (advect 0 2) sten2.vel .pull A 1
  exact (C108_periodic (by decide) pipe_wf.sten grid7 h1 (by decide) (advect 0 2) (by decide)
    (fun j w => by fin_cases j; rfl) (by decide +kernel) (fun _ => rfl) rfl _ advect0_reversible .pull .base k 1 _ h2 h3 _
    (ring_uniform _ _ _ _) (fun _ _ _ => rfl) _ h4 σ hσ ρ hρ _ (fun c => startWith_start _ _ _ _ c _)
    (fun c x _ => (reversed_iff pipe_wf.sten _ _).2 rfl) τ hτ c x hx).2

/-- A case for `C108_dissipation`: the same scheme with the relaxation parameter 3/2, and a uniform flux. -/
example (k : Nat) (σ : Proc grid7 → Simu ℚ 2 0 1)
    (hσ : PRun grid7 (ring (advect 0 (3 / 2)) sten2.vel .pull grid7) (fun _ => startWith 2 0 1 fun _ => ![2, 1]) k σ)
    (τ : Proc grid7 → Simu ℚ 2 0 1)
    (hτ : PRun grid7 (ring (advect 0 (3 / 2)) sten2.vel .base grid7) (fun c => startWith 2 0 1 fun x =>
      turn sten2 (collision (advect 0 (3 / 2)).M (advect 0 (3 / 2)).invM (advect 0 (3 / 2)).consm (advect 0 (3 / 2)).EQ
        (advect 0 (3 / 2)).s ((σ c).arr x))) k τ) (c : Proc grid7) (x : Cell 1) (hx : Owned (size grid7 c) grid7.w x) :
    ¬ Reversed sten2 (collision (advect 0 (3 / 2)).M (advect 0 (3 / 2)).invM (advect 0 (3 / 2)).consm
      (advect 0 (3 / 2)).EQ (advect 0 (3 / 2)).s ((τ c).arr x)) (![2, 1] : Fin 2 → ℚ) := by
  obtain ⟨h1, h2, h3, h4, -⟩ := ring7_case (advect 0 (3 / 2)) sten2.vel .pull (fun _ => ![2, 1]) 1
  refine C108_dissipation (by decide) pipe_wf.sten grid7 h1 (by decide) (advect 0 (3 / 2)) (by decide)
    (fun j w => by fin_cases j; rfl) (by decide +kernel) (fun _ => rfl) rfl ?_ 1 (3 / 2) (fun _ => rfl) (by norm_num)
    (by norm_num) .pull .base k _ h2 h3 _ (ring_uniform _ _ _ _) (fun _ _ _ => rfl) ![2, 1] ?_ _ h4 (fun _ _ _ => rfl)
    σ hσ _ (fun c => startWith_start _ _ _ _ c _) (fun c x _ => (reversed_iff pipe_wf.sten _ _).2 rfl) τ hτ c x hx
  · intro f
    funext j
    have e : turn sten2 f = ![f 1, f 0] := by funext j; fin_cases j <;> rfl
    rw [e]
    unfold turn
    fin_cases j <;>
      simp [collision, relaxed, advect, d1q2, Matrix.mulVec, dotProduct, Fin.sum_univ_two, sten2] <;> ring
  · simp [advect, d1q2, Matrix.mulVec, dotProduct, Fin.sum_univ_two]
    norm_num

end Pylbm.Sim
