import Verif.Sim.ImagesCases
/-!
# C114: diagonal velocities

With diagonal velocities bounce-back is not a mirror: a channel of one cell between two walls, with the four diagonal
velocities, is not the restriction of a periodic simulation of the doubled box, whatever the values behind the walls.
-/

set_option linter.unusedSectionVars false

namespace Pylbm.Sim
open Scheme Halo SchemeSpec Matrix HaloSpec Mpi Boundary

/-- Bounce-back on walls at rest. -/
def still : WallData ℚ 2 stenX where
  elems := []
  els := []
  dico := fun _ => some [(0, .bounceBack)]
  ψ := fun _ _ _ _ => 0

theorem still_wf : still.WF wallsFirst where
  sten := stenX_wf
  sound := by intro e he; cases he
  labels := by intro e he; cases he
  dict := by intro l ms h; simp only [still] at h; cases h; simp
  no999 := by simp [still]
  noFace := by decide

/-- One cell between the walls, three cells along them. -/
def gridNarrow : Grid 2 := ⟨![1, 3], ![1, 1], fun _ => 1, by decide⟩

/-- The doubled box, on two processes. -/
def gridTwice : Grid 2 := ⟨![2, 3], ![2, 1], fun _ => 1, by decide⟩

theorem still_channel {st I} (hp : wallData still gridNarrow.N gridNarrow.w wallsFirst = some (st, I)) :
    Channel still gridNarrow.N gridNarrow.w (fun _ => 0) 1 wallsFirst st I 0 where
  wf := still_wf
  onGrid := wallData_onGrid (by decide) hp
  empty := rfl
  els := by simp [still]
  unit := by decide +kernel
  across := Or.inr (by decide)
  along := by
    intro j
    fin_cases j
    · exact Or.inl rfl
    · exact Or.inr ⟨by decide, by unfold PerAxis; decide⟩
  methods := by
    intro l ms hl j
    simp only [still] at hl
    cases hl
    exact ⟨.bounceBack, by simp⟩
  simple := by
    intro l ms hl q hq a
    simp only [still] at hl
    cases hl
    rw [List.mem_singleton.1 hq]
    simp

/-- The scheme of the Couette flow with relaxation parameters 0. -/
def free4 : Kernel ℚ 4 3 0 := { fluid4 with s := fun _ _ => 0 }

/-- One unit in one cell. -/
def unitG : Arr ℚ 4 2 := fun y j => if y 1 = 0 ∧ j = 0 then 1 else 0

theorem wall_value : ((wallData still gridNarrow.N gridNarrow.w wallsFirst).map fun p =>
    lbmRun gridNarrow.N stenX.vel (fun f => f) (wallBc still gridNarrow.N gridNarrow.w (fun _ => 0) 1 wallsFirst p.2) 1 unitG 2 ![0, 2] 0) =
      some 0 := by decide +kernel

theorem free4_collide (alg : Algo) : collide free4 alg = fun f => f := by
  funext f
  have hEQ : ∀ j w, free4.EQ (free4.consm j) w = w j := by intro j w; fin_cases j <;> rfl
  have h : collide free4 alg f = collision free4.M free4.invM free4.consm free4.EQ free4.s f := by
    unfold collide
    rw [prog_eq]
    obtain ⟨h3, h4⟩ := step_collision free4 hEQ (fun _ => rfl) f ⟨0, 0, 0⟩
    cases alg with
    | base => exact h4
    | pull => exact h3
  have hr : ∀ m : Fin 4 → ℚ, relaxed free4.consm free4.EQ free4.s m = m := by
    intro m
    funext i
    simp [relaxed, free4]
  rw [h]
  unfold collision
  rw [hr, Matrix.mulVec_mulVec, mul_eq_one_comm.1 (show free4.M * free4.invM = 1 from fluid4_inv), Matrix.one_mulVec]

/-- **C114, diagonal velocities.** There are initial values in a channel with bounce-back walls such that, whatever the values
behind the walls, the periodic simulation of the doubled box does not hold the values of the channel after two steps. -/
theorem C114_diagonal_negation (alg : Algo) : ∃ G : Arr ℚ 4 2,
    ∀ (σ₀ : Proc gridNarrow → Simu ℚ 4 0 2) (σ₀' : Proc gridTwice → Simu ℚ 4 0 2),
      (∀ c, (σ₀ c).Start (plateSetup still wallsFirst free4 alg gridNarrow c)) →
      (∀ c, (σ₀' c).Start (torus free4 stenX.vel alg gridTwice c)) →
      (∀ c x, Owned (size gridNarrow c) gridNarrow.w x → (σ₀ c).arr x = G (globalPos (first gridNarrow c) gridNarrow.w x)) →
      (∀ c x c' x', Owned (size gridNarrow c) gridNarrow.w x → Owned (size gridTwice c') gridTwice.w x' →
        globalPos (first gridTwice c') gridTwice.w x' = globalPos (first gridNarrow c) gridNarrow.w x → (σ₀' c').arr x' = (σ₀ c).arr x) →
      ∀ σ σ', PRun gridNarrow (plateSetup still wallsFirst free4 alg gridNarrow) σ₀ 2 σ →
        PRun gridTwice (torus free4 stenX.vel alg gridTwice) σ₀' 2 σ' →
        ∃ c x c' x', Owned (size gridNarrow c) gridNarrow.w x ∧ Owned (size gridTwice c') gridTwice.w x' ∧
          globalPos (first gridTwice c') gridTwice.w x' = globalPos (first gridNarrow c) gridNarrow.w x ∧ (σ' c').arr x' ≠ (σ c).arr x := by
  refine ⟨unitG, fun σ₀ σ₀' h0 h0' hG hinit σ σ' hr hr' => ?_⟩
  have hN : ∀ c i, gridNarrow.w i ≤ size gridNarrow c i := (large_iff gridNarrow).2 (by decide)
  have hT : ∀ c i, gridTwice.w i ≤ size gridTwice c i := (large_iff gridTwice).2 (by decide)
  have hs : ∀ c, (plateData still wallsFirst gridNarrow c).isSome := by decide +kernel
  have hfront : ∀ j, (free4.consm j : Nat) < 3 := by decide
  obtain ⟨⟨st, I⟩, hp⟩ := Option.isSome_iff_exists.1
    (by decide +kernel : (wallData still gridNarrow.N gridNarrow.w wallsFirst).isSome = true)
  have hv := wall_value
  rw [hp, Option.map_some, Option.some.injEq] at hv
  have h := still_channel hp
  have hQ := plate_run still wallsFirst free4 alg gridNarrow hN (by decide) rfl hs
  have hfb := fluidBoundary_walls still gridNarrow.N gridNarrow.w _ 1 wallsFirst h.wf st I h.onGrid h.free
    (allLinks_of_open h.links.1) h.methods h.readsFluid
  obtain ⟨_, h2⟩ := C73_fluid_cells (by decide) gridNarrow hN free4 hfront stenX.vel alg _ _ (hQ.uniform h.wf st h.onGrid.built) _
    (sameBoundary_walls still gridNarrow _ 1 wallsFirst h.wf _ hQ.walls st I h.onGrid h.free) hfb σ₀ h0 unitG
    (fun c x hx _ => hG c x hx) 2 σ hr
  obtain ⟨G', hG'⟩ := C15_global_array_exists gridTwice fun c => (σ₀' c).arr
  obtain ⟨_, h2'⟩ := C42_global_partial (by decide) gridTwice hT free4 hfront stenX.vel alg _
    (torus_uniform free4 stenX.vel alg gridTwice) _
    (sameBoundary_periodic gridTwice stenX.vel (by decide) _ fun _ _ _ => rfl) σ₀' h0' G' hG' 2 σ' hr'
  obtain ⟨c, x, hx, ex⟩ := exists_owned gridNarrow ![0, 2] (by decide)
  obtain ⟨c', x', hx', ex'⟩ := exists_owned gridTwice ![0, 2] (by decide)
  refine ⟨c, x, c', x', hx, hx', ex'.trans ex.symm, fun heq => ?_⟩
  rw [h2' c' x' hx', h2 c x hx (h.fluid _ (owned_box gridNarrow hx)), ex, ex', free4_collide] at heq
  have h3 := congrFun heq 0
  have e0 : lbmRun gridTwice.N stenX.vel (fun f => f) (fun _ H => H) free4.dt G' 2 ![0, 2] 0 = G' ![0, 0] 0 := by
    show G' (fun i => _) 0 = _
    congr 1
    funext i
    fin_cases i <;> rfl
  rw [e0] at h3
  have e1 : G' ![0, 0] 0 = 1 := by
    obtain ⟨b, z, hz, ez⟩ := exists_owned gridNarrow ![0, 0] (by decide)
    obtain ⟨b', z', hz', ez'⟩ := exists_owned gridTwice ![0, 0] (by decide)
    have := hinit b z b' z' hz hz' (ez'.trans ez.symm)
    have h5 : (σ₀' b').arr z' = G' (globalPos (first gridTwice b') gridTwice.w z') := hG' b' z' hz'
    rw [h5, ez', hG b z hz, ez] at this
    rw [this]
    rfl
  rw [e1] at h3
  exact absurd (h3.trans hv) one_ne_zero

/-- The two simulations exist, for all values behind the walls. -/
example (alg : Algo) (A : Arr ℚ 4 2) :
    (∃ σ, PRun gridNarrow (plateSetup still wallsFirst free4 alg gridNarrow)
      (fun c => startWith 4 0 2 fun x => unitG (globalPos (first gridNarrow c) gridNarrow.w x)) 2 σ) ∧
    ∃ σ', PRun gridTwice (torus free4 stenX.vel alg gridTwice) (fun c => startWith 4 0 2 fun x =>
      if globalPos (first gridTwice c) gridTwice.w x ∈ box gridNarrow.N then unitG (globalPos (first gridTwice c) gridTwice.w x)
      else A (globalPos (first gridTwice c) gridTwice.w x)) 2 σ' :=
  ⟨C42_run_exists (by decide) gridNarrow ((large_iff gridNarrow).2 (by decide)) _ _ 2,
    C42_run_exists (by decide) gridTwice ((large_iff gridTwice).2 (by decide)) _ _ 2⟩

end Pylbm.Sim
