import Verif.Sim.Walls
/-!
# C81: symmetries of periodic domains
-/

set_option linter.unusedSectionVars false

namespace Pylbm.Sim
open Scheme Halo SchemeSpec Matrix HaloSpec Mpi

section
variable {K : Type} [Field K] {n nc d dim : Nat}

/-- A map `T` of the cells and a permutation `π` of the velocities which go together on the periodic box of sizes
`N`: the image of a cell is defined up to the periods, and the image of the neighbour `y - vel j` of a cell is the
neighbour of the image for the velocity `π j`. -/
structure BoxSymmetry (N : Fin dim → Nat) (vel : Fin n → Cell dim) (T : Cell dim → Cell dim)
    (π : Equiv.Perm (Fin n)) : Prop where
  wrap : ∀ y y' : Cell dim, (∀ i, (N i : Int) ∣ y i - y' i) → ∀ i, (N i : Int) ∣ T y i - T y' i
  shift : ∀ (y : Cell dim) j i, (N i : Int) ∣ T (fun i => y i - vel j i) i - (T y i - vel (π j) i)

theorem periodic_congr {α : Type} (N : Fin dim → Nat) (G : Cell dim → α) {y y' : Cell dim}
    (h : ∀ i, (N i : Int) ∣ y i - y' i) : periodic N G y = periodic N G y' := by
  unfold periodic
  congr 1
  funext i
  exact (Int.modEq_iff_dvd.2 (h i)).symm

/-- A symmetry of the box and of the collision is a symmetry of the runs on the global array. -/
theorem lbmRun_symmetry (N : Fin dim → Nat) (vel : Fin n → Cell dim) (T : Cell dim → Cell dim)
    (π : Equiv.Perm (Fin n)) (hT : BoxSymmetry N vel T π) (φ : (Fin n → K) → Fin n → K)
    (hφ : ∀ f, φ (f ∘ π) = φ f ∘ π) (dt : K) (G G' : Arr K n dim)
    (hG : ∀ y j, periodic N G' (T y) (π j) = periodic N G y j) (k : Nat) (y : Cell dim) (j : Fin n) :
    periodic N (lbmRun N vel φ (fun _ H => H) dt G' k) (T y) (π j) =
      periodic N (lbmRun N vel φ (fun _ H => H) dt G k) y j := by
  induction k generalizing y j with
  | zero => exact hG y j
  | succ k ih =>
    simp only [lbmRun]
    set A := lbmRun N vel φ (fun _ H => H) dt G k with hA
    set A' := lbmRun N vel φ (fun _ H => H) dt G' k with hA'
    show φ (fun l => periodic N A' (fun i => T y i % N i - vel l i) l) (π j) =
      φ (fun l => periodic N A (fun i => y i % N i - vel l i) l) j
    have e : ∀ f, φ f (π j) = φ (f ∘ π) j := fun f => (congrFun (hφ f) j).symm
    rw [e]
    congr 1
    funext l
    show periodic N A' (fun i => T y i % N i - vel (π l) i) (π l) = _
    have e1 : periodic N A (fun i => y i % N i - vel l i) = periodic N A (fun i => y i - vel l i) := by
      refine periodic_congr N A fun i => ?_
      rw [show y i % (N i : Int) - vel l i - (y i - vel l i) = y i % N i - y i by ring]
      exact (Int.mod_modEq _ _).symm.dvd
    have e2 : periodic N A' (fun i => T y i % N i - vel (π l) i) = periodic N A' (T fun i => y i - vel l i) := by
      refine periodic_congr N A' fun i => ?_
      have h1 := hT.shift y l i
      have h2 : (N i : Int) ∣ T y i % N i - T y i := (Int.mod_modEq _ _).symm.dvd
      have := dvd_sub h2 h1
      rw [show T y i % (N i : Int) - vel (π l) i - T (fun i => y i - vel l i) i =
        T y i % (N i : Int) - T y i - (T (fun i => y i - vel l i) i - (T y i - vel (π l) i)) by ring]
      exact this
    rw [e1, e2]
    exact ih _ l

/-- **C81.** Periodic domains: two runs of the same scheme on any two decompositions, where the initial values of
the second are the image of those of the first by a symmetry `T`, `π` of the box which the collision respects. After
any number of steps the values of the second are the image of those of the first. -/
theorem C81_symmetry (hdim : dim ≤ 3) (g g' : Grid dim) (hN : g.N = g'.N)
    (hlarge : ∀ c i, g.w i ≤ size g c i) (hlarge' : ∀ c i, g'.w i ≤ size g' c i)
    (S : Kernel K n nc d) (hfront : ∀ j, (S.consm j : Nat) < nc) (vel : Fin n → Cell dim) (a : Algo)
    (hv : ∀ j i, |vel j i| ≤ g.w i) (hv' : ∀ j i, |vel j i| ≤ g'.w i)
    (T : Cell dim → Cell dim) (π : Equiv.Perm (Fin n)) (hT : BoxSymmetry g.N vel T π)
    (hφ : ∀ f, collide S a (f ∘ π) = collide S a f ∘ π)
    (Q : Proc g → Setup K n nc d dim) (hQ : Uniform g S vel a Q) (hQb : ∀ c t A, (Q c).bc t A = A)
    (Q' : Proc g' → Setup K n nc d dim) (hQ' : Uniform g' S vel a Q') (hQb' : ∀ c t A, (Q' c).bc t A = A)
    (σ₀ : Proc g → Simu K n d dim) (h0 : ∀ c, (σ₀ c).Start (Q c))
    (σ₀' : Proc g' → Simu K n d dim) (h0' : ∀ c, (σ₀' c).Start (Q' c)) (G G' : Arr K n dim)
    (hG : ∀ c x, Owned (size g c) g.w x → (σ₀ c).arr x = G (globalPos (first g c) g.w x))
    (hG' : ∀ c x, Owned (size g' c) g'.w x → (σ₀' c).arr x = G' (globalPos (first g' c) g'.w x))
    (hsym : ∀ y : Cell dim, (∀ i, 0 ≤ y i ∧ y i < g.N i) → ∀ j, G' (fun i => T y i % g.N i) (π j) = G y j)
    (k : Nat) (σ : Proc g → Simu K n d dim) (hr : PRun g Q σ₀ k σ)
    (σ' : Proc g' → Simu K n d dim) (hr' : PRun g' Q' σ₀' k σ')
    (c : Proc g) (x : Cell dim) (hx : Owned (size g c) g.w x)
    (c' : Proc g') (x' : Cell dim) (hx' : Owned (size g' c') g'.w x')
    (he : globalPos (first g' c') g'.w x' = fun i => T (globalPos (first g c) g.w x) i % g.N i) (j : Fin n) :
    (σ' c').arr x' (π j) = (σ c).arr x j := by
  obtain ⟨_, h2⟩ := C42_global_partial hdim g hlarge S hfront vel a Q hQ _
    (sameBoundary_periodic g vel hv Q hQb) σ₀ h0 G hG k σ hr
  obtain ⟨_, h2'⟩ := C42_global_partial hdim g' hlarge' S hfront vel a Q' hQ' _
    (sameBoundary_periodic g' vel hv' Q' hQb') σ₀' h0' G' hG' k σ' hr'
  have hpos : ∀ i, 0 ≤ globalPos (first g c) g.w x i ∧ globalPos (first g c) g.w x i < g.N i := by
    intro i
    have h1 := procGrid_sub g c i
    have h2 := hx i
    simp only [globalPos]
    omega
  have hNpos : ∀ i, (0 : Int) < g.N i := fun i => lt_of_le_of_lt (hpos i).1 (hpos i).2
  have key := lbmRun_symmetry g.N vel T π hT (collide S a) hφ S.dt G G' ?_ k (globalPos (first g c) g.w x) j
  · rw [h2 c x hx, h2' c' x' hx', he, ← hN]
    have e : periodic g.N (lbmRun g.N vel (collide S a) (fun _ H => H) S.dt G k) (globalPos (first g c) g.w x) =
        lbmRun g.N vel (collide S a) (fun _ H => H) S.dt G k (globalPos (first g c) g.w x) := by
      unfold periodic
      congr 1
      funext i
      exact Int.emod_eq_of_lt (hpos i).1 (hpos i).2
    rw [e] at key
    exact key
  · intro y l
    have h1 := hsym (fun i => y i % g.N i)
      (fun i => ⟨Int.emod_nonneg _ (hNpos i).ne', Int.emod_lt_of_pos _ (hNpos i)⟩) l
    have e : periodic g.N G' (T y) = periodic g.N G' (T fun i => y i % g.N i) :=
      periodic_congr g.N G' (hT.wrap _ _ fun i => (Int.mod_modEq _ _).dvd)
    rw [e]
    exact h1

/-! ## Symmetries of the box -/

/-- The translations. -/
theorem C81_translation (N : Fin dim → Nat) (vel : Fin n → Cell dim) (v : Cell dim) :
    BoxSymmetry N vel (fun y i => y i + v i) 1 where
  wrap := by
    intro y y' h i
    rw [show y i + v i - (y' i + v i) = y i - y' i by ring]
    exact h i
  shift := by
    intro y j i
    rw [show y i - vel j i + v i - (y i + v i - vel ((1 : Equiv.Perm (Fin n)) j) i) = 0 by
      show y i - vel j i + v i - (y i + v i - vel j i) = 0; ring]
    exact dvd_zero _

/-- The mirror of the box in the direction `ax`, for a set of velocities with the same mirror. -/
theorem C81_mirror (N : Fin dim → Nat) (vel : Fin n → Cell dim) (ax : Fin dim) (π : Equiv.Perm (Fin n))
    (hπ : ∀ j i, vel (π j) i = if i = ax then -vel j i else vel j i) :
    BoxSymmetry N vel (fun y i => if i = ax then N i - 1 - y i else y i) π where
  wrap := by
    intro y y' h i
    split_ifs
    · rw [show (N i : Int) - 1 - y i - (N i - 1 - y' i) = -(y i - y' i) by ring]
      exact (dvd_neg).2 (h i)
    · exact h i
  shift := by
    intro y j i
    rw [hπ]
    split_ifs
    · rw [show (N i : Int) - 1 - (y i - vel j i) - (N i - 1 - y i - -vel j i) = 0 by ring]
      exact dvd_zero _
    · simp

/-- The quarter turn of a square box, for a set of velocities with the same symmetry. -/
theorem C81_quarter_turn (N : Nat) (vel : Fin n → Cell 2) (π : Equiv.Perm (Fin n))
    (hπ : ∀ j, vel (π j) 0 = -vel j 1 ∧ vel (π j) 1 = vel j 0) :
    BoxSymmetry (fun _ => N) vel (fun y => ![N - 1 - y 1, y 0]) π where
  wrap := by
    intro y y' h i
    fin_cases i
    · show (N : Int) ∣ N - 1 - y 1 - (N - 1 - y' 1)
      rw [show (N : Int) - 1 - y 1 - (N - 1 - y' 1) = -(y 1 - y' 1) by ring]
      exact (dvd_neg).2 (h 1)
    · exact h 0
  shift := by
    intro y j i
    fin_cases i
    · show (N : Int) ∣ N - 1 - (y 1 - vel j 1) - (N - 1 - y 1 - vel (π j) 0)
      rw [(hπ j).1, show (N : Int) - 1 - (y 1 - vel j 1) - (N - 1 - y 1 - -vel j 1) = 0 by ring]
      exact dvd_zero _
    · show (N : Int) ∣ y 0 - vel j 0 - (y 0 - vel (π j) 1)
      rw [(hπ j).2]; simp

/-! ## Symmetries of the collision -/

/-- **C81, symmetries of a scheme.** The permutation `π` of the velocities acts on the moments by the matrix `E`; the
equilibrium follows it, and the moments which `E` mixes have the same relaxation parameters. Then the collision
respects `π`: any dependence of the equilibrium and of the relaxation parameters on the conserved moments, no source
and no relative velocity. -/
theorem C81_collision (S : Kernel K n nc d) (hEQ : ∀ j w, S.EQ (S.consm j) w = w j)
    (hM : S.invM * S.M = 1) (hS : ∀ i, S.source i = none) (hrel : S.relVel = none) (a : Algo)
    (π : Equiv.Perm (Fin n)) (E : Matrix (Fin n) (Fin n) K)
    (hE : ∀ i j, S.M i (π.symm j) = ∑ l, E i l * S.M l j)
    (heq : ∀ (m : Fin n → K) i, S.EQ i (fun l => (E *ᵥ m) (S.consm l)) =
      ∑ l, E i l * S.EQ l fun q => m (S.consm q))
    (hs : ∀ (m : Fin n → K) i l, E i l ≠ 0 →
      S.s i (fun l => (E *ᵥ m) (S.consm l)) = S.s l fun q => m (S.consm q))
    (f : Fin n → K) : collide S a (f ∘ π) = collide S a f ∘ π := by
  have hcol : ∀ f, collide S a f = collision S.M S.invM S.consm S.EQ S.s f := by
    intro f
    unfold collide
    rw [prog_eq]
    obtain ⟨h3, h4⟩ := step_collision S hEQ hS f ⟨0, 0, 0⟩
    cases a with
    | base => simp only [hrel, Option.isSome_none]; exact h4
    | pull => simp only [hrel, Option.isSome_none]; exact h3
  have hMf : ∀ f : Fin n → K, S.M *ᵥ (f ∘ π) = E *ᵥ (S.M *ᵥ f) := by
    intro f
    rw [Matrix.mulVec_mulVec]
    funext i
    simp only [Matrix.mulVec, dotProduct, Matrix.mul_apply, Function.comp_apply]
    rw [← Equiv.sum_comp π.symm]
    refine Finset.sum_congr rfl fun j _ => ?_
    rw [hE, Equiv.apply_symm_apply]
  have hrx : ∀ m : Fin n → K, relaxed S.consm S.EQ S.s (E *ᵥ m) = E *ᵥ relaxed S.consm S.EQ S.s m := by
    intro m
    funext i
    have h1 : S.EQ i ((E *ᵥ m) ∘ S.consm) = ∑ l, E i l * S.EQ l (m ∘ S.consm) := heq m i
    simp only [relaxed, h1]
    simp only [Matrix.mulVec, dotProduct, Finset.mul_sum]
    rw [← Finset.sum_add_distrib]
    refine Finset.sum_congr rfl fun l _ => ?_
    by_cases h : E i l = 0
    · simp [h]
    · have h2 : S.s i ((E *ᵥ m) ∘ S.consm) = S.s l (m ∘ S.consm) := hs m i l h
      rw [h2]; unfold relaxed; ring
  have hM' : S.M * S.invM = 1 := mul_eq_one_comm.1 hM
  rw [hcol, hcol]
  unfold collision
  rw [hMf, hrx]
  have h4 := hMf (S.invM *ᵥ relaxed S.consm S.EQ S.s (S.M *ᵥ f))
  have h5 : S.M *ᵥ S.invM *ᵥ relaxed S.consm S.EQ S.s (S.M *ᵥ f) = relaxed S.consm S.EQ S.s (S.M *ᵥ f) := by
    rw [Matrix.mulVec_mulVec, hM', Matrix.one_mulVec]
  rw [h5] at h4
  rw [← h4, Matrix.mulVec_mulVec, hM, Matrix.one_mulVec]

end

/-! ## Cases -/

/-- A case for C81: the values of `d1q2` on the seven periodic cells, on two processes, and the values shifted by three
cells on one process. -/
example (k : Nat) (G : Arr ℚ 2 1) : ∃ σ σ',
    PRun grid7 (ring d1q2 ![fun _ => 1, fun _ => -1] .pull grid7)
      (fun c => startWith 2 0 1 fun x => G (globalPos (first grid7 c) grid7.w x)) k σ ∧
    PRun grid7one (ring d1q2 ![fun _ => 1, fun _ => -1] .pull grid7one)
      (fun c => startWith 2 0 1 fun x => G fun i => (globalPos (first grid7one c) grid7one.w x i - 3) % 7) k σ' ∧
    ∀ c x, Owned (size grid7 c) grid7.w x → ∀ c' x', Owned (size grid7one c') grid7one.w x' →
      (globalPos (first grid7one c') grid7one.w x' = fun i => (globalPos (first grid7 c) grid7.w x i + 3) % 7) →
      ∀ j, (σ' c').arr x' j = (σ c).arr x j := by
  have h : ∀ c i, grid7.w i ≤ size grid7 c i := (large_iff grid7).2 (by decide)
  have h' : ∀ c i, grid7one.w i ≤ size grid7one c i := (large_iff grid7one).2 (by decide)
  obtain ⟨σ, hσ⟩ := C42_run_exists (by decide) grid7 h (ring d1q2 ![fun _ => 1, fun _ => -1] .pull grid7)
    (fun c => startWith 2 0 1 fun x => G (globalPos (first grid7 c) grid7.w x)) k
  obtain ⟨σ', hσ'⟩ := C42_run_exists (by decide) grid7one h' (ring d1q2 ![fun _ => 1, fun _ => -1] .pull grid7one)
    (fun c => startWith 2 0 1 fun x => G fun i => (globalPos (first grid7one c) grid7one.w x i - 3) % 7) k
  refine ⟨σ, σ', hσ, hσ', fun c x hx c' x' hx' he j => ?_⟩
  refine C81_symmetry (by decide) grid7 grid7one rfl h h' d1q2 (by decide) _ .pull (by decide) (by decide) _ 1
    (C81_translation grid7.N ![fun _ => 1, fun _ => -1] fun _ => 3) (fun _ => rfl) _ (ring_uniform _ _ _ _)
    (fun _ _ _ => rfl) _ (ring_uniform _ _ _ _) (fun _ _ _ => rfl) _ (fun c => startWith_start _ _ _ _ _ _) _
    (fun c => startWith_start _ _ _ _ _ _) G (fun y => G fun i => (y i - 3) % 7) (fun _ _ _ => rfl)
    (fun _ _ _ => rfl) ?_ k σ hσ σ' hσ' c x hx c' x' hx' he j
  intro y hy j
  show G (fun i => ((y i + 3) % ((7 : Nat) : Int) - 3) % 7) j = G y j
  congr 1
  funext i
  have : 0 ≤ y i ∧ y i < ((7 : Nat) : Int) := hy i
  omega

/-- D2Q4 with the moments 1, x, y, x²-y², the first three conserved, and a nonlinear equilibrium. -/
def turning : Kernel ℚ 4 3 0 where
  M := !![1, 1, 1, 1; 1, 0, -1, 0; 0, 1, 0, -1; 1, -1, 1, -1]
  invM := !![1 / 4, 1 / 2, 0, 1 / 4; 1 / 4, 0, 1 / 2, -1 / 4; 1 / 4, -1 / 2, 0, 1 / 4; 1 / 4, 0, -1 / 2, -1 / 4]
  Tu := fun _ => 1
  Tmu := fun _ => 1
  EQ := ![fun w => w 0, fun w => w 1, fun w => w 2, fun w => w 1 * w 1 - w 2 * w 2]
  s := ![fun _ => 0, fun _ => 0, fun _ => 0, fun w => 1 + w 0]
  consm := ![0, 1, 2]
  relVel := none
  source := fun _ => none
  dt := 1

/-- The velocities of D2Q4, each one the quarter turn of the previous one. -/
def vel4 : Fin 4 → Cell 2 := ![![1, 0], ![0, 1], ![-1, 0], ![0, -1]]

/-- A case for C81: the quarter turn is a symmetry of this scheme. -/
example (N : Nat) (a : Algo) (f : Fin 4 → ℚ) :
    BoxSymmetry (fun _ => N) vel4 (fun y => ![N - 1 - y 1, y 0]) (finRotate 4) ∧
    collide turning a (f ∘ finRotate 4) = collide turning a f ∘ finRotate 4 := by
  refine ⟨C81_quarter_turn N vel4 _ (by decide), ?_⟩
  refine C81_collision turning ?_ (by decide +kernel) (fun _ => rfl) rfl a _
    !![1, 0, 0, 0; 0, 0, 1, 0; 0, -1, 0, 0; 0, 0, 0, -1] (by decide +kernel) ?_ ?_ f
  · intro j w; fin_cases j <;> rfl
  · intro m i
    fin_cases i <;> simp [turning, Matrix.mulVec, dotProduct, Fin.sum_univ_four]
  · intro m i l h
    fin_cases i <;> fin_cases l <;> simp_all [turning, Matrix.mulVec, dotProduct, Fin.sum_univ_four]

end Pylbm.Sim
