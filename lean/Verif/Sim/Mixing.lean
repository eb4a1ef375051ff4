import Verif.Sim.Energy
import Verif.Sim.Bounds
import Mathlib.Topology.Algebra.Module.FiniteDimension
import Mathlib.Analysis.Normed.Group.Constructions
import Mathlib.Analysis.Normed.Module.FiniteDimension
/-!
# C121: the solution tends to its mean

A scheme with one conserved quantity which loses energy, in a periodic box. The populations tend to those of the uniform state with
the same total, whatever the initial values, exactly when the differences of the velocities connect all the cells of the box.
-/

set_option linter.unusedSectionVars false

namespace Pylbm.Sim
open Scheme Halo SchemeSpec Matrix HaloSpec Mpi

/-! ## Specification -/

/-- The differences of the velocities connect all the cells of the periodic box: with the periods they generate all the
vectors with integer coordinates. -/
def Connects {n dim : Nat} (N : Fin dim → Nat) (vel : Fin n → Cell dim) : Prop :=
  AddSubgroup.closure ({z : Fin dim → ℤ | ∃ j j', z = vel j - vel j'} ∪ {z | ∃ i, z = Pi.single i (N i : ℤ)}) = ⊤

/-! ## Maps which lose energy in finite dimension -/

theorem contraction {V : Type} [NormedAddCommGroup V] [NormedSpace ℝ V] [FiniteDimensional ℝ V] (e : V → ℝ)
    (he : Continuous e) (hs : ∀ (c : ℝ) v, e (c • v) = c ^ 2 * e v) (hp : ∀ v, v ≠ 0 → 0 < e v) (L : V →ₗ[ℝ] V)
    (C : Submodule ℝ V) (h : ∀ v ∈ C, v ≠ 0 → e (L v) < e v) :
    ∃ q : ℝ, 0 < q ∧ q < 1 ∧ ∀ v ∈ C, e (L v) ≤ q * e v := by
  have he0 : e 0 = 0 := by simpa using hs 0 0
  have : ProperSpace V := FiniteDimensional.proper_real V
  have hLc : Continuous L := L.continuous_of_finiteDimensional
  set D := Metric.sphere (0 : V) 1 ∩ (C : Set V) with hD
  have hcomp : IsCompact D := (isCompact_sphere 0 1).inter_right C.closed_of_finiteDimensional
  have hne : ∀ v ∈ D, v ≠ 0 := by
    rintro v ⟨hv, -⟩ rfl
    simp at hv
  have key : ∃ q : ℝ, 0 < q ∧ q < 1 ∧ ∀ v ∈ D, e (L v) ≤ q * e v := by
    rcases D.eq_empty_or_nonempty with hE | hN
    · exact ⟨1 / 2, by norm_num, by norm_num, fun v hv => by simp [hE] at hv⟩
    · obtain ⟨u, hu, hmax⟩ := hcomp.exists_isMaxOn hN (f := fun v => e (L v) / e v)
        ((he.comp hLc).continuousOn.div he.continuousOn fun v hv => (hp v (hne v hv)).ne')
      refine ⟨max (1 / 2) (e (L u) / e u), lt_max_of_lt_left (by norm_num), max_lt (by norm_num)
        ((div_lt_one (hp u (hne u hu))).2 (h u hu.2 (hne u hu))), fun v hv => ?_⟩
      have h1 : e (L v) / e v ≤ e (L u) / e u := hmax hv
      rw [← div_le_iff₀ (hp v (hne v hv))]
      exact h1.trans (le_max_right _ _)
  obtain ⟨q, h0, h1, hq⟩ := key
  refine ⟨q, h0, h1, fun v hv => ?_⟩
  by_cases hv0 : v = 0
  · rw [hv0, map_zero, he0, mul_zero]
  · have hn : 0 < ‖v‖ := norm_pos_iff.2 hv0
    have h2 := hq (‖v‖⁻¹ • v) ⟨by simp [norm_smul, hn.ne'], C.smul_mem _ hv⟩
    rw [map_smul, hs, hs] at h2
    have h3 : 0 < ‖v‖⁻¹ ^ 2 := by positivity
    nlinarith

section cell
variable {K : Type} [Field K] [LinearOrder K] [IsStrictOrderedRing K] {n : Nat}

theorem energy_eq_zero {w : Fin n → K} (hw : ∀ j, 0 < w j) {f : Fin n → K} (h : energy w f = 0) : f = 0 := by
  funext j
  have h1 := (Finset.sum_eq_zero_iff_of_nonneg fun j _ => div_nonneg (sq_nonneg (f j)) (hw j).le).1 h j (Finset.mem_univ j)
  rcases div_eq_zero_iff.1 h1 with h2 | h2
  · exact pow_eq_zero_iff (two_ne_zero) |>.1 h2
  · exact absurd h2 (hw j).ne'

/-- When the energy is not smaller, the components which are damped are zero. -/
theorem energy_strict (A : Matrix (Fin n) (Fin n) K) (hA : IsUnit A) (w : Fin n → K) (hw : ∀ j, 0 < w j)
    (r : Fin n → K) (hr : ∀ i, r i ^ 2 ≤ 1) (horth : ∀ i i', r i ≠ r i' → ∑ j, w j * A i j * A i' j = 0)
    (g g' : Fin n → K) (hg : ∀ i, (A *ᵥ g') i = r i * (A *ᵥ g) i) (he : energy w g' = energy w g) (i : Fin n)
    (hi : r i ^ 2 < 1) : (A *ᵥ g) i = 0 := by
  have h1 := energy_loss A hA w hw r horth g g' hg
  rw [he, sub_self] at h1
  have h2 := (Finset.sum_eq_zero_iff_of_nonneg (fun v hv => by
    obtain ⟨i, -, rfl⟩ := Finset.mem_image.1 hv
    exact mul_nonneg (by linarith [hr i]) (energy_nonneg hw _))).1 h1.symm (r i)
      (Finset.mem_image_of_mem r (Finset.mem_univ i))
  have h3 := energy_eq_zero hw ((mul_eq_zero.1 h2).resolve_left (by linarith))
  have h4 := congrArg (A *ᵥ ·) h3
  simp only [Matrix.mulVec_mulVec, Matrix.mul_nonsing_inv A ((Matrix.isUnit_iff_isUnit_det A).1 hA), Matrix.one_mulVec,
    Matrix.mulVec_zero] at h4
  simpa using congrFun h4 i

end cell

/-! ## Linear collisions -/

section linear
variable {n dim : Nat}

theorem lbmRun_smul_add {K : Type} [Field K] (N : Fin dim → Nat) (vel : Fin n → Cell dim) (B : Matrix (Fin n) (Fin n) K) (dt a : K)
    (G H : Arr K n dim) (k : Nat) :
    lbmRun N vel (B *ᵥ ·) (fun _ H => H) dt (a • G + H) k =
      a • lbmRun N vel (B *ᵥ ·) (fun _ H => H) dt G k + lbmRun N vel (B *ᵥ ·) (fun _ H => H) dt H k := by
  induction k with
  | zero => rfl
  | succ k ih =>
    funext y
    show B *ᵥ (fun j => lbmRun N vel (B *ᵥ ·) (fun _ H => H) dt (a • G + H) k (fun i => (y i - vel j i) % N i) j) =
      a • B *ᵥ (fun j => lbmRun N vel (B *ᵥ ·) (fun _ H => H) dt G k (fun i => (y i - vel j i) % N i) j) +
        B *ᵥ (fun j => lbmRun N vel (B *ᵥ ·) (fun _ H => H) dt H k (fun i => (y i - vel j i) % N i) j)
    rw [ih, ← Matrix.mulVec_smul, ← Matrix.mulVec_add]
    rfl

/-- Only the values in the box are used. -/
theorem lbmRun_box {K : Type} [Field K] {N : Fin dim → Nat} (hN : ∀ i, 0 < N i) (vel : Fin n → Cell dim)
    (φ : (Fin n → K) → Fin n → K) (dt : K) {G H : Arr K n dim} (h : ∀ y ∈ box N, G y = H y) (k : Nat) :
    ∀ y ∈ box N, lbmRun N vel φ (fun _ H => H) dt G k y = lbmRun N vel φ (fun _ H => H) dt H k y := by
  induction k with
  | zero => exact h
  | succ k ih =>
    intro y _
    show φ (fun j => lbmRun N vel φ (fun _ H => H) dt G k (fun i => (y i - vel j i) % N i) j) =
      φ (fun j => lbmRun N vel φ (fun _ H => H) dt H k (fun i => (y i - vel j i) % N i) j)
    congr 1
    funext j
    rw [ih _ ((mem_box _ _).2 fun i => ⟨Int.emod_nonneg _ (by have := hN i; omega),
      Int.emod_lt_of_pos _ (by exact_mod_cast hN i)⟩)]

theorem lbmRun_split {K : Type} [Field K] (N : Fin dim → Nat) (vel : Fin n → Cell dim)
    (φ : (Fin n → K) → Fin n → K) (dt dt' : K) (G : Arr K n dim) (k l : Nat) :
    lbmRun N vel φ (fun _ H => H) dt G (k + l) =
      lbmRun N vel φ (fun _ H => H) dt' (lbmRun N vel φ (fun _ H => H) dt G k) l := by
  induction l with
  | zero => rfl
  | succ l ih =>
    funext y
    show φ (fun j => lbmRun N vel φ (fun _ H => H) dt G (k + l) (fun i => (y i - vel j i) % N i) j) =
      φ (fun j => lbmRun N vel φ (fun _ H => H) dt' (lbmRun N vel φ (fun _ H => H) dt G k) l (fun i => (y i - vel j i) % N i) j)
    rw [ih]

/-- The total of a moment which the collision keeps. -/
theorem total_run {K : Type} [Field K] (N : Fin dim → Nat) (vel : Fin n → Cell dim) (φ : (Fin n → K) → Fin n → K) (m : Fin n → K)
    (hφ : ∀ f, m ⬝ᵥ φ f = m ⬝ᵥ f) (dt : K) (G : Arr K n dim) (k : Nat) :
    ∑ y ∈ box N, m ⬝ᵥ lbmRun N vel φ (fun _ H => H) dt G k y = ∑ y ∈ box N, m ⬝ᵥ G y := by
  induction k with
  | zero => rfl
  | succ k ih =>
    rw [← ih]
    show ∑ y ∈ box N, m ⬝ᵥ φ (fun j => lbmRun N vel φ (fun _ H => H) dt G k (fun i => (y i - vel j i) % N i) j) = _
    simp only [hφ]
    simp only [dotProduct]
    rw [Finset.sum_comm, Finset.sum_comm (s := box N)]
    exact Finset.sum_congr rfl fun j _ => sum_torus N (vel j) fun y => m j * lbmRun N vel φ (fun _ H => H) dt G k y j

end linear

section main
variable {n dim : Nat}

/-- What is used of the linear collision `B`: it does not increase the energy, strictly unless the cell holds a multiple of the
equilibrium `e`, and keeps the moment `m`. -/
structure Damps (w m e : Fin n → ℝ) (B : Matrix (Fin n) (Fin n) ℝ) : Prop where
  pos : ∀ j, 0 < w j
  le : ∀ f, energy w (B *ᵥ f) ≤ energy w f
  strict : ∀ f, energy w (B *ᵥ f) = energy w f → f = (m ⬝ᵥ f) • e
  keeps : ∀ f, m ⬝ᵥ (B *ᵥ f) = m ⬝ᵥ f
  fixed : B *ᵥ e = e
  unit : m ⬝ᵥ e = 1
  ne : ∀ j, e j ≠ 0

variable {w m e : Fin n → ℝ} {B : Matrix (Fin n) (Fin n) ℝ}

theorem energy_pull (N : Fin dim → Nat) (vel : Fin n → Cell dim) (w : Fin n → ℝ) (G : Arr ℝ n dim) :
    ∑ y ∈ box N, energy w (fun j => G (fun i => (y i - vel j i) % N i) j) = ∑ y ∈ box N, energy w (G y) := by
  simp only [energy]
  rw [Finset.sum_comm, Finset.sum_comm (s := box N)]
  exact Finset.sum_congr rfl fun j _ => sum_torus N (vel j) fun y => G y j ^ 2 / w j

theorem total_pull (N : Fin dim → Nat) (vel : Fin n → Cell dim) (m : Fin n → ℝ) (G : Arr ℝ n dim) :
    ∑ y ∈ box N, m ⬝ᵥ (fun j => G (fun i => (y i - vel j i) % N i) j) = ∑ y ∈ box N, m ⬝ᵥ G y := by
  simp only [dotProduct]
  rw [Finset.sum_comm, Finset.sum_comm (s := box N)]
  exact Finset.sum_congr rfl fun j _ => sum_torus N (vel j) fun y => m j * G y j

theorem wrap_box {N : Fin dim → Nat} (hN : ∀ i, 0 < N i) (z : Cell dim) : (fun i => z i % (N i : ℤ)) ∈ box N :=
  (mem_box _ _).2 fun i => ⟨Int.emod_nonneg _ (by have := hN i; omega), Int.emod_lt_of_pos _ (by exact_mod_cast hN i)⟩

/-- A step which does not lose energy starts from multiples of the equilibrium. -/
theorem step_still (hB : Damps w m e B) (N : Fin dim → Nat) (vel : Fin n → Cell dim) (t : ℝ) (G : Arr ℝ n dim)
    (h : ∑ y ∈ box N, energy w (G y) ≤ ∑ y ∈ box N, energy w (lbmStep N vel (B *ᵥ ·) (fun _ H => H) t G y)) :
    ∀ y ∈ box N, (fun j => G (fun i => (y i - vel j i) % N i) j) =
      (m ⬝ᵥ (fun j => G (fun i => (y i - vel j i) % N i) j)) • e := by
  intro y hy
  apply hB.strict
  have h1 : ∑ y ∈ box N, energy w (B *ᵥ (fun j => G (fun i => (y i - vel j i) % N i) j)) =
      ∑ y ∈ box N, energy w (fun j => G (fun i => (y i - vel j i) % N i) j) := by
    apply le_antisymm (Finset.sum_le_sum fun y _ => hB.le _)
    rw [energy_pull N vel w G]
    exact h
  exact (Finset.sum_eq_sum_iff_of_le fun y _ => hB.le _).1 h1 y hy

/-- An array with total zero whose energy is the same after two steps is zero. -/
theorem two_steps (hB : Damps w m e B) {N : Fin dim → Nat} (hN : ∀ i, 0 < N i) {vel : Fin n → Cell dim}
    (hc : Connects N vel) (t t' : ℝ) (G : Arr ℝ n dim) (h0 : ∑ y ∈ box N, m ⬝ᵥ G y = 0)
    (h : ∑ y ∈ box N, energy w (G y) ≤ ∑ y ∈ box N, energy w (lbmStep N vel (B *ᵥ ·) (fun _ H => H) t'
      (lbmStep N vel (B *ᵥ ·) (fun _ H => H) t G) y)) :
    ∀ y ∈ box N, G y = 0 := by
  have hle : ∀ (t : ℝ) (G : Arr ℝ n dim), ∑ y ∈ box N, energy w (lbmStep N vel (B *ᵥ ·) (fun _ H => H) t G y) ≤
      ∑ y ∈ box N, energy w (G y) := by
    intro t G
    rw [← energy_pull N vel w G]
    exact Finset.sum_le_sum fun y _ => hB.le fun j => G (fun i => (y i - vel j i) % N i) j
  have s1 := step_still hB N vel t G (h.trans (hle t' _))
  have s2 := step_still hB N vel t' (lbmStep N vel (B *ᵥ ·) (fun _ H => H) t G) ((hle t G).trans h)
  have hG1 : ∀ y, lbmStep N vel (B *ᵥ ·) (fun _ H => H) t G y = B *ᵥ (fun j => G (fun i => (y i - vel j i) % N i) j) :=
    fun _ => rfl
  generalize lbmStep N vel (B *ᵥ ·) (fun _ H => H) t G = G1 at s2 hG1
  set ρ : Cell dim → ℝ := fun y => m ⬝ᵥ (fun j => G (fun i => (y i - vel j i) % N i) j) with hρ
  have hg1 : ∀ y ∈ box N, G1 y = ρ y • e := by
    intro y hy
    rw [hG1, s1 y hy, Matrix.mulVec_smul, hB.fixed]
  set ρ1 : Cell dim → ℝ := fun y => m ⬝ᵥ (fun j => G1 (fun i => (y i - vel j i) % N i) j) with hρ1
  have hstep : ∀ y ∈ box N, ∀ j, ρ (fun i => (y i - vel j i) % N i) = ρ1 y := by
    intro y hy j
    have h1 := congrFun (s2 y hy) j
    rw [hg1 _ (wrap_box hN _)] at h1
    exact mul_right_cancel₀ (hB.ne j) h1
  set R : (Fin dim → ℤ) → ℝ := fun z => ρ fun i => z i % N i with hR
  have hshift : ∀ (z : Fin dim → ℤ) j, R (z - vel j) = ρ1 fun i => z i % N i := by
    intro z j
    rw [← hstep _ (wrap_box hN z) j]
    show ρ _ = ρ _
    congr 1
    funext i
    show (z i - vel j i) % (N i : ℤ) = (z i % N i - vel j i) % N i
    rw [Int.emod_sub_emod]
  have hall : ∀ h : Fin dim → ℤ, ∀ z, R (z + h) = R z := by
    intro h
    have hmem : h ∈ AddSubgroup.closure ({z : Fin dim → ℤ | ∃ j j', z = vel j - vel j'} ∪
        {z | ∃ i, z = Pi.single i (N i : ℤ)}) := by
      rw [show AddSubgroup.closure _ = ⊤ from hc]
      exact AddSubgroup.mem_top h
    induction hmem using AddSubgroup.closure_induction with
    | mem x hx =>
      intro z
      rcases hx with ⟨j, j', rfl⟩ | ⟨i, rfl⟩
      · have e1 := hshift (z + vel j) j'
        have e2 := hshift (z + vel j) j
        rw [show z + (vel j - vel j') = z + vel j - vel j' by abel, e1, ← e2]
        congr 1
        abel
      · show ρ _ = ρ _
        congr 1
        funext i'
        by_cases hi : i' = i
        · subst hi
          simp
        · simp [hi]
    | zero => intro z; rw [add_zero]
    | add x y _ _ hx hy => intro z; rw [← add_assoc, hy, hx]
    | neg x _ hx => intro z; rw [← hx (z + -x)]; congr 1; abel
  have hconst : ∀ y ∈ box N, ρ y = R 0 := by
    intro y hy
    have h1 := hall y 0
    rw [zero_add] at h1
    rw [← h1]
    show ρ y = ρ _
    congr 1
    funext i
    have := (mem_box _ _).1 hy i
    exact (Int.emod_eq_of_lt this.1 this.2).symm
  have hzero : R 0 = 0 := by
    have h1 : ∑ y ∈ box N, ρ y = 0 := by rw [← h0, ← total_pull N vel m G]
    rw [Finset.sum_congr rfl hconst, Finset.sum_const, nsmul_eq_mul] at h1
    have hcard : ((box N).card : ℝ) ≠ 0 := by
      have : (box N).Nonempty := ⟨_, wrap_box hN 0⟩
      exact_mod_cast this.card_pos.ne'
    exact (mul_eq_zero.1 h1).resolve_left hcard
  have hE : ∑ y ∈ box N, energy w (G y) = 0 := by
    rw [← energy_pull N vel]
    refine Finset.sum_eq_zero fun y hy => ?_
    rw [s1 y hy, show m ⬝ᵥ (fun j => G (fun i => (y i - vel j i) % N i) j) = ρ y from rfl, hconst y hy, hzero, zero_smul]
    simp [energy]
  intro y hy
  exact energy_eq_zero hB.pos ((Finset.sum_eq_zero_iff_of_nonneg fun y _ => energy_nonneg hB.pos _).1 hE y hy)

/-- The arrays of the box. -/
abbrev Inside (N : Fin dim → Nat) (n : Nat) := {y // y ∈ box N} × Fin n → ℝ

/-- An array of the box, with zeros outside. -/
def extend {N : Fin dim → Nat} (v : Inside N n) : Arr ℝ n dim := fun y j => if h : y ∈ box N then v (⟨y, h⟩, j) else 0

theorem extend_smul_add {N : Fin dim → Nat} (a : ℝ) (v v' : Inside N n) : extend (a • v + v') = a • extend v + extend v' := by
  funext y j
  show extend (a • v + v') y j = a * extend v y j + extend v' y j
  unfold extend
  split_ifs
  · rfl
  · simp

theorem extend_restrict {N : Fin dim → Nat} (G : Arr ℝ n dim) (y : Cell dim) (hy : y ∈ box N) :
    extend (N := N) (fun p => G p.1 p.2) y = G y := by
  funext j
  unfold extend
  rw [dif_pos hy]

theorem lbmRun_zero (N : Fin dim → Nat) (vel : Fin n → Cell dim) (B : Matrix (Fin n) (Fin n) ℝ) (dt : ℝ) (k : Nat) :
    lbmRun N vel (B *ᵥ ·) (fun _ H => H) dt 0 k = 0 := by
  have h := lbmRun_smul_add N vel B dt (-1) 0 0 k
  rw [smul_zero, add_zero] at h
  rw [h]
  simp

theorem extend_zero {N : Fin dim → Nat} : extend (0 : Inside N n) = 0 := by
  have h := extend_smul_add (N := N) (n := n) (-1) 0 0
  rw [smul_zero, add_zero] at h
  rw [h]
  simp

/-- Two steps as a linear map of the arrays of the box. -/
noncomputable def twice (N : Fin dim → Nat) (vel : Fin n → Cell dim) (B : Matrix (Fin n) (Fin n) ℝ) :
    Inside N n →ₗ[ℝ] Inside N n where
  toFun v p := lbmRun N vel (B *ᵥ ·) (fun _ H => H) 0 (extend v) 2 p.1 p.2
  map_add' v v' := by
    funext p
    have h := extend_smul_add 1 v v'
    rw [one_smul, one_smul] at h
    have h2 := lbmRun_smul_add N vel B 0 1 (extend v) (extend v') 2
    rw [one_smul, one_smul] at h2
    rw [h, h2]
    rfl
  map_smul' c v := by
    funext p
    have h := extend_smul_add c v 0
    rw [add_zero, extend_zero, add_zero] at h
    have h2 := lbmRun_smul_add N vel B 0 c (extend v) 0 2
    rw [lbmRun_zero, add_zero, add_zero] at h2
    rw [h, h2]
    rfl

theorem energy_smul (w : Fin n → ℝ) (c : ℝ) (f : Fin n → ℝ) : energy w (c • f) = c ^ 2 * energy w f := by
  unfold energy
  rw [Finset.mul_sum]
  refine Finset.sum_congr rfl fun j _ => ?_
  rw [Pi.smul_apply, smul_eq_mul]
  ring

/-- The energy of two steps is a fraction of the energy, the same one for all the arrays with total zero. -/
theorem decay_two (hB : Damps w m e B) {N : Fin dim → Nat} (hN : ∀ i, 0 < N i) {vel : Fin n → Cell dim}
    (hc : Connects N vel) : ∃ q : ℝ, 0 < q ∧ q < 1 ∧ ∀ G : Arr ℝ n dim, ∑ y ∈ box N, m ⬝ᵥ G y = 0 →
      ∑ y ∈ box N, energy w (lbmRun N vel (B *ᵥ ·) (fun _ H => H) 0 G 2 y) ≤ q * ∑ y ∈ box N, energy w (G y) := by
  set E : Inside N n → ℝ := fun v => ∑ y ∈ box N, energy w (extend v y) with hE
  have hcont : Continuous E := by
    refine continuous_finsetSum _ fun y _ => continuous_finsetSum _ fun j _ => ?_
    have : Continuous fun v : Inside N n => extend v y j := by
      unfold extend
      split_ifs
      exact continuous_apply _
    exact (this.pow 2).div_const _
  have hs : ∀ (c : ℝ) v, E (c • v) = c ^ 2 * E v := by
    intro c v
    have h := extend_smul_add c v 0
    rw [add_zero, extend_zero, add_zero] at h
    simp only [hE, h, Finset.mul_sum, Pi.smul_apply, energy_smul]
  have hp : ∀ v, v ≠ 0 → 0 < E v := by
    intro v hv
    refine lt_of_le_of_ne (Finset.sum_nonneg fun y _ => energy_nonneg hB.pos _) fun h => hv ?_
    have h1 := (Finset.sum_eq_zero_iff_of_nonneg fun y _ => energy_nonneg hB.pos _).1 h.symm
    funext p
    have h2 := congrFun (energy_eq_zero hB.pos (h1 p.1.1 p.1.2)) p.2
    unfold extend at h2
    rw [dif_pos p.1.2] at h2
    exact h2
  let C : Submodule ℝ (Inside N n) :=
    { carrier := {v | ∑ y ∈ box N, m ⬝ᵥ extend v y = 0}
      add_mem' := by
        intro a b ha hb
        have h := extend_smul_add 1 a b
        rw [one_smul, one_smul] at h
        show ∑ y ∈ box N, m ⬝ᵥ extend (a + b) y = 0
        rw [h]
        simp only [Pi.add_apply, dotProduct_add, Finset.sum_add_distrib]
        rw [show ∑ y ∈ box N, m ⬝ᵥ extend a y = 0 from ha, show ∑ y ∈ box N, m ⬝ᵥ extend b y = 0 from hb, add_zero]
      zero_mem' := by
        show ∑ y ∈ box N, m ⬝ᵥ extend (0 : Inside N n) y = 0
        rw [extend_zero]
        simp
      smul_mem' := by
        intro c a ha
        have h := extend_smul_add c a 0
        rw [add_zero, extend_zero, add_zero] at h
        show ∑ y ∈ box N, m ⬝ᵥ extend (c • a) y = 0
        rw [h]
        simp only [Pi.smul_apply, dotProduct_smul, ← Finset.smul_sum]
        rw [show ∑ y ∈ box N, m ⬝ᵥ extend a y = 0 from ha, smul_zero] }
  have hL : ∀ v, E (twice N vel B v) = ∑ y ∈ box N, energy w (lbmRun N vel (B *ᵥ ·) (fun _ H => H) 0 (extend v) 2 y) :=
    fun v => Finset.sum_congr rfl fun y hy => by
      show energy w (extend (fun p => lbmRun N vel (B *ᵥ ·) (fun _ H => H) 0 (extend v) 2 p.1 p.2) y) = _
      rw [extend_restrict _ y hy]
  obtain ⟨q, h0, h1, h2⟩ := contraction E hcont hs hp (twice N vel B) C (by
    intro v hv hv0
    by_contra hlt
    rw [not_lt, hL] at hlt
    have h3 := two_steps hB hN hc (((0 : ℕ) : ℝ) * 0) (((1 : ℕ) : ℝ) * 0) (extend v) hv hlt
    apply hv0
    funext p
    have h4 := congrFun (h3 p.1.1 p.1.2) p.2
    unfold extend at h4
    rw [dif_pos p.1.2] at h4
    exact h4)
  refine ⟨q, h0, h1, fun G hG => ?_⟩
  have hGe : ∀ y ∈ box N, extend (N := N) (fun p => G p.1 p.2) y = G y := extend_restrict G
  have h3 := h2 (fun p => G p.1 p.2) (by
    show ∑ y ∈ box N, m ⬝ᵥ extend (N := N) (fun p => G p.1 p.2) y = 0
    rw [← hG]
    exact Finset.sum_congr rfl fun y hy => by rw [hGe y hy])
  rw [hL] at h3
  rw [Finset.sum_congr rfl fun y hy => by rw [lbmRun_box hN vel _ 0 hGe 2 y hy]] at h3
  refine h3.trans (le_of_eq ?_)
  congr 1
  exact Finset.sum_congr rfl fun y hy => by rw [hGe y hy]

/-- The energy decreases geometrically. -/
theorem mixing_decay (hB : Damps w m e B) {N : Fin dim → Nat} (hN : ∀ i, 0 < N i) {vel : Fin n → Cell dim}
    (hc : Connects N vel) : ∃ C q : ℝ, 0 < C ∧ 0 < q ∧ q < 1 ∧ ∀ (dt : ℝ) (G : Arr ℝ n dim), ∑ y ∈ box N, m ⬝ᵥ G y = 0 →
      ∀ k, ∑ y ∈ box N, energy w (lbmRun N vel (B *ᵥ ·) (fun _ H => H) dt G k y) ≤
        C * q ^ k * ∑ y ∈ box N, energy w (G y) := by
  obtain ⟨q, h0, h1, h2⟩ := decay_two hB hN hc
  have hq : 0 < √q := Real.sqrt_pos.2 h0
  have hqq : √q ^ 2 = q := Real.sq_sqrt h0.le
  have hq1 : √q < 1 := by
    rw [Real.sqrt_lt' one_pos]
    simpa using h1
  refine ⟨(√q)⁻¹, √q, inv_pos.2 hq, hq, hq1, fun dt G hG => ?_⟩
  have hone : 1 ≤ (√q)⁻¹ := (one_le_inv₀ hq).2 hq1.le
  have hE : ∀ G : Arr ℝ n dim, 0 ≤ ∑ y ∈ box N, energy w (G y) := fun G => Finset.sum_nonneg fun y _ => energy_nonneg hB.pos _
  intro k
  induction k using Nat.strong_induction_on with
  | _ k ih =>
    match k with
    | 0 =>
      show ∑ y ∈ box N, energy w (G y) ≤ _
      rw [pow_zero, mul_one]
      nlinarith [hE G]
    | 1 =>
      rw [pow_one, inv_mul_cancel₀ hq.ne', one_mul, ← energy_pull N vel w G]
      exact Finset.sum_le_sum fun y _ => hB.le fun j => G (fun i => (y i - vel j i) % N i) j
    | k + 2 =>
      rw [lbmRun_split N vel _ dt 0 G k 2]
      refine (h2 _ ((total_run N vel _ m hB.keeps dt G k).trans hG)).trans ?_
      have := mul_le_mul_of_nonneg_left (ih k (by omega)) h0.le
      refine this.trans (le_of_eq ?_)
      rw [pow_add, hqq]
      ring

end main

/-! ## Schemes with one conserved quantity -/

section scheme
variable {n d dim : Nat}

/-- The hypotheses of C98, with relaxation parameters strictly between 0 and 2, one conserved moment, and populations of the
equilibrium of density one which are not zero. -/
structure Damped (S : Kernel ℝ n 1 d) (w : Fin n → ℝ) (E : Matrix (Fin n) (Fin 1) ℝ) (b s e : Fin n → ℝ) : Prop where
  dissipative : Dissipative S w E b s
  conserved : ∀ j v, S.EQ (S.consm j) v = v j
  inverse : S.M * S.invM = 1
  noSource : ∀ i, S.source i = none
  noRel : S.relVel = none
  strict : ∀ i, ¬ Conserved S i → 0 < s i ∧ s i < 2
  unit : ∀ i, (S.M *ᵥ e) i = E i 0
  ne : ∀ j, e j ≠ 0

variable {S : Kernel ℝ n 1 d} {w : Fin n → ℝ} {E : Matrix (Fin n) (Fin 1) ℝ} {b s e : Fin n → ℝ}

/-- The collision of a difference. -/
noncomputable def slope (S : Kernel ℝ n 1 d) (E : Matrix (Fin n) (Fin 1) ℝ) (s : Fin n → ℝ) : Matrix (Fin n) (Fin n) ℝ :=
  (Matrix.of (deviation S E))⁻¹ * diagonal (rate S s) * Matrix.of (deviation S E)

theorem Damped.unitAt (h : Damped S w E b s e) (l : Fin 1) : E (S.consm l) 0 = 1 := by
  have h0 := h.dissipative.equilibrium (S.consm l) 0
  have h1 := h.dissipative.equilibrium (S.consm l) 1
  rw [h.conserved] at h0 h1
  simp only [Fin.sum_univ_one, Pi.zero_apply, Pi.one_apply, mul_zero, zero_add, mul_one] at h0 h1
  linarith

theorem Damped.isUnit (h : Damped S w E b s e) : IsUnit (Matrix.of (deviation S E)) := deviation_isUnit S h.inverse E

theorem Damped.det (h : Damped S w E b s e) : IsUnit (Matrix.of (deviation S E)).det :=
  (Matrix.isUnit_iff_isUnit_det _).1 h.isUnit

theorem Damped.dev (h : Damped S w E b s e) (f : Fin n → ℝ) (i : Fin n) :
    (Matrix.of (deviation S E) *ᵥ (slope S E s *ᵥ f)) i = rate S s i * (Matrix.of (deviation S E) *ᵥ f) i := by
  unfold slope
  rw [Matrix.mulVec_mulVec, ← Matrix.mul_assoc, ← Matrix.mul_assoc, Matrix.mul_nonsing_inv _ h.det, Matrix.one_mul,
    ← Matrix.mulVec_mulVec, Matrix.mulVec_diagonal]

theorem Damped.inj (h : Damped S w E b s e) {f f' : Fin n → ℝ}
    (hf : ∀ i, (Matrix.of (deviation S E) *ᵥ f) i = (Matrix.of (deviation S E) *ᵥ f') i) : f = f' :=
  Matrix.mulVec_injective_of_isUnit h.isUnit (funext hf)

theorem Damped.moments (h : Damped S w E b s e) {f f' : Fin n → ℝ} (hf : S.M *ᵥ f = S.M *ᵥ f') : f = f' := by
  have hi : S.invM * S.M = 1 := mul_eq_one_comm.1 h.inverse
  have := congrArg (S.invM *ᵥ ·) hf
  simpa only [Matrix.mulVec_mulVec, hi, Matrix.one_mulVec] using this

theorem Damped.rate_le (h : Damped S w E b s e) (i : Fin n) : rate S s i ^ 2 ≤ 1 := by
  unfold rate
  split_ifs with hi
  · simp
  · have := h.strict i hi
    nlinarith

theorem Damped.damps (h : Damped S w E b s e) : Damps w (S.M (S.consm 0)) e (slope S E s) where
  pos := h.dissipative.pos
  le f := energy_contraction _ h.isUnit w h.dissipative.pos (rate S s) h.rate_le h.dissipative.orthogonal _ _ (h.dev f)
  strict f hf := by
    have h1 := energy_strict _ h.isUnit w h.dissipative.pos (rate S s) h.rate_le h.dissipative.orthogonal _ _ (h.dev f) hf
    apply h.moments
    funext i
    rw [Matrix.mulVec_smul, Pi.smul_apply, smul_eq_mul, h.unit]
    by_cases hi : Conserved S i
    · obtain ⟨l, rfl⟩ := hi
      rw [h.unitAt, mul_one, Subsingleton.elim l 0]
      rfl
    · have h2 := h1 i (by
        unfold rate
        rw [if_neg hi]
        have := h.strict i hi
        nlinarith)
      rw [deviation_mulVec, if_neg hi, Fin.sum_univ_one] at h2
      rw [sub_eq_zero.1 h2, mul_comm]
      rfl
  keeps f := by
    have h1 := h.dev f (S.consm 0)
    rw [deviation_mulVec, deviation_mulVec, if_pos ⟨0, rfl⟩, if_pos ⟨0, rfl⟩, rate, if_pos ⟨0, rfl⟩, one_mul] at h1
    exact h1
  fixed := by
    apply h.inj
    intro i
    rw [h.dev, deviation_mulVec]
    unfold rate
    by_cases hi : Conserved S i
    · rw [if_pos hi, if_pos hi, one_mul]
    · rw [if_neg hi, if_neg hi, Fin.sum_univ_one, h.unit, h.unit, h.unitAt, mul_one, sub_self, mul_zero]
  unit := by
    show (S.M *ᵥ e) (S.consm 0) = 1
    rw [h.unit, h.unitAt]
  ne := h.ne

theorem Damped.collide_sub (h : Damped S w E b s e) (a : Algo) (f f' : Fin n → ℝ) :
    collide S a f - collide S a f' = slope S E s *ᵥ (f - f') := by
  apply h.inj
  intro i
  rw [h.dev]
  exact deviation_collide S h.conserved h.inverse h.noSource h.noRel a E b s h.dissipative.equilibrium h.dissipative.relaxation
    f f' i

theorem Damped.run_sub (h : Damped S w E b s e) (a : Algo) (N : Fin dim → Nat) (vel : Fin n → Cell dim) (dt : ℝ)
    (G G' : Arr ℝ n dim) (k : Nat) (y : Cell dim) :
    lbmRun N vel (collide S a) (fun _ H => H) dt G k y - lbmRun N vel (collide S a) (fun _ H => H) dt G' k y =
      lbmRun N vel (slope S E s *ᵥ ·) (fun _ H => H) dt (fun y => G y - G' y) k y := by
  induction k generalizing y with
  | zero => rfl
  | succ k ih =>
    show collide S a (fun j => lbmRun N vel (collide S a) (fun _ H => H) dt G k (fun i => (y i - vel j i) % N i) j) -
      collide S a (fun j => lbmRun N vel (collide S a) (fun _ H => H) dt G' k (fun i => (y i - vel j i) % N i) j) =
        slope S E s *ᵥ (fun j => lbmRun N vel (slope S E s *ᵥ ·) (fun _ H => H) dt (fun y => G y - G' y) k
          (fun i => (y i - vel j i) % N i) j)
    rw [h.collide_sub]
    congr 1
    funext j
    exact congrFun (ih _) j

/-- **C121, two runs.** If the differences of the velocities connect the cells, two simulations with the same total of the
conserved quantity approach each other: the energy of the difference decreases geometrically, with a rate and a constant which
depend on the scheme and the box only. -/
theorem C121_approach (hdim : dim ≤ 3) (g : Grid dim) (hlarge : ∀ c i, g.w i ≤ size g c i) (hN : ∀ i, 0 < g.N i)
    (h : Damped S w E b s e) (hfront : ∀ j, (S.consm j : Nat) < 1) (vel : Fin n → Cell dim) (a : Algo)
    (hv : ∀ j i, |vel j i| ≤ g.w i) (hc : Connects g.N vel)
    (Q : Proc g → Setup ℝ n 1 d dim) (hQ : Uniform g S vel a Q) (hQb : ∀ c t A, (Q c).bc t A = A) :
    ∃ C q : ℝ, 0 < C ∧ 0 < q ∧ q < 1 ∧ ∀ (σ₀ τ₀ : Proc g → Simu ℝ n d dim), (∀ c, (σ₀ c).Start (Q c)) →
      (∀ c, (τ₀ c).Start (Q c)) →
      ∑ c : Proc g, ∑ x ∈ inner (size g c) g.w, S.M (S.consm 0) ⬝ᵥ (σ₀ c).arr x =
        ∑ c : Proc g, ∑ x ∈ inner (size g c) g.w, S.M (S.consm 0) ⬝ᵥ (τ₀ c).arr x →
      ∀ k σ τ, PRun g Q σ₀ k σ → PRun g Q τ₀ k τ → totalEnergy g w σ τ ≤ C * q ^ k * totalEnergy g w σ₀ τ₀ := by
  obtain ⟨C, q, hC, h0, h1, h2⟩ := mixing_decay h.damps hN hc
  refine ⟨C, q, hC, h0, h1, fun σ₀ τ₀ hσ₀ hτ₀ htot k σ τ hr hr' => ?_⟩
  have hown : ∀ c x, x ∈ inner (size g c) g.w ↔ Owned (size g c) g.w x := by
    intro c x
    simp [inner, Owned]
  obtain ⟨G, hG⟩ := C15_global_array_exists g fun c => (σ₀ c).arr
  obtain ⟨G', hG'⟩ := C15_global_array_exists g fun c => (τ₀ c).arr
  obtain ⟨_, h3⟩ := C42_global_partial hdim g hlarge S hfront vel a Q hQ _
    (sameBoundary_periodic g vel hv Q hQb) σ₀ hσ₀ G hG k σ hr
  obtain ⟨_, h3'⟩ := C42_global_partial hdim g hlarge S hfront vel a Q hQ _
    (sameBoundary_periodic g vel hv Q hQb) τ₀ hτ₀ G' hG' k τ hr'
  have key : ∀ (σ τ : Proc g → Simu ℝ n d dim) (H H' : Arr ℝ n dim),
      (∀ c x, Owned (size g c) g.w x → (σ c).arr x = H (globalPos (first g c) g.w x)) →
      (∀ c x, Owned (size g c) g.w x → (τ c).arr x = H' (globalPos (first g c) g.w x)) →
      totalEnergy g w σ τ = ∑ y ∈ box g.N, energy w (H y - H' y) := by
    intro σ τ H H' hH hH'
    rw [← sum_owned g fun y => energy w (H y - H' y)]
    refine Finset.sum_congr rfl fun c _ => Finset.sum_congr rfl fun x hx => ?_
    rw [hH c x ((hown c x).1 hx), hH' c x ((hown c x).1 hx)]
  have tot : ∀ (σ : Proc g → Simu ℝ n d dim) (H : Arr ℝ n dim),
      (∀ c x, Owned (size g c) g.w x → (σ c).arr x = H (globalPos (first g c) g.w x)) →
      ∑ c : Proc g, ∑ x ∈ inner (size g c) g.w, S.M (S.consm 0) ⬝ᵥ (σ c).arr x = ∑ y ∈ box g.N, S.M (S.consm 0) ⬝ᵥ H y := by
    intro σ H hH
    rw [← sum_owned g fun y => S.M (S.consm 0) ⬝ᵥ H y]
    refine Finset.sum_congr rfl fun c _ => Finset.sum_congr rfl fun x hx => ?_
    rw [hH c x ((hown c x).1 hx)]
  rw [tot σ₀ G hG, tot τ₀ G' hG'] at htot
  rw [key σ τ _ _ h3 h3', key σ₀ τ₀ G G' hG hG']
  simp only [h.run_sub]
  apply h2
  simp only [dotProduct_sub, Finset.sum_sub_distrib]
  rw [htot, sub_self]

end scheme

end Pylbm.Sim
