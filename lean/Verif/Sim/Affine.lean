import Verif.Sim.Flow
/-!
# C107: affine flows

The populations are affine functions of the position. Which boundary methods return them exactly, and which schemes have
such flows.
-/

set_option linter.unusedSectionVars false

namespace Pylbm.Sim
open Scheme Halo SchemeSpec Matrix HaloSpec Mpi Boundary

section spec
variable {K : Type} [Field K] {n nc dim : Nat}

/-- The flow whose populations are the affine functions `A j + B j · p` of the position, at all times. -/
def affineFlow (A : Fin n → K) (B : Fin n → Fin dim → K) : Flow K dim n := fun _ p j => A j + ∑ i, B j i * p i

/-- The variation of the population `j` along the velocity `v` (one link). -/
def alongLink (dx : K) (B : Fin n → Fin dim → K) (v : Cell dim) (j : Fin n) : K := ∑ i, B j i * (dx * (v i : K))

theorem affine_shift (A : Fin n → K) (B : Fin n → Fin dim → K) (dx c t : K) (v : Cell dim) (p : Fin dim → K)
    (j : Fin n) : affineFlow A B t (fun i => p i + c * (dx * (v i : K))) j = affineFlow A B t p j + c * alongLink dx B v j := by
  unfold affineFlow alongLink
  rw [Finset.mul_sum, add_assoc, ← Finset.sum_add_distrib]
  congr 1
  exact Finset.sum_congr rfl fun i _ => by ring

theorem affine_back (A : Fin n → K) (B : Fin n → Fin dim → K) (dx t : K) (v : Cell dim) (p : Fin dim → K)
    (j : Fin n) : affineFlow A B t (fun i => p i - dx * (v i : K)) j = affineFlow A B t p j - alongLink dx B v j := by
  have := affine_shift A B dx (-1) t v p j
  rw [show (fun i => p i - dx * (v i : K)) = fun i => p i + -1 * (dx * (v i : K)) by funext i; ring, this]; ring

theorem affine_wall (A : Fin n → K) (B : Fin n → Fin dim → K) (dx d t : K) (v : Cell dim) (p : Fin dim → K)
    (j : Fin n) :
    affineFlow A B t (fun i => p i - d * (dx * (v i : K))) j = affineFlow A B t p j - d * alongLink dx B v j := by
  have := affine_shift A B dx (-d) t v p j
  rw [show (fun i => p i - d * (dx * (v i : K))) = fun i => p i + -d * (dx * (v i : K)) by funext i; ring, this]; ring

theorem affine_next (A : Fin n → K) (B : Fin n → Fin dim → K) (dx t : K) (v : Cell dim) (p : Fin dim → K)
    (j : Fin n) : affineFlow A B t (fun i => p i + dx * (v i : K)) j = affineFlow A B t p j + alongLink dx B v j := by
  have := affine_shift A B dx 1 t v p j
  simpa only [one_mul] using this

end spec

section methods
variable {K : Type} [Field K] [LinearOrder K] [IsStrictOrderedRing K] {n nc dim : Nat}

/-- The point where the link from `p` against the velocity `v` meets a wall at the distance `d`. -/
def wallAt (dx d : K) (v : Cell dim) (p : Fin dim → K) : Fin dim → K := fun i => p i - d * (dx * (v i : K))

/-- **C107, bounce-back.** When the sum of the two opposite populations does not vary along the link and the user
imposes the odd part of the flow where the link meets the wall, bounce-back returns the flow exactly when the wall is
halfway between the cells, or when the populations do not vary along the link. -/
theorem C107_bounce_back (vel : Fin n → Cell dim) (dx d : K) (A : Fin n → K) (B : Fin n → Fin dim → K)
    (ψ : Flow K dim n) (j j' : Fin n) (t : K) (p : Fin dim → K)
    (hsum : alongLink dx B (vel j) j + alongLink dx B (vel j) j' = 0)
    (hψ : ψ t (wallAt dx d (vel j) p) j - ψ t (wallAt dx d (vel j) p) j' =
      affineFlow A B t (wallAt dx d (vel j) p) j - affineFlow A B t (wallAt dx d (vel j) p) j') :
    Returns .bounceBack vel dx d (affineFlow A B) ψ j j' t p ↔ d = 1 / 2 ∨ alongLink dx B (vel j) j = 0 := by
  unfold wallAt at hψ
  rw [affine_wall, affine_wall] at hψ
  unfold Returns reflection
  simp only
  rw [hψ, affine_back]
  set b := alongLink dx B (vel j) j
  have hb : alongLink dx B (vel j) j' = -b := by linarith
  rw [hb]
  have e : affineFlow A B t p j' + (affineFlow A B t p j - d * b - (affineFlow A B t p j' - d * -b)) =
      affineFlow A B t p j - b ↔ (d - 1 / 2) * b = 0 := by
    constructor <;> intro h <;> linarith
  rw [e, mul_eq_zero, sub_eq_zero]

/-- **C107, interpolated bounce-back.** Under the same conditions the interpolated bounce-back returns the flow for all
distances up to 1/2; beyond, exactly when the wall is at rest (the imposed state has no odd part). -/
theorem C107_interpolated (vel : Fin n → Cell dim) (dx d : K) (A : Fin n → K) (B : Fin n → Fin dim → K)
    (ψ : Flow K dim n) (j j' : Fin n) (t : K) (p : Fin dim → K)
    (hsum : alongLink dx B (vel j) j + alongLink dx B (vel j) j' = 0)
    (hψ : ψ t (wallAt dx d (vel j) p) j - ψ t (wallAt dx d (vel j) p) j' =
      affineFlow A B t (wallAt dx d (vel j) p) j - affineFlow A B t (wallAt dx d (vel j) p) j') :
    Returns .bouzidiBounceBack vel dx d (affineFlow A B) ψ j j' t p ↔
      d ≤ 1 / 2 ∨ ψ t (wallAt dx d (vel j) p) j = ψ t (wallAt dx d (vel j) p) j' := by
  have hψ' := hψ
  unfold wallAt at hψ
  rw [affine_wall, affine_wall] at hψ
  unfold Returns reflection
  simp only
  rw [hψ, affine_back, affine_next]
  set b := alongLink dx B (vel j) j
  have hb : alongLink dx B (vel j) j' = -b := by linarith
  rw [hb] at hψ ⊢
  change ψ t (wallAt dx d (vel j) p) j - ψ t (wallAt dx d (vel j) p) j' = _ at hψ
  set x := affineFlow A B t p j
  set x' := affineFlow A B t p j'
  by_cases hd : d < 1 / 2
  · rw [if_pos hd]
    refine iff_of_true (by ring) (Or.inl hd.le)
  · rw [if_neg hd]
    have h0 : d ≠ 0 := by rintro rfl; norm_num at hd
    have e : (1 / (2 * d) * x' + (1 - 1 / (2 * d)) * x + (x - d * b - (x' - d * -b)) = x - b) ↔
        (1 - 1 / (2 * d)) * (x - d * b - (x' - d * -b)) = 0 := by
      have : 1 / (2 * d) * x' + (1 - 1 / (2 * d)) * x + (x - d * b - (x' - d * -b)) - (x - b) =
          (1 - 1 / (2 * d)) * (x - d * b - (x' - d * -b)) := by field_simp; ring
      rw [← this, sub_eq_zero]
    rw [e, mul_eq_zero, ← hψ, sub_eq_zero (a := ψ t _ j)]
    refine or_congr ?_ Iff.rfl
    constructor
    · intro h
      have : 2 * d = 1 := by
        field_simp at h
        linarith
      linarith
    · intro h
      have : d = 1 / 2 := le_antisymm h (not_lt.1 hd)
      rw [this]; norm_num

/-- **C107, anti bounce-back.** When the difference of the two opposite populations does not vary along the link and the
user imposes the even part of the flow where the link meets the wall, anti bounce-back returns the flow exactly when the
wall is halfway, or when the populations do not vary along the link. -/
theorem C107_anti_bounce_back (vel : Fin n → Cell dim) (dx d : K) (A : Fin n → K) (B : Fin n → Fin dim → K)
    (ψ : Flow K dim n) (j j' : Fin n) (t : K) (p : Fin dim → K)
    (hdif : alongLink dx B (vel j) j = alongLink dx B (vel j) j')
    (hψ : ψ t (wallAt dx d (vel j) p) j + ψ t (wallAt dx d (vel j) p) j' =
      affineFlow A B t (wallAt dx d (vel j) p) j + affineFlow A B t (wallAt dx d (vel j) p) j') :
    Returns .antiBounceBack vel dx d (affineFlow A B) ψ j j' t p ↔ d = 1 / 2 ∨ alongLink dx B (vel j) j = 0 := by
  unfold wallAt at hψ
  rw [affine_wall, affine_wall] at hψ
  unfold Returns reflection
  simp only
  rw [hψ, affine_back, ← hdif]
  set b := alongLink dx B (vel j) j
  have e : -affineFlow A B t p j' + (affineFlow A B t p j - d * b + (affineFlow A B t p j' - d * b)) =
      affineFlow A B t p j - b ↔ (d - 1 / 2) * b = 0 := by
    constructor <;> intro h <;> linarith
  rw [e, mul_eq_zero, sub_eq_zero]

/-- **C107, interpolated anti bounce-back.** Under the same conditions, away from the distance 1/2 the interpolated anti
bounce-back returns the flow only where a population vanishes: the outgoing one in the next cell for `d < 1/2`, the
imposed even part for `d > 1/2`. -/
theorem C107_interpolated_anti (vel : Fin n → Cell dim) (dx d : K) (A : Fin n → K) (B : Fin n → Fin dim → K)
    (ψ : Flow K dim n) (j j' : Fin n) (t : K) (p : Fin dim → K)
    (hdif : alongLink dx B (vel j) j = alongLink dx B (vel j) j')
    (hψ : ψ t (wallAt dx d (vel j) p) j + ψ t (wallAt dx d (vel j) p) j' =
      affineFlow A B t (wallAt dx d (vel j) p) j + affineFlow A B t (wallAt dx d (vel j) p) j') :
    Returns .bouzidiAntiBounceBack vel dx d (affineFlow A B) ψ j j' t p ↔ d = 1 / 2 ∨
      (d < 1 / 2 ∧ affineFlow A B t (fun i => p i + dx * (vel j i : K)) j' = 0) ∨
      (1 / 2 < d ∧ ψ t (wallAt dx d (vel j) p) j + ψ t (wallAt dx d (vel j) p) j' = 0) := by
  unfold wallAt at hψ
  rw [affine_wall, affine_wall] at hψ
  unfold Returns reflection
  simp only
  rw [hψ, affine_back, affine_next, ← hdif]
  set b := alongLink dx B (vel j) j
  rw [← hdif] at hψ
  change ψ t (wallAt dx d (vel j) p) j + ψ t (wallAt dx d (vel j) p) j' = _ at hψ
  set x := affineFlow A B t p j
  set x' := affineFlow A B t p j'
  rw [hψ]
  rcases lt_trichotomy d (1 / 2) with hd | hd | hd
  · rw [if_pos hd]
    have e : (-(2 * d) * x' + (1 - 2 * d) * (x' + b) + (x - d * b + (x' - d * b)) = x - b) ↔
        (1 - 2 * d) * (x' + b) = 0 := by
      constructor <;> intro h <;> linarith
    rw [e, mul_eq_zero]
    constructor
    · rintro (h | h)
      · exact Or.inl (by linarith)
      · exact Or.inr (Or.inl ⟨hd, h⟩)
    · rintro (h | ⟨-, h⟩ | ⟨h, -⟩)
      · exact Or.inl (by linarith)
      · exact Or.inr h
      · exact absurd hd h.not_gt
  · rw [if_neg (by rw [hd]; exact lt_irrefl _)]
    refine iff_of_true ?_ (Or.inl hd)
    rw [hd]; ring
  · rw [if_neg hd.not_gt]
    have h0 : d ≠ 0 := by rintro rfl; norm_num at hd
    have e : (-(1 / (2 * d)) * x' + (1 - 1 / (2 * d)) * x + (x - d * b + (x' - d * b)) = x - b) ↔
        (1 - 1 / (2 * d)) * (x - d * b + (x' - d * b)) = 0 := by
      have : -(1 / (2 * d)) * x' + (1 - 1 / (2 * d)) * x + (x - d * b + (x' - d * b)) - (x - b) =
          (1 - 1 / (2 * d)) * (x - d * b + (x' - d * b)) := by field_simp; ring
      rw [← this, sub_eq_zero]
    rw [e, mul_eq_zero]
    have h1 : 1 - 1 / (2 * d) ≠ 0 := by
      intro h
      field_simp at h
      linarith
    constructor
    · rintro (h | h)
      · exact absurd h h1
      · exact Or.inr (Or.inr ⟨hd, h⟩)
    · rintro (h | ⟨h, -⟩ | ⟨-, h⟩)
      · exact absurd h hd.ne'
      · exact absurd hd h.not_gt
      · exact Or.inr h

/-- **C107, Neumann.** The Neumann condition returns the flow exactly when the population does not vary along the
link. -/
theorem C107_neumann (vel : Fin n → Cell dim) (dx d : K) (A : Fin n → K) (B : Fin n → Fin dim → K)
    (ψ : Flow K dim n) (j j' : Fin n) (t : K) (p : Fin dim → K) :
    Returns .neumann vel dx d (affineFlow A B) ψ j j' t p ↔ alongLink dx B (vel j) j = 0 := by
  unfold Returns reflection
  simp only
  rw [affine_back]
  constructor <;> intro h <;> linarith

end methods

/-! ## Linear schemes -/

section linear
variable {K : Type} [Field K] {n nc d dim : Nat}

/-- The affine field `w₀ + G · p` of conserved moments. -/
def affineMoments (w₀ : Fin nc → K) (G : Fin nc → Fin dim → K) (p : Fin dim → K) : Fin nc → K :=
  fun c => w₀ c + ∑ i, G c i * p i

/-- The populations of the linear equilibrium `E w`. -/
def linearEq (invM : Matrix (Fin n) (Fin n) K) (E : Matrix (Fin n) (Fin nc) K) (w : Fin nc → K) : Fin n → K :=
  invM *ᵥ (E *ᵥ w)

/-- The gradient of the equilibrium populations of an affine field. -/
def eqGradient (invM : Matrix (Fin n) (Fin n) K) (E : Matrix (Fin n) (Fin nc) K) (G : Fin nc → Fin dim → K) :
    Fin n → Fin dim → K := fun j i => linearEq invM E (fun c => G c i) j

/-- The variation of each equilibrium population along its own velocity. -/
def eqVariation (invM : Matrix (Fin n) (Fin n) K) (E : Matrix (Fin n) (Fin nc) K) (G : Fin nc → Fin dim → K)
    (vel : Fin n → Cell dim) (dx : K) : Fin n → K := fun j => alongLink dx (eqGradient invM E G) (vel j) j

/-- The deviation from the equilibrium of a steady flow: the moment `i` is `1 - 1/r i` times that of the variation. -/
def steadyPart (M invM : Matrix (Fin n) (Fin n) K) (E : Matrix (Fin n) (Fin nc) K) (r : Fin n → K)
    (G : Fin nc → Fin dim → K) (vel : Fin n → Cell dim) (dx : K) : Fin n → K :=
  invM *ᵥ fun i => (1 - 1 / r i) * (M *ᵥ eqVariation invM E G vel dx) i

/-- The steady flow of the affine field `w₀ + G · p` of conserved moments. -/
def steadyFlow (M invM : Matrix (Fin n) (Fin n) K) (E : Matrix (Fin n) (Fin nc) K) (r : Fin n → K) (w₀ : Fin nc → K)
    (G : Fin nc → Fin dim → K) (vel : Fin n → Cell dim) (dx : K) : Flow K dim n :=
  affineFlow (fun j => linearEq invM E w₀ j + steadyPart M invM E r G vel dx j) (eqGradient invM E G)

theorem steadyFlow_eq (M invM : Matrix (Fin n) (Fin n) K) (E : Matrix (Fin n) (Fin nc) K) (r : Fin n → K)
    (w₀ : Fin nc → K) (G : Fin nc → Fin dim → K) (vel : Fin n → Cell dim) (dx t : K) (p : Fin dim → K) :
    steadyFlow M invM E r w₀ G vel dx t p =
      linearEq invM E (affineMoments w₀ G p) + steadyPart M invM E r G vel dx := by
  funext j
  have e : affineMoments w₀ G p = w₀ + ∑ i, p i • fun c => G c i := by
    funext c
    simp only [affineMoments, Pi.add_apply, Finset.sum_apply, Pi.smul_apply, smul_eq_mul]
    congr 1
    exact Finset.sum_congr rfl fun i _ => mul_comm _ _
  simp only [steadyFlow, affineFlow, Pi.add_apply, e, linearEq, Matrix.mulVec_add, Matrix.mulVec_sum,
    Matrix.mulVec_smul, Finset.sum_apply, Pi.smul_apply, smul_eq_mul, eqGradient]
  rw [add_right_comm]
  congr 2
  exact Finset.sum_congr rfl fun i _ => mul_comm _ _

variable [CharZero K]

/-- The collision of a linear scheme with constant relaxation parameters. -/
theorem collide_linear (S : Kernel K n nc d) (hEQ : ∀ j w, S.EQ (S.consm j) w = w j)
    (hS : ∀ i, S.source i = none) (hrel : S.relVel = none) (alg : Algo)
    (E : Matrix (Fin n) (Fin nc) K) (hE : ∀ i w, S.EQ i w = (E *ᵥ w) i) (r : Fin n → K) (hr : ∀ i w, S.s i w = r i)
    (f : Fin n → K) : collide S alg f = S.invM *ᵥ fun i => (1 - r i) * (S.M *ᵥ f) i +
      r i * (E *ᵥ fun c => (S.M *ᵥ f) (S.consm c)) i := by
  have hcol : collide S alg f = collision S.M S.invM S.consm S.EQ S.s f := by
    unfold collide
    rw [prog_eq]
    obtain ⟨h3, h4⟩ := step_collision S hEQ hS f ⟨0, 0, 0⟩
    cases alg with
    | base => simp only [hrel, Option.isSome_none]; exact h4
    | pull => simp only [hrel, Option.isSome_none]; exact h3
  rw [hcol]
  unfold collision relaxed
  congr 1
  funext i
  rw [hr, hE]
  rfl

/-- **C107, steady flows of linear schemes.** An affine field of conserved moments which solves the first order
equations of the scheme (the equilibrium fluxes have no divergence, `hflux`) has a steady flow, which one step of the
generated code keeps exactly, and whose conserved moments are the field. -/
theorem C107_steady (S : Kernel K n nc d) (hEQ : ∀ j w, S.EQ (S.consm j) w = w j) (hM : S.M * S.invM = 1)
    (hS : ∀ i, S.source i = none) (hrel : S.relVel = none) (alg : Algo)
    (E : Matrix (Fin n) (Fin nc) K) (hE : ∀ i w, S.EQ i w = (E *ᵥ w) i) (r : Fin n → K) (hr : ∀ i w, S.s i w = r i)
    (hr0 : ∀ i, (∃ c, i = S.consm c) ∨ r i ≠ 0) (vel : Fin n → Cell dim) (dx : K) (w₀ : Fin nc → K)
    (G : Fin nc → Fin dim → K) (hflux : ∀ c, (S.M *ᵥ eqVariation S.invM E G vel dx) (S.consm c) = 0) :
    Solves (collide S alg) vel dx S.dt (steadyFlow S.M S.invM E r w₀ G vel dx) ∧
    ∀ t p c, (S.M *ᵥ steadyFlow S.M S.invM E r w₀ G vel dx t p) (S.consm c) = affineMoments w₀ G p c := by
  have hMv : ∀ x, S.M *ᵥ (S.invM *ᵥ x) = x := by
    intro x; rw [Matrix.mulVec_mulVec, hM, Matrix.one_mulVec]
  have hcons : ∀ (w : Fin nc → K) c, (E *ᵥ w) (S.consm c) = w c := fun w c => by rw [← hE, hEQ]
  set V := eqVariation S.invM E G vel dx with hV
  have hdev : S.M *ᵥ steadyPart S.M S.invM E r G vel dx = fun i => (1 - 1 / r i) * (S.M *ᵥ V) i := by
    unfold steadyPart; rw [hMv]
  refine ⟨fun t p => ?_, fun t p c => ?_⟩
  · set f := fun j => steadyFlow S.M S.invM E r w₀ G vel dx t (fun i => p i - dx * (vel j i : K)) j with hf
    have hfe : f = linearEq S.invM E (affineMoments w₀ G p) + steadyPart S.M S.invM E r G vel dx - V := by
      funext j
      rw [hf]
      simp only [steadyFlow]
      rw [affine_back]
      have := congrFun (steadyFlow_eq S.M S.invM E r w₀ G vel dx t p) j
      simp only [steadyFlow] at this
      rw [this]
      rfl
    have hMf : S.M *ᵥ f = fun i => (E *ᵥ affineMoments w₀ G p) i + (1 - 1 / r i) * (S.M *ᵥ V) i - (S.M *ᵥ V) i := by
      rw [hfe, Matrix.mulVec_sub, Matrix.mulVec_add, hdev]
      unfold linearEq
      rw [hMv]
      rfl
    have hcm : (fun c => (S.M *ᵥ f) (S.consm c)) = affineMoments w₀ G p := by
      funext c
      rw [hMf]
      simp only [hflux c, hcons]
      ring
    rw [collide_linear S hEQ hS hrel alg E hE r hr f, hcm, hMf, steadyFlow_eq]
    unfold linearEq steadyPart
    rw [← Matrix.mulVec_add]
    congr 1
    funext i
    simp only [Pi.add_apply]
    rcases hr0 i with ⟨c, rfl⟩ | h
    · rw [hflux c]; ring
    · rw [← hV]
      field_simp
      ring
  · rw [steadyFlow_eq, Matrix.mulVec_add, hdev]
    unfold linearEq
    rw [hMv]
    simp only [Pi.add_apply, hcons, hflux c]
    ring

/-! ### Parity -/

/-- The velocities `j` and `sym j` are opposite; each moment is even or odd. -/
structure Parity (M : Matrix (Fin n) (Fin n) K) (sym : Fin n → Fin n) : Prop where
  invol : ∀ j, sym (sym j) = j
  moment : ∀ i, (∀ j, M i (sym j) = M i j) ∨ ∀ j, M i (sym j) = -M i j

/-- The deviation is the same for opposite velocities when the variation is. -/
theorem steadyPart_even (M invM : Matrix (Fin n) (Fin n) K) (hM : M * invM = 1) (E : Matrix (Fin n) (Fin nc) K)
    (r : Fin n → K) (G : Fin nc → Fin dim → K) (vel : Fin n → Cell dim) (dx : K) (sym : Fin n → Fin n)
    (hp : Parity M sym) (hv : ∀ j, eqVariation invM E G vel dx (sym j) = eqVariation invM E G vel dx j) (j : Fin n) :
    steadyPart M invM E r G vel dx (sym j) = steadyPart M invM E r G vel dx j := by
  set V := eqVariation invM E G vel dx with hV
  have hMv : ∀ x, M *ᵥ (invM *ᵥ x) = x := by
    intro x; rw [Matrix.mulVec_mulVec, hM, Matrix.one_mulVec]
  have hiM : invM * M = 1 := mul_eq_one_comm.1 hM
  let e : Equiv.Perm (Fin n) := ⟨sym, sym, hp.invol, hp.invol⟩
  have hre : ∀ (i : Fin n) (x : Fin n → K), (M *ᵥ fun j => x (sym j)) i = ∑ j, M i (sym j) * x j := by
    intro i x
    show ∑ j, M i j * x (sym j) = _
    rw [← Equiv.sum_comp e fun j => M i j * x (sym j)]
    refine Finset.sum_congr rfl fun j _ => ?_
    show M i (sym j) * x (sym (sym j)) = _
    rw [hp.invol]
  have hVs : (fun j => V (sym j)) = V := funext hv
  have hodd : ∀ i, (∀ j, M i (sym j) = -M i j) → (M *ᵥ V) i = 0 := by
    intro i hi
    have h1 := hre i V
    rw [hVs] at h1
    have h2 : (∑ j, M i (sym j) * V j) = -(M *ᵥ V) i := by
      show _ = -∑ j, M i j * V j
      rw [← Finset.sum_neg_distrib]
      exact Finset.sum_congr rfl fun j _ => by rw [hi]; ring
    rw [h2] at h1
    have h3 : (2 : K) * (M *ᵥ V) i = 0 := by linear_combination h1
    exact (mul_eq_zero.1 h3).resolve_left two_ne_zero
  set h := steadyPart M invM E r G vel dx with hh
  have hMh : M *ᵥ h = fun i => (1 - 1 / r i) * (M *ᵥ V) i := by
    rw [hh]; unfold steadyPart; rw [hMv]
  have hs : M *ᵥ (fun j => h (sym j)) = M *ᵥ h := by
    funext i
    rw [hre]
    rcases hp.moment i with hi | hi
    · exact Finset.sum_congr rfl fun j _ => by rw [hi]
    · have h2 : (∑ j, M i (sym j) * h j) = -(M *ᵥ h) i := by
        show _ = -∑ j, M i j * h j
        rw [← Finset.sum_neg_distrib]
        exact Finset.sum_congr rfl fun j _ => by rw [hi]; ring
      rw [h2, hMh]
      simp only [hodd i hi]
      ring
  have := congrArg (fun x => invM *ᵥ x) hs
  simp only [Matrix.mulVec_mulVec, hiM, Matrix.one_mulVec] at this
  exact congrFun this j

/-- The deviation is opposite for opposite velocities when the variation is. -/
theorem steadyPart_odd (M invM : Matrix (Fin n) (Fin n) K) (hM : M * invM = 1) (E : Matrix (Fin n) (Fin nc) K)
    (r : Fin n → K) (G : Fin nc → Fin dim → K) (vel : Fin n → Cell dim) (dx : K) (sym : Fin n → Fin n)
    (hp : Parity M sym) (hv : ∀ j, eqVariation invM E G vel dx (sym j) = -eqVariation invM E G vel dx j) (j : Fin n) :
    steadyPart M invM E r G vel dx (sym j) = -steadyPart M invM E r G vel dx j := by
  set V := eqVariation invM E G vel dx with hV
  have hMv : ∀ x, M *ᵥ (invM *ᵥ x) = x := by
    intro x; rw [Matrix.mulVec_mulVec, hM, Matrix.one_mulVec]
  have hiM : invM * M = 1 := mul_eq_one_comm.1 hM
  let e : Equiv.Perm (Fin n) := ⟨sym, sym, hp.invol, hp.invol⟩
  have hre : ∀ (i : Fin n) (x : Fin n → K), (M *ᵥ fun j => x (sym j)) i = ∑ j, M i (sym j) * x j := by
    intro i x
    show ∑ j, M i j * x (sym j) = _
    rw [← Equiv.sum_comp e fun j => M i j * x (sym j)]
    refine Finset.sum_congr rfl fun j _ => ?_
    show M i (sym j) * x (sym (sym j)) = _
    rw [hp.invol]
  have hVs : (fun j => V (sym j)) = -V := funext hv
  have hevn : ∀ i, (∀ j, M i (sym j) = M i j) → (M *ᵥ V) i = 0 := by
    intro i hi
    have h1 := hre i V
    rw [hVs, Matrix.mulVec_neg] at h1
    have h2 : (∑ j, M i (sym j) * V j) = (M *ᵥ V) i := Finset.sum_congr rfl fun j _ => by rw [hi]
    rw [h2] at h1
    simp only [Pi.neg_apply] at h1
    have h3 : (2 : K) * (M *ᵥ V) i = 0 := by linear_combination -h1
    exact (mul_eq_zero.1 h3).resolve_left two_ne_zero
  set h := steadyPart M invM E r G vel dx with hh
  have hMh : M *ᵥ h = fun i => (1 - 1 / r i) * (M *ᵥ V) i := by
    rw [hh]; unfold steadyPart; rw [hMv]
  have hs : M *ᵥ (fun j => h (sym j)) = M *ᵥ (-h) := by
    funext i
    rw [hre, Matrix.mulVec_neg]
    rcases hp.moment i with hi | hi
    · have h2 : (∑ j, M i (sym j) * h j) = (M *ᵥ h) i := Finset.sum_congr rfl fun j _ => by rw [hi]
      rw [h2, Pi.neg_apply, hMh]
      simp only [hevn i hi]
      ring
    · show _ = -∑ j, M i j * h j
      rw [← Finset.sum_neg_distrib]
      exact Finset.sum_congr rfl fun j _ => by rw [hi]; ring
  have := congrArg (fun x => invM *ᵥ x) hs
  simp only [Matrix.mulVec_mulVec, hiM, Matrix.one_mulVec] at this
  exact congrFun this j

end linear

end Pylbm.Sim
