import Verif.Sim.Shear
/-!
# C111: parabolic flows between walls

A channel flow driven by a constant source term: the conserved moments are polynomials of degree 2 of one coordinate.
Which parabolas the scheme keeps, and when bounce-back returns them exactly.
-/

set_option linter.unusedSectionVars false

namespace Pylbm.Sim
open Scheme Halo SchemeSpec Matrix HaloSpec Mpi Boundary

/-! ## Specification -/

section spec
variable {K : Type} [Field K] {n nc d dim : Nat}

/-- The field `w₀ + x w₁ + x² w₂` of conserved moments. -/
def parabola (w₀ w₁ w₂ : Fin nc → K) (x : K) : Fin nc → K := fun c => w₀ c + x * w₁ c + x ^ 2 * w₂ c

/-- The moment `i` is multiplied by `1/r i - 1`. -/
def delay (M invM : Matrix (Fin n) (Fin n) K) (r : Fin n → K) (v : Fin n → K) : Fin n → K :=
  invM *ᵥ fun i => (1 / r i - 1) * (M *ᵥ v) i

/-- What the constant source term `q` adds to the populations in one step: the moment `i` increases by `dt * q i`. -/
def forcing (invM : Matrix (Fin n) (Fin n) K) (dt : K) (q : Fin n → K) : Fin n → K := invM *ᵥ fun i => dt * q i

/-- The second order balance: the curvature `e₂` of the equilibrium populations seen along the links of lengths `ℓ`, and the
source. Its conserved moments vanish when the viscous force balances the source. -/
def balance (M invM : Matrix (Fin n) (Fin n) K) (r : Fin n → K) (dt : K) (q : Fin n → K) (ℓ e₂ : Fin n → K) : Fin n → K :=
  fun j => 2 * (ℓ j * delay M invM r (fun l => ℓ l * e₂ l) j) + ℓ j ^ 2 * e₂ j + forcing invM dt q j

/-- The populations of the parabolic flow along the axis `ax`: the equilibrium of the field, the deviations due to its slope
and its curvature, and half of the source. -/
def parabolicFlow (M invM : Matrix (Fin n) (Fin n) K) (E : Matrix (Fin n) (Fin nc) K) (r : Fin n → K) (dt : K) (q : Fin n → K)
    (w₀ w₁ w₂ : Fin nc → K) (vel : Fin n → Cell dim) (dx : K) (ax : Fin dim) : Flow K dim n :=
  fun _ p j => linearEq invM E (parabola w₀ w₁ w₂ (p ax)) j +
    delay M invM r (fun l => balance M invM r dt q (fun m => dx * (vel m ax : K)) (linearEq invM E w₂) l -
      dx * (vel l ax : K) * linearEq invM E (fun c => w₁ c + 2 * p ax * w₂ c) l) j +
    1 / 2 * forcing invM dt q j

end spec

section steady
variable {K : Type} [Field K] [CharZero K] {n nc d dim : Nat}

theorem delay_add (M invM : Matrix (Fin n) (Fin n) K) (r v v' : Fin n → K) :
    delay M invM r (v + v') = delay M invM r v + delay M invM r v' := by
  unfold delay
  rw [← Matrix.mulVec_add]
  congr 1
  funext i
  rw [Matrix.mulVec_add]
  simp only [Pi.add_apply]
  ring

theorem delay_smul (M invM : Matrix (Fin n) (Fin n) K) (r v : Fin n → K) (a : K) :
    delay M invM r (a • v) = a • delay M invM r v := by
  unfold delay
  rw [← Matrix.mulVec_smul]
  congr 1
  funext i
  rw [Matrix.mulVec_smul]
  simp only [Pi.smul_apply, smul_eq_mul]
  ring

theorem linearEq_parabola (invM : Matrix (Fin n) (Fin n) K) (E : Matrix (Fin n) (Fin nc) K) (w₀ w₁ w₂ : Fin nc → K) (x : K)
    (j : Fin n) : linearEq invM E (parabola w₀ w₁ w₂ x) j =
      linearEq invM E w₀ j + x * linearEq invM E w₁ j + x ^ 2 * linearEq invM E w₂ j := by
  have e : parabola w₀ w₁ w₂ x = w₀ + x • w₁ + x ^ 2 • w₂ := by
    funext c; simp [parabola]
  rw [e]
  simp only [linearEq, Matrix.mulVec_add, Matrix.mulVec_smul, Pi.add_apply, Pi.smul_apply, smul_eq_mul]

theorem linearEq_slope (invM : Matrix (Fin n) (Fin n) K) (E : Matrix (Fin n) (Fin nc) K) (w₁ w₂ : Fin nc → K) (x : K)
    (j : Fin n) : linearEq invM E (fun c => w₁ c + 2 * x * w₂ c) j =
      linearEq invM E w₁ j + 2 * x * linearEq invM E w₂ j := by
  have e : (fun c => w₁ c + 2 * x * w₂ c) = w₁ + (2 * x) • w₂ := by
    funext c; simp
  rw [e]
  simp only [linearEq, Matrix.mulVec_add, Matrix.mulVec_smul, Pi.add_apply, Pi.smul_apply, smul_eq_mul]

/-- The collision with constant source terms. -/
theorem collide_sources (S : Kernel K n nc d) (hEQ : ∀ j w, S.EQ (S.consm j) w = w j) (q : Fin n → K)
    (hq : ∀ i, S.source i = some (fun _ => q i) ∨ S.source i = none ∧ q i = 0) (hrel : S.relVel = none) (alg : Algo)
    (f : Fin n → K) : collide S alg f = S.invM *ᵥ fun i =>
      relaxed S.consm S.EQ S.s (fun l => (S.M *ᵥ f) l + S.dt / 2 * q l) i + S.dt / 2 * q i := by
  have hT : Triangular S.source := by
    intro i r hr
    rcases hq i with h | h
    · rw [h] at hr
      cases hr
      intro m m' _
      rfl
    · rw [h.1] at hr; cases hr
  have he : ∀ m, euler S.dt S.source m = fun i => m i + S.dt / 2 * q i := by
    intro m
    funext i
    simp only [euler]
    rcases hq i with h | h
    · rw [h]
    · rw [h.1, h.2]; simp
  have hcol : collide S alg f = sourceCollision S.M S.invM S.consm S.EQ S.s S.dt S.source f := by
    unfold collide
    rw [prog_eq]
    obtain ⟨h3, h4⟩ := C45_step_partial S hEQ hT f ⟨0, 0, 0⟩
    cases alg with
    | base => simp only [hrel, Option.isSome_none]; exact h4
    | pull => simp only [hrel, Option.isSome_none]; exact h3
  rw [hcol]
  unfold sourceCollision
  rw [he, he]

/-- **C111, steady parabolic flows.** A parabolic field of conserved moments along one axis, on which the equilibria are
linear and the relaxation parameters are constant, has a steady flow when the divergence of the equilibrium fluxes of
its curvature vanishes and the viscous force balances the source terms: one step of the generated code, with constant source
terms, keeps it exactly. Its conserved moments, as they are read, are the field plus half of what the source adds in one
step. -/
theorem C111_steady (S : Kernel K n nc d) (hEQ : ∀ j w, S.EQ (S.consm j) w = w j) (hM : S.M * S.invM = 1) (q : Fin n → K)
    (hq : ∀ i, S.source i = some (fun _ => q i) ∨ S.source i = none ∧ q i = 0) (hrel : S.relVel = none) (alg : Algo)
    (E : Matrix (Fin n) (Fin nc) K) (r : Fin n → K) (w₀ w₁ w₂ : Fin nc → K)
    (hE : ∀ i x, S.EQ i (parabola w₀ w₁ w₂ x) = (E *ᵥ parabola w₀ w₁ w₂ x) i)
    (hr : ∀ i x, S.s i (parabola w₀ w₁ w₂ x) = r i) (hr0 : ∀ i, (∃ c, i = S.consm c) ∨ r i ≠ 0)
    (vel : Fin n → Cell dim) (dx : K) (ax : Fin dim)
    (hflux : ∀ c, (S.M *ᵥ fun l => dx * (vel l ax : K) * linearEq S.invM E w₂ l) (S.consm c) = 0)
    (hbal : ∀ c, (S.M *ᵥ balance S.M S.invM r S.dt q (fun m => dx * (vel m ax : K)) (linearEq S.invM E w₂)) (S.consm c) =
      (S.M *ᵥ fun l => dx * (vel l ax : K) * linearEq S.invM E w₁ l) (S.consm c)) :
    Solves (collide S alg) vel dx S.dt (parabolicFlow S.M S.invM E r S.dt q w₀ w₁ w₂ vel dx ax) ∧
    ∀ t p c, (S.M *ᵥ parabolicFlow S.M S.invM E r S.dt q w₀ w₁ w₂ vel dx ax t p) (S.consm c) =
      parabola w₀ w₁ w₂ (p ax) c + S.dt / 2 * q (S.consm c) := by
  have hMv : ∀ x, S.M *ᵥ (S.invM *ᵥ x) = x := by
    intro x; rw [Matrix.mulVec_mulVec, hM, Matrix.one_mulVec]
  have hcons : ∀ x c, (E *ᵥ parabola w₀ w₁ w₂ x) (S.consm c) = parabola w₀ w₁ w₂ x c := fun x c => by rw [← hE, hEQ]
  set ℓ : Fin n → K := fun m => dx * (vel m ax : K) with hℓ
  set e₁ := linearEq S.invM E w₁ with he₁
  set e₂ := linearEq S.invM E w₂ with he₂
  set B := balance S.M S.invM r S.dt q ℓ e₂ with hB
  -- the difference between what arrives, with the source, and what leaves
  let Y : K → Fin n → K := fun x l => B l - ℓ l * (e₁ l + 2 * x * e₂ l)
  have hYc : ∀ x c, (S.M *ᵥ Y x) (S.consm c) = 0 := by
    intro x c
    have e : Y x = B - (fun l => ℓ l * e₁ l) - (2 * x) • fun l => ℓ l * e₂ l := by
      funext l
      simp only [Y, Pi.sub_apply, Pi.smul_apply, smul_eq_mul]
      ring
    rw [e, Matrix.mulVec_sub, Matrix.mulVec_sub, Matrix.mulVec_smul]
    have h1 : (S.M *ᵥ fun l => ℓ l * e₂ l) (S.consm c) = 0 := hflux c
    have h2 : (S.M *ᵥ B) (S.consm c) = (S.M *ᵥ fun l => ℓ l * e₁ l) (S.consm c) := hbal c
    simp only [Pi.sub_apply, Pi.smul_apply, h1, h2]
    simp
  have hYd : ∀ x, delay S.M S.invM r (Y x) = delay S.M S.invM r (fun l => B l - ℓ l * e₁ l) -
      (2 * x) • delay S.M S.invM r (fun l => ℓ l * e₂ l) := by
    intro x
    have e : Y x = (fun l => B l - ℓ l * e₁ l) + (-(2 * x)) • fun l => ℓ l * e₂ l := by
      funext l
      simp only [Y, Pi.add_apply, Pi.smul_apply, smul_eq_mul]
      ring
    rw [e, delay_add, delay_smul, neg_smul, sub_eq_add_neg]
  have hflow : ∀ t p, parabolicFlow S.M S.invM E r S.dt q w₀ w₁ w₂ vel dx ax t p =
      linearEq S.invM E (parabola w₀ w₁ w₂ (p ax)) + delay S.M S.invM r (Y (p ax)) +
        (1 / 2 : K) • forcing S.invM S.dt q := by
    intro t p
    funext j
    simp only [parabolicFlow, linearEq_slope, Pi.add_apply, Pi.smul_apply, smul_eq_mul, Y]
    rfl
  have hMd : ∀ v, S.M *ᵥ delay S.M S.invM r v = fun i => (1 / r i - 1) * (S.M *ᵥ v) i := by
    intro v; unfold delay; rw [hMv]
  have hMF : S.M *ᵥ forcing S.invM S.dt q = fun i => S.dt * q i := by unfold forcing; rw [hMv]
  have hMflow : ∀ t p, S.M *ᵥ parabolicFlow S.M S.invM E r S.dt q w₀ w₁ w₂ vel dx ax t p =
      fun i => (E *ᵥ parabola w₀ w₁ w₂ (p ax)) i + (1 / r i - 1) * (S.M *ᵥ Y (p ax)) i + S.dt / 2 * q i := by
    intro t p
    rw [hflow, Matrix.mulVec_add, Matrix.mulVec_add, Matrix.mulVec_smul, hMd, hMF]
    unfold linearEq
    rw [hMv]
    funext i
    simp only [Pi.add_apply, Pi.smul_apply, smul_eq_mul]
    ring
  refine ⟨fun t p => ?_, fun t p c => ?_⟩
  · set x := p ax with hx
    set f := fun j => parabolicFlow S.M S.invM E r S.dt q w₀ w₁ w₂ vel dx ax t (fun i => p i - dx * (vel j i : K)) j with hf
    -- the populations which arrive
    have harr : f = linearEq S.invM E (parabola w₀ w₁ w₂ x) + delay S.M S.invM r (Y x) + Y x -
        (1 / 2 : K) • forcing S.invM S.dt q := by
      funext j
      rw [hf]
      simp only
      rw [hflow]
      simp only [Pi.add_apply, Pi.sub_apply, Pi.smul_apply, smul_eq_mul, hYd, linearEq_parabola, ← he₁, ← he₂]
      have eB : B j = 2 * (ℓ j * delay S.M S.invM r (fun l => ℓ l * e₂ l) j) + ℓ j ^ 2 * e₂ j + forcing S.invM S.dt q j := rfl
      have eY : Y x j = B j - ℓ j * (e₁ j + 2 * x * e₂ j) := rfl
      have eℓ : dx * (vel j ax : K) = ℓ j := rfl
      rw [eY, eB, eℓ, ← hx]
      ring
    have hMf : (fun l => (S.M *ᵥ f) l + S.dt / 2 * q l) =
        fun i => (E *ᵥ parabola w₀ w₁ w₂ x) i + (1 / r i - 1) * (S.M *ᵥ Y x) i + (S.M *ᵥ Y x) i := by
      rw [harr, Matrix.mulVec_sub, Matrix.mulVec_add, Matrix.mulVec_add, Matrix.mulVec_smul, hMd, hMF]
      unfold linearEq
      rw [hMv]
      funext i
      simp only [Pi.add_apply, Pi.sub_apply, Pi.smul_apply, smul_eq_mul]
      ring
    rw [collide_sources S hEQ q hq hrel alg f, hMf]
    have hcm : (fun i => (E *ᵥ parabola w₀ w₁ w₂ x) i + (1 / r i - 1) * (S.M *ᵥ Y x) i + (S.M *ᵥ Y x) i) ∘ S.consm =
        parabola w₀ w₁ w₂ x := by
      funext c
      simp only [Function.comp, hYc, hcons]
      ring
    have hinv : ∀ y, S.invM *ᵥ (S.M *ᵥ y) = y := by
      intro y; rw [Matrix.mulVec_mulVec, mul_eq_one_comm.1 hM, Matrix.one_mulVec]
    rw [← hinv (parabolicFlow S.M S.invM E r S.dt q w₀ w₁ w₂ vel dx ax (t + S.dt) p), hMflow]
    congr 1
    funext i
    unfold relaxed
    rw [hcm, hr, hE, ← hx]
    rcases hr0 i with ⟨c, rfl⟩ | h
    · simp only [hYc]; ring
    · field_simp
      ring
  · rw [hMflow]
    simp only [hYc, hcons]
    ring

end steady

section parity
variable {K : Type} [Field K] [CharZero K] {n nc d dim : Nat} {M invM : Matrix (Fin n) (Fin n) K} {sym : Fin n → Fin n}

theorem mulVec_sym (hp : Parity M sym) (v : Fin n → K) (i : Fin n) :
    (M *ᵥ fun j => v (sym j)) i = ∑ j, M i (sym j) * v j := by
  let e : Equiv.Perm (Fin n) := ⟨sym, sym, hp.invol, hp.invol⟩
  show ∑ j, M i j * v (sym j) = _
  rw [← Equiv.sum_comp e fun j => M i j * v (sym j)]
  refine Finset.sum_congr rfl fun j _ => ?_
  show M i (sym j) * v (sym (sym j)) = _
  rw [hp.invol]

/-- An even moment of an odd vector vanishes. -/
theorem even_odd (hp : Parity M sym) {v : Fin n → K} (hv : ∀ j, v (sym j) = -v j) {i : Fin n}
    (hi : ∀ j, M i (sym j) = M i j) : (M *ᵥ v) i = 0 := by
  have h1 := mulVec_sym hp v i
  rw [show (fun j => v (sym j)) = -v from funext hv, Matrix.mulVec_neg] at h1
  have h2 : (∑ j, M i (sym j) * v j) = (M *ᵥ v) i := Finset.sum_congr rfl fun j _ => by rw [hi]
  rw [h2] at h1
  have h3 : (2 : K) * (M *ᵥ v) i = 0 := by
    simp only [Pi.neg_apply] at h1
    linear_combination -h1
  exact (mul_eq_zero.1 h3).resolve_left two_ne_zero

/-- An odd moment of an even vector vanishes. -/
theorem odd_even (hp : Parity M sym) {v : Fin n → K} (hv : ∀ j, v (sym j) = v j) {i : Fin n}
    (hi : ∀ j, M i (sym j) = -M i j) : (M *ᵥ v) i = 0 := by
  have h1 := mulVec_sym hp v i
  rw [show (fun j => v (sym j)) = v from funext hv] at h1
  have h2 : (∑ j, M i (sym j) * v j) = -(M *ᵥ v) i := by
    show _ = -∑ j, M i j * v j
    rw [← Finset.sum_neg_distrib]
    exact Finset.sum_congr rfl fun j _ => by rw [hi]; ring
  rw [h2] at h1
  have h3 : (2 : K) * (M *ᵥ v) i = 0 := by linear_combination h1
  exact (mul_eq_zero.1 h3).resolve_left two_ne_zero

theorem delay_sym (hM : M * invM = 1) (hp : Parity M sym) (r v : Fin n → K) (j : Fin n) :
    delay M invM r v (sym j) = delay M invM r (fun l => v (sym l)) j := by
  have hMv : ∀ x, M *ᵥ (invM *ᵥ x) = x := by
    intro x; rw [Matrix.mulVec_mulVec, hM, Matrix.one_mulVec]
  have hinv : ∀ y, invM *ᵥ (M *ᵥ y) = y := by
    intro y; rw [Matrix.mulVec_mulVec, mul_eq_one_comm.1 hM, Matrix.one_mulVec]
  have key : M *ᵥ (fun l => delay M invM r v (sym l)) = M *ᵥ delay M invM r (fun l => v (sym l)) := by
    funext i
    have e : ∀ x : Fin n → K, M *ᵥ delay M invM r x = fun i => (1 / r i - 1) * (M *ᵥ x) i := by
      intro x; unfold delay; rw [hMv]
    rw [e, mulVec_sym hp]
    simp only
    rw [mulVec_sym hp]
    rcases hp.moment i with h | h
    · simp only [h]
      exact congrFun (e v) i
    · simp only [h, neg_mul, Finset.sum_neg_distrib, mul_neg]
      exact congrArg Neg.neg (congrFun (e v) i)
  have := congrArg (fun y => (invM *ᵥ y) j) key
  simpa only [hinv] using this

/-- The delay of a vector of moments with one relaxation parameter. -/
theorem delay_one (hM : M * invM = 1) (r v : Fin n → K) (τ : K) (h : ∀ i, (M *ᵥ v) i = 0 ∨ 1 / r i - 1 = τ) (j : Fin n) :
    delay M invM r v j = τ * v j := by
  have hinv : ∀ y, invM *ᵥ (M *ᵥ y) = y := by
    intro y; rw [Matrix.mulVec_mulVec, mul_eq_one_comm.1 hM, Matrix.one_mulVec]
  have e : (fun i => (1 / r i - 1) * (M *ᵥ v) i) = τ • (M *ᵥ v) := by
    funext i
    rcases h i with h | h
    · simp [h]
    · rw [h]; rfl
  unfold delay
  rw [e, Matrix.mulVec_smul, hinv]
  rfl

end parity

section walls
variable {K : Type} [Field K] [LinearOrder K] [IsStrictOrderedRing K] {n nc d dim : Nat}

/-- What is asked from the velocities and the moments at a wall: the velocities `j` and `sym j` are opposite, each moment
is even or odd, the slope and the curvature of the equilibrium and the source are odd (a flow along the walls). -/
structure OddParabola (M invM : Matrix (Fin n) (Fin n) K) (E : Matrix (Fin n) (Fin nc) K) (dt : K) (q : Fin n → K)
    (w₁ w₂ : Fin nc → K) (vel : Fin n → Cell dim) (sym : Fin n → Fin n) : Prop where
  inv : M * invM = 1
  parity : Parity M sym
  opposite : ∀ j i, vel (sym j) i = -vel j i
  slope : ∀ j, linearEq invM E w₁ (sym j) = -linearEq invM E w₁ j
  curvature : ∀ j, linearEq invM E w₂ (sym j) = -linearEq invM E w₂ j
  force : ∀ j, forcing invM dt q (sym j) = -forcing invM dt q j

theorem OddParabola.balance_odd {M invM : Matrix (Fin n) (Fin n) K} {E : Matrix (Fin n) (Fin nc) K} {dt : K} {q : Fin n → K}
    {w₁ w₂ : Fin nc → K} {vel : Fin n → Cell dim} {sym : Fin n → Fin n} (h : OddParabola M invM E dt q w₁ w₂ vel sym)
    (r : Fin n → K) (dx : K) (ax : Fin dim) (j : Fin n) :
    balance M invM r dt q (fun m => dx * (vel m ax : K)) (linearEq invM E w₂) (sym j) =
      -balance M invM r dt q (fun m => dx * (vel m ax : K)) (linearEq invM E w₂) j := by
  unfold balance
  simp only
  rw [delay_sym h.inv h.parity]
  simp only [h.opposite, h.curvature, h.force, Int.cast_neg, mul_neg, neg_mul, neg_neg]
  ring

/-- **C111, bounce-back.** At a wall halfway between the cells where the user imposes the field, bounce-back returns the
parabolic flow to the fluid if and only if the deviation due to the curvature and the source is what the parabola makes
of the half link: a condition on the relaxation parameters alone. -/
theorem C111_bounce_back (M invM : Matrix (Fin n) (Fin n) K) (E : Matrix (Fin n) (Fin nc) K) (r : Fin n → K) (dt : K)
    (q : Fin n → K) (w₀ w₁ w₂ : Fin nc → K) (vel : Fin n → Cell dim) (sym : Fin n → Fin n) (dx : K) (ax : Fin dim)
    (h : OddParabola M invM E dt q w₁ w₂ vel sym) (ψ : Flow K dim n) (j : Fin n) (t : K) (p : Fin dim → K)
    (hψ : ψ t (wallAt dx (1 / 2) (vel j) p) j - ψ t (wallAt dx (1 / 2) (vel j) p) (sym j) =
      linearEq invM E (parabola w₀ w₁ w₂ (wallAt dx (1 / 2) (vel j) p ax)) j -
      linearEq invM E (parabola w₀ w₁ w₂ (wallAt dx (1 / 2) (vel j) p ax)) (sym j)) :
    Returns .bounceBack vel dx (1 / 2) (parabolicFlow M invM E r dt q w₀ w₁ w₂ vel dx ax) ψ j (sym j) t p ↔
      2 * delay M invM r (balance M invM r dt q (fun m => dx * (vel m ax : K)) (linearEq invM E w₂)) j +
        balance M invM r dt q (fun m => dx * (vel m ax : K)) (linearEq invM E w₂) j =
      (dx * (vel j ax : K)) ^ 2 / 2 * linearEq invM E w₂ j := by
  have hbal := h.balance_odd r dx ax
  set B := balance M invM r dt q (fun m => dx * (vel m ax : K)) (linearEq invM E w₂) with hB
  set e₀ := linearEq invM E w₀ with he₀
  set e₁ := linearEq invM E w₁ with he₁
  set e₂ := linearEq invM E w₂ with he₂
  set ℓ := dx * (vel j ax : K) with hℓ
  set x := p ax with hx
  have hs1 : ∀ l, e₁ (sym l) = -e₁ l := h.slope
  have hs2 : ∀ l, e₂ (sym l) = -e₂ l := h.curvature
  have hd : ∀ x l, delay M invM r (fun l => B l - dx * (vel l ax : K) * linearEq invM E (fun c => w₁ c + 2 * x * w₂ c) l) l =
      delay M invM r B l - delay M invM r (fun l => dx * (vel l ax : K) * e₁ l) l -
        2 * x * delay M invM r (fun l => dx * (vel l ax : K) * e₂ l) l := by
    intro x l
    have e : (fun l => B l - dx * (vel l ax : K) * linearEq invM E (fun c => w₁ c + 2 * x * w₂ c) l) =
        B + (-1 : K) • (fun l => dx * (vel l ax : K) * e₁ l) + (-(2 * x)) • fun l => dx * (vel l ax : K) * e₂ l := by
      funext l
      simp only [linearEq_slope, Pi.add_apply, Pi.smul_apply, smul_eq_mul]
      ring
    rw [e, delay_add, delay_add, delay_smul, delay_smul]
    simp only [Pi.add_apply, Pi.smul_apply, smul_eq_mul]
    ring
  have h1 : delay M invM r B (sym j) = -delay M invM r B j := by
    rw [delay_sym h.inv h.parity, show (fun l => B (sym l)) = (-1 : K) • B by funext l; simp [hbal], delay_smul]
    simp
  have h2 : delay M invM r (fun l => dx * (vel l ax : K) * e₁ l) (sym j) =
      delay M invM r (fun l => dx * (vel l ax : K) * e₁ l) j := by
    rw [delay_sym h.inv h.parity]
    congr 1
    funext l
    rw [h.opposite, hs1]
    push_cast
    ring
  have h3 : delay M invM r (fun l => dx * (vel l ax : K) * e₂ l) (sym j) =
      delay M invM r (fun l => dx * (vel l ax : K) * e₂ l) j := by
    rw [delay_sym h.inv h.parity]
    congr 1
    funext l
    rw [h.opposite, hs2]
    push_cast
    ring
  have hBj : B j = 2 * (ℓ * delay M invM r (fun l => dx * (vel l ax : K) * e₂ l) j) + ℓ ^ 2 * e₂ j + forcing invM dt q j := rfl
  unfold wallAt at hψ
  unfold Returns reflection
  simp only
  rw [hψ]
  simp only [parabolicFlow, ← he₂, ← hB, hd, linearEq_parabola, ← he₀, ← he₁, ← hℓ, ← hx, h1, h2, h3, hs1, hs2, h.force j]
  set T₁ := delay M invM r (fun l => dx * (vel l ax : K) * e₁ l) j
  set T₂ := delay M invM r (fun l => dx * (vel l ax : K) * e₂ l) j
  set T := delay M invM r B j
  set φ := forcing invM dt q j
  rw [hBj]
  constructor <;> intro h <;> linear_combination -h

/-- With two relaxation parameters the balance is explicit. -/
theorem balance_two (M invM : Matrix (Fin n) (Fin n) K) (sym : Fin n → Fin n) (cons : Fin nc → Fin n)
    (E : Matrix (Fin n) (Fin nc) K) (r : Fin n → K) (sp sm : K)
    (hr : ∀ i, (∃ c, i = cons c) ∨ (∀ j, M i (sym j) = M i j) ∧ r i = sp ∨ (∀ j, M i (sym j) = -M i j) ∧ r i = sm) (dt : K)
    (q : Fin n → K) (w₁ w₂ : Fin nc → K) (vel : Fin n → Cell dim) (dx : K) (ax : Fin dim)
    (hflux : ∀ c, (M *ᵥ fun l => dx * (vel l ax : K) * linearEq invM E w₂ l) (cons c) = 0)
    (h : OddParabola M invM E dt q w₁ w₂ vel sym) :
    balance M invM r dt q (fun m => dx * (vel m ax : K)) (linearEq invM E w₂) =
      fun j => (2 / sp - 1) * (dx * (vel j ax : K)) ^ 2 * linearEq invM E w₂ j + forcing invM dt q j := by
  have hce : ∀ j, dx * (vel (sym j) ax : K) * linearEq invM E w₂ (sym j) = dx * (vel j ax : K) * linearEq invM E w₂ j := by
    intro l
    rw [h.opposite, h.curvature]
    push_cast
    ring
  funext j
  have e2 := delay_one h.inv r (fun l => dx * (vel l ax : K) * linearEq invM E w₂ l) (1 / sp - 1) (fun i => by
    rcases hr i with ⟨c, rfl⟩ | hi | hi
    · exact Or.inl (hflux c)
    · exact Or.inr (by rw [hi.2])
    · exact Or.inl (odd_even h.parity hce hi.1)) j
  unfold balance
  simp only
  rw [e2]
  ring

/-- **C111, limit: schemes whose odd moments are all conserved.** When every moment which is not conserved is even (D2Q4 on the
diagonals with the density and the momentum conserved), bounce-back never returns a flow with curvature on the links which
cross the channel, whatever the relaxation parameters and the source terms. -/
theorem C111_even_negation (M invM : Matrix (Fin n) (Fin n) K) (E : Matrix (Fin n) (Fin nc) K) (cons : Fin nc → Fin n)
    (r : Fin n → K) (dt : K) (q : Fin n → K) (w₀ w₁ w₂ : Fin nc → K) (vel : Fin n → Cell dim) (sym : Fin n → Fin n) (dx : K)
    (hdx : dx ≠ 0) (ax : Fin dim)
    (heven : ∀ i, (∃ c, i = cons c) ∨ ∀ j, M i (sym j) = M i j)
    (hbal : ∀ c, (M *ᵥ balance M invM r dt q (fun m => dx * (vel m ax : K)) (linearEq invM E w₂)) (cons c) =
      (M *ᵥ fun l => dx * (vel l ax : K) * linearEq invM E w₁ l) (cons c))
    (h : OddParabola M invM E dt q w₁ w₂ vel sym) (ψ : Flow K dim n) (j : Fin n) (t : K) (p : Fin dim → K)
    (hψ : ψ t (wallAt dx (1 / 2) (vel j) p) j - ψ t (wallAt dx (1 / 2) (vel j) p) (sym j) =
      linearEq invM E (parabola w₀ w₁ w₂ (wallAt dx (1 / 2) (vel j) p ax)) j -
      linearEq invM E (parabola w₀ w₁ w₂ (wallAt dx (1 / 2) (vel j) p ax)) (sym j))
    (hj : vel j ax ≠ 0) (hcurv : linearEq invM E w₂ j ≠ 0) :
    ¬ Returns .bounceBack vel dx (1 / 2) (parabolicFlow M invM E r dt q w₀ w₁ w₂ vel dx ax) ψ j (sym j) t p := by
  rw [C111_bounce_back M invM E r dt q w₀ w₁ w₂ vel sym dx ax h ψ j t p hψ]
  let B : Fin n → K := balance M invM r dt q (fun m => dx * (vel m ax : K)) (linearEq invM E w₂)
  have hodd : ∀ j, B (sym j) = -B j := h.balance_odd r dx ax
  have hce1 : ∀ j, dx * (vel (sym j) ax : K) * linearEq invM E w₁ (sym j) = dx * (vel j ax : K) * linearEq invM E w₁ j := by
    intro l
    rw [h.opposite, h.slope]
    push_cast
    ring
  have hB : M *ᵥ B = 0 := by
    funext i
    rcases heven i with ⟨c, rfl⟩ | hi
    · rcases h.parity.moment (cons c) with hi | hi
      · exact even_odd h.parity hodd hi
      · exact (hbal c).trans (odd_even h.parity hce1 hi)
    · exact even_odd h.parity hodd hi
  have hB0 : B = 0 := by
    have : invM *ᵥ (M *ᵥ B) = B := by
      rw [Matrix.mulVec_mulVec, mul_eq_one_comm.1 h.inv, Matrix.one_mulVec]
    rw [← this, hB, Matrix.mulVec_zero]
  have hd : delay M invM r B = 0 := by
    unfold delay
    rw [hB]
    simp only [Pi.zero_apply, mul_zero]
    exact Matrix.mulVec_zero _
  show ¬ (2 * delay M invM r B j + B j = _)
  rw [hd, hB0]
  simp only [Pi.zero_apply, mul_zero, add_zero]
  intro h0
  have h1 : (dx * (vel j ax : K)) ^ 2 / 2 * linearEq invM E w₂ j ≠ 0 := by
    have : (vel j ax : K) ≠ 0 := by exact_mod_cast hj
    positivity
  exact h1 h0.symm

/-- **C111, two relaxation parameters**, `sp` for the even moments and `sm` for the odd ones (except the conserved
moments): bounce-back returns the flow on a link of length `ℓ` along the axis if and only if
`(2/sm - 1) ((2/sp - 1) ℓ² e₂ + F) = ℓ²/2 e₂`, where `e₂` is the curvature of the equilibrium and `F` the source. -/
theorem C111_two_rates (M invM : Matrix (Fin n) (Fin n) K) (sym : Fin n → Fin n) (cons : Fin nc → Fin n)
    (E : Matrix (Fin n) (Fin nc) K) (r : Fin n → K) (sp sm : K)
    (hr : ∀ i, (∃ c, i = cons c) ∨ (∀ j, M i (sym j) = M i j) ∧ r i = sp ∨ (∀ j, M i (sym j) = -M i j) ∧ r i = sm) (dt : K)
    (q : Fin n → K) (w₀ w₁ w₂ : Fin nc → K) (vel : Fin n → Cell dim) (dx : K) (ax : Fin dim)
    (hflux : ∀ c, (M *ᵥ fun l => dx * (vel l ax : K) * linearEq invM E w₂ l) (cons c) = 0)
    (hbal : ∀ c, (M *ᵥ fun j => (2 / sp - 1) * (dx * (vel j ax : K)) ^ 2 * linearEq invM E w₂ j + forcing invM dt q j)
      (cons c) = (M *ᵥ fun l => dx * (vel l ax : K) * linearEq invM E w₁ l) (cons c))
    (h : OddParabola M invM E dt q w₁ w₂ vel sym) (ψ : Flow K dim n) (j : Fin n) (t : K) (p : Fin dim → K)
    (hψ : ψ t (wallAt dx (1 / 2) (vel j) p) j - ψ t (wallAt dx (1 / 2) (vel j) p) (sym j) =
      linearEq invM E (parabola w₀ w₁ w₂ (wallAt dx (1 / 2) (vel j) p ax)) j -
      linearEq invM E (parabola w₀ w₁ w₂ (wallAt dx (1 / 2) (vel j) p ax)) (sym j)) :
    Returns .bounceBack vel dx (1 / 2) (parabolicFlow M invM E r dt q w₀ w₁ w₂ vel dx ax) ψ j (sym j) t p ↔
      (2 / sm - 1) * ((2 / sp - 1) * (dx * (vel j ax : K)) ^ 2 * linearEq invM E w₂ j + forcing invM dt q j) =
      (dx * (vel j ax : K)) ^ 2 / 2 * linearEq invM E w₂ j := by
  rw [C111_bounce_back M invM E r dt q w₀ w₁ w₂ vel sym dx ax h ψ j t p hψ]
  have hodd := h.balance_odd r dx ax
  have hb := balance_two M invM sym cons E r sp sm hr dt q w₁ w₂ vel dx ax hflux h
  rw [hb] at hodd ⊢
  let B : Fin n → K := fun j => (2 / sp - 1) * (dx * (vel j ax : K)) ^ 2 * linearEq invM E w₂ j + forcing invM dt q j
  have hB : ∀ j, B (sym j) = -B j := hodd
  have hce1 : ∀ j, dx * (vel (sym j) ax : K) * linearEq invM E w₁ (sym j) = dx * (vel j ax : K) * linearEq invM E w₁ j := by
    intro l
    rw [h.opposite, h.slope]
    push_cast
    ring
  have e1 := delay_one h.inv r B (1 / sm - 1) (fun i => by
      rcases hr i with ⟨c, rfl⟩ | hi | hi
      · left
        rcases h.parity.moment (cons c) with hi | hi
        · exact even_odd h.parity hB hi
        · rw [hbal c]
          exact odd_even h.parity hce1 hi
      · exact Or.inl (even_odd h.parity hB hi.1)
      · exact Or.inr (by rw [hi.2])) j
  rw [e1]
  constructor <;> intro h' <;> linear_combination h'

end walls

section channel
variable {K : Type} [Field K] [LinearOrder K] [IsStrictOrderedRing K] [FloorRing K] {nc d dim : Nat}

/-- In a channel the links to the walls leave the cell along an axis which is not periodic, and their middles are on the
walls. -/
theorem wall_axis {s : Sten dim} (D : WallData K dim s) (N w : Fin dim → Nat) (lo : Fin dim → K) (dx : K)
    (lab : Fin dim → Bool → Int) (hD : D.WF lab) (ST : Domain.State K dim s.nu)
    (J : List (Method dim × List (Entry K dim s.ns))) (hJ : OnGrid D (boxGrid N w lo dx lab s) ST J)
    (hempty : D.elems = []) (hv : ∀ k i, |s.uvel k i| ≤ 1) (y : Cell dim) (hy : y ∈ box N) (k : Fin s.nu)
    (ho : ¬ Open (ST.link k fun i => y i + w i).flag) : ∃ i, ¬ PerAxis lab i ∧ s.uvel k i ≠ 0 ∧
      ((y i : K) + 1 / 2 + 1 / 2 * (s.uvel k i : K) = 0 ∨ (y i : K) + 1 / 2 + 1 / 2 * (s.uvel k i : K) = N i) := by
  set g := boxGrid N w lo dx lab s with hg
  have hn : ∀ i, g.n i = N i := fun i => by simp [Domain.Grid.n, hg, boxGrid]
  have hglab : ∀ j side, g.label j side = lab j side := by
    intro j side
    cases side <;> simp [Domain.Grid.label, hg, boxGrid]
  have hinner : g.inner (fun i => y i + w i) = y := by
    funext i; show y i + (w i : Int) - w i = y i; ring
  have hd : (ST.link k fun i => y i + w i).dist ≠ 999 := by
    intro h
    apply ho
    rw [(Domain.C23_flagged_links g hJ.wf D.elems hD.sound ST hJ.built _ (interior_shift hy) k).2 h]
    simp [Open]
  rcases Domain.C65_same_wall g hJ.wf D.elems hD.sound ST hJ.built _ k hd with ⟨f, h1, h2, -⟩ | ⟨e, he, -⟩
  · rw [hinner, show g.n = N from funext hn] at h1
    rw [hglab] at h2
    refine ⟨f.ax, fun hp => ho ?_, fun hz => ?_, ?_⟩
    · rw [h2, hp f.upper]
      simp [Open]
    · have h3 := h1.2.1.2.2
      have hyb := (mem_box N y).1 hy f.ax
      rw [show g.vel k f.ax = s.uvel k f.ax from rfl, hz] at h3
      obtain ⟨i, side⟩ := f
      have hK0 : (0 : K) ≤ y i := by exact_mod_cast hyb.1
      have hK1 : (y i : K) + 1 ≤ N i := by exact_mod_cast hyb.2
      cases side <;> simp [DomainSpec.facePos] at h3 <;> linarith
    · have h3 := h1.2.1.2.2
      rw [(crosses_unit N y (s.uvel k) ((mem_box N y).1 hy) (hv k) h1.2.1).1] at h3
      obtain ⟨i, side⟩ := f
      have h4 : (y i : K) + 1 / 2 * (s.uvel k i : K) = DomainSpec.facePos N ⟨i, side⟩ := h3
      simp only
      cases side
      · left
        simp [DomainSpec.facePos] at h4
        linarith
      · right
        simp [DomainSpec.facePos] at h4
        linarith
  · rw [hempty] at he; cases he

/-- **C111, Poiseuille flow.** A channel: a box without element with walls across one axis, before its periodic axes,
velocities of components -1, 0, 1, bounce-back on both walls where the user imposes the equilibrium of the field (at rest:
no slip), and a constant source term along the walls. When the relaxation parameters satisfy the condition of
`C111_bounce_back` on the links which cross the channel, a simulation which starts from the parabolic flow keeps it: at every
time, in all the cells of all the processes, the conserved moments are the parabola plus half of what the source adds in one
step. -/
theorem C111_poiseuille (hdim : dim ≤ 3) {s : Sten dim} (D : WallData K dim s) (lo : Fin dim → K) (dx : K)
    (lab : Fin dim → Bool → Int) (hD : D.WF lab) (g : Grid dim)
    (ST : Domain.State K dim s.nu) (J : List (Method dim × List (Entry K dim s.ns)))
    (hJ : OnGrid D (boxGrid g.N g.w lo dx lab s) ST J)
    (hempty : D.elems = []) (hels : ∀ l ∈ D.els, l ≠ -1 ∧ l ≠ -2) (hv : ∀ k i, |s.uvel k i| ≤ 1) (ax : Fin dim)
    (hlab : ∀ side, lab ax side ≠ -1 ∧ lab ax side ≠ -2) (hper : ∀ j, j = ax ∨ ax < j ∧ PerAxis lab j)
    (hmeth : AllMethods D) (hbb : ∀ l ms, D.dico l = some ms → ∀ q ∈ ms, q.2 = .bounceBack)
    (S : Kernel K s.ns nc d) (hfront : ∀ j, (S.consm j : Nat) < nc) (alg : Algo)
    (hEQ : ∀ j w, S.EQ (S.consm j) w = w j) (q : Fin s.ns → K)
    (hq : ∀ i, S.source i = some (fun _ => q i) ∨ S.source i = none ∧ q i = 0) (hrel : S.relVel = none)
    (E : Matrix (Fin s.ns) (Fin nc) K) (r : Fin s.ns → K) (w₀ w₁ w₂ : Fin nc → K)
    (hE : ∀ i x, S.EQ i (parabola w₀ w₁ w₂ x) = (E *ᵥ parabola w₀ w₁ w₂ x) i)
    (hr : ∀ i x, S.s i (parabola w₀ w₁ w₂ x) = r i) (hr0 : ∀ i, (∃ c, i = S.consm c) ∨ r i ≠ 0)
    (hflux : ∀ c, (S.M *ᵥ fun l => dx * (s.vel l ax : K) * linearEq S.invM E w₂ l) (S.consm c) = 0)
    (hbal : ∀ c, (S.M *ᵥ balance S.M S.invM r S.dt q (fun m => dx * (s.vel m ax : K)) (linearEq S.invM E w₂)) (S.consm c) =
      (S.M *ᵥ fun l => dx * (s.vel l ax : K) * linearEq S.invM E w₁ l) (S.consm c))
    (hodd : OddParabola S.M S.invM E S.dt q w₁ w₂ s.vel s.sym)
    (hmagic : ∀ j, s.vel j ax ≠ 0 →
      2 * delay S.M S.invM r (balance S.M S.invM r S.dt q (fun m => dx * (s.vel m ax : K)) (linearEq S.invM E w₂)) j +
        balance S.M S.invM r S.dt q (fun m => dx * (s.vel m ax : K)) (linearEq S.invM E w₂) j =
      (dx * (s.vel j ax : K)) ^ 2 / 2 * linearEq S.invM E w₂ j)
    (hψ : ∀ l t x j, x ax = lo ax ∨ x ax = lo ax + dx * g.N ax → D.ψ l t x j - D.ψ l t x (s.sym j) =
      linearEq S.invM E (parabola w₀ w₁ w₂ (x ax)) j - linearEq S.invM E (parabola w₀ w₁ w₂ (x ax)) (s.sym j))
    (Q : Proc g → Setup K s.ns nc d dim) (hQ : FluidRun D g lo dx lab S alg Q)
    (σ₀ : Proc g → Simu K s.ns d dim) (h0 : ∀ c, (σ₀ c).Start (Q c))
    (ha : ∀ c x, Owned (size g c) g.w x → (σ₀ c).arr x = parabolicFlow S.M S.invM E r S.dt q w₀ w₁ w₂ s.vel dx ax 0
      (cellPoint lo dx (globalPos (first g c) g.w x)))
    (k : Nat) (σ : Proc g → Simu K s.ns d dim) (hrun : PRun g Q σ₀ k σ) (c : Proc g) (x : Cell dim)
    (hx : Owned (size g c) g.w x) :
    (σ c).arr x = (σ₀ c).arr x ∧ ∀ a, (S.M *ᵥ (σ c).arr x) (S.consm a) =
      parabola w₀ w₁ w₂ (cellPoint lo dx (globalPos (first g c) g.w x) ax) a + S.dt / 2 * q (S.consm a) := by
  have hnot : ¬ PerAxis lab ax := fun h => (hlab true).1 (h true)
  obtain ⟨hlinks, hhalf⟩ := openLinks_channel D g.N g.w lo dx lab hD ST J hJ hempty hels hv
    (fun j => by
      rcases hper j with rfl | h
      · exact Or.inr hlab
      · exact Or.inl h.2)
    (fun i j hi hj => by
      rcases hper i with rfl | h
      · rcases hper j with rfl | h'
        · exact absurd hj hnot
        · exact h'.1
      · exact absurd h.2 hi)
  have hone : ∀ label ms, D.dico label = some ms → ∀ p ∈ ms, OneCell p.2 := by
    intro l ms hl p hp
    rw [hbb l ms hl p hp]; trivial
  have hall : ∀ y ∈ box g.N, fluidMap g.w ST y = true := by
    intro y hy
    apply decide_eq_true
    rw [Domain.C21_fluid_map _ hJ.wf D.elems hD.sound ST hJ.built, if_pos ⟨interior_shift hy, by rw [hempty]; rfl⟩]
  obtain ⟨hsol, hmom⟩ := C111_steady S hEQ hodd.inv q hq hrel alg E r w₀ w₁ w₂ hE hr hr0 s.vel dx ax hflux hbal
  have hwall : WallsReturn D g.N g.w lo dx ST (parabolicFlow S.M S.invM E r S.dt q w₀ w₁ w₂ s.vel dx ax) := by
    intro y hy hyf u j j' hop hu hsc hj' ms hms m hm t
    obtain rfl : j' = s.sym j := hD.sten.sym_unique hsc hj'
    obtain rfl : m = .bounceBack := hbb _ _ hms _ hm
    rw [hhalf y hy u hop]
    obtain ⟨i, hi, hi', hw⟩ := wall_axis D g.N g.w lo dx lab hD ST J hJ hempty hv y hy u hop
    obtain rfl : i = ax := by
      rcases hper i with h | h
      · exact h
      · exact absurd h.2 hi
    refine (C111_bounce_back S.M S.invM E r S.dt q w₀ w₁ w₂ s.vel s.sym dx i hodd _ j t _ (hψ _ _ _ _ ?_)).2 (hmagic j ?_)
    · have e : wallAt dx (1 / 2) (s.vel j) (cellPoint lo dx y) i =
          lo i + dx * ((y i : K) + 1 / 2 + 1 / 2 * (s.uvel u i : K)) := by
        unfold wallAt cellPoint
        rw [hu i]
        push_cast
        ring
      rw [e]
      rcases hw with hw | hw
      · left; rw [hw]; ring
      · right; rw [hw]
    · intro hz
      rw [hu i, hz] at hi'
      exact hi' rfl
  have hrep : Repeats g.N dx (PerAxis lab) (parabolicFlow S.M S.invM E r S.dt q w₀ w₁ w₂ s.vel dx ax) := by
    intro t p p' hp
    have e : p' ax = p ax := by
      rcases hp ax with h | h
      · exact h
      · exact absurd h.1 hnot
    funext j
    unfold parabolicFlow
    rw [e]
  have hres := C107_flow hdim D lo dx lab hD g ST J hJ (fun t => hJ.free hD hone t) (PerAxis lab) hlinks hmeth
    (oneCell_reads D _ _ _ _ _ hD ST J hJ (hJ.oneCell hD hone))
    (oneCell_inside D _ _ _ _ _ hD ST J hJ (hJ.oneCell hD hone) _) S hfront alg _ hsol hrep hwall Q hQ σ₀ h0
    (fun c x hx _ => ha c x hx) k σ hrun c x hx (hall _ (owned_box g hx))
  refine ⟨?_, fun a => ?_⟩
  · rw [hres, ha c x hx]
    rfl
  · rw [hres, hmom]

end channel

end Pylbm.Sim
