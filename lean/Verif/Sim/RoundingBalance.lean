import Verif.Sim.Rounding
import Verif.Sim.Balance
/-!
# C101: rounding errors with source terms, a relative velocity and computed boundary values

As `Rounding`, for collisions which do not keep the moment but change it by a known affine function: production and
decay (C97), and for roundings which take place before the collision, in the boundary conditions.
-/

set_option linter.unusedSectionVars false

namespace Pylbm.Sim
open Scheme Halo SchemeSpec Matrix HaloSpec Mpi Boundary

/-! ## Specification -/

section spec
variable {K : Type} [Field K] {n nc d dim : Nat}

/-- The expressions which the generated code computes for the new populations of a cell (`one_time_step_local`,
algorithm/base.py 506-549, pull.py 11-59) treat the moment `i` as they should: in exact arithmetic they change it by the
function `ρ`. The variables are the populations of the cell and whatever else the code has computed (relaxed moments,
relative velocity, values of the source terms), with any error. -/
def Treats {ι : Type} (S : Kernel K n nc d) (T : Fin n → Term K (Fin n ⊕ ι)) (i : Fin n) (ρ : K → K) : Prop :=
  ∀ p z, (S.M *ᵥ fun l => (T l).val (Sum.elim p z)) i = ρ ((S.M *ᵥ p) i)

/-- The relation between the exact result `e` of a step in a cell and the computed one `r`: the exact step starts from
the populations `p` which have arrived in the cell, the code from `q`, where the roundings of the boundary conditions
have changed the moment `i` by at most `γ`; then the expressions `T` are computed with a relative error `u` in each
operation, and the terms which are added in the moment `i` are bounded by `β`. -/
def RoundedStep {ι : Type} [LinearOrder K] (S : Kernel K n nc d) (a : Algo) (T : Fin n → Term K (Fin n ⊕ ι))
    (u β γ : K) (i : Fin n) (e r : Fin n → K) : Prop :=
  ∃ p q z, e = collide S a p ∧ |(S.M *ᵥ q) i - (S.M *ᵥ p) i| ≤ γ ∧ (∀ l, (T l).Rounds u (Sum.elim q z) (r l)) ∧
    ∑ l, |S.M i l| * (T l).mag (Sum.elim q z) ≤ β

end spec

/-! ## Lemmas -/

section lemmas
variable {K : Type} [Field K] [LinearOrder K] [IsStrictOrderedRing K] {n nc d dim : Nat}

/-- The moment of a cell after a step computed with rounding errors. -/
theorem RoundedStep.bound {ι : Type} (S : Kernel K n nc d) (a : Algo) (T : Fin n → Term K (Fin n ⊕ ι)) (i : Fin n)
    (A B : K) (hT : Treats S T i fun v => A * v + B)
    (hφ : ∀ f, (S.M *ᵥ collide S a f) i = A * (S.M *ᵥ f) i + B) {u : K} (hu : 0 ≤ u) (h : Nat)
    (hops : ∀ l, (T l).ops ≤ h) {β γ : K} {e r : Fin n → K} (hR : RoundedStep S a T u β γ i e r) :
    |(S.M *ᵥ r) i - (S.M *ᵥ e) i| ≤ ((1 + u) ^ h - 1) * β + |A| * γ := by
  obtain ⟨p, q, z, rfl, h0, h1, h2⟩ := hR
  have hu1 : (1 : K) ≤ 1 + u := by linarith
  have e0 : (S.M *ᵥ r) i - (S.M *ᵥ collide S a p) i =
      (∑ l, S.M i l * (r l - (T l).val (Sum.elim q z))) + A * ((S.M *ᵥ q) i - (S.M *ᵥ p) i) := by
    have e1 := hT q z
    rw [hφ]
    have e2 : ∑ l, S.M i l * (r l - (T l).val (Sum.elim q z)) =
        (S.M *ᵥ r) i - (S.M *ᵥ fun l => (T l).val (Sum.elim q z)) i := by
      simp only [Matrix.mulVec, dotProduct, ← Finset.sum_sub_distrib, mul_sub]
    rw [e2, e1]
    ring
  rw [e0]
  refine (abs_add_le _ _).trans (add_le_add ?_ ?_)
  · refine le_trans ?_ (mul_le_mul_of_nonneg_left h2 (sub_nonneg.2 (one_le_pow₀ hu1)))
    rw [Finset.mul_sum]
    refine (Finset.abs_sum_le_sum_abs _ _).trans (Finset.sum_le_sum fun l _ => ?_)
    rw [abs_mul]
    have e4 := C101_rounding hu _ _ _ (h1 l)
    have e5 : ((1 + u) ^ (T l).ops - 1) * (T l).mag (Sum.elim q z) ≤ ((1 + u) ^ h - 1) * (T l).mag (Sum.elim q z) :=
      mul_le_mul_of_nonneg_right (sub_le_sub_right (pow_le_pow_right₀ hu1 (hops l)) 1) (Term.mag_nonneg _ _)
    calc _ ≤ |S.M i l| * (((1 + u) ^ h - 1) * (T l).mag (Sum.elim q z)) :=
          mul_le_mul_of_nonneg_left (e4.trans e5) (abs_nonneg _)
      _ = _ := by ring
  · rw [abs_mul]
    exact mul_le_mul_of_nonneg_left h0 (abs_nonneg _)

/-- The drift of a total which an exact step changes by an affine function. -/
theorem total_drift_affine (F : Finset (Cell dim)) (b : Fin n → K) (δ A B : K)
    (step : Nat → Arr K n dim → Arr K n dim)
    (hstep : ∀ i G, ∑ y ∈ F, b ⬝ᵥ step i G y = A * ∑ y ∈ F, b ⬝ᵥ G y + B) (H : Nat → Arr K n dim) (k : Nat)
    (hH : ∀ i < k, ∀ y ∈ F, |b ⬝ᵥ H (i + 1) y - b ⬝ᵥ step i (H i) y| ≤ δ) :
    |∑ y ∈ F, b ⬝ᵥ H k y - (fun T => A * T + B)^[k] (∑ y ∈ F, b ⬝ᵥ H 0 y)| ≤
      (∑ m ∈ Finset.range k, |A| ^ m) * (F.card * δ) := by
  induction k with
  | zero => simp
  | succ k ih =>
    have h1 := ih fun i hi => hH i (by omega)
    have h2 : |∑ y ∈ F, b ⬝ᵥ H (k + 1) y - ∑ y ∈ F, b ⬝ᵥ step k (H k) y| ≤ F.card * δ := by
      rw [← Finset.sum_sub_distrib]
      refine (Finset.abs_sum_le_sum_abs _ _).trans ((Finset.sum_le_sum (hH k (by omega))).trans ?_)
      rw [Finset.sum_const, nsmul_eq_mul]
    rw [hstep] at h2
    rw [Function.iterate_succ_apply']
    set X := (fun T => A * T + B)^[k] (∑ y ∈ F, b ⬝ᵥ H 0 y) with hX
    clear_value X
    have e : ∑ y ∈ F, b ⬝ᵥ H (k + 1) y - (A * X + B) =
        (∑ y ∈ F, b ⬝ᵥ H (k + 1) y - (A * ∑ y ∈ F, b ⬝ᵥ H k y + B)) + A * (∑ y ∈ F, b ⬝ᵥ H k y - X) := by ring
    rw [e, Finset.sum_range_succ' (fun m => |A| ^ m)]
    refine (abs_add_le _ _).trans ?_
    rw [abs_mul]
    have h3 := mul_le_mul_of_nonneg_left h1 (abs_nonneg A)
    have e2 : ∑ m ∈ Finset.range k, |A| ^ (m + 1) = |A| * ∑ m ∈ Finset.range k, |A| ^ m := by
      rw [Finset.mul_sum]
      exact Finset.sum_congr rfl fun m _ => by ring
    rw [e2]
    calc _ ≤ F.card * δ + |A| * ((∑ m ∈ Finset.range k, |A| ^ m) * (F.card * δ)) := add_le_add h2 h3
      _ = _ := by ring

/-- Two half steps of the explicit Euler method. -/
theorem half_steps (A B c lam b : K) (k : Nat) (x N : K) (hA : A = (1 + c * lam) ^ 2)
    (hB : B = (1 + c * lam) * (c * b) + c * b) :
    (fun T => A * T + N * B)^[k] x = (fun T => T + c * (lam * T + N * b))^[2 * k] x := by
  rw [Function.iterate_mul]
  congr 1
  funext T
  simp only [Function.iterate_succ, Function.iterate_zero, Function.comp_apply, id]
  rw [hA, hB]
  ring

end lemmas

/-! ## Properties -/

section props
variable {K : Type} [Field K] [LinearOrder K] [IsStrictOrderedRing K] [FloorRing K] {n nc d dim : Nat}

/-- **C101, balance, periodic domain.** A moment `i` which the collision changes by `v ↦ A v + B` (sources, relative
velocity, or nothing at all). With roundings in all the operations, its total after `k` steps differs from the one of
the exact balance by at most the number of cells times the disturbance of one cell times `1 + |A| + ... + |A|^(k-1)`.
Any decomposition and schedule of the messages, Base and Pull, all backends. -/
theorem C101_balance {ι : Type} (hdim : dim ≤ 3) (g : Grid dim) (hlarge : ∀ c i, g.w i ≤ size g c i)
    (S : Kernel K n nc d) (hfront : ∀ j, (S.consm j : Nat) < nc)
    (vel : Fin n → Cell dim) (a : Algo) (hv : ∀ j i, |vel j i| ≤ g.w i)
    (Q : Proc g → Setup K n nc d dim) (hQ : Uniform g S vel a Q) (hQb : ∀ c t A, (Q c).bc t A = A)
    (i : Fin n) (A B : K) (hφ : ∀ f, (S.M *ᵥ collide S a f) i = A * (S.M *ᵥ f) i + B)
    (T : Fin n → Term K (Fin n ⊕ ι)) (hT : Treats S T i fun v => A * v + B)
    (u : K) (hu : 0 ≤ u) (h : Nat) (hops : ∀ l, (T l).ops ≤ h) (β γ : K)
    (σ₀ : Proc g → Simu K n d dim) (h0 : ∀ c, (σ₀ c).Start (Q c)) (k : Nat) (σ : Proc g → Simu K n d dim)
    (hr : ERun g Q (fun _ => true) (RoundedStep S a T u β γ i) σ₀ k σ) :
    |total g (S.M i) σ - (fun T => A * T + ((∏ j, g.N j : Nat) : K) * B)^[k] (total g (S.M i) σ₀)| ≤
      (∑ m ∈ Finset.range k, |A| ^ m) * (((∏ j, g.N j : Nat) : K) * (((1 + u) ^ h - 1) * β + |A| * γ)) := by
  have hown : ∀ c x, x ∈ inner (size g c) g.w → Owned (size g c) g.w x := by
    intro c x
    simp [inner, Owned]
  obtain ⟨G, hG⟩ := C15_global_array_exists g fun c => (σ₀ c).arr
  have hQ' : UniformFluid g S vel a (fun _ => true) Q :=
    ⟨hQ.scheme, hQ.vel, hQ.algo, fun c h => absurd (hQ.all c) (by rw [h]; decide), hQ.nodup, hQ.loops, hQ.split⟩
  obtain ⟨-, H, hH0, hH, hk⟩ := disturbed_global hdim g hlarge S hfront vel a _ Q hQ' (fun _ H => H)
    (sameBoundary_periodic g vel hv Q hQb) (fun t H H' h y _ _ j => congrFun (h _ rfl) j) _ σ₀ h0 G
    (fun c x hx _ => hG c x hx) k σ hr
  have key : ∀ (τ : Proc g → Simu K n d dim) (A : Arr K n dim),
      (∀ c x, Owned (size g c) g.w x → (τ c).arr x = A (globalPos (first g c) g.w x)) →
      total g (S.M i) τ = ∑ y ∈ box g.N, S.M i ⬝ᵥ A y := by
    intro τ A hA
    unfold total
    rw [← sum_owned g fun y => S.M i ⬝ᵥ A y]
    refine Finset.sum_congr rfl fun c _ => Finset.sum_congr rfl fun x hx => ?_
    rw [hA c x (hown c x hx)]
  rw [key σ (H k) fun c x hx => hk c x hx rfl, key σ₀ (H 0) fun c x hx => by rw [hH0]; exact hG c x hx, ← card_box]
  refine total_drift_affine (box g.N) (S.M i) _ A _
    (fun i G => lbmStep g.N vel (collide S a) (fun _ H => H) (i * S.dt) G) (fun m G => ?_) H k
    fun m hm y hy => RoundedStep.bound S a T i A B hT hφ hu h hops (hH m hm y hy rfl)
  have e : ∀ y, S.M i ⬝ᵥ lbmStep g.N vel (collide S a) (fun _ H => H) (m * S.dt) G y =
      A * S.M i ⬝ᵥ lbmStep g.N vel id (fun _ H => H) (m * S.dt) G y + B := fun y => hφ _
  rw [Finset.sum_congr rfl fun y _ => e y, Finset.sum_add_distrib, ← Finset.mul_sum, Finset.sum_const, nsmul_eq_mul,
    sum_lbmStep g.N vel id (S.M i) (fun _ => rfl)]

/-- **C101, balance, walls at rest.** The same with the walls and obstacles of C78, for the total over the fluid
cells. -/
theorem C101_balance_walls {ι : Type} (hdim : dim ≤ 3) {s : Sten dim} (D : WallData K dim s) (lo : Fin dim → K) (dx : K)
    (lab : Fin dim → Bool → Int) (hD : D.WF lab) (g : Grid dim)
    (ST : Domain.State K dim s.nu) (J : List (Method dim × List (Entry K dim s.ns)))
    (hJ : OnGrid D (boxGrid g.N g.w lo dx lab s) ST J)
    (hfree : ∀ t, Free s (flat s (withValues s (boxGrid g.N g.w lo dx lab s) D.ψ J t)))
    (hseal : Sealed g.N g.w ST) (hmeth : AllMethods D) (hreads : ReadsFluid D g.N g.w lo dx lab ST J)
    (S : Kernel K s.ns nc d) (hfront : ∀ j, (S.consm j : Nat) < nc) (a : Algo)
    (i : Fin s.ns) (heven : Even (S.M i)) (hrest : AtRest D (S.M i))
    (A B : K) (hφ : ∀ f, (S.M *ᵥ collide S a f) i = A * (S.M *ᵥ f) i + B)
    (Q : Proc g → Setup K s.ns nc d dim) (hQ : FluidRun D g lo dx lab S a Q)
    (T : Fin s.ns → Term K (Fin s.ns ⊕ ι)) (hT : Treats S T i fun v => A * v + B)
    (u : K) (hu : 0 ≤ u) (h : Nat) (hops : ∀ l, (T l).ops ≤ h) (β γ : K)
    (σ₀ : Proc g → Simu K s.ns d dim) (h0 : ∀ c, (σ₀ c).Start (Q c)) (k : Nat) (σ : Proc g → Simu K s.ns d dim)
    (hr : ERun g Q (fluidMap g.w ST) (RoundedStep S a T u β γ i) σ₀ k σ) :
    |fluidTotal ST g (S.M i) σ - (fun T => A * T + (fluidCells ST g : K) * B)^[k] (fluidTotal ST g (S.M i) σ₀)| ≤
      (∑ m ∈ Finset.range k, |A| ^ m) * ((fluidCells ST g : K) * (((1 + u) ^ h - 1) * β + |A| * γ)) := by
  have hown : ∀ c x, x ∈ inner (size g c) g.w → Owned (size g c) g.w x := by
    intro c x
    simp [inner, Owned]
  have hlinks : AllLinks g.N g.w ST := by
    intro y hy hyf u
    by_cases h : Open (ST.link u (fun i => y i + g.w i)).flag
    · exact Or.inl (hseal y hy hyf u (s.usym u) (hD.sten.usym u) h).1
    · exact Or.inr h
  obtain ⟨G, hG⟩ := C15_global_array_exists g fun c => (σ₀ c).arr
  obtain ⟨-, H, hH0, hH, hk⟩ := disturbed_global hdim g hQ.walls.large S hfront s.vel a _ Q
    (hQ.uniform hD ST hJ.built) _ (sameBoundary_walls D g lo dx lab hD Q hQ.walls ST J hJ hfree)
    (fluidBoundary_walls D g.N g.w lo dx lab hD ST J hJ hfree hlinks hmeth hreads) _ σ₀ h0 G
    (fun c x hx _ => hG c x hx) k σ hr
  have key : ∀ (τ : Proc g → Simu K s.ns d dim) (A : Arr K s.ns dim),
      (∀ c x, Owned (size g c) g.w x → fluidMap g.w ST (globalPos (first g c) g.w x) = true →
        (τ c).arr x = A (globalPos (first g c) g.w x)) →
      fluidTotal ST g (S.M i) τ = ∑ y ∈ box g.N with fluidMap g.w ST y = true, S.M i ⬝ᵥ A y := by
    intro τ A hA
    unfold fluidTotal
    rw [← sum_fluid g (fluidMap g.w ST) fun y => S.M i ⬝ᵥ A y]
    refine Finset.sum_congr rfl fun c _ => Finset.sum_congr rfl fun x hx => ?_
    rw [Finset.mem_filter] at hx
    rw [hA c x (hown c x hx.1) hx.2]
  rw [key σ (H k) hk, key σ₀ (H 0) fun c x hx _ => by rw [hH0]; exact hG c x hx]
  refine total_drift_affine _ (S.M i) _ A _
    (fun i G => lbmStep g.N s.vel (collide S a) (wallBc D g.N g.w lo dx lab J) (i * S.dt) G) (fun m G => ?_) H k
    fun m hm y hy => RoundedStep.bound S a T i A B hT hφ hu h hops
      (hH m hm y (Finset.mem_filter.1 hy).1 (Finset.mem_filter.1 hy).2)
  have e : ∀ y, S.M i ⬝ᵥ lbmStep g.N s.vel (collide S a) (wallBc D g.N g.w lo dx lab J) (m * S.dt) G y =
      A * S.M i ⬝ᵥ lbmStep g.N s.vel id (wallBc D g.N g.w lo dx lab J) (m * S.dt) G y + B := fun y => hφ _
  rw [Finset.sum_congr rfl fun y _ => e y, Finset.sum_add_distrib, ← Finset.mul_sum, Finset.sum_const, nsmul_eq_mul,
    sum_walls hD hJ hfree hmeth hseal (S.M i) heven hrest id (fun _ => rfl)]
  rfl

/-- **C101, production and decay.** The total of a conserved moment with the source `λ m + b` follows the `2 k` half
steps of the explicit Euler method of C97, up to the rounding errors, which are multiplied by `(1 + λ dt / 2)²` in each
later step: a decay damps them, a production lets them grow like the total itself. -/
theorem C101_rate {ι : Type} (hdim : dim ≤ 3) (g : Grid dim) (hlarge : ∀ c i, g.w i ≤ size g c i)
    (S : Kernel K n nc d) (hfront : ∀ j, (S.consm j : Nat) < nc) (hEQ : ∀ j w, S.EQ (S.consm j) w = w j)
    (hM : S.M * S.invM = 1) (hrel : S.relVel = none)
    (vel : Fin n → Cell dim) (a : Algo) (hv : ∀ j i, |vel j i| ≤ g.w i)
    (Q : Proc g → Setup K n nc d dim) (hQ : Uniform g S vel a Q) (hQb : ∀ c t A, (Q c).bc t A = A)
    (j : Fin nc) (lam b : K) (r : (Fin n → K) → K) (hj : S.source (S.consm j) = some r)
    (hlin : ∀ m, r m = lam * m (S.consm j) + b)
    (T : Fin n → Term K (Fin n ⊕ ι)) (hT : Treats S T (S.consm j) (fun v => v + S.dt / 2 * (lam * v + b))^[2])
    (u : K) (hu : 0 ≤ u) (h : Nat) (hops : ∀ l, (T l).ops ≤ h) (β : K)
    (σ₀ : Proc g → Simu K n d dim) (h0 : ∀ c, (σ₀ c).Start (Q c)) (k : Nat) (σ : Proc g → Simu K n d dim)
    (hr : ERun g Q (fun _ => true) (RoundedStep S a T u β 0 (S.consm j)) σ₀ k σ) :
    |total g (S.M (S.consm j)) σ - (fun T => T + S.dt / 2 * (lam * T + ((∏ i, g.N i : Nat) : K) * b))^[2 * k]
        (total g (S.M (S.consm j)) σ₀)| ≤
      (∑ m ∈ Finset.range k, ((1 + S.dt / 2 * lam) ^ 2) ^ m) *
        (((∏ j, g.N j : Nat) : K) * (((1 + u) ^ h - 1) * β)) := by
  have e : (fun v => v + S.dt / 2 * (lam * v + b))^[2] = fun v => (1 + S.dt / 2 * lam) ^ 2 * v +
      ((1 + S.dt / 2 * lam) * (S.dt / 2 * b) + S.dt / 2 * b) := by
    funext v
    simp only [Function.iterate_succ, Function.iterate_zero, Function.comp_apply, id]
    ring
  rw [e] at hT
  have h1 := C101_balance hdim g hlarge S hfront vel a hv Q hQ hQb (S.consm j) _ _
    (fun f => (collide_self S hEQ hM hrel a j r hj (fun v => lam * v + b) hlin f).trans (congrFun e _)) T hT u hu h hops
    β 0 σ₀ h0 k σ hr
  rw [half_steps _ _ (S.dt / 2) lam b k _ _ rfl rfl, abs_of_nonneg (sq_nonneg (1 + S.dt / 2 * lam)), mul_zero, add_zero] at h1
  exact h1

/-- **C101, sources of the other moments.** The drift of the total of a conserved moment without source, whatever the
sources of the other moments are and however they are computed. -/
theorem C101_no_source {ι : Type} (hdim : dim ≤ 3) (g : Grid dim) (hlarge : ∀ c i, g.w i ≤ size g c i)
    (S : Kernel K n nc d) (hfront : ∀ j, (S.consm j : Nat) < nc) (hEQ : ∀ j w, S.EQ (S.consm j) w = w j)
    (hM : S.M * S.invM = 1) (hrel : S.relVel = none)
    (vel : Fin n → Cell dim) (a : Algo) (hv : ∀ j i, |vel j i| ≤ g.w i)
    (Q : Proc g → Setup K n nc d dim) (hQ : Uniform g S vel a Q) (hQb : ∀ c t A, (Q c).bc t A = A)
    (j : Fin nc) (hj : S.source (S.consm j) = none)
    (T : Fin n → Term K (Fin n ⊕ ι)) (hT : Treats S T (S.consm j) id)
    (u : K) (hu : 0 ≤ u) (h : Nat) (hops : ∀ l, (T l).ops ≤ h) (β : K)
    (σ₀ : Proc g → Simu K n d dim) (h0 : ∀ c, (σ₀ c).Start (Q c)) (k : Nat) (σ : Proc g → Simu K n d dim)
    (hr : ERun g Q (fun _ => true) (RoundedStep S a T u β 0 (S.consm j)) σ₀ k σ) :
    |total g (S.M (S.consm j)) σ - total g (S.M (S.consm j)) σ₀| ≤
      k * (((∏ j, g.N j : Nat) : K) * (((1 + u) ^ h - 1) * β)) := by
  have h1 := C101_balance hdim g hlarge S hfront vel a hv Q hQ hQb (S.consm j) 1 0
    (fun f => by rw [one_mul, add_zero]; exact collide_none S hEQ hM hrel a j hj f) T
    (fun p z => by rw [hT p z]; simp) u hu h hops β 0 σ₀ h0 k σ hr
  simp only [abs_one, one_pow, Finset.sum_const, Finset.card_range, nsmul_eq_mul, mul_one, mul_zero, add_zero, one_mul]
    at h1
  have e : (fun T : K => T)^[k] (total g (S.M (S.consm j)) σ₀) = total g (S.M (S.consm j)) σ₀ :=
    congrFun (Function.iterate_id k) _
  rw [e] at h1
  exact h1

/-- **C101, relative velocity.** The drift of the total of a conserved moment with a relative velocity (Pull, no
sources): the relative velocity itself may have been computed with any error, since the expressions keep the moment
whatever it is. -/
theorem C101_relative {ι : Type} (hdim : dim ≤ 3) (g : Grid dim) (hlarge : ∀ c i, g.w i ≤ size g c i)
    (S : Kernel K n nc d) (hfront : ∀ j, (S.consm j : Nat) < nc)
    (hM : S.M * S.invM = 1) (hrel : S.relVel.isSome = true) (hTT : ∀ u, S.Tmu u * S.Tu u = 1)
    (hclosed : ∀ u (j : Fin nc) (b : Fin n), nc ≤ (b : Nat) → S.Tmu u (S.consm j) b = 0)
    (hS : ∀ i, S.source i = none)
    (vel : Fin n → Cell dim) (hv : ∀ j i, |vel j i| ≤ g.w i)
    (Q : Proc g → Setup K n nc d dim) (hQ : Uniform g S vel .pull Q) (hQb : ∀ c t A, (Q c).bc t A = A)
    (j : Fin nc) (T : Fin n → Term K (Fin n ⊕ ι)) (hT : Treats S T (S.consm j) id)
    (u : K) (hu : 0 ≤ u) (h : Nat) (hops : ∀ l, (T l).ops ≤ h) (β : K)
    (σ₀ : Proc g → Simu K n d dim) (h0 : ∀ c, (σ₀ c).Start (Q c)) (k : Nat) (σ : Proc g → Simu K n d dim)
    (hr : ERun g Q (fun _ => true) (RoundedStep S .pull T u β 0 (S.consm j)) σ₀ k σ) :
    |total g (S.M (S.consm j)) σ - total g (S.M (S.consm j)) σ₀| ≤
      k * (((∏ j, g.N j : Nat) : K) * (((1 + u) ^ h - 1) * β)) := by
  have hφ : ∀ f, (S.M *ᵥ collide S .pull f) (S.consm j) = (S.M *ᵥ f) (S.consm j) := by
    intro f
    unfold collide
    rw [prog_eq]
    simp only [hrel]
    exact C46_pull S hM hTT hclosed hS f _ j
  have h1 := C101_balance hdim g hlarge S hfront vel .pull hv Q hQ hQb (S.consm j) 1 0
    (fun f => by rw [one_mul, add_zero]; exact hφ f) T
    (fun p z => by rw [hT p z]; simp) u hu h hops β 0 σ₀ h0 k σ hr
  simp only [abs_one, one_pow, Finset.sum_const, Finset.card_range, nsmul_eq_mul, mul_one, mul_zero, add_zero, one_mul]
    at h1
  have e : (fun T : K => T)^[k] (total g (S.M (S.consm j)) σ₀) = total g (S.M (S.consm j)) σ₀ :=
    congrFun (Function.iterate_id k) _
  rw [e] at h1
  exact h1

/-- **C101, boundary values.** A population of a fluid cell after a step in which the boundary conditions are computed
with errors of at most `γ * b` in the populations which arrive, and the collision, which does not increase the
differences measured with `b`, with errors of at most `δ * b`: the disturbance in `C101_difference` is
`(γ + δ) * b`. -/
theorem C101_boundary (S : Kernel K n nc d) (a : Algo) (b : Fin n → K)
    (hφ : ∀ (ρ : K) (f f' : Fin n → K), (∀ j, |f j - f' j| ≤ ρ * b j) →
      ∀ j, |collide S a f j - collide S a f' j| ≤ ρ * b j)
    (γ δ : K) (p q r : Fin n → K) (hγ : ∀ j, |q j - p j| ≤ γ * b j) (hδ : ∀ j, |r j - collide S a q j| ≤ δ * b j)
    (j : Fin n) : |r j - collide S a p j| ≤ (γ + δ) * b j := by
  have e : r j - collide S a p j = (r j - collide S a q j) + (collide S a q j - collide S a p j) := by ring
  rw [e]
  refine (abs_add_le _ _).trans ?_
  have := hφ γ q p hγ j
  linarith [hδ j]

end props

end Pylbm.Sim
