import Verif.Sim.Linear
import Verif.Sim.Energy
/-!
# C101: computations with rounding errors

The other files are about exact arithmetic. Here each time step may also change the populations of the fluid cells,
by an amount bounded by a relation `R` between the exact values and the stored ones; the properties bound what remains
of these disturbances after `k` steps. `C101_conservation` takes for `R` the expressions of the generated code computed
with a relative error `u` in each operation.
-/

set_option linter.unusedSectionVars false

namespace Pylbm.Sim
open Scheme Halo SchemeSpec Matrix HaloSpec Mpi Boundary

/-! ## Specification -/

section spec
variable {K : Type} [Field K] {n nc d dim : Nat}

/-- `τ` is the state `σ` in which only contents of the arrays may have changed. -/
structure Simu.SameControl (σ τ : Simu K n d dim) : Prop where
  F : τ.F = σ.F
  Fnew : τ.Fnew = σ.Fnew
  t : τ.t = σ.t
  nt : τ.nt = σ.nt

/-- Executions of `k` time steps with disturbances: as `PRun` (simulation.py 392-426), but after each step the
populations of an owned fluid cell are `r` where an exact step gives `e`, with `R e r`. The other contents of the arrays
(moments, ghost cells, solid cells) may become anything. Simplified: the time `t` is exact, its rounding error counts as
a disturbance of the populations which depend on it. -/
inductive ERun (g : Grid dim) (Q : Proc g → Setup K n nc d dim) (fl : Cell dim → Bool)
    (R : (Fin n → K) → (Fin n → K) → Prop) (σ₀ : Proc g → Simu K n d dim) : Nat → (Proc g → Simu K n d dim) → Prop
  | init : ERun g Q fl R σ₀ 0 σ₀
  | step (k : Nat) (σ τ : Proc g → Simu K n d dim) (eager : Proc g → Fin dim → Bool → Prop) (e : Nat)
      (s : State g (Fin n → K)) : ERun g Q fl R σ₀ k σ → Reach g eager (fun c => (σ c).arr) e s → s.Done →
      (∀ c, ((σ c).apply { Q c with bc := fun t _ => (Q c).bc t (s.arr c) } .step).SameControl (τ c)) →
      (∀ c x, Owned (size g c) g.w x → fl (globalPos (first g c) g.w x) = true →
        R (((σ c).apply { Q c with bc := fun t _ => (Q c).bc t (s.arr c) } .step).arr x) ((τ c).arr x)) →
      ERun g Q fl R σ₀ (k + 1) τ

/-- An execution without disturbance. -/
theorem PRun.disturbed {g : Grid dim} {Q : Proc g → Setup K n nc d dim} {σ₀ σ : Proc g → Simu K n d dim} {k : Nat}
    (h : PRun g Q σ₀ k σ) (fl : Cell dim → Bool) : ERun g Q fl (fun e r => r = e) σ₀ k σ := by
  induction h with
  | init => exact .init
  | step k σ eager e s _ hreach hdone ih =>
    exact .step k σ _ eager e s ih hreach hdone (fun c => ⟨rfl, rfl, rfl, rfl⟩) fun c x _ _ => rfl

theorem ERun.mono {g : Grid dim} {Q : Proc g → Setup K n nc d dim} {fl : Cell dim → Bool}
    {R R' : (Fin n → K) → (Fin n → K) → Prop} (hR : ∀ e r, R e r → R' e r)
    {σ₀ σ : Proc g → Simu K n d dim} {k : Nat} (h : ERun g Q fl R σ₀ k σ) : ERun g Q fl R' σ₀ k σ := by
  induction h with
  | init => exact .init
  | step k σ τ eager e s _ hreach hdone h1 h2 ih =>
    exact .step k σ τ eager e s ih hreach hdone h1 fun c x hx hf => hR _ _ (h2 c x hx hf)

/-- The arithmetic expressions of the generated code, with variables in `ι`: constants, variables, opposites, sums,
products. Quotients by constants are products; see `Exact` for the other operations. -/
inductive Term (K ι : Type) where
  | const (c : K)
  | var (i : ι)
  | neg (a : Term K ι)
  | add (a b : Term K ι)
  | mul (a b : Term K ι)

namespace Term
variable {ι : Type}

/-- The value of the expression in exact arithmetic. -/
def val (x : ι → K) : Term K ι → K
  | const c => c
  | var i => x i
  | neg a => -a.val x
  | add a b => a.val x + b.val x
  | mul a b => a.val x * b.val x

/-- The value with all the signs positive. -/
def mag [LinearOrder K] (x : ι → K) : Term K ι → K
  | const c => |c|
  | var i => |x i|
  | neg a => a.mag x
  | add a b => a.mag x + b.mag x
  | mul a b => a.mag x * b.mag x

/-- A bound on the number of roundings which affect a monomial of the expression. -/
def ops : Term K ι → Nat
  | const _ => 1
  | var _ => 0
  | neg a => a.ops
  | add a b => max a.ops b.ops + 1
  | mul a b => a.ops + b.ops + 1

/-- `v` is a value of the expression computed with a relative error of at most `u` in each constant, sum and product.
The errors may be zero: an operation which is exact, a product and a sum rounded together. Overflows and underflows are
excluded. -/
inductive Rounds [LinearOrder K] (u : K) (x : ι → K) : Term K ι → K → Prop
  | const (c v : K) : |v - c| ≤ u * |c| → Rounds u x (.const c) v
  | var (i : ι) : Rounds u x (.var i) (x i)
  | neg (a : Term K ι) (p : K) : Rounds u x a p → Rounds u x (.neg a) (-p)
  | add (a b : Term K ι) (p q v : K) : Rounds u x a p → Rounds u x b q → |v - (p + q)| ≤ u * |p + q| →
      Rounds u x (.add a b) v
  | mul (a b : Term K ι) (p q v : K) : Rounds u x a p → Rounds u x b q → |v - p * q| ≤ u * |p * q| →
      Rounds u x (.mul a b) v

end Term

/-- The expressions which the generated code computes for the new populations of a cell: in exact arithmetic they are
`invM *ᵥ m` where the conserved moments of `m` are those of the populations `p` of the cell and the other ones are
`z` (f2m_local, relaxation_local and m2f_local, algorithm/base.py 298-428, pull.py 11-59). `z` is whatever the code has
computed for the relaxed moments: their equilibria may contain any functions. -/
def Exact (S : Kernel K n nc d) (T : Fin n → Term K (Fin n ⊕ Fin n)) : Prop :=
  ∀ p z l, (T l).val (Sum.elim p z) =
    (S.invM *ᵥ fun i => by classical exact if Conserved S i then (S.M *ᵥ p) i else z i) l

/-- The relation between the exact result `e` of the collision and the computed one `r` in `C101_conservation`: the
populations of the cell before it are some `p`, the relaxed moments some `z`, and the terms which are added in the total
of the moment `i` are bounded by `β`. -/
def RoundedCollision [LinearOrder K] (S : Kernel K n nc d) (a : Algo) (T : Fin n → Term K (Fin n ⊕ Fin n)) (u β : K)
    (i : Fin n) (e r : Fin n → K) : Prop :=
  ∃ p z, e = collide S a p ∧ (∀ l, (T l).Rounds u (Sum.elim p z) (r l)) ∧
    ∑ l, |S.M i l| * (T l).mag (Sum.elim p z) ≤ β

end spec

/-! ## Lemmas -/

section lemmas
variable {K : Type} [Field K] [LinearOrder K] [IsStrictOrderedRing K] {n nc d dim : Nat}

namespace Term
variable {ι : Type}

theorem mag_nonneg (x : ι → K) (T : Term K ι) : 0 ≤ T.mag x := by
  induction T with
  | const c => exact abs_nonneg c
  | var i => exact abs_nonneg _
  | neg a ih => exact ih
  | add a b iha ihb => exact add_nonneg iha ihb
  | mul a b iha ihb => exact mul_nonneg iha ihb

theorem abs_val (x : ι → K) (T : Term K ι) : |T.val x| ≤ T.mag x := by
  induction T with
  | const c => exact le_rfl
  | var i => exact le_rfl
  | neg a ih => simpa only [val, mag, abs_neg] using ih
  | add a b iha ihb => exact (abs_add_le _ _).trans (add_le_add iha ihb)
  | mul a b iha ihb =>
    simp only [val, mag, abs_mul]
    exact mul_le_mul iha ihb (abs_nonneg _) (mag_nonneg x a)

end Term

open Term in
/-- **C101, rounding.** Whatever the roundings, the computed value of an expression differs from the exact one by at
most `((1 + u) ^ ops - 1) * mag`. -/
theorem C101_rounding {ι : Type} {u : K} (hu : 0 ≤ u) (x : ι → K) (T : Term K ι) (v : K) (h : T.Rounds u x v) :
    |v - T.val x| ≤ ((1 + u) ^ T.ops - 1) * T.mag x := by
  have h1 : (1 : K) ≤ 1 + u := by linarith
  have hp : ∀ m : Nat, (1 : K) ≤ (1 + u) ^ m := fun m => one_le_pow₀ h1
  induction h with
  | const c v h => simpa only [val, mag, ops, pow_one, add_sub_cancel_left] using h
  | var i => simp [val, mag, ops]
  | neg a p _ ih =>
    simp only [val, mag, ops]
    rw [← abs_neg]
    convert ih using 2
    ring
  | add a b p q v _ _ hv iha ihb =>
    simp only [val, mag, ops]
    have ha0 := mag_nonneg x a
    have hb0 := mag_nonneg x b
    have ha : (1 + u) ^ a.ops ≤ (1 + u) ^ max a.ops b.ops := pow_le_pow_right₀ h1 (le_max_left _ _)
    have hb : (1 + u) ^ b.ops ≤ (1 + u) ^ max a.ops b.ops := pow_le_pow_right₀ h1 (le_max_right _ _)
    set E := (1 + u) ^ max a.ops b.ops with hE
    have e1 : |p - a.val x| ≤ (E - 1) * a.mag x := iha.trans (mul_le_mul_of_nonneg_right (by linarith) ha0)
    have e2 : |q - b.val x| ≤ (E - 1) * b.mag x := ihb.trans (mul_le_mul_of_nonneg_right (by linarith) hb0)
    have e3 : |p| ≤ E * a.mag x := by
      have := abs_sub_abs_le_abs_sub p (a.val x)
      have := abs_val x a
      linarith
    have e4 : |q| ≤ E * b.mag x := by
      have := abs_sub_abs_le_abs_sub q (b.val x)
      have := abs_val x b
      linarith
    have e5 : u * |p + q| ≤ u * (E * a.mag x + E * b.mag x) :=
      mul_le_mul_of_nonneg_left ((abs_add_le _ _).trans (add_le_add e3 e4)) hu
    have e6 : v - (a.val x + b.val x) = (v - (p + q)) + ((p - a.val x) + (q - b.val x)) := by ring
    rw [e6, pow_succ, ← hE]
    calc _ ≤ |v - (p + q)| + (|p - a.val x| + |q - b.val x|) :=
          (abs_add_le _ _).trans (add_le_add le_rfl (abs_add_le _ _))
      _ ≤ u * (E * a.mag x + E * b.mag x) + ((E - 1) * a.mag x + (E - 1) * b.mag x) := by linarith
      _ = _ := by ring
  | mul a b p q v _ _ hv iha ihb =>
    simp only [val, mag, ops]
    have ha0 := mag_nonneg x a
    have hb0 := mag_nonneg x b
    set A := (1 + u) ^ a.ops with hA
    set B := (1 + u) ^ b.ops with hB
    have hA1 : 1 ≤ A := hp _
    have hB1 : 1 ≤ B := hp _
    have e3 : |p| ≤ A * a.mag x := by
      have := abs_sub_abs_le_abs_sub p (a.val x)
      have := abs_val x a
      linarith
    have e4 : |q| ≤ B * b.mag x := by
      have := abs_sub_abs_le_abs_sub q (b.val x)
      have := abs_val x b
      linarith
    have e5 : |p * q| ≤ A * a.mag x * (B * b.mag x) := by
      rw [abs_mul]
      exact mul_le_mul e3 e4 (abs_nonneg _) ((abs_nonneg p).trans e3)
    have e6 : |p * q - a.val x * b.val x| ≤ (A - 1) * a.mag x * (B * b.mag x) + a.mag x * ((B - 1) * b.mag x) := by
      have : p * q - a.val x * b.val x = (p - a.val x) * q + a.val x * (q - b.val x) := by ring
      rw [this]
      refine (abs_add_le _ _).trans (add_le_add ?_ ?_)
      · rw [abs_mul]
        exact mul_le_mul iha e4 (abs_nonneg _) ((abs_nonneg _).trans iha)
      · rw [abs_mul]
        exact mul_le_mul (abs_val x a) ihb (abs_nonneg _) ha0
    have e7 : v - a.val x * b.val x = (v - p * q) + (p * q - a.val x * b.val x) := by ring
    rw [e7, pow_succ, pow_add, ← hA, ← hB]
    have e8 := mul_le_mul_of_nonneg_left e5 hu
    calc _ ≤ |v - p * q| + |p * q - a.val x * b.val x| := abs_add_le _ _
      _ ≤ u * (A * a.mag x * (B * b.mag x)) + ((A - 1) * a.mag x * (B * b.mag x) + a.mag x * ((B - 1) * b.mag x)) := by
        linarith
      _ = _ := by ring

/-- **C101, collision.** The conserved moments of a cell after a collision computed with rounding errors. -/
theorem C101_collision (S : Kernel K n nc d) (hM : S.M * S.invM = 1) (T : Fin n → Term K (Fin n ⊕ Fin n))
    (hT : Exact S T) {u : K} (hu : 0 ≤ u) (h : Nat) (hops : ∀ l, (T l).ops ≤ h) (i : Fin n) (hi : Conserved S i)
    (p z r : Fin n → K) (hr : ∀ l, (T l).Rounds u (Sum.elim p z) (r l)) :
    |(S.M *ᵥ r) i - (S.M *ᵥ p) i| ≤ ((1 + u) ^ h - 1) * ∑ l, |S.M i l| * (T l).mag (Sum.elim p z) := by
  classical
  have h1 : (1 : K) ≤ 1 + u := by linarith
  have e : (S.M *ᵥ p) i = ∑ l, S.M i l * (T l).val (Sum.elim p z) := by
    have : (fun l => (T l).val (Sum.elim p z)) =
        S.invM *ᵥ fun i => if Conserved S i then (S.M *ᵥ p) i else z i := funext fun l => by
      rw [hT p z l]
    have e2 := congrArg (fun f => (S.M *ᵥ f) i) this
    simp only [Matrix.mulVec_mulVec, hM, Matrix.one_mulVec, if_pos hi] at e2
    exact e2.symm
  rw [e]
  have e3 : (S.M *ᵥ r) i - ∑ l, S.M i l * (T l).val (Sum.elim p z) =
      ∑ l, S.M i l * (r l - (T l).val (Sum.elim p z)) := by
    simp only [Matrix.mulVec, dotProduct, ← Finset.sum_sub_distrib, mul_sub]
  rw [e3, Finset.mul_sum]
  refine (Finset.abs_sum_le_sum_abs _ _).trans (Finset.sum_le_sum fun l _ => ?_)
  rw [abs_mul]
  have e4 := C101_rounding hu _ _ _ (hr l)
  have e5 : ((1 + u) ^ (T l).ops - 1) * (T l).mag (Sum.elim p z) ≤ ((1 + u) ^ h - 1) * (T l).mag (Sum.elim p z) :=
    mul_le_mul_of_nonneg_right (sub_le_sub_right (pow_le_pow_right₀ h1 (hops l)) 1) (Term.mag_nonneg _ _)
  calc _ ≤ |S.M i l| * (((1 + u) ^ h - 1) * (T l).mag (Sum.elim p z)) :=
        mul_le_mul_of_nonneg_left (e4.trans e5) (abs_nonneg _)
    _ = _ := by ring

/-- **C101, populations.** For a polynomial collision whose whole computation is given by the expressions `T`, the
disturbances of `C101_difference`: `δ` is `((1 + u) ^ h - 1) * B`. -/
theorem C101_populations (S : Kernel K n nc d) (a : Algo) (T : Fin n → Term K (Fin n))
    (hT : ∀ p l, (T l).val p = collide S a p l) {u : K} (hu : 0 ≤ u) (h : Nat) (hops : ∀ l, (T l).ops ≤ h)
    (B : K) (b p r : Fin n → K) (hr : ∀ l, (T l).Rounds u p (r l)) (hB : ∀ l, (T l).mag p ≤ B * b l) (l : Fin n) :
    |r l - collide S a p l| ≤ ((1 + u) ^ h - 1) * B * b l := by
  have h1 : (1 : K) ≤ 1 + u := by linarith
  rw [← hT, mul_assoc]
  refine (C101_rounding hu _ _ _ (hr l)).trans (mul_le_mul (sub_le_sub_right (pow_le_pow_right₀ h1 (hops l)) 1) (hB l)
    (Term.mag_nonneg _ _) (sub_nonneg.2 (one_le_pow₀ h1)))

end lemmas

/-! ## Disturbed runs on the global array -/

section global
variable {K : Type} [Field K] [LinearOrder K] [IsStrictOrderedRing K] [FloorRing K] {n nc d dim : Nat}

/-- The owned fluid cells of the processes hold the values of a sequence of global arrays, in which each array is a
disturbed step of the previous one. -/
theorem disturbed_global (hdim : dim ≤ 3) (g : Grid dim) (hlarge : ∀ c i, g.w i ≤ size g c i)
    (S : Kernel K n nc d) (hfront : ∀ j, (S.consm j : Nat) < nc) (vel : Fin n → Cell dim) (a : Algo)
    (fl : Cell dim → Bool) (Q : Proc g → Setup K n nc d dim) (hQ : UniformFluid g S vel a fl Q)
    (bc : K → Arr K n dim → Arr K n dim) (hbc : SameBoundary g vel Q bc) (hfl : FluidBoundary g.N vel fl bc)
    (R : (Fin n → K) → (Fin n → K) → Prop)
    (σ₀ : Proc g → Simu K n d dim) (h0 : ∀ c, (σ₀ c).Start (Q c)) (G : Arr K n dim)
    (hG : ∀ c x, Owned (size g c) g.w x → fl (globalPos (first g c) g.w x) = true →
      (σ₀ c).arr x = G (globalPos (first g c) g.w x))
    (k : Nat) (σ : Proc g → Simu K n d dim) (hr : ERun g Q fl R σ₀ k σ) :
    (∀ c, Containers (Q c) (σ c) ∧ (σ c).t = k * S.dt ∧ (σ c).nt = k) ∧
    ∃ H : Nat → Arr K n dim, H 0 = G ∧
      (∀ i < k, ∀ y ∈ box g.N, fl y = true →
        R (lbmStep g.N vel (collide S a) bc (i * S.dt) (H i) y) (H (i + 1) y)) ∧
      ∀ c x, Owned (size g c) g.w x → fl (globalPos (first g c) g.w x) = true →
        (σ c).arr x = H k (globalPos (first g c) g.w x) := by
  induction hr with
  | init =>
    refine ⟨fun c => ⟨(h0 c).1, ?_, (h0 c).2.2.2⟩, fun _ => G, rfl, fun i hi => absurd hi (Nat.not_lt_zero i), hG⟩
    rw [(h0 c).2.2.1]; simp
  | step k σ τ eager e s _ hreach hdone hsame hR ih =>
    obtain ⟨ih1, H, ih2, ih3, ih4⟩ := ih
    obtain ⟨h1, h2⟩ := step_fluid hdim g hlarge S hfront vel a fl Q hQ bc hbc hfl σ (k * S.dt) k ih1 _ ih4
      eager e s hreach hdone
    refine ⟨fun c => ⟨?_, ?_, ?_⟩, ?_⟩
    · have h3 := (h1 c).1
      unfold Containers at h3 ⊢
      rw [(hsame c).F, (hsame c).Fnew]
      exact h3
    · rw [(hsame c).t, (h1 c).2.1]; push_cast; ring
    · rw [(hsame c).nt, (h1 c).2.2]
    · obtain ⟨A, hA, -⟩ := assemble g (fun c => (τ c).arr) G
      refine ⟨fun i => if i ≤ k then H i else A, by simp [ih2], fun i hi y hy hf => ?_, fun c x hx _ => ?_⟩
      · rcases Nat.lt_succ_iff_lt_or_eq.1 hi with h | h
        · simp only [if_pos h.le, if_pos (Nat.succ_le_of_lt h)]
          exact ih3 i h y hy hf
        · subst h
          simp only [le_refl, if_true, Nat.not_succ_le_self, if_false]
          obtain ⟨c, x, hx, rfl⟩ := exists_owned g y hy
          rw [← hA c x hx, ← h2 c x hx hf]
          exact hR c x hx hf
      · simp only [Nat.not_succ_le_self, if_false]
        exact hA c x hx

/-- The total over the owned fluid cells of the processes. -/
theorem sum_fluid (g : Grid dim) (fl : Cell dim → Bool) (h : Cell dim → K) :
    ∑ c : Proc g, ∑ x ∈ inner (size g c) g.w with fl (globalPos (first g c) g.w x) = true,
      h (globalPos (first g c) g.w x) = ∑ y ∈ box g.N with fl y = true, h y := by
  rw [Finset.sum_filter, ← sum_owned g fun y => if fl y = true then h y else 0]
  exact Finset.sum_congr rfl fun c _ => Finset.sum_filter _ _

/-- The drift of a total which an exact step keeps. -/
theorem total_drift (F : Finset (Cell dim)) (b : Fin n → K) (δ : K) (step : Nat → Arr K n dim → Arr K n dim)
    (hstep : ∀ i G, ∑ y ∈ F, b ⬝ᵥ step i G y = ∑ y ∈ F, b ⬝ᵥ G y) (H : Nat → Arr K n dim) (k : Nat)
    (hH : ∀ i < k, ∀ y ∈ F, |b ⬝ᵥ H (i + 1) y - b ⬝ᵥ step i (H i) y| ≤ δ) :
    |∑ y ∈ F, b ⬝ᵥ H k y - ∑ y ∈ F, b ⬝ᵥ H 0 y| ≤ k * (F.card * δ) := by
  induction k with
  | zero => simp
  | succ k ih =>
    have h1 := ih fun i hi => hH i (by omega)
    have h2 : |∑ y ∈ F, b ⬝ᵥ H (k + 1) y - ∑ y ∈ F, b ⬝ᵥ step k (H k) y| ≤ F.card * δ := by
      rw [← Finset.sum_sub_distrib]
      refine (Finset.abs_sum_le_sum_abs _ _).trans ((Finset.sum_le_sum (hH k (by omega))).trans ?_)
      rw [Finset.sum_const, nsmul_eq_mul]
    rw [hstep] at h2
    have e : ∑ y ∈ F, b ⬝ᵥ H (k + 1) y - ∑ y ∈ F, b ⬝ᵥ H 0 y =
        (∑ y ∈ F, b ⬝ᵥ H (k + 1) y - ∑ y ∈ F, b ⬝ᵥ H k y) + (∑ y ∈ F, b ⬝ᵥ H k y - ∑ y ∈ F, b ⬝ᵥ H 0 y) := by ring
    rw [e]
    refine (abs_add_le _ _).trans ((add_le_add h2 h1).trans_eq ?_)
    push_cast; ring

/-- The collision keeps the conserved moments. -/
theorem collide_conserved (S : Kernel K n nc d) (hEQ : ∀ j w, S.EQ (S.consm j) w = w j) (hM : S.M * S.invM = 1)
    (hS : ∀ i, S.source i = none) (hrel : S.relVel = none) (a : Algo) (i : Fin n) (hi : Conserved S i) (f : Fin n → K) :
    (S.M *ᵥ collide S a f) i = (S.M *ᵥ f) i := by
  obtain ⟨j, rfl⟩ := hi
  have hcol : collide S a f = collision S.M S.invM S.consm S.EQ S.s f := by
    unfold collide
    rw [prog_eq]
    obtain ⟨h3, h4⟩ := step_collision S hEQ hS f ⟨0, 0, 0⟩
    cases a with
    | base => simp only [hrel, Option.isSome_none]; exact h4
    | pull => simp only [hrel, Option.isSome_none]; exact h3
  rw [hcol]
  unfold collision
  rw [Matrix.mulVec_mulVec, hM, Matrix.one_mulVec]
  simp only [relaxed, hEQ, Function.comp_apply]
  ring

/-! ## Properties -/

/-- **C101, periodic domain.** The total of a moment which the collision keeps, when after each step the moment of
each cell is changed by at most `δ`: after `k` steps it has changed by at most `k` times the number of cells times `δ`.
Any decomposition and schedule of the messages, Base and Pull, all backends. -/
theorem C101_totals (hdim : dim ≤ 3) (g : Grid dim) (hlarge : ∀ c i, g.w i ≤ size g c i)
    (S : Kernel K n nc d) (hfront : ∀ j, (S.consm j : Nat) < nc)
    (vel : Fin n → Cell dim) (a : Algo) (hv : ∀ j i, |vel j i| ≤ g.w i)
    (Q : Proc g → Setup K n nc d dim) (hQ : Uniform g S vel a Q) (hQb : ∀ c t A, (Q c).bc t A = A)
    (i : Fin n) (hφ : ∀ f, (S.M *ᵥ collide S a f) i = (S.M *ᵥ f) i) (δ : K)
    (σ₀ : Proc g → Simu K n d dim) (h0 : ∀ c, (σ₀ c).Start (Q c)) (k : Nat) (σ : Proc g → Simu K n d dim)
    (hr : ERun g Q (fun _ => true) (fun e r => |(S.M *ᵥ r) i - (S.M *ᵥ e) i| ≤ δ) σ₀ k σ) :
    |∑ c : Proc g, ∑ x ∈ inner (size g c) g.w, (S.M *ᵥ (σ c).arr x) i -
      ∑ c : Proc g, ∑ x ∈ inner (size g c) g.w, (S.M *ᵥ (σ₀ c).arr x) i| ≤ k * ((∏ j, (g.N j : K)) * δ) := by
  have hown : ∀ c x, x ∈ inner (size g c) g.w → Owned (size g c) g.w x := by
    intro c x
    simp [inner, Owned]
  obtain ⟨G, hG⟩ := C15_global_array_exists g fun c => (σ₀ c).arr
  have hQ' : UniformFluid g S vel a (fun _ => true) Q :=
    ⟨hQ.scheme, hQ.vel, hQ.algo, fun c h => absurd (hQ.all c) (by rw [h]; decide), hQ.nodup, hQ.loops, hQ.split⟩
  obtain ⟨-, H, hH0, hH, hk⟩ := disturbed_global hdim g hlarge S hfront vel a _ Q hQ' (fun _ H => H)
    (sameBoundary_periodic g vel hv Q hQb) (fun t H H' h y _ _ j => congrFun (h _ rfl) j) _ σ₀ h0 G
    (fun c x hx _ => hG c x hx) k σ hr
  have key : ∀ (τ : Proc g → Simu K n d dim) (A : Arr K n dim),
      (∀ c x, Owned (size g c) g.w x → (τ c).arr x = A (globalPos (first g c) g.w x)) →
      ∑ c : Proc g, ∑ x ∈ inner (size g c) g.w, (S.M *ᵥ (τ c).arr x) i = ∑ y ∈ box g.N, S.M i ⬝ᵥ A y := by
    intro τ A hA
    rw [← sum_owned g fun y => S.M i ⬝ᵥ A y]
    refine Finset.sum_congr rfl fun c _ => Finset.sum_congr rfl fun x hx => ?_
    rw [hA c x (hown c x hx)]; rfl
  rw [key σ (H k) fun c x hx => hk c x hx rfl, key σ₀ (H 0) fun c x hx => by rw [hH0]; exact hG c x hx]
  have hcard : ((box g.N).card : K) = ∏ j, (g.N j : K) := by
    unfold box
    rw [Fintype.card_piFinset]
    simp
  rw [← hcard]
  exact total_drift (box g.N) (S.M i) δ (fun i G => lbmStep g.N vel (collide S a) (fun _ H => H) (i * S.dt) G)
    (fun i G => sum_lbmStep g.N vel _ _ hφ _ _) H k fun i hi y hy => hH i hi y hy rfl

/-- **C101, closed domain.** The same bound in the domains of C78: no hole, bounce-back and a fluid at rest on all the
walls and obstacles, and a moment which does not see the sign of the velocities (the mass). -/
theorem C101_mass (hdim : dim ≤ 3) {s : Sten dim} (D : WallData K dim s) (lo : Fin dim → K) (dx : K)
    (lab : Fin dim → Bool → Int) (hD : D.WF lab) (g : Grid dim)
    (ST : Domain.State K dim s.nu) (J : List (Method dim × List (Entry K dim s.ns)))
    (hJ : OnGrid D (boxGrid g.N g.w lo dx lab s) ST J)
    (hfree : ∀ t, Free s (flat s (withValues s (boxGrid g.N g.w lo dx lab s) D.ψ J t)))
    (hseal : Sealed g.N g.w ST) (hmeth : AllMethods D) (hreads : ReadsFluid D g.N g.w lo dx lab ST J)
    (S : Kernel K s.ns nc d) (hfront : ∀ j, (S.consm j : Nat) < nc) (a : Algo)
    (i : Fin s.ns) (heven : Even (S.M i)) (hrest : AtRest D (S.M i))
    (hφ : ∀ f, (S.M *ᵥ collide S a f) i = (S.M *ᵥ f) i)
    (Q : Proc g → Setup K s.ns nc d dim) (hQ : FluidRun D g lo dx lab S a Q) (δ : K)
    (σ₀ : Proc g → Simu K s.ns d dim) (h0 : ∀ c, (σ₀ c).Start (Q c)) (k : Nat) (σ : Proc g → Simu K s.ns d dim)
    (hr : ERun g Q (fluidMap g.w ST) (fun e r => |(S.M *ᵥ r) i - (S.M *ᵥ e) i| ≤ δ) σ₀ k σ) :
    |∑ c : Proc g, ∑ x ∈ inner (size g c) g.w with fluidMap g.w ST (globalPos (first g c) g.w x) = true,
      (S.M *ᵥ (σ c).arr x) i -
    ∑ c : Proc g, ∑ x ∈ inner (size g c) g.w with fluidMap g.w ST (globalPos (first g c) g.w x) = true,
      (S.M *ᵥ (σ₀ c).arr x) i| ≤
    k * ((∑ c : Proc g, ∑ x ∈ inner (size g c) g.w with fluidMap g.w ST (globalPos (first g c) g.w x) = true, 1) * δ) := by
  have hown : ∀ c x, x ∈ inner (size g c) g.w → Owned (size g c) g.w x := by
    intro c x
    simp [inner, Owned]
  have hlinks : AllLinks g.N g.w ST := by
    intro y hy hyf u
    by_cases h : Open (ST.link u (fun i => y i + g.w i)).flag
    · exact Or.inl (hseal y hy hyf u (s.usym u) (hD.sten.usym u) h).1
    · exact Or.inr h
  obtain ⟨G, hG⟩ := C15_global_array_exists g fun c => (σ₀ c).arr
  obtain ⟨-, H, hH0, hH, hk⟩ := disturbed_global hdim g hQ.walls.large S hfront s.vel a _ Q
    (hQ.uniform hD ST hJ.built) _ (sameBoundary_walls D g lo dx lab hD Q hQ.walls ST J hJ hfree)
    (fluidBoundary_walls D g.N g.w lo dx lab hD ST J hJ hfree hlinks hmeth hreads) _ σ₀ h0 G
    (fun c x hx _ => hG c x hx) k σ hr
  have key : ∀ (τ : Proc g → Simu K s.ns d dim) (A : Arr K s.ns dim),
      (∀ c x, Owned (size g c) g.w x → fluidMap g.w ST (globalPos (first g c) g.w x) = true →
        (τ c).arr x = A (globalPos (first g c) g.w x)) →
      ∑ c : Proc g, ∑ x ∈ inner (size g c) g.w with fluidMap g.w ST (globalPos (first g c) g.w x) = true,
        (S.M *ᵥ (τ c).arr x) i = ∑ y ∈ box g.N with fluidMap g.w ST y = true, S.M i ⬝ᵥ A y := by
    intro τ A hA
    rw [← sum_fluid g (fluidMap g.w ST) fun y => S.M i ⬝ᵥ A y]
    refine Finset.sum_congr rfl fun c _ => Finset.sum_congr rfl fun x hx => ?_
    rw [Finset.mem_filter] at hx
    rw [hA c x (hown c x hx.1) hx.2]; rfl
  rw [key σ (H k) hk, key σ₀ (H 0) fun c x hx _ => by rw [hH0]; exact hG c x hx]
  have hcard : (∑ c : Proc g, ∑ x ∈ inner (size g c) g.w with fluidMap g.w ST (globalPos (first g c) g.w x) = true,
      (1 : K)) = (((box g.N).filter fun y => fluidMap g.w ST y = true).card : K) := by
    rw [sum_fluid g (fluidMap g.w ST) fun _ => (1 : K)]
    simp
  rw [hcard]
  refine total_drift _ (S.M i) δ
    (fun i G => lbmStep g.N s.vel (collide S a) (wallBc D g.N g.w lo dx lab J) (i * S.dt) G)
    (fun i G => sum_walls hD hJ hfree hmeth hseal _ heven hrest _ hφ _ _) H k fun i hi y hy => ?_
  rw [Finset.mem_filter] at hy
  exact hH i hi y hy.1 hy.2

/-- The disturbance of a conserved moment by the roundings of the collision. -/
theorem RoundedCollision.bound (S : Kernel K n nc d) (hEQ : ∀ j w, S.EQ (S.consm j) w = w j) (hM : S.M * S.invM = 1)
    (hS : ∀ i, S.source i = none) (hrel : S.relVel = none) (a : Algo) (T : Fin n → Term K (Fin n ⊕ Fin n))
    (hT : Exact S T) {u : K} (hu : 0 ≤ u) (h : Nat) (hops : ∀ l, (T l).ops ≤ h) (i : Fin n) (hi : Conserved S i)
    {β : K} {e r : Fin n → K} (hR : RoundedCollision S a T u β i e r) :
    |(S.M *ᵥ r) i - (S.M *ᵥ e) i| ≤ ((1 + u) ^ h - 1) * β := by
  obtain ⟨p, z, rfl, h1, h2⟩ := hR
  rw [collide_conserved S hEQ hM hS hrel a i hi]
  refine (C101_collision S hM T hT hu h hops i hi p z r h1).trans (mul_le_mul_of_nonneg_left h2 ?_)
  exact sub_nonneg.2 (one_le_pow₀ (by linarith))

/-- **C101.** On a fully periodic domain, the total of a conserved moment when the collision is computed with a relative
error of at most `u` in each operation: after `k` steps it has changed by at most `k` times the number of cells times
`((1 + u) ^ h - 1) * β`, where no population is affected by more than `h` roundings and `β` bounds the terms added in
the moment of a cell. Nonlinear equilibria, whose computation may be as inexact as one wants. -/
theorem C101_conservation (hdim : dim ≤ 3) (g : Grid dim) (hlarge : ∀ c i, g.w i ≤ size g c i)
    (S : Kernel K n nc d) (hfront : ∀ j, (S.consm j : Nat) < nc) (hEQ : ∀ j w, S.EQ (S.consm j) w = w j)
    (hM : S.M * S.invM = 1) (hS : ∀ i, S.source i = none) (hrel : S.relVel = none)
    (vel : Fin n → Cell dim) (a : Algo) (hv : ∀ j i, |vel j i| ≤ g.w i)
    (Q : Proc g → Setup K n nc d dim) (hQ : Uniform g S vel a Q) (hQb : ∀ c t A, (Q c).bc t A = A)
    (T : Fin n → Term K (Fin n ⊕ Fin n)) (hT : Exact S T) (u : K) (hu : 0 ≤ u) (h : Nat) (hops : ∀ l, (T l).ops ≤ h)
    (β : K) (j : Fin nc)
    (σ₀ : Proc g → Simu K n d dim) (h0 : ∀ c, (σ₀ c).Start (Q c)) (k : Nat) (σ : Proc g → Simu K n d dim)
    (hr : ERun g Q (fun _ => true) (RoundedCollision S a T u β (S.consm j)) σ₀ k σ) :
    |∑ c : Proc g, ∑ x ∈ inner (size g c) g.w, (S.M *ᵥ (σ c).arr x) (S.consm j) -
      ∑ c : Proc g, ∑ x ∈ inner (size g c) g.w, (S.M *ᵥ (σ₀ c).arr x) (S.consm j)| ≤
      k * ((∏ i, (g.N i : K)) * (((1 + u) ^ h - 1) * β)) :=
  C101_totals hdim g hlarge S hfront vel a hv Q hQ hQb (S.consm j)
    (collide_conserved S hEQ hM hS hrel a _ ⟨j, rfl⟩) _ σ₀ h0 k σ
    (hr.mono fun _ _ => RoundedCollision.bound S hEQ hM hS hrel a T hT hu h hops _ ⟨j, rfl⟩)

/-- **C101, mass with walls.** The same for the mass in the closed domains of C78. -/
theorem C101_mass_conservation (hdim : dim ≤ 3) {s : Sten dim} (D : WallData K dim s) (lo : Fin dim → K) (dx : K)
    (lab : Fin dim → Bool → Int) (hD : D.WF lab) (g : Grid dim)
    (ST : Domain.State K dim s.nu) (J : List (Method dim × List (Entry K dim s.ns)))
    (hJ : OnGrid D (boxGrid g.N g.w lo dx lab s) ST J)
    (hfree : ∀ t, Free s (flat s (withValues s (boxGrid g.N g.w lo dx lab s) D.ψ J t)))
    (hseal : Sealed g.N g.w ST) (hmeth : AllMethods D) (hreads : ReadsFluid D g.N g.w lo dx lab ST J)
    (S : Kernel K s.ns nc d) (hfront : ∀ j, (S.consm j : Nat) < nc) (hEQ : ∀ j w, S.EQ (S.consm j) w = w j)
    (hM : S.M * S.invM = 1) (hS : ∀ i, S.source i = none) (hrel : S.relVel = none) (a : Algo)
    (l : Fin nc) (heven : Even (S.M (S.consm l))) (hrest : AtRest D (S.M (S.consm l)))
    (Q : Proc g → Setup K s.ns nc d dim) (hQ : FluidRun D g lo dx lab S a Q)
    (T : Fin s.ns → Term K (Fin s.ns ⊕ Fin s.ns)) (hT : Exact S T) (u : K) (hu : 0 ≤ u) (h : Nat)
    (hops : ∀ l, (T l).ops ≤ h) (β : K)
    (σ₀ : Proc g → Simu K s.ns d dim) (h0 : ∀ c, (σ₀ c).Start (Q c)) (k : Nat) (σ : Proc g → Simu K s.ns d dim)
    (hr : ERun g Q (fluidMap g.w ST) (RoundedCollision S a T u β (S.consm l)) σ₀ k σ) :
    |∑ c : Proc g, ∑ x ∈ inner (size g c) g.w with fluidMap g.w ST (globalPos (first g c) g.w x) = true,
      (S.M *ᵥ (σ c).arr x) (S.consm l) -
    ∑ c : Proc g, ∑ x ∈ inner (size g c) g.w with fluidMap g.w ST (globalPos (first g c) g.w x) = true,
      (S.M *ᵥ (σ₀ c).arr x) (S.consm l)| ≤
    k * ((∑ c : Proc g, ∑ x ∈ inner (size g c) g.w with fluidMap g.w ST (globalPos (first g c) g.w x) = true, 1) *
      (((1 + u) ^ h - 1) * β)) :=
  C101_mass hdim D lo dx lab hD g ST J hJ hfree hseal hmeth hreads S hfront a _ heven hrest
    (collide_conserved S hEQ hM hS hrel a _ ⟨l, rfl⟩) Q hQ _ σ₀ h0 k σ
    (hr.mono fun _ _ => RoundedCollision.bound S hEQ hM hS hrel a T hT hu h hops _ ⟨l, rfl⟩)

/-- Two sequences of disturbed steps which do not increase the differences. -/
theorem sup_drift (F : Finset (Cell dim)) (b : Fin n → K) (δ₀ δ δ' : K) (step : Nat → Arr K n dim → Arr K n dim)
    (hstep : ∀ m ρ A A', (∀ y ∈ F, ∀ j, |A y j - A' y j| ≤ ρ * b j) →
      ∀ y ∈ F, ∀ j, |step m A y j - step m A' y j| ≤ ρ * b j) (H H' : Nat → Arr K n dim) (k : Nat)
    (h0 : ∀ y ∈ F, ∀ j, |H 0 y j - H' 0 y j| ≤ δ₀ * b j)
    (hH : ∀ i < k, ∀ y ∈ F, ∀ j, |H (i + 1) y j - step i (H i) y j| ≤ δ * b j)
    (hH' : ∀ i < k, ∀ y ∈ F, ∀ j, |H' (i + 1) y j - step i (H' i) y j| ≤ δ' * b j) :
    ∀ y ∈ F, ∀ j, |H k y j - H' k y j| ≤ (δ₀ + k * (δ + δ')) * b j := by
  induction k with
  | zero => simpa using h0
  | succ m ih =>
    intro y hy j
    have h1 := hstep m _ _ _ (ih (fun i hi => hH i (by omega)) fun i hi => hH' i (by omega)) y hy j
    have h2 := hH m (by omega) y hy j
    have h3 := hH' m (by omega) y hy j
    have e2 : H (m + 1) y j - H' (m + 1) y j = (H (m + 1) y j - step m (H m) y j) +
        ((step m (H m) y j - step m (H' m) y j) + -(H' (m + 1) y j - step m (H' m) y j)) := by ring
    rw [e2]
    rw [← abs_neg] at h3
    refine (abs_add_le _ _).trans ((add_le_add h2 ((abs_add_le _ _).trans (add_le_add h1 h3))).trans_eq ?_)
    push_cast; ring

/-- **C101, dependence on the errors, periodic domain.** Two computations of the same run, with different
decompositions, backends and schedules of the messages: the initial populations differ by at most `δ₀ * b j`, and in
each step the disturbances of a population are at most `δ * b j` in the first one and `δ' * b j` in the second one. The
collision does not increase the differences measured with `b`. After `k` steps the populations differ by at most
`(δ₀ + k * (δ + δ')) * b j`: the errors add up, they are not amplified. With `δ' = 0` the second computation is the
exact one (`PRun.disturbed`). -/
theorem C101_difference (hdim : dim ≤ 3) (g g' : Grid dim) (hN : g.N = g'.N)
    (hlarge : ∀ c i, g.w i ≤ size g c i) (hlarge' : ∀ c i, g'.w i ≤ size g' c i)
    (S : Kernel K n nc d) (hfront : ∀ j, (S.consm j : Nat) < nc)
    (vel : Fin n → Cell dim) (a : Algo) (hv : ∀ j i, |vel j i| ≤ g.w i) (hv' : ∀ j i, |vel j i| ≤ g'.w i)
    (b : Fin n → K)
    (hφ : ∀ (ρ : K) (f f' : Fin n → K), (∀ j, |f j - f' j| ≤ ρ * b j) →
      ∀ j, |collide S a f j - collide S a f' j| ≤ ρ * b j)
    (Q : Proc g → Setup K n nc d dim) (hQ : Uniform g S vel a Q) (hQb : ∀ c t A, (Q c).bc t A = A)
    (Q' : Proc g' → Setup K n nc d dim) (hQ' : Uniform g' S vel a Q') (hQb' : ∀ c t A, (Q' c).bc t A = A)
    (σ₀ : Proc g → Simu K n d dim) (h0 : ∀ c, (σ₀ c).Start (Q c))
    (σ₀' : Proc g' → Simu K n d dim) (h0' : ∀ c, (σ₀' c).Start (Q' c)) (δ₀ δ δ' : K)
    (hδ₀ : ∀ c x c' x', Owned (size g c) g.w x → Owned (size g' c') g'.w x' →
      globalPos (first g c) g.w x = globalPos (first g' c') g'.w x' →
      ∀ j, |(σ₀ c).arr x j - (σ₀' c').arr x' j| ≤ δ₀ * b j)
    (k : Nat) (σ : Proc g → Simu K n d dim)
    (hr : ERun g Q (fun _ => true) (fun e r => ∀ j, |r j - e j| ≤ δ * b j) σ₀ k σ)
    (σ' : Proc g' → Simu K n d dim)
    (hr' : ERun g' Q' (fun _ => true) (fun e r => ∀ j, |r j - e j| ≤ δ' * b j) σ₀' k σ')
    (c : Proc g) (x : Cell dim) (hx : Owned (size g c) g.w x)
    (c' : Proc g') (x' : Cell dim) (hx' : Owned (size g' c') g'.w x')
    (he : globalPos (first g c) g.w x = globalPos (first g' c') g'.w x') (j : Fin n) :
    |(σ c).arr x j - (σ' c').arr x' j| ≤ (δ₀ + k * (δ + δ')) * b j := by
  obtain ⟨G, hG⟩ := C15_global_array_exists g fun c => (σ₀ c).arr
  obtain ⟨G', hG'⟩ := C15_global_array_exists g' fun c => (σ₀' c).arr
  have hu : ∀ {g : Grid dim} {Q : Proc g → Setup K n nc d dim}, Uniform g S vel a Q →
      UniformFluid g S vel a (fun _ => true) Q := fun hQ =>
    ⟨hQ.scheme, hQ.vel, hQ.algo, fun c h => absurd (hQ.all c) (by rw [h]; decide), hQ.nodup, hQ.loops, hQ.split⟩
  obtain ⟨-, H, hH0, hH, hk⟩ := disturbed_global hdim g hlarge S hfront vel a _ Q (hu hQ) (fun _ H => H)
    (sameBoundary_periodic g vel hv Q hQb) (fun t H H' h y _ _ j => congrFun (h _ rfl) j) _ σ₀ h0 G
    (fun c x hx _ => hG c x hx) k σ hr
  obtain ⟨-, H', hH0', hH', hk'⟩ := disturbed_global hdim g' hlarge' S hfront vel a _ Q' (hu hQ') (fun _ H => H)
    (sameBoundary_periodic g' vel hv' Q' hQb') (fun t H H' h y _ _ j => congrFun (h _ rfl) j) _ σ₀' h0' G'
    (fun c x hx _ => hG' c x hx) k σ' hr'
  rw [← hN] at hH'
  rw [hk c x hx rfl, hk' c' x' hx' rfl, ← he]
  have hNpos : ∀ i, 0 < g.N i := fun i => by
    have := (mem_box g.N _).1 (owned_box g hx) i
    omega
  refine sup_drift (box g.N) b δ₀ δ δ' (fun m A => lbmStep g.N vel (collide S a) (fun _ H => H) (m * S.dt) A) ?_ H H' k ?_
    (fun i hi y hy => hH i hi y hy rfl) (fun i hi y hy => hH' i hi y hy rfl) _ (owned_box g hx) j
  · intro m ρ A A' hA y _
    exact hφ ρ _ _ fun j => hA _ (mod_mem_box hNpos _) j
  · intro y hy j
    obtain ⟨c, x, hx, rfl⟩ := exists_owned g y hy
    have hy' := hy
    rw [hN] at hy'
    obtain ⟨c', x', hx', he'⟩ := exists_owned g' _ hy'
    have := hδ₀ c x c' x' hx hx' he'.symm j
    rwa [hG c x hx, hG' c' x' hx', he', ← hH0, ← hH0'] at this

/-- **C101, dependence on the errors, walls.** The same with walls and obstacles, for a linear scheme and the same `b j`
for opposite velocities: any conditions but anti-bounce-back (interpolated bounce-back and Neumann conditions included),
arbitrary imposed values, `check_isfluid` or not. -/
theorem C101_difference_walls (hdim : dim ≤ 3) {s : Sten dim} (D : WallData K dim s) (lo : Fin dim → K) (dx : K)
    (lab : Fin dim → Bool → Int) (hD : D.WF lab) (g g' : Grid dim) (hN : g.N = g'.N) (hw : g.w = g'.w)
    (ST : Domain.State K dim s.nu) (J : List (Method dim × List (Entry K dim s.ns)))
    (hJ : OnGrid D (boxGrid g.N g.w lo dx lab s) ST J)
    (hfree : ∀ t, Free s (flat s (withValues s (boxGrid g.N g.w lo dx lab s) D.ψ J t)))
    (hlinks : AllLinks g.N g.w ST) (hmeth : AllMethods D) (hreads : ReadsFluid D g.N g.w lo dx lab ST J)
    (hanti : ∀ label ms, D.dico label = some ms → ∀ p ∈ ms, p.2 ≠ .antiBounceBack ∧ p.2 ≠ .bouzidiAntiBounceBack)
    (S : Kernel K s.ns nc d) (hfront : ∀ j, (S.consm j : Nat) < nc) (a : Algo) (hS : Combines S 1 (-1))
    (b : Fin s.ns → K)
    (hsym : ∀ j j', s.scheme j' = s.scheme j → (∀ i, s.vel j' i = -s.vel j i) → b j' = b j)
    (hφ : ∀ (ρ : K) (f : Fin s.ns → K), (∀ j, |f j| ≤ ρ * b j) → ∀ j, |collide S a f j| ≤ ρ * b j)
    (Q : Proc g → Setup K s.ns nc d dim) (hQ : FluidRun D g lo dx lab S a Q)
    (Q' : Proc g' → Setup K s.ns nc d dim) (hQ' : FluidRun D g' lo dx lab S a Q')
    (σ₀ : Proc g → Simu K s.ns d dim) (h0 : ∀ c, (σ₀ c).Start (Q c))
    (σ₀' : Proc g' → Simu K s.ns d dim) (h0' : ∀ c, (σ₀' c).Start (Q' c)) (δ₀ δ δ' : K)
    (hδ₀ : ∀ c x c' x', Owned (size g c) g.w x → Owned (size g' c') g'.w x' →
      globalPos (first g c) g.w x = globalPos (first g' c') g'.w x' →
      fluidMap g.w ST (globalPos (first g c) g.w x) = true →
      ∀ j, |(σ₀ c).arr x j - (σ₀' c').arr x' j| ≤ δ₀ * b j)
    (k : Nat) (σ : Proc g → Simu K s.ns d dim)
    (hr : ERun g Q (fluidMap g.w ST) (fun e r => ∀ j, |r j - e j| ≤ δ * b j) σ₀ k σ)
    (σ' : Proc g' → Simu K s.ns d dim)
    (hr' : ERun g' Q' (fluidMap g.w ST) (fun e r => ∀ j, |r j - e j| ≤ δ' * b j) σ₀' k σ')
    (c : Proc g) (x : Cell dim) (hx : Owned (size g c) g.w x)
    (c' : Proc g') (x' : Cell dim) (hx' : Owned (size g' c') g'.w x')
    (he : globalPos (first g c) g.w x = globalPos (first g' c') g'.w x')
    (hf : fluidMap g.w ST (globalPos (first g c) g.w x) = true) (j : Fin s.ns) :
    |(σ c).arr x j - (σ' c').arr x' j| ≤ (δ₀ + k * (δ + δ')) * b j := by
  obtain ⟨G, hG⟩ := C15_global_array_exists g fun c => (σ₀ c).arr
  obtain ⟨G', hG'⟩ := C15_global_array_exists g' fun c => (σ₀' c).arr
  have hfb := fluidBoundary_walls D g.N g.w lo dx lab hD ST J hJ hfree hlinks hmeth hreads
  obtain ⟨-, H, hH0, hH, hk⟩ := disturbed_global hdim g hQ.walls.large S hfront s.vel a _ Q
    (hQ.uniform hD ST hJ.built) _ (sameBoundary_walls D g lo dx lab hD Q hQ.walls ST J hJ hfree)
    hfb _ σ₀ h0 G (fun c x hx _ => hG c x hx) k σ hr
  have hJ' := hJ
  have hfree' := hfree
  have hfb' := hfb
  rw [hN, hw] at hJ' hfree' hfb'
  obtain ⟨-, H', hH0', hH', hk'⟩ := disturbed_global hdim g' hQ'.walls.large S hfront s.vel a (fluidMap g.w ST) Q'
    (by have := hQ'.uniform hD ST hJ'.built; rw [← hw] at this; exact this) _
    (sameBoundary_walls D g' lo dx lab hD Q' hQ'.walls ST J hJ' hfree')
    (by rw [← hw] at hfb' ⊢; exact hfb') _ σ₀' h0' G' (fun c x hx _ => hG' c x hx) k σ' hr'
  rw [← hN, ← hw] at hH'
  rw [hk c x hx hf, hk' c' x' hx' (he ▸ hf), ← he]
  have hNpos : ∀ i, 0 < g.N i := fun i => by
    have := (mem_box g.N _).1 (owned_box g hx) i
    omega
  set ψ₁ := combValues 1 (-1) D.ψ D.ψ with hψ₁
  have hpas : Passive (otherValues D ψ₁) := ⟨hanti, fun label t x j j' _ _ => by
    show 1 * D.ψ label t x j' + -1 * D.ψ label t x j' = 1 * D.ψ label t x j + -1 * D.ψ label t x j
    ring⟩
  refine sup_drift ((box g.N).filter fun y => fluidMap g.w ST y = true) b δ₀ δ δ'
    (fun m A => lbmStep g.N s.vel (collide S a) (wallBc D g.N g.w lo dx lab J) (m * S.dt) A) ?_ H H' k ?_
    (fun i hi y hy => hH i hi y (Finset.mem_filter.1 hy).1 (Finset.mem_filter.1 hy).2)
    (fun i hi y hy => hH' i hi y (Finset.mem_filter.1 hy).1 (Finset.mem_filter.1 hy).2) _
    (Finset.mem_filter.2 ⟨owned_box g hx, hf⟩) j
  · intro m ρ A A' hA y hy j
    rw [Finset.mem_filter] at hy
    have h1 := lbmStep_bounds (otherValues D ψ₁) g.N g.w lo dx lab (otherValues_wf hD ψ₁) ST J
      (otherValues_onGrid hJ ψ₁) (fun t => free_values (hfree t))
      (fluidBoundary_other D ψ₁ g.N g.w lo dx lab hD ST J hJ hfree hlinks hmeth hreads) hpas
      (fun j => {v : K | |v| ≤ ρ * b j})
      (fun j v hv v' hv' θ h0 h1 => by
        simp only [Set.mem_ofPred_eq] at hv hv' ⊢
        refine (abs_add_le _ _).trans ?_
        rw [abs_mul, abs_mul, abs_of_nonneg h0, abs_of_nonneg (sub_nonneg.2 h1)]
        have e1 := mul_le_mul_of_nonneg_left hv h0
        have e2 := mul_le_mul_of_nonneg_left hv' (sub_nonneg.2 h1)
        linarith)
      (fun j j' h1 h2 => by rw [hsym j j' h1 h2]) (collide S a) (fun f hf => hφ ρ f hf) (m * S.dt) hNpos
      (comb 1 (-1) A A') (fun y hy hyf j => by
        have := hA y (Finset.mem_filter.2 ⟨hy, hyf⟩) j
        show |1 * A y j + -1 * A' y j| ≤ _
        rwa [one_mul, neg_one_mul, ← sub_eq_add_neg]) y hy.1 hy.2 j
    have e : lbmStep g.N s.vel (collide S a) (wallBc (otherValues D ψ₁) g.N g.w lo dx lab J) (m * S.dt)
        (comb 1 (-1) A A') y j =
        lbmStep g.N s.vel (collide S a) (wallBc D g.N g.w lo dx lab J) (m * S.dt) A y j -
          lbmStep g.N s.vel (collide S a) (wallBc D g.N g.w lo dx lab J) (m * S.dt) A' y j := by
      unfold lbmStep
      have e1 : periodic g.N (comb 1 (-1) A A') = comb 1 (-1) (periodic g.N A) (periodic g.N A') := rfl
      rw [e1, hψ₁, wallBc_comb D g.N g.w lo dx lab D.ψ J]
      refine (congrFun (C90_collision S 1 (-1) hS a _ _) j).trans ?_
      rw [one_mul, neg_one_mul, ← sub_eq_add_neg]
      rfl
    rw [e] at h1
    exact h1
  · intro y hy j
    rw [Finset.mem_filter] at hy
    obtain ⟨c, x, hx, rfl⟩ := exists_owned g y hy.1
    have hy' := hy.1
    rw [hN] at hy'
    obtain ⟨c', x', hx', he'⟩ := exists_owned g' _ hy'
    have := hδ₀ c x c' x' hx hx' he'.symm hy.2 j
    rwa [hG c x hx, hG' c' x' hx', he', ← hH0, ← hH0'] at this

theorem energy_add_le (w : Fin n → K) (hw : ∀ j, 0 < w j) (f f' : Fin n → K) (m : Nat) :
    ((m : K) + 1) * energy w (f + f') ≤ ((m : K) + 2) * energy w f + ((m : K) + 1) * ((m : K) + 2) * energy w f' := by
  unfold energy
  rw [Finset.mul_sum, Finset.mul_sum, Finset.mul_sum, ← Finset.sum_add_distrib]
  refine Finset.sum_le_sum fun j _ => ?_
  have h0 : (0 : K) ≤ m := Nat.cast_nonneg m
  have h : ((m : K) + 1) * (f j + f' j) ^ 2 ≤ ((m : K) + 2) * f j ^ 2 + ((m : K) + 1) * ((m : K) + 2) * f' j ^ 2 := by
    nlinarith [sq_nonneg (f j - ((m : K) + 1) * f' j)]
  calc _ = ((m : K) + 1) * (f j + f' j) ^ 2 / w j := by simp only [Pi.add_apply]; ring
    _ ≤ (((m : K) + 2) * f j ^ 2 + ((m : K) + 1) * ((m : K) + 2) * f' j ^ 2) / w j :=
        div_le_div_of_nonneg_right h (hw j).le
    _ = _ := by ring

/-- **C101, energy.** The dissipative schemes of C98, in a domain without holes with bounce-back or anti-bounce-back on
all the walls and obstacles (arbitrary imposed values), or periodic: a run disturbed in each step and each fluid cell by
populations of energy at most `η`, and the exact run from the same initial values. After `k` steps the energy of their
difference is at most `k ^ 2` times the number of fluid cells times `η`. -/
theorem C101_energy (hdim : dim ≤ 3) {s : Sten dim} (D : WallData K dim s) (lo : Fin dim → K) (dx : K)
    (lab : Fin dim → Bool → Int) (hD : D.WF lab) (g : Grid dim)
    (ST : Domain.State K dim s.nu) (J : List (Method dim × List (Entry K dim s.ns)))
    (hJ : OnGrid D (boxGrid g.N g.w lo dx lab s) ST J)
    (hfree : ∀ t, Free s (flat s (withValues s (boxGrid g.N g.w lo dx lab s) D.ψ J t)))
    (hseal : Sealed g.N g.w ST) (hmeth : AllMethods D) (hreads : ReadsFluid D g.N g.w lo dx lab ST J)
    (hrefl : Reflecting D)
    (S : Kernel K s.ns nc d) (hfront : ∀ j, (S.consm j : Nat) < nc) (hEQ : ∀ j w, S.EQ (S.consm j) w = w j)
    (hM : S.M * S.invM = 1) (hS : ∀ i, S.source i = none) (hrel : S.relVel = none) (a : Algo)
    (ω : Fin s.ns → K) (heven : Even ω) (E : Matrix (Fin s.ns) (Fin nc) K) (b r : Fin s.ns → K)
    (hdis : Dissipative S ω E b r)
    (Q : Proc g → Setup K s.ns nc d dim) (hQ : FluidRun D g lo dx lab S a Q) (η : K)
    (σ₀ τ₀ : Proc g → Simu K s.ns d dim) (h0 : ∀ c, (σ₀ c).Start (Q c)) (h0' : ∀ c, (τ₀ c).Start (Q c))
    (hsame : ∀ c x, Owned (size g c) g.w x → (σ₀ c).arr x = (τ₀ c).arr x)
    (k : Nat) (σ τ : Proc g → Simu K s.ns d dim)
    (hr : ERun g Q (fluidMap g.w ST) (fun e r => energy ω (r - e) ≤ η) σ₀ k σ) (hr' : PRun g Q τ₀ k τ) :
    fluidEnergy ST g ω σ τ ≤ (k : K) ^ 2 *
      ((∑ c : Proc g, ∑ x ∈ inner (size g c) g.w with fluidMap g.w ST (globalPos (first g c) g.w x) = true, 1) * η) := by
  have hown : ∀ c x, x ∈ inner (size g c) g.w → Owned (size g c) g.w x := by
    intro c x
    simp [inner, Owned]
  have hlinks : AllLinks g.N g.w ST := by
    intro y hy hyf u
    by_cases h : Open (ST.link u (fun i => y i + g.w i)).flag
    · exact Or.inl (hseal y hy hyf u (s.usym u) (hD.sten.usym u) h).1
    · exact Or.inr h
  obtain ⟨G, hG⟩ := C15_global_array_exists g fun c => (σ₀ c).arr
  have hfb := fluidBoundary_walls D g.N g.w lo dx lab hD ST J hJ hfree hlinks hmeth hreads
  have hsb := sameBoundary_walls D g lo dx lab hD Q hQ.walls ST J hJ hfree
  obtain ⟨-, H, hH0, hH, hk⟩ := disturbed_global hdim g hQ.walls.large S hfront s.vel a _ Q
    (hQ.uniform hD ST hJ.built) _ hsb hfb _ σ₀ h0 G (fun c x hx _ => hG c x hx) k σ hr
  obtain ⟨_, hk'⟩ := C73_fluid_cells hdim g hQ.walls.large S hfront s.vel a _ Q (hQ.uniform hD ST hJ.built) _
    hsb hfb τ₀ h0' G (fun c x hx _ => (hsame c x hx).symm.trans (hG c x hx)) k τ hr'
  set X := fun m => lbmRun g.N s.vel (collide S a) (wallBc D g.N g.w lo dx lab J) S.dt G m with hX
  set F := (box g.N).filter fun y => fluidMap g.w ST y = true with hF
  have hfl : ∀ h : Cell dim → K, ∑ c : Proc g, ∑ x ∈ inner (size g c) g.w with
      fluidMap g.w ST (globalPos (first g c) g.w x) = true, h (globalPos (first g c) g.w x) = ∑ y ∈ F, h y :=
    sum_fluid g (fluidMap g.w ST)
  have e1 : fluidEnergy ST g ω σ τ = ∑ y ∈ F, energy ω (H k y - X k y) := by
    rw [← hfl fun y => energy ω (H k y - X k y)]
    unfold fluidEnergy
    refine Finset.sum_congr rfl fun c _ => Finset.sum_congr rfl fun x hx => ?_
    rw [Finset.mem_filter] at hx
    rw [hk c x (hown c x hx.1) hx.2, hk' c x (hown c x hx.1) hx.2]
  rw [e1, hfl fun _ => (1 : K)]
  have hcard : (∑ _y ∈ F, (1 : K)) * η = ∑ _y ∈ F, η := by rw [Finset.sum_mul, one_mul]
  rw [hcard]
  set Z := ∑ _y ∈ F, η with hZ
  have main : ∀ m ≤ k, ∑ y ∈ F, energy ω (H m y - X m y) ≤ (m : K) ^ 2 * Z := by
    intro m
    induction m with
    | zero =>
      intro _
      rw [hH0]
      simp [hX, lbmRun, energy]
    | succ m ih =>
      intro hm
      have h1 := ih (by omega)
      set st := lbmStep g.N s.vel (collide S a) (wallBc D g.N g.w lo dx lab J) (m * S.dt) with hst
      have hXs : X (m + 1) = st (X m) := rfl
      have h2 : ∑ y ∈ F, energy ω (st (H m) y - st (X m) y) ≤ (m : K) ^ 2 * Z :=
        (le_of_le_of_eq (Finset.sum_le_sum fun y _ => C98_collision S hEQ hM hS hrel a ω E b r hdis _ _)
          (energy_walls hD hJ hfree hmeth hrefl hseal ω heven (m * S.dt) _ _)).trans h1
      have h3 : ∑ y ∈ F, energy ω (H (m + 1) y - st (H m) y) ≤ Z :=
        Finset.sum_le_sum fun y hy => by
          rw [Finset.mem_filter] at hy
          exact hH m (by omega) y hy.1 hy.2
      rw [hXs]
      rcases Nat.eq_zero_or_pos m with h | h
      · subst h
        have h4 : ∑ y ∈ F, energy ω (st (H 0) y - st (X 0) y) = 0 := by
          have : H 0 = X 0 := by rw [hH0]; rfl
          rw [this]
          simp [energy]
        have h5 : ∀ y ∈ F, energy ω (H (0 + 1) y - st (X 0) y) = energy ω (H (0 + 1) y - st (H 0) y) := by
          intro y _
          have : H 0 = X 0 := by rw [hH0]; rfl
          rw [this]
        rw [Finset.sum_congr rfl h5]
        simpa using h3
      · obtain ⟨q, rfl⟩ : ∃ q, m = q + 1 := ⟨m - 1, by omega⟩
        have h6 : ((q : K) + 1) * ∑ y ∈ F, energy ω (H (q + 1 + 1) y - st (X (q + 1)) y) ≤
            ((q : K) + 2) * ∑ y ∈ F, energy ω (st (H (q + 1)) y - st (X (q + 1)) y) +
            ((q : K) + 1) * ((q : K) + 2) * ∑ y ∈ F, energy ω (H (q + 1 + 1) y - st (H (q + 1)) y) := by
          rw [Finset.mul_sum, Finset.mul_sum, Finset.mul_sum, ← Finset.sum_add_distrib]
          refine Finset.sum_le_sum fun y _ => ?_
          have := energy_add_le ω hdis.pos (st (H (q + 1)) y - st (X (q + 1)) y)
            (H (q + 1 + 1) y - st (H (q + 1)) y) q
          convert this using 3
          abel
        have hq : (0 : K) ≤ q := Nat.cast_nonneg q
        have h7 : ((q : K) + 2) * ∑ y ∈ F, energy ω (st (H (q + 1)) y - st (X (q + 1)) y) ≤
            ((q : K) + 2) * (((q + 1 : Nat) : K) ^ 2 * Z) := mul_le_mul_of_nonneg_left h2 (by linarith)
        have h8 : ((q : K) + 1) * ((q : K) + 2) * ∑ y ∈ F, energy ω (H (q + 1 + 1) y - st (H (q + 1)) y) ≤
            ((q : K) + 1) * ((q : K) + 2) * Z := mul_le_mul_of_nonneg_left h3 (by positivity)
        have h9 : ((q : K) + 1) * ∑ y ∈ F, energy ω (H (q + 1 + 1) y - st (X (q + 1)) y) ≤
            ((q : K) + 1) * (((q + 1 + 1 : Nat) : K) ^ 2 * Z) := by
          refine h6.trans ((add_le_add h7 h8).trans_eq ?_)
          push_cast; ring
        exact le_of_mul_le_mul_left h9 (by linarith)
  exact main k le_rfl

/-- Disturbed runs of any length exist, when every result of a collision has a disturbed value; the populations may be
kept in sets `I j`. -/
theorem C101_run_exists (hdim : dim ≤ 3) (g : Grid dim) (hlarge : ∀ c i, g.w i ≤ size g c i)
    (S : Kernel K n nc d) (hfront : ∀ j, (S.consm j : Nat) < nc) (vel : Fin n → Cell dim) (a : Algo)
    (fl : Cell dim → Bool) (Q : Proc g → Setup K n nc d dim) (hQ : UniformFluid g S vel a fl Q)
    (bc : K → Arr K n dim → Arr K n dim) (hbc : SameBoundary g vel Q bc) (hfl : FluidBoundary g.N vel fl bc)
    (R : (Fin n → K) → (Fin n → K) → Prop) (I : Fin n → Set K)
    (hbcI : ∀ t A, (∀ y ∈ box g.N, fl y = true → ∀ j, A y j ∈ I j) → ∀ y ∈ box g.N, fl y = true → ∀ j,
      bc t (periodic g.N A) (fun i => y i - vel j i) j ∈ I j)
    (hR : ∀ p : Fin n → K, (∀ j, p j ∈ I j) → ∃ r : Fin n → K, (∀ j, r j ∈ I j) ∧ R (collide S a p) r)
    (σ₀ : Proc g → Simu K n d dim) (h0 : ∀ c, (σ₀ c).Start (Q c))
    (h0I : ∀ c x, Owned (size g c) g.w x → fl (globalPos (first g c) g.w x) = true → ∀ j, (σ₀ c).arr x j ∈ I j)
    (k : Nat) :
    ∃ σ, ERun g Q fl R σ₀ k σ ∧
      ∀ c x, Owned (size g c) g.w x → fl (globalPos (first g c) g.w x) = true → ∀ j, (σ c).arr x j ∈ I j := by
  classical
  induction k with
  | zero => exact ⟨σ₀, .init, h0I⟩
  | succ k ih =>
    obtain ⟨σ, hr, hI⟩ := ih
    obtain ⟨G, hG⟩ := C15_global_array_exists g fun c => (σ₀ c).arr
    obtain ⟨h1, H, -, -, hH⟩ := disturbed_global hdim g hlarge S hfront vel a fl Q hQ bc hbc hfl R σ₀ h0 G
      (fun c x hx _ => hG c x hx) k σ hr
    obtain ⟨e, s, _, hreach, hdone⟩ := C16_completes hdim g hlarge (fun _ _ _ => False)
      (fun c => (σ c).arr) 0 _ Reach.init
    obtain ⟨-, h2⟩ := step_fluid hdim g hlarge S hfront vel a fl Q hQ bc hbc hfl σ (k * S.dt) k h1 _ hH _ e s hreach hdone
    have hHI : ∀ y ∈ box g.N, fl y = true → ∀ j, H k y j ∈ I j := by
      intro y hy hyf j
      obtain ⟨c, x, hx, rfl⟩ := exists_owned g y hy
      rw [← hH c x hx hyf]
      exact hI c x hx hyf j
    have hex : ∀ y : Cell dim, ∃ r : Fin n → K, y ∈ box g.N → fl y = true →
        (∀ j, r j ∈ I j) ∧ R (lbmStep g.N vel (collide S a) bc (k * S.dt) (H k) y) r := by
      intro y
      by_cases hy : y ∈ box g.N ∧ fl y = true
      · obtain ⟨r, hr⟩ := hR _ (hbcI (k * S.dt) (H k) hHI y hy.1 hy.2)
        exact ⟨r, fun _ _ => hr⟩
      · exact ⟨0, fun h1 h2 => absurd ⟨h1, h2⟩ hy⟩
    choose r hr' using hex
    refine ⟨fun c => (((σ c).apply { Q c with bc := fun t _ => (Q c).bc t (s.arr c) } .step).setF
      fun x => r (globalPos (first g c) g.w x)), .step k σ _ _ e s hr hreach hdone (fun c => ⟨rfl, rfl, rfl, rfl⟩)
      fun c x hx hf => ?_, fun c x hx hf j => ?_⟩
    · rw [h2 c x hx hf]
      have := (hr' _ (owned_box g hx) hf).2
      convert this using 1
      exact congrFun (setF_buf _ _) x
    · have := (hr' _ (owned_box g hx) hf).1 j
      convert this using 1
      exact congrFun (congrFun (setF_buf _ _) x) j

end global

end Pylbm.Sim
