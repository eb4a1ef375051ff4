import Verif.Scheme.Permute
import Verif.Scheme.Relative
/-!
# The collision does not depend on the order of the moments and of the velocities (C100)
-/
namespace Pylbm.Scheme
open Matrix SchemeSpec
set_option linter.unusedSectionVars false

section
variable {K : Type} [Field K] {n nc d : Nat}

/-! ## Specification -/

/-- The same scheme written in another order: the moment `a` of the second is the moment `p a` of the first, its
distribution function `b` is the distribution function `τ b` of the first, and its `j`-th conserved moment is the
`κ j`-th one of the first. -/
structure Reordered (D D' : Data K n nc d) (p τ : Equiv.Perm (Fin n)) (κ : Equiv.Perm (Fin nc)) : Prop where
  M : ∀ a b, D'.M a b = D.M (p a) (τ b)
  invM : ∀ b a, D'.invM b a = D.invM (τ b) (p a)
  Tu : ∀ u a b, D'.Tu u a b = D.Tu u (p a) (p b)
  Tmu : ∀ u a b, D'.Tmu u a b = D.Tmu u (p a) (p b)
  EQ : ∀ a w, D'.EQ a (fun j => w (κ j)) = D.EQ (p a) w
  s : ∀ a w, D'.s a (fun j => w (κ j)) = D.s (p a) w
  consm : ∀ j, p (D'.consm j) = D.consm (κ j)

/-- The same for the data of the kernels: same time step, same relative velocity and same sources. -/
structure SameScheme (S S' : Kernel K n nc d) (p τ : Equiv.Perm (Fin n)) (κ : Equiv.Perm (Fin nc)) : Prop extends
    Reordered S.toData S'.toData p τ κ where
  dt : S'.dt = S.dt
  noRel : S.relVel = none ↔ S'.relVel = none
  rel : ∀ v v', S.relVel = some v → S'.relVel = some v' → ∀ w, v' (fun j => w (κ j)) = v w
  noSource : ∀ a, S.source (p a) = none ↔ S'.source a = none
  source : ∀ a r r', S.source (p a) = some r → S'.source a = some r' → ∀ m : Fin n → K, r' (fun b => m (p b)) = r m

/-! ## Lemmas -/

variable {D D' : Data K n nc d} {p τ : Equiv.Perm (Fin n)} {κ : Equiv.Perm (Fin nc)}

theorem Reordered.moments (h : Reordered D D' p τ κ) (f : Fin n → K) :
    D'.M *ᵥ (fun b => f (τ b)) = fun a => (D.M *ᵥ f) (p a) := by
  funext a
  simp only [Matrix.mulVec, dotProduct, h.M]
  exact Equiv.sum_comp τ fun b => D.M (p a) b * f b

theorem Reordered.populations (h : Reordered D D' p τ κ) (m : Fin n → K) :
    D'.invM *ᵥ (fun a => m (p a)) = fun b => (D.invM *ᵥ m) (τ b) := by
  funext b
  simp only [Matrix.mulVec, dotProduct, h.invM]
  exact Equiv.sum_comp p fun a => D.invM (τ b) a * m a

theorem Reordered.frame (h : Reordered D D' p τ κ) (u : Fin d → K) (m : Fin n → K) :
    D'.Tu u *ᵥ (fun a => m (p a)) = fun a => (D.Tu u *ᵥ m) (p a) := by
  funext b
  simp only [Matrix.mulVec, dotProduct, h.Tu]
  exact Equiv.sum_comp p fun a => D.Tu u (p b) a * m a

theorem Reordered.unframe (h : Reordered D D' p τ κ) (u : Fin d → K) (m : Fin n → K) :
    D'.Tmu u *ᵥ (fun a => m (p a)) = fun a => (D.Tmu u *ᵥ m) (p a) := by
  funext b
  simp only [Matrix.mulVec, dotProduct, h.Tmu]
  exact Equiv.sum_comp p fun a => D.Tmu u (p b) a * m a

theorem Reordered.conserved (h : Reordered D D' p τ κ) (m : Fin n → K) :
    (fun a => m (p a)) ∘ D'.consm = fun j => (m ∘ D.consm) (κ j) := by
  funext j
  simp only [Function.comp_apply, h.consm]

theorem Reordered.relax (h : Reordered D D' p τ κ) (m : Fin n → K) :
    relaxed D'.consm D'.EQ D'.s (fun a => m (p a)) = fun a => relaxed D.consm D.EQ D.s m (p a) := by
  funext a
  unfold relaxed
  rw [h.conserved, h.EQ, h.s]

theorem Reordered.eq_conserved (h : Reordered D D' p τ κ) (hEQ : ∀ j w, D.EQ (D.consm j) w = w j) (j : Fin nc)
    (w : Fin nc → K) : D'.EQ (D'.consm j) w = w j := by
  have := h.EQ (D'.consm j) (fun i => w (κ.symm i))
  simp only [Equiv.symm_apply_apply] at this
  rw [this, h.consm, hEQ, Equiv.symm_apply_apply]

theorem SameScheme.half {S S' : Kernel K n nc d} (h : SameScheme S S' p τ κ) (m : Fin n → K) :
    euler S'.dt S'.source (fun a => m (p a)) = fun a => euler S.dt S.source m (p a) := by
  funext a
  unfold euler
  cases h1 : S.source (p a) with
  | none => rw [(h.noSource a).1 h1]
  | some r =>
    cases h2 : S'.source a with
    | none => rw [(h.noSource a).2 h2] at h1; exact absurd h1 (by simp)
    | some r' => simp only [h.source a r r' h1 h2, h.dt]

/-! ## Properties -/

/-- **C100, construction of the scheme.** Two schemes given in different orders (moments, velocities, conserved moments)
are still the same scheme up to the order after the constructor has put the conserved moments in front, if no conserved
moment is before its position in the list of the conserved moments (C36). -/
theorem C100_construction (h : nc ≤ n) (D D' : Data K n nc d) (p τ : Equiv.Perm (Fin n)) (κ : Equiv.Perm (Fin nc))
    (hR : Reordered D D' p τ κ) (hinj : Function.Injective D.consm)
    (hc : ∀ j : Fin nc, (j : Nat) ≤ (D.consm j : Nat)) (hc' : ∀ j : Fin nc, (j : Nat) ≤ (D'.consm j : Nat)) :
    ∃ q, Reordered (D.permute h) (D'.permute h) q τ κ := by
  have hinj' : Function.Injective D'.consm := by
    intro i j hij
    have := congrArg p hij
    rw [hR.consm, hR.consm] at this
    exact κ.injective (hinj this)
  have hr := (rho_front_iff h D.consm hinj).2 hc
  have hr' := (rho_front_iff h D'.consm hinj').2 hc'
  refine ⟨((rho h D'.consm nc).trans p).trans (rho h D.consm nc).symm, ?_⟩
  have e : ∀ a, rho h D.consm nc ((((rho h D'.consm nc).trans p).trans (rho h D.consm nc).symm) a) =
      p (rho h D'.consm nc a) := fun a => by simp
  rw [permute_eq, permute_eq]
  constructor <;> simp only [Matrix.of_apply, Function.comp_apply, e]
  · exact fun a b => hR.M _ _
  · exact fun a b => hR.invM _ _
  · exact fun u a b => hR.Tu _ _ _
  · exact fun u a b => hR.Tmu _ _ _
  · exact fun a w => hR.EQ _ _
  · exact fun a w => hR.s _ _
  · intro j
    simp only [Equiv.trans_apply]
    rw [Equiv.symm_apply_eq, hr', hr, hR.consm]

/-- **C100, moments.** The populations in the other order have the same moments, and the conserved moments found by
their symbols are the same. -/
theorem C100_moments (D D' : Data K n nc d) (p τ : Equiv.Perm (Fin n)) (κ : Equiv.Perm (Fin nc))
    (hR : Reordered D D' p τ κ) (f : Fin n → K) :
    (∀ a, (D'.M *ᵥ (f ∘ τ)) a = (D.M *ᵥ f) (p a)) ∧
    ∀ j, (D'.M *ᵥ (f ∘ τ)) (D'.consm j) = (D.M *ᵥ f) (D.consm (κ j)) := by
  have := hR.moments f
  refine ⟨fun a => congrFun this a, fun j => ?_⟩
  rw [← hR.consm]
  exact congrFun this _

/-- **C100, collision (partial).** Without relative velocity, the step at one cell commutes with the change of order, for
both algorithms, with sources which do not use a moment already updated. What is missing is false: see
`C100_sources_negation`; for the relative velocity `C100_relative_partial` and `C100_relative_negation`. -/
theorem C100_collision_partial (S S' : Kernel K n nc d) (p τ : Equiv.Perm (Fin n)) (κ : Equiv.Perm (Fin nc))
    (hR : SameScheme S S' p τ κ) (hEQ : ∀ j w, S.EQ (S.consm j) w = w j) (hT : Triangular S.source)
    (hT' : Triangular S'.source) (f : Fin n → K) (x x' : Local K n d) :
    (S'.run (f ∘ τ) x' (pullStep n nc d false)).fnew = (S.run f x (pullStep n nc d false)).fnew ∘ τ ∧
    (S'.run (f ∘ τ) x' (baseStep n nc d false)).fnew = (S.run f x (baseStep n nc d false)).fnew ∘ τ := by
  have hEQ' := hR.toReordered.eq_conserved hEQ
  have key : sourceCollision S'.M S'.invM S'.consm S'.EQ S'.s S'.dt S'.source (f ∘ τ) =
      sourceCollision S.M S.invM S.consm S.EQ S.s S.dt S.source f ∘ τ := by
    unfold sourceCollision
    rw [show f ∘ τ = fun b => f (τ b) from rfl, hR.moments, hR.half, hR.relax, hR.half, hR.populations]
    rfl
  rw [(C45_step_partial S' hEQ' hT' _ _).1, (C45_step_partial S' hEQ' hT' _ _).2, (C45_step_partial S hEQ hT _ _).1,
    (C45_step_partial S hEQ hT _ _).2]
  exact ⟨key, key⟩

/-- **C100, relative velocity (partial).** The same with a relative velocity, for the Pull algorithm without sources, when
the relaxation parameters of the conserved moments are 0. What is missing is false: see `C100_relative_negation`. -/
theorem C100_relative_partial (S S' : Kernel K n nc d) (p τ : Equiv.Perm (Fin n)) (κ : Equiv.Perm (Fin nc))
    (hR : SameScheme S S' p τ κ) (hpos : ∀ j, (S.consm j : Nat) = j) (hpos' : ∀ j, (S'.consm j : Nat) = j)
    (hv : S.relVel ≠ none) (hs : ∀ j w, S.s (S.consm j) w = 0) (hS : ∀ i, S.source i = none)
    (f : Fin n → K) (x x' : Local K n d) :
    (S'.run (f ∘ τ) x' (pullStep n nc d true)).fnew = (S.run f x (pullStep n nc d true)).fnew ∘ τ := by
  obtain ⟨v, hv1⟩ := Option.ne_none_iff_exists'.1 hv
  obtain ⟨v', hv2⟩ := Option.ne_none_iff_exists'.1 (fun e => hv (hR.noRel.2 e))
  have hs' : ∀ j w, S'.s (S'.consm j) w = 0 := by
    intro j w
    have := hR.s (S'.consm j) (fun i => w (κ.symm i))
    simp only [Equiv.symm_apply_apply] at this
    rw [this, hR.consm, hs]
  have hS' : ∀ i, S'.source i = none := fun i => (hR.noSource i).1 (hS _)
  rw [C46_frame_partial S hpos v hv1 hs hS, C46_frame_partial S' hpos' v' hv2 hs' hS']
  unfold relativeCollision
  have hw : (fun j => (S'.M *ᵥ (f ∘ τ)) (S'.consm j)) = fun j => (fun i => (S.M *ᵥ f) (S.consm i)) (κ j) := by
    funext j
    exact (C100_moments _ _ p τ κ hR.toReordered f).2 j
  have hEQ : (fun a => S'.EQ a fun j => (fun i => (S.M *ᵥ f) (S.consm i)) (κ j)) =
      fun a => (fun b => S.EQ b fun i => (S.M *ᵥ f) (S.consm i)) (p a) := by
    funext a
    exact hR.EQ a fun i => (S.M *ᵥ f) (S.consm i)
  simp only [hw, hR.rel v v' hv1 hv2 fun i => (S.M *ᵥ f) (S.consm i)]
  rw [show f ∘ τ = fun b => f (τ b) from rfl, hR.moments, hR.frame, hEQ,
    hR.frame _ fun b => S.EQ b fun i => (S.M *ᵥ f) (S.consm i), ← Matrix.mulVec_mulVec,
    ← Matrix.mulVec_mulVec]
  have hs2 : ∀ a, S'.s a (fun j => (S.M *ᵥ f) (S.consm (κ j))) = S.s (p a) fun i => (S.M *ᵥ f) (S.consm i) :=
    fun a => hR.s a fun i => (S.M *ᵥ f) (S.consm i)
  simp only [hs2]
  rw [hR.unframe _ fun b => (1 - S.s b fun i => (S.M *ᵥ f) (S.consm i)) *
        (S.Tu (v fun i => (S.M *ᵥ f) (S.consm i)) *ᵥ (S.M *ᵥ f)) b + (S.s b fun i => (S.M *ᵥ f) (S.consm i)) *
        (S.Tu (v fun i => (S.M *ᵥ f) (S.consm i)) *ᵥ fun b => S.EQ b fun i => (S.M *ᵥ f) (S.consm i)) b,
    hR.populations]
  rfl

end

/-! ## Order matters -/

/-- D1Q3 with polynomials `1, X, X²`, conserved moments `rho, q`. -/
def d1q3flow : Data ℚ 3 2 0 where
  M := !![1, 1, 1; 0, 1, -1; 0, 1, 1]
  invM := !![1, 0, -1; 0, 1 / 2, 1 / 2; 0, -1 / 2, 1 / 2]
  Tu := fun _ => 1
  Tmu := fun _ => 1
  EQ := ![fun w => w 0, fun w => w 1, fun w => w 0 / 3 + w 1 ^ 2]
  s := ![fun _ => 0, fun _ => 0, fun _ => 3 / 2]
  consm := ![0, 1]

/-- The same scheme with the conserved moments in the order `q, rho`. -/
def d1q3flow' : Data ℚ 3 2 0 := { d1q3flow with
  EQ := ![fun w => w 1, fun w => w 0, fun w => w 1 / 3 + w 0 ^ 2]
  consm := ![1, 0] }

/-- **C100 is false for the order of the conserved moments**: the same scheme, with the conserved moments listed as
`[rho, q]` or `[q, rho]`, has two different collisions. -/
theorem C100_conserved_negation : Reordered d1q3flow d1q3flow' 1 1 (Equiv.swap 0 1) ∧
    ∃ f, collision (d1q3flow'.permute (by omega)).M (d1q3flow'.permute (by omega)).invM
        (d1q3flow'.permute (by omega)).consm (d1q3flow'.permute (by omega)).EQ (d1q3flow'.permute (by omega)).s f ≠
      collision (d1q3flow.permute (by omega)).M (d1q3flow.permute (by omega)).invM
        (d1q3flow.permute (by omega)).consm (d1q3flow.permute (by omega)).EQ (d1q3flow.permute (by omega)).s f := by
  refine ⟨⟨fun _ _ => rfl, fun _ _ => rfl, fun _ _ _ => rfl, fun _ _ _ => rfl, fun a w => ?_, fun a w => ?_,
    fun j => ?_⟩, ![1, 2, 0], by decide +kernel⟩
  · fin_cases a <;> rfl
  · fin_cases a <;> rfl
  · fin_cases j <;> rfl

/-- **C100 is false for coupled sources**: with the moments listed in the other order, the step of the same scheme
with the same sources has another result. -/
theorem C100_sources_negation : ∃ S' : Kernel ℚ 2 2 0,
    SameScheme rotation S' (Equiv.swap 0 1) (Equiv.swap 0 1) (Equiv.swap 0 1) ∧
    (∀ j w, rotation.EQ (rotation.consm j) w = w j) ∧ ∃ (f : Fin 2 → ℚ) (x : Local ℚ 2 0),
    (S'.run (f ∘ Equiv.swap 0 1) x (pullStep 2 2 0 false)).fnew ≠
      (rotation.run f x (pullStep 2 2 0 false)).fnew ∘ Equiv.swap 0 1 := by
  refine ⟨{ rotation with source := ![some fun m => -m 1, some fun m => m 0] },
    ⟨⟨fun a b => ?_, fun a b => ?_, fun u a b => ?_, fun u a b => ?_, fun _ _ => rfl, fun _ _ => rfl, fun _ => rfl⟩,
      rfl, Iff.rfl, fun v v' h => absurd h (by simp [rotation]), fun a => ?_, fun a r r' h h' m => ?_⟩,
    fun _ _ => rfl, ![1, 1], ⟨0, 0, 0⟩, by decide +kernel⟩
  · fin_cases a <;> fin_cases b <;> rfl
  · fin_cases a <;> fin_cases b <;> rfl
  · fin_cases a <;> fin_cases b <;> rfl
  · fin_cases a <;> fin_cases b <;> rfl
  · fin_cases a <;> simp [rotation]
  · fin_cases a <;> simp [rotation] at h h' <;> simp [← h, ← h']

/-- D1Q4 with polynomials `1, X, X², X³`, conserved moments `rho, q, E`, relative velocity 1 and relaxation parameters
1. -/
def d1q4rel : Kernel ℚ 4 3 1 where
  M := !![1, 1, 1, 1; 0, 1, -1, 2; 0, 1, 1, 4; 0, 1, -1, 8]
  invM := !![1, -1 / 2, -1, 1 / 2; 0, 1, 1 / 2, -1 / 2; 0, -1 / 3, 1 / 2, -1 / 6; 0, -1 / 6, 0, 1 / 6]
  Tu := fun u => !![1, 0, 0, 0; -u 0, 1, 0, 0; u 0 ^ 2, -2 * u 0, 1, 0; -u 0 ^ 3, 3 * u 0 ^ 2, -3 * u 0, 1]
  Tmu := fun u => !![1, 0, 0, 0; u 0, 1, 0, 0; u 0 ^ 2, 2 * u 0, 1, 0; u 0 ^ 3, 3 * u 0 ^ 2, 3 * u 0, 1]
  EQ := ![fun w => w 0, fun w => w 1, fun w => w 2, fun w => w 1]
  s := fun _ _ => 1
  consm := ![0, 1, 2]
  relVel := some fun _ _ => 1
  source := fun _ => none
  dt := 1

/-- The same scheme with the moments and the conserved moments in the order `rho, E, q`. -/
def d1q4rel' : Kernel ℚ 4 3 1 where
  M := Matrix.of fun a b => d1q4rel.M (Equiv.swap 1 2 a) b
  invM := Matrix.of fun b a => d1q4rel.invM b (Equiv.swap 1 2 a)
  Tu := fun u => Matrix.of fun a b => d1q4rel.Tu u (Equiv.swap 1 2 a) (Equiv.swap 1 2 b)
  Tmu := fun u => Matrix.of fun a b => d1q4rel.Tmu u (Equiv.swap 1 2 a) (Equiv.swap 1 2 b)
  EQ := fun a w => d1q4rel.EQ (Equiv.swap 1 2 a) fun j => w (Equiv.swap 1 2 j)
  s := fun _ _ => 1
  consm := ![0, 1, 2]
  relVel := some fun _ _ => 1
  source := fun _ => none
  dt := 1

/-- **C100 is false with a relative velocity**: when the relaxation parameters of the conserved moments are not 0, the
order of the moments changes the result (the conserved moments are in front and in the same order as in the list in both
cases). -/
theorem C100_relative_negation : SameScheme d1q4rel d1q4rel' (Equiv.swap 1 2) 1 (Equiv.swap 1 2) ∧
    (∀ u, d1q4rel.Tu u * d1q4rel.Tmu u = 1) ∧ d1q4rel.M * d1q4rel.invM = 1 ∧
    (∀ j, (d1q4rel.consm j : Nat) = j) ∧ (∀ j, (d1q4rel'.consm j : Nat) = j) ∧ ∃ (f : Fin 4 → ℚ) (x : Local ℚ 4 1),
    (d1q4rel'.run f x (pullStep 4 3 1 true)).fnew ≠ (d1q4rel.run f x (pullStep 4 3 1 true)).fnew := by
  refine ⟨⟨⟨fun a b => rfl, fun a b => rfl, fun u a b => rfl, fun u a b => rfl, fun a w => ?_, fun _ _ => rfl,
    fun j => ?_⟩, rfl, ?_, ?_, fun _ => Iff.rfl, fun a r r' h => absurd h (by simp [d1q4rel])⟩, fun u => ?_,
    by decide +kernel, by decide, by decide, ![1, 2, 0, 0], ⟨0, 0, 0⟩, by decide +kernel⟩
  · show d1q4rel.EQ (Equiv.swap 1 2 a) (fun j => w (Equiv.swap 1 2 (Equiv.swap 1 2 j))) = _
    simp only [Equiv.swap_apply_self]
  · fin_cases j <;> rfl
  · simp [d1q4rel, d1q4rel']
  · intro v v' h h' w
    simp only [d1q4rel, d1q4rel', Option.some.injEq] at h h'
    rw [← h, ← h']
  · ext i j
    fin_cases i <;> fin_cases j <;> simp [d1q4rel, Matrix.mul_apply, Fin.sum_univ_succ] <;> ring

/-- The order `E, rho, q` of the moments of `d1q3flow`. -/
def cycle3 : Equiv.Perm (Fin 3) := Equiv.swap 0 2 * Equiv.swap 1 2

/-- A case of the positive parts: D1Q3 with the moments `E, rho, q` and the velocities in another order. -/
example : ∃ S S' : Kernel ℚ 3 2 0, SameScheme S S' cycle3 (Equiv.swap 1 2) 1 ∧
    (∀ j w, S.EQ (S.consm j) w = w j) ∧ Triangular S.source ∧ Triangular S'.source ∧ S.M * S.invM = 1 ∧
    Function.Injective S.consm ∧ (∀ j : Fin 2, (j : Nat) ≤ (S.consm j : Nat)) ∧ ∀ j : Fin 2, (j : Nat) ≤ (S'.consm j : Nat) := by
  refine ⟨⟨d1q3flow, none, ![none, some fun m => m 0, none], 1⟩,
    ⟨⟨Matrix.of fun a b => d1q3flow.M (cycle3 a) (Equiv.swap 1 2 b),
      Matrix.of fun b a => d1q3flow.invM (Equiv.swap 1 2 b) (cycle3 a), fun _ => 1, fun _ => 1,
      fun a => d1q3flow.EQ (cycle3 a), fun a => d1q3flow.s (cycle3 a),
      ![1, 2]⟩, none, ![none, none, some fun m => m 1], 1⟩,
    ⟨⟨fun _ _ => rfl, fun _ _ => rfl, fun u a b => ?_, fun u a b => ?_, fun _ _ => rfl, fun _ _ => rfl, fun j => ?_⟩,
      rfl, Iff.rfl, fun v v' h => absurd h (by simp), fun a => ?_, fun a r r' h h' m => ?_⟩, fun j w => ?_, ?_, ?_,
    by decide +kernel, by decide, by decide, by decide⟩
  · fin_cases a <;> fin_cases b <;> rfl
  · fin_cases a <;> fin_cases b <;> rfl
  · fin_cases j <;> rfl
  · fin_cases a <;> decide
  · fin_cases a
    · exact absurd (show (none : Option ((Fin 3 → ℚ) → ℚ)) = some r from h) (by simp)
    · exact absurd (show (none : Option ((Fin 3 → ℚ) → ℚ)) = some r from h) (by simp)
    · obtain rfl := Option.some.inj h
      obtain rfl := Option.some.inj h'
      rfl
  · fin_cases j <;> rfl
  · intro i r hr m m' hm
    fin_cases i <;> simp at hr
    rw [← hr]; exact hm 0 (Or.inr rfl)
  · intro i r hr m m' hm
    fin_cases i <;> simp at hr
    rw [← hr]; exact hm 1 (Or.inr rfl)

end Pylbm.Scheme
