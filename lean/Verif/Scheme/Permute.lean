import Verif.Scheme.Lemmas
import Mathlib.Logic.Equiv.Basic
import Mathlib.Algebra.Group.End
/-!
# C36: conserved moments in front
-/
namespace Pylbm.Scheme
open Matrix SchemeSpec

section perm
variable {K : Type} {n nc d : Nat}

theorem rowSwap_eq {α : Type} (i j : Fin n) (A : Fin n → α) : rowSwap i j A = A ∘ Equiv.swap i j := by
  funext a
  simp only [rowSwap, Function.comp_apply, Equiv.swap_apply_def]
  split_ifs <;> rfl

/-- The permutation done by the first `k` turns of the loop. -/
def rho (h : nc ≤ n) (c : Fin nc → Fin n) (k : Nat) : Equiv.Perm (Fin n) :=
  (((List.finRange nc).take k).map fun j => Equiv.swap (Fin.castLE h j) (c j)).prod

theorem rho_zero (h : nc ≤ n) (c : Fin nc → Fin n) : rho h c 0 = 1 := by simp [rho]

theorem rho_succ (h : nc ≤ n) (c : Fin nc → Fin n) (k : Nat) (hk : k < nc) (a : Fin n) :
    rho h c (k + 1) a = rho h c k (Equiv.swap ⟨k, by omega⟩ (c ⟨k, hk⟩) a) := by
  unfold rho
  rw [List.take_succ_eq_append_getElem (by simpa using hk), List.map_append, List.prod_append]
  simp

/-- A position which is not touched. -/
theorem rho_fixed (h : nc ≤ n) (c : Fin nc → Fin n) (k : Nat) (hk : k ≤ nc) (a : Fin n)
    (ha : k ≤ (a : Nat)) (hc : ∀ t : Fin nc, (t : Nat) < k → c t ≠ a) : rho h c k a = a := by
  induction k with
  | zero => rw [rho_zero]; rfl
  | succ k ih =>
    rw [rho_succ h c k (by omega), Equiv.swap_apply_of_ne_of_ne]
    · exact ih (by omega) (by omega) fun t ht => hc t (by omega)
    · intro e; have := congrArg Fin.val e; simp only at this; omega
    · exact fun e => hc ⟨k, by omega⟩ (by simp) e.symm

theorem rho_front (h : nc ≤ n) (c : Fin nc → Fin n) (hinj : Function.Injective c)
    (hc : ∀ j : Fin nc, (j : Nat) ≤ (c j : Nat)) (k : Nat) (hk : k ≤ nc) (i : Fin nc)
    (hi : (i : Nat) < k) : rho h c k (Fin.castLE h i) = c i := by
  induction k with
  | zero => omega
  | succ k ih =>
    rw [rho_succ h c k (by omega)]
    by_cases hik : (i : Nat) = k
    · have e : (⟨k, by omega⟩ : Fin n) = Fin.castLE h i := Fin.ext hik.symm
      have e' : (⟨k, by omega⟩ : Fin nc) = i := Fin.ext hik.symm
      rw [e, e', Equiv.swap_apply_left]
      apply rho_fixed h c k (by omega)
      · have := hc i; omega
      · intro t ht he
        have := hinj he
        subst this
        omega
    · rw [Equiv.swap_apply_of_ne_of_ne]
      · exact ih (by omega) (by omega)
      · intro e; have := congrArg Fin.val e; simp at this; omega
      · intro e
        have := congrArg Fin.val e
        have h2 := hc ⟨k, by omega⟩
        simp at this h2
        omega

/-- Where a position goes when it is the target of no later turn. -/
theorem rho_chain (h : nc ≤ n) (c : Fin nc → Fin n) (hinj : Function.Injective c) :
    ∀ (x : Nat) (k : Nat) (hk : k ≤ nc) (hx : x < k),
      (∀ t : Fin nc, x < (t : Nat) → (t : Nat) < k → c t ≠ ⟨x, by omega⟩) →
      ∃ q : Fin nc, (q : Nat) ≤ x ∧ rho h c k ⟨x, by omega⟩ = c q := by
  intro x
  induction x using Nat.strong_induction_on with
  | _ x ih =>
    intro k
    induction k with
    | zero => intro _ hx; omega
    | succ k ihk =>
      intro hk hx hno
      rw [rho_succ h c k (by omega)]
      by_cases hxk : x = k
      · subst hxk
        rw [Equiv.swap_apply_left]
        by_cases hy : x ≤ (c ⟨x, by omega⟩ : Nat)
        · refine ⟨⟨x, by omega⟩, le_rfl, ?_⟩
          apply rho_fixed h c x (by omega) _ hy
          intro t ht he
          have := congrArg Fin.val (hinj he)
          simp only at this
          omega
        · push Not at hy
          obtain ⟨q, hq, he⟩ := ih _ hy x (by omega) hy (by
            intro t _ ht he
            have := congrArg Fin.val (hinj he)
            simp only at this
            omega)
          exact ⟨q, by omega, he⟩
      · rw [Equiv.swap_apply_of_ne_of_ne]
        · exact ihk (by omega) (by omega) fun t h1 h2 => hno t h1 (by omega)
        · intro e; have := congrArg Fin.val e; simp only at this; omega
        · exact fun e => hno ⟨k, by omega⟩ (by simp; omega) (by simp) e.symm

theorem rho_front_iff (h : nc ≤ n) (c : Fin nc → Fin n) (hinj : Function.Injective c) :
    (∀ j : Fin nc, rho h c nc (Fin.castLE h j) = c j) ↔ ∀ j : Fin nc, (j : Nat) ≤ (c j : Nat) := by
  constructor
  · intro hr
    by_contra hn
    push Not at hn
    -- the last turn which moves a conserved moment backwards
    obtain ⟨j, hj, hlast⟩ : ∃ j : Fin nc, (c j : Nat) < (j : Nat) ∧
        ∀ t : Fin nc, (j : Nat) < (t : Nat) → (t : Nat) ≤ (c t : Nat) := by
      obtain ⟨j0, hj0⟩ := hn
      let A := (Finset.univ : Finset (Fin nc)).filter fun j => (c j : Nat) < (j : Nat)
      have hA : A.Nonempty := ⟨j0, by simp [A, hj0]⟩
      refine ⟨A.max' hA, ?_, ?_⟩
      · have := A.max'_mem hA
        simpa [A] using this
      · intro t ht
        by_contra hlt
        push Not at hlt
        have := A.le_max' t (by simp [A, hlt])
        have : (t : Nat) ≤ (A.max' hA : Nat) := this
        omega
    have hstep : ∀ k, (j : Nat) < k → k ≤ nc → rho h c k (Fin.castLE h j) = rho h c j (c j) := by
      intro k
      induction k with
      | zero => intro h1; omega
      | succ k ih =>
        intro h1 h2
        rw [rho_succ h c k (by omega)]
        by_cases hk : (j : Nat) = k
        · have e : (⟨k, by omega⟩ : Fin n) = Fin.castLE h j := Fin.ext hk.symm
          have e' : (⟨k, by omega⟩ : Fin nc) = j := Fin.ext hk.symm
          rw [e, e', Equiv.swap_apply_left, ← hk]
        · rw [Equiv.swap_apply_of_ne_of_ne, ih (by omega) (by omega)]
          · intro e; have := congrArg Fin.val e; simp at this; omega
          · intro e
            have := congrArg Fin.val e
            have h3 := hlast ⟨k, by omega⟩ (by simp; omega)
            simp at this h3
            omega
    have h1 := hr j
    rw [hstep nc j.2 le_rfl] at h1
    obtain ⟨q, hq, he⟩ := rho_chain h c hinj (c j) j (by omega) hj (by
      intro t _ ht he
      have := hinj he
      subst this
      omega)
    have : c j = c q := by rw [← he]; exact h1.symm
    have := hinj this
    subst this
    omega
  · intro hc j
    exact rho_front h c hinj hc nc le_rfl j j.2

/-- The fields after `k` turns. -/
theorem foldl_swap (h : nc ≤ n) (D : Data K n nc d) (c : Fin nc → Fin n) (l : List (Fin nc)) :
    let p := (l.map fun j => Equiv.swap (Fin.castLE h j) (c j)).prod
    l.foldl (fun E j => E.swap (Fin.castLE h j) (c j)) D =
      { D with
        EQ := D.EQ ∘ p
        s := D.s ∘ p
        M := Matrix.of fun a => D.M (p a)
        invM := Matrix.of fun a b => D.invM a (p b)
        Tu := fun u => Matrix.of fun a b => D.Tu u (p a) (p b)
        Tmu := fun u => Matrix.of fun a b => D.Tmu u (p a) (p b) } := by
  induction l using List.reverseRecOn with
  | nil => rfl
  | append_singleton l a ih =>
    simp only at ih ⊢
    rw [List.foldl_append, ih]
    simp only [List.foldl_cons, List.foldl_nil, Data.swap, List.map_append, List.prod_append,
      List.map_cons, List.map_nil, List.prod_cons, List.prod_nil, mul_one]
    have r : ∀ {α : Type} (i j : Fin n) (A : Fin n → α) (b : Fin n),
        rowSwap i j A b = A (Equiv.swap i j b) := by
      intro α i j A b; rw [rowSwap_eq]; rfl
    rw [Data.mk.injEq]
    refine ⟨?_, ?_, ?_, ?_, ?_, ?_, rfl⟩
    · ext x y; exact congrFun (r (α := Fin n → K) _ _ _ x) y
    · ext x y; simp only [Matrix.of_apply, colSwap, r]; rfl
    · funext u; ext x y; exact (r _ _ _ y).trans (congrFun (r (α := Fin n → K) _ _ _ x) _)
    · funext u; ext x y; exact (r _ _ _ y).trans (congrFun (r (α := Fin n → K) _ _ _ x) _)
    · funext x; simp only [r]; rfl
    · funext x; simp only [r]; rfl

theorem permute_eq (h : nc ≤ n) (D : Data K n nc d) :
    D.permute h =
      { EQ := D.EQ ∘ rho h D.consm nc
        s := D.s ∘ rho h D.consm nc
        M := Matrix.of fun a => D.M (rho h D.consm nc a)
        invM := Matrix.of fun a b => D.invM a (rho h D.consm nc b)
        Tu := fun u => Matrix.of fun a b => D.Tu u (rho h D.consm nc a) (rho h D.consm nc b)
        Tmu := fun u => Matrix.of fun a b => D.Tmu u (rho h D.consm nc a) (rho h D.consm nc b)
        consm := Fin.castLE h } := by
  unfold Data.permute
  rw [foldl_swap h D D.consm (List.finRange nc)]
  have : rho h D.consm nc =
      ((List.finRange nc).map fun j => Equiv.swap (Fin.castLE h j) (D.consm j)).prod := by
    unfold rho
    rw [List.take_of_length_le (by simp)]
  rw [this]

/-- **C36, first part.** The rows after the reordering are always a rearrangement of the rows of the
user, the same for the moments, the equilibrium, the relaxation parameters, and for the columns of the
inverse. -/
theorem C36_rearrangement (h : nc ≤ n) (D : Data K n nc d) :
    ∃ p : Equiv.Perm (Fin n), ∀ a, (D.permute h).M a = D.M (p a) ∧ (D.permute h).EQ a = D.EQ (p a) ∧
      (D.permute h).s a = D.s (p a) ∧ (∀ b, (D.permute h).invM b a = D.invM b (p a)) ∧
      ∀ u b, (D.permute h).Tu u a b = D.Tu u (p a) (p b) ∧
        (D.permute h).Tmu u a b = D.Tmu u (p a) (p b) := by
  refine ⟨rho h D.consm nc, fun a => ?_⟩
  rw [permute_eq]
  exact ⟨rfl, rfl, rfl, fun _ => rfl, fun _ _ => ⟨rfl, rfl⟩⟩

/-- **C36, exact condition.** The first rows are the rows of the conserved moments in the order of the
user, for all matrices, if and only if the `j`-th conserved moment is not before the position `j`. -/
theorem C36_front_iff (h : nc ≤ n) (c : Fin nc → Fin n) (hinj : Function.Injective c) :
    (∀ D : Data (Fin n → ℤ) n nc d, D.consm = c →
      ∀ j : Fin nc, (D.permute h).M ((D.permute h).consm j) = D.M (c j)) ↔
      ∀ j : Fin nc, (j : Nat) ≤ (c j : Nat) := by
  rw [← rho_front_iff h c hinj]
  constructor
  · intro hD j
    have := hD ⟨Matrix.of fun a _ => Pi.single a 1, 0, fun _ => 0, fun _ => 0, fun _ _ => 0,
      fun _ _ => 0, c⟩ rfl j
    rw [permute_eq] at this
    have h2 := congrFun this (c j)
    simp only [Matrix.of_apply] at h2
    by_contra hne
    have h3 := congrFun h2 (c j)
    rw [Pi.single_eq_same, Pi.single_eq_of_ne (fun e => hne e.symm)] at h3
    simp at h3
  · intro hr D hD j
    subst hD
    rw [permute_eq]
    funext b
    simp only [Matrix.of_apply, hr j]

end perm

section collide
variable {K : Type} [Field K] {n nc d : Nat}

/-- **C36, second part.** When the `j`-th conserved moment is not before the position `j`, the collision
operator on distribution functions is not changed by the reordering, and the first rows are those of
the conserved moments. -/
theorem C36_collision_partial (h : nc ≤ n) (D : Data K n nc d) (hinj : Function.Injective D.consm)
    (hc : ∀ j : Fin nc, (j : Nat) ≤ (D.consm j : Nat)) :
    (∀ j : Fin nc, ((D.permute h).consm j : Nat) = j ∧
      (D.permute h).M ((D.permute h).consm j) = D.M (D.consm j) ∧
      (D.permute h).EQ ((D.permute h).consm j) = D.EQ (D.consm j)) ∧
    collision (D.permute h).M (D.permute h).invM (D.permute h).consm (D.permute h).EQ (D.permute h).s =
      collision D.M D.invM D.consm D.EQ D.s := by
  have hr := (rho_front_iff h D.consm hinj).2 hc
  rw [permute_eq]
  refine ⟨fun j => ⟨rfl, ?_, ?_⟩, ?_⟩
  · funext b; simp only [hr j, Matrix.of_apply]
  · simp only [Function.comp_apply, hr j]
  · funext f a
    have hm : ∀ i, (Matrix.of (fun a => D.M (rho h D.consm nc a)) *ᵥ f) i =
        (D.M *ᵥ f) (rho h D.consm nc i) := fun i => rfl
    have hw : ((Matrix.of (fun a => D.M (rho h D.consm nc a)) *ᵥ f) ∘ Fin.castLE h) =
        (D.M *ᵥ f) ∘ D.consm := by
      funext j
      simp only [Function.comp_apply, hm, hr j]
    simp only [collision, Matrix.mulVec, dotProduct, Matrix.of_apply]
    rw [← Equiv.sum_comp (rho h D.consm nc) (fun b => D.invM a b *
      relaxed D.consm D.EQ D.s (D.M *ᵥ f) b)]
    apply Finset.sum_congr rfl
    intro b _
    congr 1
    simp only [relaxed]
    rw [hw, hm]
    rfl

end collide

/-- **C36 is false for conserved moments given in another order.** Two moments `q = f_1`, `rho = f_0 + f_1`
where the user gives the conserved moments as (`rho` at 1, `q` at 0): the two swaps cancel each other,
and the equilibrium uses `q` for `rho`. -/
theorem C36_order_negation : ∃ D : Data ℚ 2 2 0, Function.Injective D.consm ∧
    (∀ j w, D.EQ (D.consm j) w = w j) ∧
    (D.permute le_rfl).M ((D.permute le_rfl).consm 0) ≠ D.M (D.consm 0) ∧
    ∃ f, collision (D.permute le_rfl).M (D.permute le_rfl).invM (D.permute le_rfl).consm
      (D.permute le_rfl).EQ (D.permute le_rfl).s f ≠ collision D.M D.invM D.consm D.EQ D.s f := by
  refine ⟨⟨!![0, 1; 1, 1], !![-1, 1; 1, 0], fun _ => 1, fun _ => 1, ![fun w => w 1, fun w => w 0],
    fun _ _ => 1, ![1, 0]⟩, by decide, fun j w => by fin_cases j <;> rfl, by decide +kernel, ![1, 2], ?_⟩
  intro hc
  have := congrFun hc 0
  revert this
  decide +kernel

/-- A case for the positive parts: three moments, conserved moments at 1 and 2. -/
example : Function.Injective (![1, 2] : Fin 2 → Fin 3) ∧
    (∀ j : Fin 2, (j : Nat) ≤ ((![1, 2] : Fin 2 → Fin 3) j : Nat)) ∧
    ∀ a : Fin 3, rho (by omega) (![1, 2] : Fin 2 → Fin 3) 2 a = ![1, 2, 0] a := by
  decide +kernel

end Pylbm.Scheme
