import Mathlib.Data.Finset.Card
import Mathlib.Data.Finset.Dedup
import Mathlib.Data.Rat.Defs
/-!
# C47: `recursive_sub` of `pylbm/symbolic.py`
-/

set_option linter.unusedSectionVars false

namespace Pylbm.Symbolic

/-! ## Model -/

/-- SymPy expressions: symbols, numbers and operations (sums and products with many terms are iterated
binary operations).  Simplification: no automatic evaluation (`x - x` is kept). -/
inductive Term (V F : Type)
  | var (x : V)
  | num (q : ℚ)
  | un (f : F) (a : Term V F)
  | bin (f : F) (a b : Term V F)
  deriving DecidableEq

variable {V F : Type} [DecidableEq V] [DecidableEq F]

/-- `expr.subs(x, r)` for a symbol `x`. -/
def sub1 (x : V) (r : Term V F) : Term V F → Term V F
  | .var y => if y = x then r else .var y
  | .num q => .num q
  | .un f a => .un f (sub1 x r a)
  | .bin f a b => .bin f (sub1 x r a) (sub1 x r b)

/-- `expr.subs(replace)`: the pairs one after the other, in the order of the list (for a dictionary in an
order chosen by SymPy, so that all the orders are considered). -/
def Term.subs (replace : List (V × Term V F)) (e : Term V F) : Term V F :=
  replace.foldl (fun e p => sub1 p.1 p.2 e) e

/-- The loop of `recursive_sub`, symbolic.py 278-285, with `fuel` passes left; `expr` is a matrix (a list of
entries), or one expression. -/
def recursiveSubLoop (replace : List (V × Term V F)) : Nat → List (Term V F) → List (Term V F)
  | 0, e => e
  | fuel + 1, e =>
    let new := e.map (Term.subs replace)
    if new = e then new else recursiveSubLoop replace fuel new

/-- `recursive_sub`; `none` is the `UnboundLocalError` for an empty `replace`. -/
def recursiveSub (e : List (Term V F)) (replace : List (V × Term V F)) : Option (List (Term V F)) :=
  if replace = [] then none else some (recursiveSubLoop replace replace.length e)

/-! ## Specification -/

/-- The symbols of an expression. -/
def Term.vars : Term V F → List V
  | .var x => [x]
  | .num _ => []
  | .un _ a => a.vars
  | .bin _ a b => a.vars ++ b.vars

/-- Value of an expression, for values of the symbols and any meaning of the operations. -/
def Term.eval {A : Type} (num : ℚ → A) (un : F → A → A) (bin : F → A → A → A) (ρ : V → A) : Term V F → A
  | .var x => ρ x
  | .num q => num q
  | .un f a => un f (a.eval num un bin ρ)
  | .bin f a b => bin f (a.eval num un bin ρ) (b.eval num un bin ρ)

/-- No cycle in the definitions: some rank decreases from each parameter to the parameters of its
definition. -/
def Acyclic (replace : List (V × Term V F)) : Prop :=
  ∃ rank : V → Nat, ∀ p ∈ replace, ∀ y ∈ p.2.vars, y ∈ replace.map Prod.fst → rank y < rank p.1

/-! ## Proofs -/

theorem vars_sub1 (x : V) (r : Term V F) (e : Term V F) (y : V) (h : y ∈ (sub1 x r e).vars) :
    (y ∈ e.vars ∧ y ≠ x) ∨ (x ∈ e.vars ∧ y ∈ r.vars) := by
  induction e with
  | var z =>
    unfold sub1 at h
    split at h
    · next hz => subst hz; exact Or.inr ⟨by simp [Term.vars], h⟩
    · next hz =>
      simp only [Term.vars, List.mem_singleton] at h ⊢
      subst h; exact Or.inl ⟨rfl, hz⟩
  | num q => simp [sub1, Term.vars] at h
  | un f a ih => exact ih h
  | bin f a b iha ihb =>
    simp only [sub1, Term.vars, List.mem_append] at h ⊢
    rcases h with h | h
    · rcases iha h with h | h
      · exact Or.inl ⟨Or.inl h.1, h.2⟩
      · exact Or.inr ⟨Or.inl h.1, h.2⟩
    · rcases ihb h with h | h
      · exact Or.inl ⟨Or.inr h.1, h.2⟩
      · exact Or.inr ⟨Or.inr h.1, h.2⟩

/-- After a pass over the pairs `l`, a parameter which is present was present and is not the key of a pair
of `l`, or comes from a present parameter with a larger rank. -/
theorem vars_subs (keys : V → Prop) (rank : V → Nat) (l : List (V × Term V F))
    (hr : ∀ p ∈ l, ∀ y ∈ p.2.vars, keys y → rank y < rank p.1) (hk : ∀ p ∈ l, keys p.1)
    (e : Term V F) (y : V) (hy : keys y)
    (h : y ∈ (e.subs l).vars) :
    (y ∈ e.vars ∧ ∀ p ∈ l, p.1 ≠ y) ∨ ∃ x ∈ e.vars, keys x ∧ rank y < rank x := by
  unfold Term.subs at h
  induction l generalizing e with
  | nil => exact Or.inl ⟨h, by simp⟩
  | cons p l ih =>
    rw [List.foldl_cons] at h
    have hp := hr p (by simp)
    rcases ih (fun q hq => hr q (by simp [hq])) (fun q hq => hk q (by simp [hq])) _ h with ⟨h1, h2⟩ | ⟨x, h1, hx, h2⟩
    · rcases vars_sub1 p.1 p.2 e y h1 with ⟨h3, h4⟩ | ⟨h3, h4⟩
      · refine Or.inl ⟨h3, ?_⟩
        intro q hq
        rcases List.mem_cons.1 hq with rfl | hq
        · exact Ne.symm h4
        · exact h2 q hq
      · exact Or.inr ⟨p.1, h3, hk p (by simp), hp y h4 hy⟩
    · rcases vars_sub1 p.1 p.2 e x h1 with ⟨h3, h4⟩ | ⟨h3, h4⟩
      · exact Or.inr ⟨x, h3, hx, h2⟩
      · exact Or.inr ⟨p.1, h3, hk p (by simp), lt_trans h2 (hp x h4 hx)⟩

/-- One pass replaces the parameters by parameters with a smaller rank. -/
theorem pass_rank (rank : V → Nat) (replace : List (V × Term V F))
    (hr : ∀ p ∈ replace, ∀ y ∈ p.2.vars, y ∈ replace.map Prod.fst → rank y < rank p.1)
    (e : Term V F) (y : V) (hy : y ∈ replace.map Prod.fst) (h : y ∈ (e.subs replace).vars) :
    ∃ x ∈ e.vars, x ∈ replace.map Prod.fst ∧ rank y < rank x := by
  rcases vars_subs (fun x => x ∈ replace.map Prod.fst) rank replace hr
    (fun p hp => List.mem_map_of_mem hp) e y hy h with ⟨_, h2⟩ | h
  · obtain ⟨p, hp, rfl⟩ := List.mem_map.1 hy
    exact absurd rfl (h2 p hp)
  · exact h

/-- The parameters with a rank larger than the one of `x`. -/
def above (rank : V → Nat) (replace : List (V × Term V F)) (x : V) : Finset V :=
  (replace.map Prod.fst).toFinset.filter fun y => rank x < rank y

theorem above_lt (rank : V → Nat) (replace : List (V × Term V F)) (x y : V)
    (hy : y ∈ replace.map Prod.fst) (h : rank x < rank y) :
    (above rank replace y).card < (above rank replace x).card := by
  apply Finset.card_lt_card
  rw [Finset.ssubset_iff_of_subset]
  · refine ⟨y, ?_, ?_⟩
    · simp only [above, Finset.mem_filter, List.mem_toFinset]; exact ⟨hy, h⟩
    · simp [above]
  · intro z hz
    simp only [above, Finset.mem_filter] at hz ⊢
    exact ⟨hz.1, lt_trans h hz.2⟩

theorem above_le (rank : V → Nat) (replace : List (V × Term V F)) (x : V)
    (hx : x ∈ replace.map Prod.fst) : (above rank replace x).card < replace.length := by
  have h1 : (above rank replace x).card < (replace.map Prod.fst).toFinset.card := by
    apply Finset.card_lt_card
    unfold above
    rw [Finset.ssubset_iff_of_subset (Finset.filter_subset _ _)]
    exact ⟨x, by simpa using hx, by simp⟩
  have h2 := List.toFinset_card_le (replace.map Prod.fst)
  rw [List.length_map] at h2
  omega

theorem loop_free (rank : V → Nat) (replace : List (V × Term V F))
    (hr : ∀ p ∈ replace, ∀ y ∈ p.2.vars, y ∈ replace.map Prod.fst → rank y < rank p.1)
    (fuel j : Nat) (hj : j + fuel = replace.length) (es : List (Term V F))
    (h : ∀ e ∈ es, ∀ y ∈ e.vars, y ∈ replace.map Prod.fst → j ≤ (above rank replace y).card) :
    ∀ e ∈ recursiveSubLoop replace fuel es, ∀ y ∈ e.vars, y ∉ replace.map Prod.fst := by
  induction fuel generalizing j es with
  | zero =>
    intro e he y hy hk
    have h1 := h e he y hy hk
    have h2 := above_le rank replace y hk
    omega
  | succ fuel ih =>
    have hnext : ∀ e ∈ es.map (Term.subs replace), ∀ y ∈ e.vars, y ∈ replace.map Prod.fst →
        j + 1 ≤ (above rank replace y).card := by
      intro e he y hy hk
      obtain ⟨e0, he0, rfl⟩ := List.mem_map.1 he
      obtain ⟨x, hx, hxk, hlt⟩ := pass_rank rank replace hr e0 y hk hy
      have h1 := h e0 he0 x hx hxk
      have h2 := above_lt rank replace y x hxk hlt
      omega
    simp only [recursiveSubLoop]
    split
    · next heq =>
      -- nothing changes in a pass: then no parameter is present
      intro e he y hy hk
      have key : ∀ N, ∀ e ∈ es, ∀ y ∈ e.vars, y ∈ replace.map Prod.fst →
          N ≤ (above rank replace y).card := by
        intro N
        induction N with
        | zero => intro _ _ _ _ _; exact Nat.zero_le _
        | succ N ihN =>
          intro e he y hy hk
          rw [← heq] at he
          obtain ⟨e0, he0, rfl⟩ := List.mem_map.1 he
          obtain ⟨x, hx, hxk, hlt⟩ := pass_rank rank replace hr e0 y hk hy
          have h1 := ihN e0 he0 x hx hxk
          have h2 := above_lt rank replace y x hxk hlt
          omega
      rw [heq] at he
      have h1 := key replace.length e he y hy hk
      have h2 := above_le rank replace y hk
      omega
    · exact ih (j + 1) (by omega) _ hnext

section eval
variable {A : Type} (num : ℚ → A) (un : F → A → A) (bin : F → A → A → A) (ρ : V → A)

theorem eval_sub1 (x : V) (r e : Term V F) (h : ρ x = r.eval num un bin ρ) :
    (sub1 x r e).eval num un bin ρ = e.eval num un bin ρ := by
  induction e with
  | var y =>
    unfold sub1
    split
    · next hy => subst hy; rw [← h]; rfl
    · rfl
  | num q => rfl
  | un f a ih => simp only [sub1, Term.eval, ih]
  | bin f a b iha ihb => simp only [sub1, Term.eval, iha, ihb]

theorem eval_subs (l : List (V × Term V F)) (e : Term V F)
    (h : ∀ p ∈ l, ρ p.1 = p.2.eval num un bin ρ) :
    (e.subs l).eval num un bin ρ = e.eval num un bin ρ := by
  unfold Term.subs
  induction l generalizing e with
  | nil => rfl
  | cons p l ih =>
    rw [List.foldl_cons, ih _ fun q hq => h q (by simp [hq]), eval_sub1 _ _ _ _ _ _ _ (h p (by simp))]

theorem eval_loop (replace : List (V × Term V F)) (h : ∀ p ∈ replace, ρ p.1 = p.2.eval num un bin ρ)
    (fuel : Nat) (es : List (Term V F)) :
    (recursiveSubLoop replace fuel es).map (Term.eval num un bin ρ) = es.map (Term.eval num un bin ρ) := by
  induction fuel generalizing es with
  | zero => rfl
  | succ fuel ih =>
    have hpass : (es.map (Term.subs replace)).map (Term.eval num un bin ρ) =
        es.map (Term.eval num un bin ρ) := by
      rw [List.map_map]
      apply List.map_congr_left
      intro e _
      exact eval_subs num un bin ρ replace e h
    simp only [recursiveSubLoop]
    split
    · exact hpass
    · rw [ih, hpass]

end eval

theorem loop_length (replace : List (V × Term V F)) (fuel : Nat) (es : List (Term V F)) :
    (recursiveSubLoop replace fuel es).length = es.length := by
  induction fuel generalizing es with
  | zero => rfl
  | succ fuel ih =>
    simp only [recursiveSubLoop]
    split
    · simp
    · rw [ih]; simp

/-- **C47.** For definitions without cycle, in any order and with any number of levels: no parameter is left
in the result of `recursive_sub`, and each entry has the value of the original entry for the values of the
parameters given by their definitions. -/
theorem C47_complete (es : List (Term V F)) (replace : List (V × Term V F)) (hne : replace ≠ [])
    (hac : Acyclic replace) :
    ∃ r, recursiveSub es replace = some r ∧ r.length = es.length ∧
      (∀ e ∈ r, ∀ y ∈ e.vars, y ∉ replace.map Prod.fst) ∧
      ∀ (A : Type) (num : ℚ → A) (un : F → A → A) (bin : F → A → A → A) (ρ : V → A),
        (∀ p ∈ replace, ρ p.1 = p.2.eval num un bin ρ) →
        r.map (Term.eval num un bin ρ) = es.map (Term.eval num un bin ρ) := by
  obtain ⟨rank, hr⟩ := hac
  refine ⟨_, if_neg hne, loop_length _ _ _, ?_, ?_⟩
  · exact loop_free rank replace hr _ 0 (by omega) es fun _ _ _ _ _ => Nat.zero_le _
  · intro A num un bin ρ h
    exact eval_loop num un bin ρ replace h _ es

/-- Values of the parameters as in the hypothesis of C47 always exist: the parameters have a value for
every choice of the values of the other symbols. -/
theorem C47_values_exist (replace : List (V × Term V F)) (hnd : (replace.map Prod.fst).Nodup)
    (hac : Acyclic replace) {A : Type} (num : ℚ → A) (un : F → A → A) (bin : F → A → A → A) (ρ₀ : V → A) :
    ∃ ρ : V → A, (∀ p ∈ replace, ρ p.1 = p.2.eval num un bin ρ) ∧
      ∀ x, x ∉ replace.map Prod.fst → ρ x = ρ₀ x := by
  by_cases hne : replace = []
  · subst hne; exact ⟨ρ₀, by simp, fun _ _ => rfl⟩
  obtain ⟨rank, hr⟩ := hac
  -- the value of a symbol is the value of the completely substituted symbol
  have ev_congr : ∀ (ρ ρ' : V → A) (e : Term V F), (∀ y ∈ e.vars, ρ y = ρ' y) →
      e.eval num un bin ρ = e.eval num un bin ρ' := by
    intro ρ ρ' e
    induction e with
    | var x => intro h; exact h x (by simp [Term.vars])
    | num q => intro _; rfl
    | un f a ih => intro h; simp only [Term.eval]; rw [ih h]
    | bin f a b iha ihb =>
      intro h
      simp only [Term.eval]
      rw [iha fun y hy => h y (by simp [Term.vars, hy]), ihb fun y hy => h y (by simp [Term.vars, hy])]
  -- define the values by levels of the rank
  have lev : ∀ N : Nat, ∃ ρ : V → A, (∀ p ∈ replace, rank p.1 < N → ρ p.1 = p.2.eval num un bin ρ) ∧
      ∀ x, x ∉ replace.map Prod.fst → ρ x = ρ₀ x := by
    intro N
    induction N with
    | zero => exact ⟨ρ₀, fun _ _ h => absurd h (by omega), fun _ _ => rfl⟩
    | succ N ih =>
      obtain ⟨ρ, h1, h2⟩ := ih
      set ρ' : V → A := fun x => match replace.find? (fun p => decide (p.1 = x ∧ rank x = N)) with
        | none => ρ x
        | some p => p.2.eval num un bin ρ with hρ'
      have hkeep : ∀ x, ¬ (x ∈ replace.map Prod.fst ∧ rank x = N) → ρ' x = ρ x := by
        intro x hx
        simp only [hρ']
        have : replace.find? (fun p => decide (p.1 = x ∧ rank x = N)) = none := by
          rw [List.find?_eq_none]
          intro p hp h
          simp only [decide_eq_true_eq] at h
          exact hx ⟨List.mem_map.2 ⟨p, hp, h.1⟩, h.2⟩
        rw [this]
      have hsame : ∀ p ∈ replace, rank p.1 ≤ N → p.2.eval num un bin ρ' = p.2.eval num un bin ρ := by
        intro p hp hN
        apply ev_congr
        intro y hy
        apply hkeep
        rintro ⟨hk, hyN⟩
        have := hr p hp y hy hk
        omega
      refine ⟨ρ', ?_, ?_⟩
      · intro p hp hN
        rw [hsame p hp (by omega)]
        by_cases hpN : rank p.1 = N
        · have hf : ∃ q, replace.find? (fun q => decide (q.1 = p.1 ∧ rank p.1 = N)) = some q := by
            rw [← Option.isSome_iff_exists, List.find?_isSome]
            exact ⟨p, hp, by simpa using hpN⟩
          obtain ⟨q, hq⟩ := hf
          have hq1 := List.find?_some hq
          have hq2 := List.mem_of_find?_eq_some hq
          simp only [decide_eq_true_eq] at hq1
          have : q = p := List.inj_on_of_nodup_map hnd hq2 hp hq1.1
          simp only [hρ', hq]
          rw [this]
        · rw [hkeep p.1 fun h => hpN h.2]
          exact h1 p hp (by omega)
      · intro x hx
        rw [hkeep x fun h => hx h.1]
        exact h2 x hx
  obtain ⟨ρ, h1, h2⟩ := lev (((replace.map fun p => rank p.1).foldr max 0) + 1)
  refine ⟨ρ, fun p hp => h1 p hp ?_, h2⟩
  have : rank p.1 ≤ (replace.map fun p => rank p.1).foldr max 0 := by
    clear h1 h2 lev hr hnd hne
    induction replace with
    | nil => simp at hp
    | cons q l ih =>
      simp only [List.map_cons, List.foldr_cons]
      rcases List.mem_cons.1 hp with rfl | hp
      · exact le_max_left _ _
      · exact le_trans (ih hp) (le_max_right _ _)
  omega

/-- **C47: an empty list of replacements** makes `recursive_sub` fail (`new_expr` is not defined), although
there is nothing to replace. -/
theorem C47_empty_negation : recursiveSub [(.var 0 : Term Nat Nat)] [] = none := rfl

/-- A case: three levels given from the top, `a = b + 1`, `b = c * d`, `c = 2`. -/
def chain : List (Nat × Term Nat Nat) :=
  [(2, .num 2), (1, .bin 1 (.var 2) (.var 3)), (0, .bin 0 (.var 1) (.num 1))]

example : Acyclic chain := ⟨fun x => 3 - x, by decide⟩

example : recursiveSub [.var 0, .un 5 (.var 1)] chain =
    some [.bin 0 (.bin 1 (.num 2) (.var 3)) (.num 1), .un 5 (.bin 1 (.num 2) (.var 3))] := by
  decide +kernel

end Pylbm.Symbolic
