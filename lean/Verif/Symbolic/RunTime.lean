import Verif.Symbolic.Subs
/-!
# C105: parameters of the dictionary and parameters given at run time

The matrices are prepared with one pass `M.subs(param.items())` (algorithm/base.py 97-98, 106-107), the other formulas with
`recursive_sub` (base.py 132-149); what remains is an argument of the generated function, taken in `extra_parameters`.
-/

set_option linter.unusedSectionVars false

namespace Pylbm.Symbolic

variable {V F : Type} [DecidableEq V] [DecidableEq F]

/-! ## Model -/

section model
variable {A : Type} (num : ℚ → A) (un : F → A → A) (bin : F → A → A → A)

/-- The value computed by a generated function called by `call_genfunction`, symbolic.py 288-299, with the arguments `args`
(`_get_args`, algorithm/base.py 630-667: the arrays, `t`, `dt`, ... and `extra_parameters`).  `none` is the `KeyError` for a
symbol of the formula which is not among them.  Simplification: one formula. -/
def callGen (args : V → Option A) : Term V F → Option A
  | .var x => args x
  | .num q => some (num q)
  | .un f a => (callGen args a).map (un f)
  | .bin f a b => (callGen args a).bind fun u => (callGen args b).map (bin f u)

end model

/-! ## Specification -/

/-- Each definition uses neither itself nor a parameter placed before it. -/
def Forward (l : List (V × Term V F)) : Prop :=
  (∀ p ∈ l, p.1 ∉ p.2.vars) ∧ l.Pairwise fun p q => p.1 ∉ q.2.vars

/-- `ρ` gives a value to all the symbols, which agrees with the definitions of the dictionary `l` and with the arguments
for the symbols which are not in the dictionary. -/
def Agree {A : Type} (num : ℚ → A) (un : F → A → A) (bin : F → A → A → A) (ρ : V → A) (l : List (V × Term V F))
    (args : V → Option A) : Prop :=
  (∀ p ∈ l, ρ p.1 = p.2.eval num un bin ρ) ∧ ∀ x, x ∉ l.map Prod.fst → args x = some (ρ x)

/-! ## Proofs -/

theorem vars_subs_mem (l : List (V × Term V F)) (e : Term V F) (y : V) (h : y ∈ (e.subs l).vars) :
    y ∈ e.vars ∨ ∃ p ∈ l, y ∈ p.2.vars := by
  induction l generalizing e with
  | nil => exact Or.inl h
  | cons p l ih =>
    rcases ih _ h with h | ⟨q, hq, h⟩
    · rcases vars_sub1 _ _ _ _ h with h | h
      · exact Or.inl h.1
      · exact Or.inr ⟨p, by simp, h.2⟩
    · exact Or.inr ⟨q, by simp [hq], h⟩

theorem subs_free (l : List (V × Term V F)) (hl : Forward l) (e : Term V F) :
    ∀ y ∈ (e.subs l).vars, y ∉ l.map Prod.fst := by
  induction l generalizing e with
  | nil => simp
  | cons p l ih =>
    intro y hy
    obtain ⟨h1, h2⟩ := hl
    have hl' : Forward l := ⟨fun q hq => h1 q (by simp [hq]), (List.pairwise_cons.1 h2).2⟩
    have h3 := ih hl' (sub1 p.1 p.2 e) y hy
    rw [List.map_cons, List.mem_cons, not_or]
    refine ⟨?_, h3⟩
    rintro rfl
    rcases vars_subs_mem l (sub1 p.1 p.2 e) p.1 hy with h | ⟨q, hq, h⟩
    · rcases vars_sub1 _ _ _ _ h with h | h
      · exact h.2 rfl
      · exact h1 p (by simp) h.2
    · exact (List.pairwise_cons.1 h2).1 q hq h

theorem sub1_keep (x : V) (r e : Term V F) (y : V) (hy : y ∈ e.vars) (hne : y ≠ x) : y ∈ (sub1 x r e).vars := by
  induction e with
  | var z =>
    simp only [Term.vars, List.mem_singleton] at hy
    subst hy
    simp [sub1, hne, Term.vars]
  | num q => simp [Term.vars] at hy
  | un f a ih => exact ih hy
  | bin f a b iha ihb =>
    simp only [sub1, Term.vars, List.mem_append] at hy ⊢
    exact hy.imp iha ihb

theorem sub1_enter (x : V) (r e : Term V F) (hx : x ∈ e.vars) (y : V) (hy : y ∈ r.vars) : y ∈ (sub1 x r e).vars := by
  induction e with
  | var z =>
    simp only [Term.vars, List.mem_singleton] at hx
    subst hx
    simpa [sub1] using hy
  | num q => simp [Term.vars] at hx
  | un f a ih => exact ih hx
  | bin f a b iha ihb =>
    simp only [sub1, Term.vars, List.mem_append] at hx ⊢
    exact hx.imp iha ihb

theorem subs_keep (l : List (V × Term V F)) (e : Term V F) (y : V) (hy : y ∈ e.vars) (h : y ∉ l.map Prod.fst) :
    y ∈ (e.subs l).vars := by
  induction l generalizing e with
  | nil => exact hy
  | cons p l ih =>
    rw [List.map_cons, List.mem_cons, not_or] at h
    exact ih _ (sub1_keep _ _ _ _ hy h.1) h.2

section eval
variable {A : Type} (num : ℚ → A) (un : F → A → A) (bin : F → A → A → A)

theorem callGen_some (args : V → Option A) (ρ : V → A) (e : Term V F) (h : ∀ y ∈ e.vars, args y = some (ρ y)) :
    callGen num un bin args e = some (e.eval num un bin ρ) := by
  induction e with
  | var x => exact h x (by simp [Term.vars])
  | num q => rfl
  | un f a ih => simp [callGen, Term.eval, ih h]
  | bin f a b iha ihb =>
    simp [callGen, Term.eval, iha fun y hy => h y (by simp [Term.vars, hy]), ihb fun y hy => h y (by simp [Term.vars, hy])]

theorem callGen_none (args : V → Option A) (e : Term V F) (y : V) (hy : y ∈ e.vars) (h : args y = none) :
    callGen num un bin args e = none := by
  induction e with
  | var x =>
    simp only [Term.vars, List.mem_singleton] at hy
    subst hy
    exact h
  | num q => simp [Term.vars] at hy
  | un f a ih => simp [callGen, ih hy]
  | bin f a b iha ihb =>
    simp only [Term.vars, List.mem_append] at hy
    rcases hy with hy | hy
    · simp [callGen, iha hy]
    · simp [callGen, ihb hy]

/-! ## The property -/

/-- **C105, equilibrium, relaxation, sources.**  Whatever part of the parameters is in the dictionary and whatever part is
given at run time, the value computed is the one of the formula. -/
theorem C105_split (l : List (V × Term V F)) (hne : l ≠ []) (hac : Acyclic l) (args : V → Option A) (ρ : V → A)
    (h : Agree num un bin ρ l args) (es : List (Term V F)) :
    ∃ r, recursiveSub es l = some r ∧
      r.map (callGen num un bin args) = es.map fun e => some (e.eval num un bin ρ) := by
  obtain ⟨r, h1, -, h2, h3⟩ := C47_complete es l hne hac
  refine ⟨r, h1, ?_⟩
  have h4 := h3 A num un bin ρ h.1
  have h5 : r.map (callGen num un bin args) = (r.map (Term.eval num un bin ρ)).map some := by
    rw [List.map_map]
    apply List.map_congr_left
    intro e he
    exact callGen_some num un bin args ρ e fun y hy => h.2 y (h2 e he y hy)
  rw [h5, h4, List.map_map]
  rfl

/-- **C105, the matrices.**  The same for a formula prepared with one pass, when no definition of the dictionary uses a
parameter placed before it. -/
theorem C105_matrix_partial (l : List (V × Term V F)) (hl : Forward l) (args : V → Option A) (ρ : V → A)
    (h : Agree num un bin ρ l args) (e : Term V F) :
    callGen num un bin args (e.subs l) = some (e.eval num un bin ρ) := by
  rw [callGen_some num un bin args ρ _ fun y hy => h.2 y (subs_free l hl e y hy), eval_subs num un bin ρ l e h.1]

/-- **C105 is false for the matrices when a definition uses a parameter placed before it** in the dictionary: the earlier parameter appears again after its substitution and is asked as an argument, which
is missing since it is in the dictionary and not in `extra_parameters`. -/
theorem C105_order_negation (l₁ l₂ l₃ : List (V × Term V F)) (p q : V × Term V F)
    (hnd : ((l₁ ++ p :: l₂ ++ q :: l₃).map Prod.fst).Nodup) (e : Term V F) (hq : q.1 ∈ e.vars) (hp : p.1 ∈ q.2.vars)
    (args : V → Option A) (ha : args p.1 = none) :
    callGen num un bin args (e.subs (l₁ ++ p :: l₂ ++ q :: l₃)) = none := by
  refine callGen_none num un bin args _ p.1 ?_ ha
  simp only [List.map_append, List.map_cons, List.nodup_append, List.nodup_cons] at hnd
  obtain ⟨⟨h1, ⟨h2, h3⟩, h4⟩, ⟨h5, h6⟩, h7⟩ := hnd
  have e1 : e.subs (l₁ ++ p :: l₂ ++ q :: l₃) = (sub1 q.1 q.2 (e.subs (l₁ ++ p :: l₂))).subs l₃ := by
    simp [Term.subs, List.foldl_append]
  rw [e1]
  refine subs_keep _ _ _ (sub1_enter _ _ _ (subs_keep _ _ _ hq ?_) _ hp) ?_
  · intro hmem
    rw [List.map_append, List.map_cons] at hmem
    exact h7 _ hmem _ (by simp) rfl
  · intro hmem
    exact h7 p.1 (by simp) p.1 (by simp [hmem]) rfl

end eval

/-! ## Cases -/

/-- `{b: 2, la: 3 b}`: the definition of `la` uses `b`, placed before it. -/
def bad2 : List (Nat × Term Nat Nat) := [(0, .num 2), (1, .bin 0 (.num 3) (.var 0))]

/-- `{la: 3 b, b: 2}`. -/
def good2 : List (Nat × Term Nat Nat) := [(1, .bin 0 (.num 3) (.var 0)), (0, .num 2)]

/-- Products. -/
def mul2 : Nat → ℚ → ℚ → ℚ := fun _ => (· * ·)

/-- The matrix entry `la * c` where `c` is given at run time: right value with the good order, `KeyError` with the other one,
while `recursive_sub` is right with both. -/
example :
    (callGen id (fun _ => id) mul2 (fun x => if x = 2 then some 5 else none)
      ((Term.bin 0 (.var 1) (.var 2)).subs good2) = some 30) ∧
    (callGen id (fun _ => id) mul2 (fun x => if x = 2 then some 5 else none)
      ((Term.bin 0 (.var 1) (.var 2)).subs bad2) = none) ∧
    ((recursiveSub [.bin 0 (.var 1) (.var 2)] bad2).map fun r =>
      r.map (callGen id (fun _ => id) mul2 (fun x => if x = 2 then some 5 else none))) = some [some 30] := by
  decide +kernel

example : Forward good2 ∧ Acyclic bad2 ∧ Agree id (fun _ => id) mul2 (fun x => [2, 6].getD x 5) good2
    (fun x => if x < 2 then none else some 5) := by
  refine ⟨⟨by decide, by decide⟩, ⟨id, by decide⟩, by decide +kernel, ?_⟩
  intro x hx
  have : ¬ x < 2 := by
    simp [good2] at hx; omega
  beta_reduce
  rw [if_neg this]
  congr 1
  match x, this with
  | 0, h => exact absurd (by omega) h
  | 1, h => exact absurd (by omega) h
  | (n + 2), _ => rfl

end Pylbm.Symbolic
