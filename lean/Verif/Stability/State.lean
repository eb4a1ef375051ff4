import Verif.Symbolic.Subs
import Verif.Stability.Wave
/-!
# C95: the state and the parameters of the stability analysis
-/
set_option linter.unusedSectionVars false

namespace Pylbm.Stability.State
open Symbolic

variable {V F : Type} [DecidableEq V] [DecidableEq F]

/-! ## Model -/

/-- `to_subs`, stability.py 71-73; the values given by the user (`consm0`, `extra_parameters`) and the parameters of the scheme
are expressions (numbers in most cases). -/
def toSubs (consm : List V) (consm0 : List (Term V F)) (param extra : List (V × Term V F)) : List (V × Term V F) :=
  consm.zip consm0 ++ param ++ extra

/-- `np.asarray(…).astype("float")`, stability.py 95: `none` is the `TypeError` when a symbol is left; the numbers are given by
any meaning of the operations. -/
def toFloat {A : Type} (num : ℚ → A) (un : F → A → A) (bin : F → A → A → A) (es : List (Term V F)) : Option (List A) :=
  if es.all fun e => e.vars.isEmpty then some (es.map (Term.eval num un bin fun _ => num 0)) else none

/-- `relax_mat_f_num` in `eigenvalues`, stability.py 64-95 (the entries of the matrix in a list). -/
def stateMatrix {A : Type} (num : ℚ → A) (un : F → A → A) (bin : F → A → A → A) (consm : List V) (mat : List (Term V F))
    (consm0 : List (Term V F)) (param extra : List (V × Term V F)) : Option (List A) :=
  (recursiveSub mat (toSubs consm consm0 param extra)).bind (toFloat num un bin)

/-- `dict.get(key, default)`. -/
def getD (d : List (V × ℚ)) (x : V) (default : ℚ) : ℚ :=
  ((d.find? fun p => decide (p.1 = x)).map Prod.snd).getD default

/-- `consm0` at the beginning of `visualize`, stability.py 156-160. -/
def linearization (consm : List V) (dicolin : Option (List (V × ℚ))) : List ℚ :=
  match dicolin with
  | none => consm.map fun _ => 0
  | some d => consm.map fun m => getD d m 0

/-- What the pictures are drawn from: `self.param` (which is the dictionary of the scheme) and `consm0`. -/
structure View (V F : Type) where
  param : List (V × Term V F)
  consm0 : List ℚ

/-- The body of the loop of `update` for one slider, stability.py 258-263 and 313-318. -/
def move (consm : List V) (w : View V F) (k : V) (val : ℚ) : View V F :=
  ⟨if k ∈ w.param.map Prod.fst then w.param.map fun p => if p.1 = k then (p.1, .num val) else p else w.param,
    List.zipWith (fun m x => if m = k then val else x) consm w.consm0⟩

/-- `update`: the values of all the sliders are used. -/
def update (consm : List V) (sliders : List (V × ℚ)) (w : View V F) : View V F :=
  sliders.foldl (fun w s => move consm w s.1 s.2) w

/-- The matrix from which the pictures are drawn, stability.py 163, 265, 320. -/
def View.matrix {A : Type} (num : ℚ → A) (un : F → A → A) (bin : F → A → A → A) (consm : List V) (mat : List (Term V F))
    (w : View V F) : Option (List A) :=
  stateMatrix num un bin consm mat (w.consm0.map .num) w.param []

/-! ## The matrix -/

theorem eval_closed {A : Type} (num : ℚ → A) (un : F → A → A) (bin : F → A → A → A) (ρ ρ' : V → A) (e : Term V F)
    (h : e.vars = []) : e.eval num un bin ρ = e.eval num un bin ρ' := by
  induction e with
  | var x => simp [Term.vars] at h
  | num q => rfl
  | un f a ih => simp only [Term.eval]; rw [ih h]
  | bin f a b iha ihb =>
    simp only [Term.vars, List.append_eq_nil_iff] at h
    simp only [Term.eval]; rw [iha h.1, ihb h.2]

theorem vars_subs_old (l : List (V × Term V F)) (keep : V → Prop) (hl : ∀ p ∈ l, ∀ y ∈ p.2.vars, keep y) (e : Term V F)
    (he : ∀ y ∈ e.vars, keep y) : ∀ y ∈ (e.subs l).vars, keep y := by
  unfold Term.subs
  induction l generalizing e with
  | nil => exact he
  | cons p l ih =>
    rw [List.foldl_cons]
    refine ih (fun q hq => hl q (by simp [hq])) _ fun y hy => ?_
    rcases vars_sub1 p.1 p.2 e y hy with h | h
    · exact he y h.1
    · exact hl p (by simp) y h.2

theorem vars_loop_old (l : List (V × Term V F)) (keep : V → Prop) (hl : ∀ p ∈ l, ∀ y ∈ p.2.vars, keep y) (fuel : Nat)
    (es : List (Term V F)) (he : ∀ e ∈ es, ∀ y ∈ e.vars, keep y) :
    ∀ e ∈ recursiveSubLoop l fuel es, ∀ y ∈ e.vars, keep y := by
  induction fuel generalizing es with
  | zero => exact he
  | succ fuel ih =>
    have hnew : ∀ e ∈ es.map (Term.subs l), ∀ y ∈ e.vars, keep y := by
      intro e h
      obtain ⟨e0, h0, rfl⟩ := List.mem_map.1 h
      exact vars_subs_old l keep hl e0 (he e0 h0)
    simp only [recursiveSubLoop]
    split
    · exact hnew
    · exact ih _ hnew

/-- The values which the analysis is asked for: each conserved moment has the value given for it, each parameter the value of its
definition; the additional parameters come before the ones of the scheme. -/
structure Asked {A : Type} (num : ℚ → A) (un : F → A → A) (bin : F → A → A → A) (consm : List V) (consm0 : List (Term V F))
    (param extra : List (V × Term V F)) (ρ : V → A) : Prop where
  state : ∀ (i : Nat) (m : V) (v : Term V F), consm[i]? = some m → consm0[i]? = some v → ρ m = v.eval num un bin ρ
  added : ∀ p ∈ extra, ρ p.1 = p.2.eval num un bin ρ
  own : ∀ p ∈ param, p.1 ∉ extra.map Prod.fst → ρ p.1 = p.2.eval num un bin ρ

/-- **C95, partial**: when one value is given for each conserved moment, no additional parameter is already a parameter of the
scheme, the definitions have no cycle and all the symbols are known, the matrix is computed and its entries are those of the
symbolic matrix for the values asked for.  Missing: additional parameters which are parameters of the scheme
(`C95_override_negation`). -/
theorem C95_matrix_partial (consm : List V) (mat consm0 : List (Term V F)) (param extra : List (V × Term V F))
    (hne : consm ≠ []) (hlen : consm0.length = consm.length) (hdis : ∀ p ∈ param, p.1 ∉ extra.map Prod.fst)
    (hac : Acyclic (toSubs consm consm0 param extra))
    (hmat : ∀ e ∈ mat, ∀ y ∈ e.vars, y ∈ consm ∨ y ∈ param.map Prod.fst ∨ y ∈ extra.map Prod.fst)
    (hval : ∀ p ∈ toSubs consm consm0 param extra, ∀ y ∈ p.2.vars,
      y ∈ consm ∨ y ∈ param.map Prod.fst ∨ y ∈ extra.map Prod.fst)
    {A : Type} (num : ℚ → A) (un : F → A → A) (bin : F → A → A → A) :
    ∃ m, stateMatrix num un bin consm mat consm0 param extra = some m ∧
      ∀ ρ, Asked num un bin consm consm0 param extra ρ → m = mat.map (Term.eval num un bin ρ) := by
  have hfst : (toSubs consm consm0 param extra).map Prod.fst = consm ++ param.map Prod.fst ++ extra.map Prod.fst := by
    simp [toSubs, List.map_fst_zip (by omega : consm.length ≤ consm0.length)]
  have hn : toSubs consm consm0 param extra ≠ [] := by
    intro h
    have := hfst
    rw [h] at this
    simp at this
    exact hne this.1
  obtain ⟨r, h1, h2, h3, h4⟩ := C47_complete mat _ hn hac
  have hr : r = recursiveSubLoop (toSubs consm consm0 param extra) (toSubs consm consm0 param extra).length mat := by
    unfold recursiveSub at h1
    rw [if_neg hn] at h1
    exact (Option.some.inj h1).symm
  have hclosed : ∀ e ∈ r, e.vars = [] := by
    intro e he
    rw [List.eq_nil_iff_forall_not_mem]
    intro y hy
    apply h3 e he y hy
    rw [hfst]
    have := vars_loop_old _ (fun y => y ∈ consm ∨ y ∈ param.map Prod.fst ∨ y ∈ extra.map Prod.fst) hval _ mat hmat e
      (hr ▸ he) y hy
    simp only [List.mem_append]
    tauto
  refine ⟨r.map (Term.eval num un bin fun _ => num 0), ?_, fun ρ hρ => ?_⟩
  · unfold stateMatrix
    rw [h1, Option.bind_some]
    unfold toFloat
    rw [if_pos]
    rw [List.all_eq_true]
    intro e he
    simp [hclosed e he]
  · rw [← h4 A num un bin ρ]
    · apply List.map_congr_left
      intro e he
      exact eval_closed num un bin _ _ e (hclosed e he)
    · intro p hp
      simp only [toSubs, List.mem_append] at hp
      rcases hp with (hp | hp) | hp
      · obtain ⟨i, hi, rfl⟩ := List.getElem_of_mem hp
        simp only [List.length_zip] at hi
        rw [List.getElem_zip]
        exact hρ.state i _ _ (List.getElem?_eq_getElem (by omega)) (List.getElem?_eq_getElem (by omega))
      · exact hρ.own p hp (hdis p hp)
      · exact hρ.added p hp

/-- Values as asked for exist when the keys are different. -/
theorem C95_values_exist (consm : List V) (consm0 : List (Term V F)) (param extra : List (V × Term V F))
    (hlen : consm0.length = consm.length) (hnd : (consm ++ param.map Prod.fst ++ extra.map Prod.fst).Nodup)
    (hac : Acyclic (toSubs consm consm0 param extra)) {A : Type} (num : ℚ → A) (un : F → A → A) (bin : F → A → A → A) :
    ∃ ρ, Asked num un bin consm consm0 param extra ρ := by
  have hfst : (toSubs consm consm0 param extra).map Prod.fst = consm ++ param.map Prod.fst ++ extra.map Prod.fst := by
    simp [toSubs, List.map_fst_zip (by omega : consm.length ≤ consm0.length)]
  obtain ⟨ρ, h1, -⟩ := C47_values_exist (toSubs consm consm0 param extra) (by rw [hfst]; exact hnd) hac num un bin
    (fun _ => num 0)
  refine ⟨ρ, ⟨fun i m v hm hv => ?_, fun p hp => h1 p (by simp [toSubs, hp]), fun p hp _ => h1 p (by simp [toSubs, hp])⟩⟩
  obtain ⟨h3, rfl⟩ := List.getElem?_eq_some_iff.1 hm
  obtain ⟨h4, rfl⟩ := List.getElem?_eq_some_iff.1 hv
  refine h1 (consm[i], consm0[i]) ?_
  simp only [toSubs, List.mem_append]
  left; left
  rw [List.mem_iff_getElem]
  exact ⟨i, by simp; omega, by simp⟩

/-- A case for C95: a parameter defined from another one, and an additional parameter. -/
example : ∃ m, stateMatrix (fun q => q) (fun (_ : Unit) a => a) (fun _ a b => a * b) ["u"]
      [.bin () (.var "s") (.bin () (.var "c") (.var "al")), .var "u"] [.num 5]
      [("s", .num (3 / 2)), ("c", .bin () (.var "la") (.var "la")), ("la", .num 2)] [("al", .num 7)] = some m ∧
    m = [42, 5] := by
  obtain ⟨m, h1, h2⟩ := C95_matrix_partial (F := Unit) ["u"]
    [.bin () (.var "s") (.bin () (.var "c") (.var "al")), .var "u"] [.num 5]
    [("s", .num (3 / 2)), ("c", .bin () (.var "la") (.var "la")), ("la", .num 2)] [("al", .num 7)] (by simp) rfl
    (by simp) ⟨fun x => if x = "c" then 1 else 0, by simp [toSubs, Term.vars]⟩ (by simp [Term.vars])
    (by simp [toSubs, Term.vars]) (fun q => q) (fun (_ : Unit) a => a) (fun _ a b => a * b)
  refine ⟨m, h1, ?_⟩
  rw [h2 (fun x => if x = "u" then 5 else if x = "s" then 3 / 2 else if x = "c" then 4 else if x = "la" then 2 else 7)
    ⟨?_, by simp [Term.eval], by simp [Term.eval]; norm_num⟩]
  · simp [Term.eval]; norm_num
  · intro i m v hm hv
    cases i with
    | zero =>
      simp only [List.getElem?_cons_zero, Option.some.injEq] at hm hv
      subst hm; subst hv
      simp [Term.eval]
    | succ i => simp at hm

/-! ## Values which are not used -/

theorem sub1_absent (x : V) (r e : Term V F) (h : x ∉ e.vars) : sub1 x r e = e := by
  induction e with
  | var y =>
    have : y ≠ x := fun hh => h (by simp [Term.vars, hh])
    simp [sub1, this]
  | num q => rfl
  | un f a ih => simp only [sub1]; rw [ih h]
  | bin f a b iha ihb =>
    simp only [Term.vars, List.mem_append, not_or] at h
    simp only [sub1]; rw [iha h.1, ihb h.2]

theorem subs_absent (l : List (V × Term V F)) (e : Term V F) (h : ∀ p ∈ l, p.1 ∉ e.vars) : e.subs l = e := by
  unfold Term.subs
  induction l with
  | nil => rfl
  | cons p l ih =>
    rw [List.foldl_cons, sub1_absent _ _ _ (h p (by simp))]
    exact ih fun q hq => h q (by simp [hq])

/-- After a pass with closed values, the keys are absent. -/
theorem subs_closed (l : List (V × Term V F)) (hl : ∀ p ∈ l, p.2.vars = []) (e : Term V F) :
    ∀ y ∈ (e.subs l).vars, y ∈ e.vars ∧ y ∉ l.map Prod.fst := by
  unfold Term.subs
  induction l generalizing e with
  | nil => intro y hy; exact ⟨hy, by simp⟩
  | cons p l ih =>
    intro y hy
    rw [List.foldl_cons] at hy
    obtain ⟨h1, h2⟩ := ih (fun q hq => hl q (by simp [hq])) _ y hy
    rcases vars_sub1 p.1 p.2 e y h1 with h | h
    · refine ⟨h.1, ?_⟩
      simp only [List.map_cons, List.mem_cons, not_or]
      exact ⟨h.2, h2⟩
    · rw [hl p (by simp)] at h
      simp at h

theorem subs_append (l m : List (V × Term V F)) (e : Term V F) : e.subs (l ++ m) = (e.subs l).subs m := by
  simp [Term.subs, List.foldl_append]

/-- With closed values two passes are the same as one, so that the loop returns the result of one pass. -/
theorem loop_closed (l : List (V × Term V F)) (hl : ∀ p ∈ l, p.2.vars = []) (fuel : Nat) (es : List (Term V F)) :
    recursiveSubLoop l (fuel + 1) es = es.map (Term.subs l) := by
  have hidem : ∀ es : List (Term V F), (es.map (Term.subs l)).map (Term.subs l) = es.map (Term.subs l) := by
    intro es
    rw [List.map_map]
    apply List.map_congr_left
    intro e _
    exact subs_absent l _ fun p hp h => (subs_closed l hl e p.1 h).2 (List.mem_map_of_mem hp)
  simp only [recursiveSubLoop]
  split
  · rfl
  · cases fuel with
    | zero => rfl
    | succ fuel =>
      simp only [recursiveSubLoop]
      rw [hidem, if_pos rfl]

/-- **C95 is false for the additional parameters which are parameters of the scheme** (or conserved moments): whatever their
values, they are not used, and nothing is reported. -/
theorem C95_override_ignored (consm : List V) (mat consm0 : List (Term V F)) (param extra : List (V × Term V F))
    (hne : consm ≠ []) (hlen : consm0.length = consm.length)
    (h0 : ∀ v ∈ consm0, v.vars = []) (h1 : ∀ p ∈ param, p.2.vars = []) (h2 : ∀ p ∈ extra, p.2.vars = [])
    (hkeys : ∀ p ∈ extra, p.1 ∈ consm ∨ p.1 ∈ param.map Prod.fst)
    {A : Type} (num : ℚ → A) (un : F → A → A) (bin : F → A → A → A) :
    stateMatrix num un bin consm mat consm0 param extra = stateMatrix num un bin consm mat consm0 param [] := by
  have hz : ∀ p ∈ consm.zip consm0, p.2.vars = [] := fun p hp => h0 p.2 (List.of_mem_zip hp).2
  have hfst : (consm.zip consm0).map Prod.fst = consm := List.map_fst_zip (by omega)
  have hc1 : ∀ p ∈ toSubs consm consm0 param extra, p.2.vars = [] := by
    intro p hp
    simp only [toSubs, List.mem_append] at hp
    rcases hp with (hp | hp) | hp
    exacts [hz p hp, h1 p hp, h2 p hp]
  have hc2 : ∀ p ∈ toSubs consm consm0 param [], p.2.vars = [] := by
    intro p hp
    simp only [toSubs, List.mem_append, List.not_mem_nil, or_false] at hp
    rcases hp with hp | hp
    exacts [hz p hp, h1 p hp]
  have hn : ∀ ex : List (V × Term V F), ∃ n, (toSubs consm consm0 param ex).length = n + 1 := by
    intro ex
    obtain ⟨a, l, rfl⟩ := List.exists_cons_of_ne_nil hne
    cases consm0 with
    | nil => simp at hlen
    | cons b m => exact ⟨_, rfl⟩
  have hne' : ∀ ex : List (V × Term V F), toSubs consm consm0 param ex ≠ [] := by
    intro ex h
    obtain ⟨n, hn⟩ := hn ex
    rw [h] at hn
    simp at hn
  have key : recursiveSub mat (toSubs consm consm0 param extra) = recursiveSub mat (toSubs consm consm0 param []) := by
    unfold recursiveSub
    rw [if_neg (hne' _), if_neg (hne' _)]
    obtain ⟨n, hn1⟩ := hn extra
    obtain ⟨m, hn2⟩ := hn []
    rw [hn1, hn2, loop_closed _ hc1, loop_closed _ hc2]
    congr 1
    apply List.map_congr_left
    intro e _
    have e1 : toSubs consm consm0 param extra = toSubs consm consm0 param [] ++ extra := by simp [toSubs]
    rw [e1, subs_append]
    apply subs_absent
    intro p hp hy
    apply (subs_closed _ hc2 e p.1 hy).2
    simp only [toSubs, List.append_nil, List.map_append, hfst, List.mem_append]
    exact hkeys p hp
  unfold stateMatrix
  rw [key]

/-- The witness for the negation: the relaxation parameter `s = 1` of the scheme, and `s = 2` asked for. -/
theorem C95_override_negation : ∃ (consm : List String) (mat consm0 : List (Term String Unit))
    (param extra : List (String × Term String Unit)),
    ∀ (A : Type) (num : ℚ → A) (un : Unit → A → A) (bin : Unit → A → A → A),
      stateMatrix num un bin consm mat consm0 param extra = some [num 1] ∧
      ∀ ρ, Asked num un bin consm consm0 param extra ρ → mat.map (Term.eval num un bin ρ) = [num 2] := by
  refine ⟨["u"], [.var "s"], [.num 0], [("s", .num 1)], [("s", .num 2)], fun A num un bin => ⟨?_, ?_⟩⟩
  · rw [C95_override_ignored _ _ _ _ _ (by simp) rfl (by simp [Term.vars]) (by simp [Term.vars]) (by simp [Term.vars])
      (by simp)]
    have : recursiveSub [Term.var "s"] (toSubs ["u"] [.num 0] [("s", (.num 1 : Term String Unit))] []) = some [.num 1] := by
      decide +kernel
    unfold stateMatrix
    rw [this]
    rfl
  · intro ρ hρ
    have := hρ.added ("s", .num 2) (by simp)
    simp only [Term.eval] at this
    simp [Term.eval, this]

/-- **C95, too many values**: the values after the last conserved moment are not used, and nothing is reported. -/
theorem C95_long_state (consm : List V) (mat consm0 more : List (Term V F)) (param extra : List (V × Term V F))
    (hlen : consm0.length = consm.length) {A : Type} (num : ℚ → A) (un : F → A → A) (bin : F → A → A → A) :
    stateMatrix num un bin consm mat (consm0 ++ more) param extra = stateMatrix num un bin consm mat consm0 param extra := by
  have : consm.zip (consm0 ++ more) = consm.zip consm0 := by
    have := List.zip_append (l₁ := consm) (r₁ := []) (l₂ := consm0) (r₂ := more) hlen.symm
    simpa using this
  unfold stateMatrix toSubs
  rw [this]

theorem mem_vars_sub1 (x y : V) (r e : Term V F) (hy : y ∈ e.vars) (hne : y ≠ x) : y ∈ (sub1 x r e).vars := by
  induction e with
  | var z =>
    simp only [Term.vars, List.mem_singleton] at hy
    subst hy
    simp [sub1, hne, Term.vars]
  | num q => simp [Term.vars] at hy
  | un f a ih => exact ih hy
  | bin f a b iha ihb =>
    simp only [Term.vars, sub1, List.mem_append] at hy ⊢
    exact hy.imp iha ihb

theorem mem_vars_subs (l : List (V × Term V F)) (e : Term V F) (y : V) (hy : y ∈ e.vars) (hne : y ∉ l.map Prod.fst) :
    y ∈ (e.subs l).vars := by
  unfold Term.subs
  induction l generalizing e with
  | nil => exact hy
  | cons p l ih =>
    simp only [List.map_cons, List.mem_cons, not_or] at hne
    exact ih _ (mem_vars_sub1 p.1 y p.2 e hy hne.1) hne.2

theorem mem_vars_loop (l : List (V × Term V F)) (y : V) (hne : y ∉ l.map Prod.fst) (fuel : Nat) (es : List (Term V F))
    (h : ∃ e ∈ es, y ∈ e.vars) : ∃ e ∈ recursiveSubLoop l fuel es, y ∈ e.vars := by
  induction fuel generalizing es with
  | zero => exact h
  | succ fuel ih =>
    have hnew : ∃ e ∈ es.map (Term.subs l), y ∈ e.vars := by
      obtain ⟨e, he, hy⟩ := h
      exact ⟨_, List.mem_map_of_mem he, mem_vars_subs l e y hy hne⟩
    simp only [recursiveSubLoop]
    split
    · exact hnew
    · exact ih _ hnew

/-- **C95, a value which is missing**: when a symbol of the matrix has no value (a conserved moment after the end of a list which
is too short, a parameter which is not given), no eigenvalue is computed: the conversion raises an exception. -/
theorem C95_missing_value (consm : List V) (mat consm0 : List (Term V F)) (param extra : List (V × Term V F)) (y : V)
    (hy : ∃ e ∈ mat, y ∈ e.vars) (h0 : y ∉ consm.take consm0.length) (h1 : y ∉ param.map Prod.fst)
    (h2 : y ∉ extra.map Prod.fst) {A : Type} (num : ℚ → A) (un : F → A → A) (bin : F → A → A → A) :
    stateMatrix num un bin consm mat consm0 param extra = none := by
  have hk : y ∉ (toSubs consm consm0 param extra).map Prod.fst := by
    simp only [toSubs, List.map_append, List.mem_append, not_or]
    refine ⟨⟨fun h => h0 ?_, h1⟩, h2⟩
    obtain ⟨p, hp, rfl⟩ := List.mem_map.1 h
    obtain ⟨i, hi, rfl⟩ := List.getElem_of_mem hp
    simp only [List.length_zip] at hi
    rw [List.getElem_zip, List.mem_iff_getElem]
    exact ⟨i, by simp; omega, by simp⟩
  unfold stateMatrix recursiveSub
  split
  · rfl
  · rw [Option.bind_some]
    obtain ⟨e, he, hye⟩ := mem_vars_loop _ y hk (toSubs consm consm0 param extra).length mat hy
    unfold toFloat
    rw [if_neg]
    rw [List.all_eq_true]
    intro h
    have := h e he
    simp only [List.isEmpty_iff] at this
    rw [this] at hye
    simp at hye

/-! ## The sliders -/

theorem move_keys (consm : List V) (w : View V F) (k : V) (val : ℚ) :
    (move consm w k val).param.map Prod.fst = w.param.map Prod.fst := by
  unfold move
  split
  · simp only [List.map_map]
    apply List.map_congr_left
    intro p _
    simp only [Function.comp]
    split <;> rfl
  · rfl

theorem move_param (consm : List V) (w : View V F) (k : V) (val : ℚ) :
    (move consm w k val).param = w.param.map fun p => if p.1 = k then (p.1, .num val) else p := by
  unfold move
  split
  · rfl
  · next h =>
    symm
    conv_rhs => rw [← List.map_id w.param]
    apply List.map_congr_left
    intro p hp
    rw [if_neg (fun hh => h (List.mem_map.2 ⟨p, hp, hh⟩))]
    rfl

/-- The value of the slider of `x`, if there is one. -/
def slider (sliders : List (V × ℚ)) (x : V) : Option ℚ := (sliders.find? fun p => decide (p.1 = x)).map Prod.snd

/-- **C95, sliders.** After a move of any slider the pictures are drawn with the values of all the sliders: each parameter of the
scheme and each conserved moment which has a slider has its value, the others keep the value which they had. -/
theorem C95_sliders (consm : List V) (sliders : List (V × ℚ)) (hnd : (sliders.map Prod.fst).Nodup) (w : View V F)
    (hlen : w.consm0.length = consm.length) :
    (update consm sliders w).param = (w.param.map fun p => match slider sliders p.1 with
      | some v => (p.1, .num v)
      | none => p) ∧
    (update consm sliders w).consm0 = List.zipWith (fun m x => (slider sliders m).getD x) consm w.consm0 := by
  induction sliders generalizing w with
  | nil =>
    refine ⟨by simp [update, slider], ?_⟩
    simp only [update, List.foldl_nil, slider, List.find?_nil, Option.map_none, Option.getD_none]
    apply List.ext_getElem
    · simp [hlen]
    · intro i h1 h2; simp
  | cons s l ih =>
    simp only [List.map_cons, List.nodup_cons] at hnd
    have hl : (move consm w s.1 s.2).consm0.length = consm.length := by simp [move, hlen]
    obtain ⟨h1, h2⟩ := ih hnd.2 (move consm w s.1 s.2) hl
    have hnone : slider l s.1 = none := by
      unfold slider
      rw [Option.map_eq_none_iff, List.find?_eq_none]
      intro p hp h
      simp only [decide_eq_true_eq] at h
      exact hnd.1 (List.mem_map.2 ⟨p, hp, h⟩)
    have hcons : ∀ x, slider (s :: l) x = if s.1 = x then some s.2 else slider l x := by
      intro x
      unfold slider
      rw [List.find?_cons]
      by_cases h : s.1 = x <;> simp [h]
    refine ⟨?_, ?_⟩
    · change (update consm l (move consm w s.1 s.2)).param = _
      rw [h1, move_param, List.map_map]
      apply List.map_congr_left
      intro p _
      simp only [Function.comp, hcons]
      by_cases h : p.1 = s.1
      · simp [h, hnone]
      · simp [h, Ne.symm h]
    · change (update consm l (move consm w s.1 s.2)).consm0 = _
      rw [h2]
      simp only [move]
      apply List.ext_getElem
      · simp
      · intro i h3 h4
        simp only [List.getElem_zipWith, hcons]
        by_cases h : consm[i]'(by simp at h4; omega) = s.1
        · simp [h, hnone]
        · simp [h, Ne.symm h]

/-- **C95, history of the sliders.** Only the last positions count: after any sequence of moves (each of them uses all the sliders)
the pictures are those of a direct move to the last positions. -/
theorem C95_last_move (consm : List V) (keys : List V) (hnd : keys.Nodup) (moves : List (List (V × ℚ)))
    (hk : ∀ s ∈ moves, s.map Prod.fst = keys) (last : List (V × ℚ)) (hlast : last.map Prod.fst = keys) (w : View V F)
    (hlen : w.consm0.length = consm.length) :
    update consm last (moves.foldl (fun w s => update consm s w) w) = update consm last w := by
  have hsome : ∀ (s : List (V × ℚ)) (x : V), s.map Prod.fst = keys → ((slider s x).isSome ↔ x ∈ keys) := by
    intro s x hs
    unfold slider
    rw [Option.isSome_map, List.find?_isSome, ← hs, List.mem_map]
    simp only [decide_eq_true_eq]
  induction moves generalizing w with
  | nil => rfl
  | cons s l ih =>
    rw [List.foldl_cons, ih (fun t ht => hk t (by simp [ht]))]
    · have hs := hk s (by simp)
      obtain ⟨a1, a2⟩ := C95_sliders consm s (hs ▸ hnd) w hlen
      have hl' : (update consm s w).consm0.length = consm.length := by rw [a2]; simp [hlen]
      obtain ⟨b1, b2⟩ := C95_sliders consm last (hlast ▸ hnd) (update consm s w) hl'
      obtain ⟨c1, c2⟩ := C95_sliders consm last (hlast ▸ hnd) w hlen
      have key : ∀ x, slider last x = none → slider s x = none := by
        intro x hx
        by_contra hne
        have := (hsome last x hlast).2 ((hsome s x hs).1 (Option.isSome_iff_ne_none.2 hne))
        rw [hx] at this
        simp at this
      have e1 : (update consm last (update consm s w)).param = (update consm last w).param := by
        rw [b1, c1, a1, List.map_map]
        apply List.map_congr_left
        intro p _
        simp only [Function.comp]
        cases hx : slider last p.1 with
        | none => simp [key _ hx, hx]
        | some v =>
          cases slider s p.1 <;> simp [hx]
      have e2 : (update consm last (update consm s w)).consm0 = (update consm last w).consm0 := by
        rw [b2, c2, a2]
        apply List.ext_getElem
        · simp
        · intro i h3 h4
          have hi : i < consm.length := by simp at h4; omega
          simp only [List.getElem_zipWith]
          cases hx : slider last consm[i] with
          | none => simp [key _ hx]
          | some v => simp
      cases h : update consm last (update consm s w)
      cases h' : update consm last w
      rw [h, h'] at e1 e2
      simp only at e1 e2
      rw [e1, e2]
    · obtain ⟨-, a2⟩ := C95_sliders consm s ((hk s (by simp)) ▸ hnd) w hlen
      rw [a2]; simp [hlen]

/-- A case for the two theorems: a conserved moment, a parameter of the scheme and a symbol of neither kind. -/
example : (update ["u"] [("u", 1 / 2), ("s", 3 / 2), ("z", 7)] (⟨[("s", .num 1), ("la", .num 1)], [0]⟩ : View String Unit)).consm0
      = [1 / 2] ∧
    (update ["u"] [("u", 1 / 2), ("s", 3 / 2), ("z", 7)] (⟨[("s", .num 1), ("la", .num 1)], [0]⟩ : View String Unit)).param
      = [("s", .num (3 / 2)), ("la", .num 1)] := by decide +kernel

/-- **C95 is false at the beginning**: the first pictures are drawn before any move, with the parameters of the scheme and the
linearisation, while the sliders show the values `init`.  Here the matrix is the relaxation parameter, 1 in the scheme and 3/2 on the
slider. -/
theorem C95_first_picture_negation : ∃ (consm : List String) (mat : List (Term String Unit)) (w : View String Unit)
    (sliders : List (String × ℚ)), w.consm0 = linearization consm none ∧
    ∀ (A : Type) (num : ℚ → A) (un : Unit → A → A) (bin : Unit → A → A → A),
      w.matrix num un bin consm mat = some [num 1] ∧
      (update consm sliders w).matrix num un bin consm mat = some [num (3 / 2)] := by
  refine ⟨["u"], [.var "s"], ⟨[("s", .num 1)], [0]⟩, [("s", 3 / 2)], rfl, fun A num un bin => ⟨?_, ?_⟩⟩
  · have : recursiveSub [Term.var "s"] (toSubs ["u"] (([0] : List ℚ).map .num) [("s", (.num 1 : Term String Unit))] []) =
        some [.num 1] := by decide +kernel
    unfold View.matrix stateMatrix
    rw [this]; rfl
  · have : recursiveSub [Term.var "s"] (toSubs ["u"] ((update ["u"] [("s", 3 / 2)]
        (⟨[("s", .num 1)], [0]⟩ : View String Unit)).consm0.map .num) (update ["u"] [("s", 3 / 2)]
        (⟨[("s", .num 1)], [0]⟩ : View String Unit)).param []) = some [.num (3 / 2)] := by decide +kernel
    unfold View.matrix stateMatrix
    rw [this]; rfl

/-- **C95, linearization**: the state of the first pictures is the one asked for: each conserved moment has the value given in
`linearization`, 0 when no value is given for it or no dictionary is given; the names which are not conserved moments are ignored. -/
theorem C95_linearization (consm : List V) (d : List (V × ℚ)) (hnd : (d.map Prod.fst).Nodup) (i : Nat) (m : V)
    (hi : consm[i]? = some m) :
    (∀ v, (m, v) ∈ d → (linearization consm (some d))[i]? = some v) ∧
    (m ∉ d.map Prod.fst → (linearization consm (some d))[i]? = some 0) ∧
    (linearization consm none)[i]? = some 0 ∧
    (linearization consm (some d)).length = consm.length ∧ (linearization consm none).length = consm.length := by
  refine ⟨fun v hv => ?_, fun hm => ?_, ?_, by simp [linearization], by simp [linearization]⟩
  · simp only [linearization, List.getElem?_map, hi, Option.map_some, Option.some.injEq, getD]
    have : d.find? (fun p => decide (p.1 = m)) = some (m, v) := by
      clear hi
      induction d with
      | nil => simp at hv
      | cons p d ih =>
        rw [List.map_cons, List.nodup_cons] at hnd
        rw [List.find?_cons]
        rcases List.mem_cons.1 hv with h | h
        · subst h; simp
        · have hne : p.1 ≠ m := fun he => hnd.1 (List.mem_map.2 ⟨_, h, he.symm⟩)
          simp only [hne, decide_false]
          exact ih hnd.2 h
    rw [this]; rfl
  · simp only [linearization, List.getElem?_map, hi, Option.map_some, Option.some.injEq, getD]
    have : d.find? (fun p => decide (p.1 = m)) = none := by
      rw [List.find?_eq_none]
      intro p hp h
      simp only [decide_eq_true_eq] at h
      exact hm (List.mem_map.2 ⟨p, hp, h⟩)
    rw [this]; rfl
  · simp only [linearization, List.getElem?_map, hi, Option.map_some]

/-- A case: two conserved moments, one value. -/
example : linearization ["rho", "q"] (some [("z", 7), ("q", 3)]) = [0, 3] := by decide +kernel

/-- **C95, no wave vector**: with `number_of_wave_vectors = 0` every scheme is announced stable. -/
theorem C95_no_wave_vector {n dim : Nat} (hdim : 0 < dim) (τ : ℝ) (vel : Fin n → Halo.Cell dim)
    (R : Matrix (Fin n) (Fin n) ℝ) : verdict τ vel R 0 = 0 := by
  have : waveVectors 0 dim = [] := by
    unfold waveVectors
    have : IsEmpty (Fin dim → Fin 0) := ⟨fun f => (f ⟨0, hdim⟩).elim0⟩
    simp
  unfold verdict
  simp [this]

end Pylbm.Stability.State
