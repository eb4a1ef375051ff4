import Mathlib.Data.List.Basic
import Mathlib.Data.List.DropRight
import Mathlib.Data.List.Infix
import Mathlib.Tactic.Ring
/-!
# C75: the indentation of the generated Cython and NumPy functions

The printers write the loops with `for` lines, which end with `:`, and `#end` lines; `indent_code` indents
the whole file from these endings. A string is the list of its characters, a text the list of its
lines without the newlines.
-/

namespace Pylbm.Layout

abbrev Line := List Char

/-! ## Model -/

/-- The characters removed by `lstrip(" \t")`. -/
def blank (c : Char) : Bool := c = ' ' ∨ c = '\t'

/-- `line.lstrip(" \t")`. -/
def lstrip (l : Line) : Line := l.dropWhile blank

/-- `inc_token = (":", ":\n")`, cython.py 398, pycode.py 1142. -/
def opens (l : Line) : Bool := [':'].isSuffixOf l

/-- `dec_token = ("end\n",)`, cython.py 399, pycode.py 1143; `nl` tells whether the lines end with a newline. -/
def closes (nl : Bool) (l : Line) : Bool := nl && ['e', 'n', 'd'].isSuffixOf l

/-- The loop of `indent_code` from the level `n`, cython.py 406-414, pycode.py 1150-1158 (`tab * level` is empty
for a negative level). -/
def indentFrom (nl : Bool) : Int → List Line → List Line
  | _, [] => []
  | n, l :: ls =>
    let t := lstrip l
    if t = [] then t :: indentFrom nl n ls
    else
      let n1 := n - if closes nl t then 1 else 0
      (List.replicate (4 * n1.toNat) ' ' ++ t) :: indentFrom nl (n1 + if opens t then 1 else 0) ls

/-- The statements of a routine: assignments (one or several printed lines for a matrix; a line is empty when
both sides are equal, cython.py 343-345) and `For` loops on several indices. -/
inductive Code
  | nil
  | assign (lines : List Line) (rest : Code)
  | loop (index : List Line) (body : Code) (rest : Code)

/-- `"for %s in range(%s, %s):"`, cython.py 305; the index is given here with its bounds, `label in range(lower,
upper`. -/
def forLine (i : Line) : Line := ['f', 'o', 'r', ' '] ++ i ++ [')', ':']

/-- `_print_For`, cython.py 301-315, and `_call_printer`, codegen.py 1145-1161: every statement goes through
`doprint`, which splits it in lines without newline and calls `indent_code` on them (cython.py 138-159). The NumPy
printer (pycode.py 1092-1100) is the case without indices. -/
def Code.print : Code → List Line
  | nil => []
  | assign [] rest => [] :: rest.print
  | assign (l :: ls) rest => indentFrom false 0 (l :: ls) ++ rest.print
  | loop index body rest =>
    indentFrom false 0 (index.map forLine ++ body.print ++ index.map fun _ => ['#', 'e', 'n', 'd']) ++
      rest.print

/-- A routine: name and arguments, declarations of the local variables (codegen.py 1113-1127; none for NumPy),
statements. -/
structure Routine where
  signature : Line
  locals : List Line
  code : Code

/-- `"def %s(%s):"`, codegen.py 1057-1105 and 1211-1229; the signature is `name(args`. -/
def Routine.opening (r : Routine) : Line := ['d', 'e', 'f', ' '] ++ r.signature ++ [')', ':']

/-- The lines of a routine in `dump_code`, codegen.py 973-985 (with `empty`); the functions return
nothing. -/
def Routine.lines (r : Routine) : List Line :=
  [] :: r.opening :: (r.locals ++ [] :: (r.code.print ++ [[], ['#', 'e', 'n', 'd']]))

/-- The module written by `dump_code`, codegen.py 971-987, without the header of `_get_header` (comments and
imports). -/
def moduleText (rs : List Routine) : List Line := indentFrom true 0 (rs.flatMap Routine.lines)

/-! ## Specification: how Python reads a text -/

/-- The lines which count, with their indentation: no blank lines, no comments. -/
def logical (text : List Line) : List (Nat × Line) :=
  text.filterMap fun l =>
    match lstrip l with
    | [] => none
    | '#' :: _ => none
    | c :: t => some ((l.takeWhile blank).length, c :: t)

/-- Blocks of statements: simple statements and compound statements. -/
inductive Block
  | nil
  | simple (l : Line) (rest : Block)
  | compound (header : Line) (body : Block) (rest : Block)

/-- The lines are a block of indentation `n`: the simple statements have the indentation `n`, and a compound
statement is a line which ends with `:` of indentation `n` and a block of larger indentation which is
not empty. -/
inductive IsBlock : Nat → List (Nat × Line) → Block → Prop
  | nil (n : Nat) : IsBlock n [] .nil
  | simple (n : Nat) (l : Line) (ls : List (Nat × Line)) (b : Block) (h : ¬ [':'] <:+ l) (hl : IsBlock n ls b) :
      IsBlock n ((n, l) :: ls) (.simple l b)
  | compound (n m : Nat) (l : Line) (bs ls : List (Nat × Line)) (body rest : Block) (h : [':'] <:+ l)
      (hm : n < m) (hb : IsBlock m bs body) (hne : body ≠ .nil) (hl : IsBlock n ls rest) :
      IsBlock n ((n, l) :: (bs ++ ls)) (.compound l body rest)

/-- Two blocks one after the other. -/
def Block.append : Block → Block → Block
  | nil, c => c
  | simple l b, c => simple l (b.append c)
  | compound h b r, c => compound h b (r.append c)

/-- Simple statements. -/
def simples : List Line → Block
  | [] => .nil
  | l :: ls => .simple l (simples ls)

/-- Nested loops, `forLine i` for each index, with a body. -/
def nest : List Line → Block → Block
  | [], body => body
  | i :: is, body => .compound (forLine i) (nest is body) .nil

/-- What the statements mean. -/
def Code.block : Code → Block
  | nil => .nil
  | assign ls rest => (simples (ls.filter fun l => l ≠ [])).append rest.block
  | loop index body rest => (nest index body.block).append rest.block

/-- A module is the sequence of its functions. -/
def blocks : List Routine → Block
  | [] => .nil
  | r :: rs => .compound r.opening ((simples r.locals).append r.code.block) (blocks rs)

/-- The text of a statement: it begins with a character which is neither blank nor `#`, and does not end with `:`
or `end`. -/
def Plain (l : Line) : Prop :=
  (∃ c t, l = c :: t ∧ blank c = false ∧ c ≠ '#') ∧ ¬ [':'] <:+ l ∧ ¬ ['e', 'n', 'd'] <:+ l

/-- The lines of the assignments are plain or empty, and every loop has a body which is not empty. -/
def Code.OK : Code → Prop
  | nil => True
  | assign ls rest => (∀ l ∈ ls, l = [] ∨ Plain l) ∧ rest.OK
  | loop index body rest => index ≠ [] ∧ body.OK ∧ body.block ≠ .nil ∧ rest.OK

def Routine.OK (r : Routine) : Prop :=
  (∀ l ∈ r.locals, Plain l) ∧ r.code.OK ∧ (r.locals ≠ [] ∨ r.code.block ≠ .nil)


/-! ## Proofs -/

theorem lstrip_lstrip (l : Line) : lstrip (lstrip l) = lstrip l := by
  unfold lstrip
  exact List.dropWhile_idempotent _ l

theorem lstrip_indent (k : Nat) (l : Line) : lstrip (List.replicate k ' ' ++ l) = lstrip l := by
  induction k with
  | zero => rfl
  | succ k ih =>
    rw [List.replicate_succ, List.cons_append]
    unfold lstrip at ih ⊢
    rw [List.dropWhile_cons_of_pos (by decide)]
    exact ih

theorem lstrip_indentFrom (nl : Bool) (n : Int) (ls : List Line) :
    (indentFrom nl n ls).map lstrip = ls.map lstrip := by
  induction ls generalizing n with
  | nil => rfl
  | cons l ls ih =>
    simp only [indentFrom]
    split_ifs with h
    all_goals simp only [List.map_cons, ih, lstrip_lstrip, lstrip_indent]

theorem indentFrom_congr (nl : Bool) (n : Int) {ls ls' : List Line} (h : ls.map lstrip = ls'.map lstrip) :
    indentFrom nl n ls = indentFrom nl n ls' := by
  induction ls generalizing n ls' with
  | nil =>
    cases ls' with
    | nil => rfl
    | cons l' ls' => simp at h
  | cons l ls ih =>
    cases ls' with
    | nil => simp at h
    | cons l' ls' =>
      simp only [List.map_cons, List.cons.injEq] at h
      simp only [indentFrom, h.1]
      split_ifs <;> rw [ih _ h.2]

/-- The inner calls of `indent_code` do not matter. -/
theorem indentFrom_inner (nl nl' : Bool) (n n' : Int) (ls rest : List Line) :
    indentFrom nl n (indentFrom nl' n' ls ++ rest) = indentFrom nl n (ls ++ rest) :=
  indentFrom_congr nl n (by rw [List.map_append, List.map_append, lstrip_indentFrom])

/-- A line which begins with a character which is neither blank nor `#`. -/
def Starts (l : Line) : Prop := ∃ c t, l = c :: t ∧ blank c = false ∧ c ≠ '#'

theorem Starts.lstrip {l : Line} (h : Starts l) : Layout.lstrip l = l := by
  obtain ⟨c, t, rfl, hc, -⟩ := h
  unfold Layout.lstrip
  rw [List.dropWhile_cons_of_neg (by simp [hc])]

theorem Starts.ne {l : Line} (h : Starts l) : l ≠ [] := by
  obtain ⟨c, t, rfl, -⟩ := h
  simp

theorem takeWhile_indent (k : Nat) {l : Line} (h : Starts l) :
    (List.replicate k ' ' ++ l).takeWhile blank = List.replicate k ' ' := by
  induction k with
  | zero =>
    obtain ⟨c, t, rfl, hc, -⟩ := h
    simp [hc]
  | succ k ih =>
    rw [List.replicate_succ, List.cons_append, List.takeWhile_cons_of_pos (by decide), ih]

theorem logical_cons (k : Nat) {l : Line} (h : Starts l) (ls : List Line) :
    logical ((List.replicate k ' ' ++ l) :: ls) = (k, l) :: logical ls := by
  have hs : lstrip (List.replicate k ' ' ++ l) = l := by rw [lstrip_indent, h.lstrip]
  have ht := takeWhile_indent k h
  unfold logical
  rw [List.filterMap_cons]
  rw [hs]
  obtain ⟨c, t, rfl, hc, hne⟩ := h
  simp only [ht, List.length_replicate]

theorem logical_blank (ls : List Line) : logical ([] :: ls) = logical ls := by
  unfold logical
  rw [List.filterMap_cons]
  rfl

theorem step_blank (n : Int) (ls : List Line) :
    logical (indentFrom true n ([] :: ls)) = logical (indentFrom true n ls) := by
  have : lstrip [] = [] := rfl
  simp only [indentFrom, this, if_true]
  exact logical_blank _

theorem opens_iff (l : Line) : opens l = true ↔ [':'] <:+ l := by
  unfold opens; rw [List.isSuffixOf_iff_suffix]

theorem closes_iff (l : Line) : closes true l = true ↔ ['e', 'n', 'd'] <:+ l := by
  unfold closes; rw [Bool.true_and, List.isSuffixOf_iff_suffix]

/-- A line which is neither blank nor a comment, at a level. -/
theorem step_line (n : Int) {l : Line} (h : Starts l) (ls : List Line) :
    let n1 := n - if ['e', 'n', 'd'] <:+ l then 1 else 0
    logical (indentFrom true n (l :: ls)) =
      (4 * n1.toNat, l) :: logical (indentFrom true (n1 + if [':'] <:+ l then 1 else 0) ls) := by
  intro n1
  simp only [indentFrom, h.lstrip, h.ne, if_false, opens_iff, closes_iff]
  exact logical_cons _ h _

theorem step_plain (n : Nat) {l : Line} (h : Plain l) (ls : List Line) :
    logical (indentFrom true n (l :: ls)) = (4 * n, l) :: logical (indentFrom true n ls) := by
  rw [step_line n h.1]
  simp only [h.2.1, h.2.2, if_false, sub_zero, add_zero, Int.toNat_natCast]

theorem colon_not_end {l : Line} (h : [':'] <:+ l) : ¬ ['e', 'n', 'd'] <:+ l := by
  rintro ⟨t, rfl⟩
  obtain ⟨u, hu⟩ := h
  have := congrArg List.getLast? hu
  simp at this

theorem step_header (n : Nat) {l : Line} (h : Starts l) (hc : [':'] <:+ l) (ls : List Line) :
    logical (indentFrom true n (l :: ls)) = (4 * n, l) :: logical (indentFrom true ((n + 1 : Nat) : Int) ls) := by
  rw [step_line n h]
  simp only [hc, colon_not_end hc, if_false, if_true, sub_zero, Int.toNat_natCast]
  push_cast
  rfl

theorem step_end (n : Nat) (ls : List Line) :
    logical (indentFrom true ((n + 1 : Nat) : Int) (['#', 'e', 'n', 'd'] :: ls)) =
      logical (indentFrom true n ls) := by
  have h1 : lstrip ['#', 'e', 'n', 'd'] = ['#', 'e', 'n', 'd'] := by decide
  have h2 : closes true ['#', 'e', 'n', 'd'] = true := by decide
  have h3 : opens ['#', 'e', 'n', 'd'] = false := by decide
  simp only [indentFrom, h1, h2, h3, if_true, Bool.false_eq_true, if_false]
  rw [if_neg (by simp)]
  unfold logical
  rw [List.filterMap_cons]
  have h4 : ∀ k, lstrip (List.replicate k ' ' ++ ['#', 'e', 'n', 'd']) = ['#', 'e', 'n', 'd'] := by
    intro k; rw [lstrip_indent, h1]
  rw [h4]
  simp

theorem forLine_starts (i : Line) : Starts (forLine i) := ⟨'f', _, rfl, by decide, by decide⟩

theorem forLine_colon (i : Line) : [':'] <:+ forLine i :=
  ⟨['f', 'o', 'r', ' '] ++ i ++ [')'], by simp [forLine]⟩

theorem opening_starts (r : Routine) : Starts r.opening := ⟨'d', _, rfl, by decide, by decide⟩

theorem opening_colon (r : Routine) : [':'] <:+ r.opening :=
  ⟨['d', 'e', 'f', ' '] ++ r.signature ++ [')'], by simp [Routine.opening]⟩

/-- The lines of a nest of loops without the body. -/
def headers : Nat → List Line → List (Nat × Line)
  | _, [] => []
  | n, i :: is => (4 * n, forLine i) :: headers (n + 1) is

/-- The lines which count, with their indentation. -/
def Code.layout : Nat → Code → List (Nat × Line)
  | _, nil => []
  | n, assign ls rest => ((ls.filter fun l => l ≠ []).map fun l => (4 * n, l)) ++ rest.layout n
  | n, loop index body rest => headers n index ++ body.layout (n + index.length) ++ rest.layout n

theorem step_headers (n : Nat) (is : List Line) (ls : List Line) :
    logical (indentFrom true n (is.map forLine ++ ls)) =
      headers n is ++ logical (indentFrom true ((n + is.length : Nat) : Int) ls) := by
  induction is generalizing n with
  | nil => rfl
  | cons i is ih =>
    rw [List.map_cons, List.cons_append, step_header n (forLine_starts i) (forLine_colon i), ih]
    simp only [headers, List.cons_append, List.length_cons]
    rw [show n + 1 + is.length = n + (is.length + 1) by ring]

theorem step_ends (n : Nat) (is : List Line) (ls : List Line) :
    logical (indentFrom true ((n + is.length : Nat) : Int)
      ((is.map fun _ => ['#', 'e', 'n', 'd']) ++ ls)) = logical (indentFrom true n ls) := by
  induction is with
  | nil => rfl
  | cons i is ih =>
    rw [List.map_cons, List.cons_append, List.length_cons, ← Nat.add_assoc, step_end, ih]

theorem step_lines (n : Nat) (ls : List Line) (h : ∀ l ∈ ls, l = [] ∨ Plain l) (rest : List Line) :
    logical (indentFrom true n (ls ++ rest)) =
      ((ls.filter fun l => l ≠ []).map fun l => (4 * n, l)) ++ logical (indentFrom true n rest) := by
  induction ls with
  | nil => rfl
  | cons l ls ih =>
    have ih' := ih fun x hx => h x (by simp [hx])
    rw [List.cons_append]
    rcases h l (by simp) with rfl | hp
    · rw [step_blank, ih']; simp
    · have : l ≠ [] := Starts.ne hp.1
      rw [step_plain n hp, ih']
      simp [this]

theorem print_layout (n : Nat) (p : Code) (h : p.OK) (rest : List Line) :
    logical (indentFrom true n (p.print ++ rest)) =
      p.layout n ++ logical (indentFrom true n rest) := by
  induction p generalizing n rest with
  | nil => rfl
  | assign ls p ih =>
    have e : logical (indentFrom true n ((Code.assign ls p).print ++ rest)) =
        logical (indentFrom true n (ls ++ (p.print ++ rest))) := by
      cases ls with
      | nil => simp only [Code.print, List.cons_append, step_blank, List.nil_append]
      | cons l ls => simp only [Code.print, List.append_assoc, indentFrom_inner]
    rw [e, step_lines n ls h.1, ih n h.2]
    simp [Code.layout]
  | loop index body p ihb ih =>
    simp only [Code.print, List.append_assoc, indentFrom_inner]
    rw [step_headers, ihb _ h.2.1, step_ends, ih n h.2.2.2]
    simp [Code.layout]

theorem IsBlock.append {n : Nat} {ls ls' : List (Nat × Line)} {b b' : Block} (h : IsBlock n ls b)
    (h' : IsBlock n ls' b') : IsBlock n (ls ++ ls') (b.append b') := by
  induction h with
  | nil n => exact h'
  | simple n l ls b hl _ ih => exact .simple n l _ _ hl (ih h')
  | compound n m l bs ls body rest hl hm hb hne _ _ ih =>
    rw [List.cons_append, List.append_assoc]
    exact .compound n m l bs _ body _ hl hm hb hne (ih h')

theorem isBlock_simples (n : Nat) (ls : List Line) (h : ∀ l ∈ ls, Plain l) :
    IsBlock n (ls.map fun l => (n, l)) (simples ls) := by
  induction ls with
  | nil => exact .nil n
  | cons l ls ih =>
    exact .simple n l _ _ (h l (by simp)).2.1 (ih fun x hx => h x (by simp [hx]))

theorem isBlock_nest (n : Nat) (is : List Line) (hi : is ≠ []) (bs : List (Nat × Line)) (body : Block)
    (hb : IsBlock (4 * (n + is.length)) bs body) (hne : body ≠ .nil) :
    IsBlock (4 * n) (headers n is ++ bs) (nest is body) ∧ nest is body ≠ .nil := by
  induction is generalizing n with
  | nil => exact absurd rfl hi
  | cons i is ih =>
    refine ⟨?_, by simp [nest]⟩
    have key : IsBlock (4 * (n + 1)) (headers (n + 1) is ++ bs) (nest is body) ∧ nest is body ≠ .nil := by
      by_cases h0 : is = []
      · subst h0
        exact ⟨hb, hne⟩
      · apply ih _ h0
        rw [show n + 1 + is.length = n + (i :: is).length by simp; ring]
        exact hb
    have := IsBlock.compound (4 * n) (4 * (n + 1)) (forLine i) _ [] _ .nil (forLine_colon i) (by omega)
      key.1 key.2 (.nil _)
    rw [List.append_nil] at this
    exact this

theorem isBlock_layout (n : Nat) (p : Code) (h : p.OK) : IsBlock (4 * n) (p.layout n) p.block := by
  induction p generalizing n with
  | nil => exact .nil _
  | assign ls p ih =>
    refine IsBlock.append (isBlock_simples _ _ ?_) (ih n h.2)
    intro l hl
    obtain ⟨h1, h2⟩ := List.mem_filter.1 hl
    exact (h.1 l h1).resolve_left (by simpa using h2)
  | loop index body p ihb ih =>
    exact IsBlock.append (isBlock_nest n index h.1 _ _ (ihb _ h.2.1) h.2.2.1).1 (ih n h.2.2.2)

/-- All the lines of a block are indented at least like the block, and the first one like the block. -/
theorem IsBlock.indent {n : Nat} {ls : List (Nat × Line)} {b : Block} (h : IsBlock n ls b) :
    (∀ p ∈ ls, n ≤ p.1) ∧ (∀ p, ls.head? = some p → p.1 = n) ∧ (ls = [] ↔ b = .nil) := by
  induction h with
  | nil n => simp
  | simple n l ls b _ _ ih =>
    refine ⟨?_, by rintro p ⟨⟩; rfl, by simp⟩
    intro p hp
    rcases List.mem_cons.1 hp with rfl | hp
    · exact le_refl _
    · exact ih.1 p hp
  | compound n m l bs ls body rest _ hm _ _ _ ihb ihr =>
    refine ⟨?_, by rintro p ⟨⟩; rfl, by simp⟩
    intro p hp
    rcases List.mem_cons.1 hp with rfl | hp
    · exact le_refl _
    · rcases List.mem_append.1 hp with hp | hp
      · exact le_trans hm.le (ihb.1 p hp)
      · exact ihr.1 p hp

theorem IsBlock.unique {n : Nat} {ls : List (Nat × Line)} {b b' : Block} (h : IsBlock n ls b)
    (h' : IsBlock n ls b') : b = b' := by
  induction h generalizing b' with
  | nil n => exact ((h'.indent).2.2.1 rfl).symm
  | simple n l ls b hl _ ih =>
    cases h' with
    | simple _ _ _ _ _ hl' => rw [ih hl']
    | compound _ _ _ _ _ _ _ hc => exact absurd hc hl
  | compound n m l bs ls body rest hl hm hb hne hr ihb ihr =>
    generalize hL : (n, l) :: (bs ++ ls) = L at h'
    cases h' with
    | nil => simp at hL
    | simple _ l' _ _ hc =>
      simp only [List.cons.injEq, Prod.mk.injEq] at hL
      rw [← hL.1.2] at hc
      exact absurd hl hc
    | compound _ m' l' bs' ls' body' rest' hl' hm' hb' hne' hr' =>
      simp only [List.cons.injEq, Prod.mk.injEq, true_and] at hL
      obtain ⟨rfl, hL⟩ := hL
      -- the two splits are equal: the lines of the bodies are indented more, the next line is not
      have split : ∀ (a b a' b' : List (Nat × Line)), a ++ b = a' ++ b' → (∀ p ∈ a, n < p.1) →
          (∀ p ∈ a', n < p.1) → (∀ p, b.head? = some p → p.1 = n) → (∀ p, b'.head? = some p → p.1 = n) →
          a = a' ∧ b = b' := by
        intro a
        induction a with
        | nil =>
          intro b a' b' e _ h2 h3 _
          cases a' with
          | nil => exact ⟨rfl, e⟩
          | cons p a' =>
            rw [List.nil_append] at e
            have := h3 p (by rw [e]; rfl)
            have := h2 p (by simp)
            omega
        | cons p a ih =>
          intro b a' b' e h1 h2 h3 h4
          cases a' with
          | nil =>
            rw [List.nil_append] at e
            have := h4 p (by rw [← e]; rfl)
            have := h1 p (by simp)
            omega
          | cons p' a' =>
            simp only [List.cons_append, List.cons.injEq] at e
            obtain ⟨r1, r2⟩ := ih b a' b' e.2 (fun q hq => h1 q (by simp [hq]))
              (fun q hq => h2 q (by simp [hq])) h3 h4
            exact ⟨by rw [e.1, r1], r2⟩
      obtain ⟨rfl, rfl⟩ := split bs ls bs' ls' hL
        (fun p hp => lt_of_lt_of_le hm (hb.indent.1 p hp))
        (fun p hp => lt_of_lt_of_le hm' (hb'.indent.1 p hp)) hr.indent.2.1 hr'.indent.2.1
      -- the indentation of the body is the one of its first line
      have hmm : m = m' := by
        cases hbs : bs with
        | nil => exact absurd (hb.indent.2.2.1 hbs) hne
        | cons p bs0 =>
          rw [← hb.indent.2.1 p (by rw [hbs]; rfl), ← hb'.indent.2.1 p (by rw [hbs]; rfl)]
      subst hmm
      rw [ihb hb', ihr hr']

theorem layout_routines (rs : List Routine) (h : ∀ r ∈ rs, r.OK) :
    IsBlock 0 (logical (moduleText rs)) (blocks rs) := by
  unfold moduleText
  induction rs with
  | nil => exact .nil 0
  | cons r rs ih =>
    obtain ⟨h1, h2, h3⟩ := h r (by simp)
    have ih' := ih fun x hx => h x (by simp [hx])
    have e : logical (indentFrom true 0 ((r :: rs).flatMap Routine.lines)) =
        (4 * 0, r.opening) :: (((r.locals.map fun l => (4 * 1, l)) ++ r.code.layout 1) ++
          logical (indentFrom true 0 (rs.flatMap Routine.lines))) := by
      rw [List.flatMap_cons]
      simp only [Routine.lines, List.cons_append, List.append_assoc, List.nil_append]
      rw [step_blank, show (0 : Int) = ((0 : Nat) : Int) from rfl,
        step_header 0 (opening_starts r) (opening_colon r), step_lines (0 + 1) _ (fun l hl => Or.inr (h1 l hl)),
        step_blank, print_layout (0 + 1) _ h2, step_blank, step_end]
      rw [List.filter_eq_self.2 (fun l hl => by simpa using Starts.ne (h1 l hl).1)]
    rw [e]
    have hb := (isBlock_simples (4 * 1) r.locals h1).append (isBlock_layout 1 r.code h2)
    refine IsBlock.compound 0 (4 * 1) _ _ _ _ _ (opening_colon r) (by decide) hb ?_ ih'
    intro h0
    have := hb.indent.2.2.2 h0
    rw [List.append_eq_nil_iff, List.map_eq_nil_iff] at this
    rcases h3 with h3 | h3
    · exact h3 this.1
    · exact h3 ((isBlock_layout 1 r.code h2).indent.2.2.1 this.2)

/-- **C75.** Take any routines whose statements are plain: whatever the nesting of the loops, the numbers of
indices and of lines of the assignments, Python reads the generated module in exactly one way, as the
sequence of the functions, each with its declarations and its statements, every statement in
the body of the loops to which it belongs. -/
theorem C75_layout_partial (rs : List Routine) (h : ∀ r ∈ rs, r.OK) (b : Block) :
    IsBlock 0 (logical (moduleText rs)) b ↔ b = blocks rs :=
  ⟨fun hb => hb.unique (layout_routines rs h), fun e => e ▸ layout_routines rs h⟩

/-- **C75 is false for a statement which ends with `end`**, as `m[1] = bend` does for a parameter `bend`: in any
routine with a loop over any indices, such a statement `t` and the statements `c` after it leave the
innermost loop (they are read once, after it), although they belong to its body. -/
theorem C75_end_negation (sig i a t c : Line) (ha : Plain a) (ht : Starts t) (hte : ['e', 'n', 'd'] <:+ t)
    (hc : Plain c) :
    let r : Routine := ⟨sig, [], .loop [i] (.assign [a] (.assign [t] (.assign [c] .nil))) .nil⟩
    let read : Block := .compound r.opening (.compound (forLine i) (.simple a .nil)
      (.simple t (.simple c .nil))) .nil
    IsBlock 0 (logical (moduleText [r])) read ∧ read ≠ blocks [r] := by
  intro r read
  have htc : ¬ [':'] <:+ t := fun h => colon_not_end h hte
  refine ⟨?_, by simp [read, blocks, r, simples, Code.block, nest, Block.append]⟩
  have e : logical (moduleText [r]) =
      [(0, r.opening), (4, forLine i), (8, a), (4, t), (4, c)] := by
    unfold moduleText
    simp only [List.flatMap_cons, List.flatMap_nil, List.append_nil, Routine.lines, r, List.nil_append,
      Code.print, List.append_assoc, List.map_cons, List.map_nil, List.cons_append]
    rw [step_blank, show (0 : Int) = ((0 : Nat) : Int) from rfl, step_header 0 (opening_starts r) (opening_colon r),
      step_blank, indentFrom_congr true _ (ls' := forLine i :: a :: t :: c ::
        ['#', 'e', 'n', 'd'] :: [] :: [['#', 'e', 'n', 'd']]) (by
          simp [lstrip_indentFrom]),
      step_header _ (forLine_starts i) (forLine_colon i), step_plain _ ha, step_line _ ht]
    simp only [hte, htc, if_true, if_false]
    rw [show (((0 + 1 + 1 : Nat) : Int) - 1 + 0) = ((1 : Nat) : Int) by norm_num, step_plain _ hc,
      show ((1 : Nat) : Int) = ((0 + 1 : Nat) : Int) from rfl, step_end, step_blank]
    rfl
  rw [e]
  have h1 : IsBlock 8 [(8, a)] (.simple a .nil) := .simple 8 a [] .nil ha.2.1 (.nil 8)
  have h2 : IsBlock 4 [(4, t), (4, c)] (.simple t (.simple c .nil)) :=
    .simple 4 t _ _ htc (.simple 4 c [] .nil hc.2.1 (.nil 4))
  have h3 := IsBlock.compound 4 8 (forLine i) _ _ _ _ (forLine_colon i) (by decide) h1 (by simp) h2
  exact IsBlock.compound 0 4 r.opening _ [] _ .nil (opening_colon r) (by decide) h3 (by simp) (.nil 0)

/-- A loop without any statement to print (both sides of all its assignments are equal) is not Python. -/
theorem C75_empty_negation (sig i : Line) :
    let r : Routine := ⟨sig, [], .loop [i] (.assign [[]] .nil) .nil⟩
    ¬ ∃ b, IsBlock 0 (logical (moduleText [r])) b := by
  intro r ⟨b, hb⟩
  have e : logical (moduleText [r]) = [(0, r.opening), (4, forLine i)] := by
    unfold moduleText
    simp only [List.flatMap_cons, List.flatMap_nil, List.append_nil, Routine.lines, r, List.nil_append,
      Code.print, List.append_assoc, List.map_cons, List.map_nil, List.cons_append]
    rw [step_blank, show (0 : Int) = ((0 : Nat) : Int) from rfl, step_header 0 (opening_starts r) (opening_colon r),
      step_blank, indentFrom_congr true _ (ls' := forLine i :: [] ::
        ['#', 'e', 'n', 'd'] :: [] :: [['#', 'e', 'n', 'd']]) (by
          simp [lstrip_indentFrom]),
      step_header _ (forLine_starts i) (forLine_colon i), step_blank, step_end, step_blank]
    rfl
  rw [e] at hb
  generalize hL : [(0, r.opening), (4, forLine i)] = L at hb
  have aux : ∀ n b, ¬ IsBlock n [(4, forLine i)] b := by
    intro n b hb
    generalize hL : [(4, forLine i)] = L at hb
    cases hb with
    | nil => simp at hL
    | simple _ l _ _ hc _ =>
      simp only [List.cons.injEq, Prod.mk.injEq] at hL
      exact hc (hL.1.2 ▸ forLine_colon i)
    | compound _ m l bs ls body rest _ _ hb' hne _ =>
      simp only [List.cons.injEq, Prod.mk.injEq] at hL
      have := List.append_eq_nil_iff.1 hL.2.symm
      exact hne (hb'.indent.2.2.1 this.1)
  cases hb with
  | nil => simp at hL
  | simple _ l _ _ hc _ =>
    simp only [List.cons.injEq, Prod.mk.injEq] at hL
    exact hc (hL.1.2 ▸ opening_colon r)
  | compound _ m l bs ls body rest _ _ hb' hne hr =>
    simp only [List.cons.injEq, Prod.mk.injEq] at hL
    cases bs with
    | nil => exact hne (hb'.indent.2.2.1 rfl)
    | cons p bs =>
      simp only [List.cons_append, List.cons.injEq] at hL
      have h0 := List.append_eq_nil_iff.1 hL.2.2.symm
      rw [h0.1, ← hL.2.1] at hb'
      exact aux m body hb'

/-- A case for C75: two functions, the first with two nested loops, an assignment of a matrix with a line which
is not printed, and a statement between the loops. -/
example : ∀ r ∈ ([⟨"f2m(double[:, ::1] f, int nx".toList, ["cdef int i".toList, "cdef double m[2]".toList],
      .loop ["i in range(1, nx".toList, "j in range(1, ny".toList]
        (.assign ["m[0] = f[i, j]".toList, [], "m[1] = f[i + 1, j]".toList]
          (.loop ["k in range(0, 2".toList] (.assign ["g[k] = m[k]".toList] .nil) .nil)) .nil⟩,
    ⟨"m2f(double[:, ::1] f".toList, [], .assign ["f[0] = m[0]".toList] .nil⟩] : List Routine), r.OK := by
  have plain : ∀ l : Line, (l.head?.any fun c => !blank c && decide (c ≠ '#')) = true →
      opens l = false → closes true l = false → Plain l := by
    intro l h1 h2 h3
    refine ⟨?_, fun h => ?_, fun h => ?_⟩
    · cases l with
      | nil => simp at h1
      | cons c t => exact ⟨c, t, rfl, by simpa using h1⟩
    · rw [(opens_iff l).2 h] at h2; simp at h2
    · rw [(closes_iff l).2 h] at h3; simp at h3
  intro r hr
  simp only [List.mem_cons, List.not_mem_nil, or_false] at hr
  rcases hr with rfl | rfl
  · refine ⟨?_, ⟨by simp, ⟨?_, ⟨by simp, ⟨?_, trivial⟩, by simp [Code.block, simples, Block.append], trivial⟩⟩,
      by simp [Code.block, simples, Block.append], trivial⟩, by simp⟩
    · intro l hl
      simp only [List.mem_cons, List.not_mem_nil, or_false] at hl
      rcases hl with rfl | rfl <;> exact plain _ (by decide) (by decide) (by decide)
    · intro l hl
      simp only [List.mem_cons, List.not_mem_nil, or_false] at hl
      rcases hl with rfl | rfl | rfl
      · right; exact plain _ (by decide) (by decide) (by decide)
      · left; rfl
      · right; exact plain _ (by decide) (by decide) (by decide)
    · intro l hl
      simp only [List.mem_singleton] at hl
      right; rw [hl]; exact plain _ (by decide) (by decide) (by decide)
  · refine ⟨by simp, ⟨?_, trivial⟩, Or.inr (by simp [Code.block, simples, Block.append])⟩
    intro l hl
    simp only [List.mem_singleton] at hl
    right; rw [hl]; exact plain _ (by decide) (by decide) (by decide)

/-- A case for the negation. -/
example : Starts "m[1] = bend".toList ∧ ['e', 'n', 'd'] <:+ "m[1] = bend".toList :=
  ⟨⟨'m', _, rfl, by decide, by decide⟩, "m[1] = b".toList, by decide⟩

end Pylbm.Layout
