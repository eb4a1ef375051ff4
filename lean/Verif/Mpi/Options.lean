import Mathlib.Data.List.Infix
import Mathlib.Data.Fin.VecNotation
import Mathlib.Tactic.IntervalCases
import Mathlib.Tactic.FinCases
import Mathlib.Data.Fintype.Basic
/-!
# The command line (C117)

`options()` of pylbm/options.py is called when the package is imported (`__init__.py` 38, `monitoring.py` 118) and for each
topology (`mpi_topology.py` 183-185); it reads the command line of the user's program with `argparse`. The functions below
follow `ArgumentParser.parse_known_args` (argparse of Python 3.11) for the options of pylbm, which has no positional argument.
-/
namespace Pylbm.Cli

/-- A word of the command line. -/
abbrev Word := List Char

/-! ## Model -/

/-- What the options do: `--help` is added by `ArgumentParser`, the others are in options.py 18-51. -/
inductive Act
  | help
  | log
  | monitoring
  | np (i : Fin 3)
  deriving DecidableEq

/-- `-npx`, `-npy`, `-npz`. -/
def npName : Fin 3 → Word := ![['-', 'n', 'p', 'x'], ['-', 'n', 'p', 'y'], ['-', 'n', 'p', 'z']]

/-- The options of the parser in their order, options.py 17-51. -/
def table : List (Word × Act) :=
  [(['-', 'h'], .help), (['-', '-', 'h', 'e', 'l', 'p'], .help), (['-', '-', 'l', 'o', 'g'], .log),
    (['-', '-', 'm', 'o', 'n', 'i', 't', 'o', 'r', 'i', 'n', 'g'], .monitoring),
    (npName 0, .np 0), (npName 1, .np 1), (npName 2, .np 2)]

/-- What a word is for the parser: an argument, the word `--`, an option which is not in the table, an ambiguous
abbreviation, an option with or without an argument in the same word. -/
inductive Kind
  | pos
  | sep
  | unknown
  | bad
  | opt (a : Act) (arg : Option Word)
  deriving DecidableEq

/-- `partition('=')`: what is before, and what is after if there is one. -/
def beforeEq (t : Word) : Word := t.takeWhile (· ≠ '=')
/-- See `beforeEq`. -/
def afterEq (t : Word) : Option Word := if '=' ∈ t then some ((t.dropWhile (· ≠ '=')).drop 1) else none

/-- `_get_option_tuples` of argparse: the options which the word may abbreviate; the options of one letter may be followed
by their argument. -/
def candidates (t : Word) : List (Act × Option Word) :=
  table.filterMap fun p =>
    if ['-', '-'] <+: t then
      if beforeEq t <+: p.1 then some (p.2, afterEq t) else none
    else if p.1 = t.take 2 then some (p.2, some (t.drop 2))
    else if t <+: p.1 then some (p.2, none) else none

/-- `_negative_number_matcher` of argparse: `^-\d+$|^-\d*\.\d+$`. -/
def negative (t : Word) : Bool :=
  let r := t.drop 1
  (r ≠ [] && r.all Char.isDigit) ||
    (match r.dropWhile Char.isDigit with
      | '.' :: ds => ds ≠ [] && ds.all Char.isDigit
      | _ => false)

/-- `_parse_optional` of argparse. -/
def classify (t : Word) : Kind :=
  if ¬ ['-'] <+: t then .pos
  else match table.find? (fun p => p.1 = t) with
    | some p => .opt p.2 none
    | none =>
      if t.length = 1 then .pos
      else match (if '=' ∈ t then table.find? (fun p => p.1 = beforeEq t) else none) with
        | some p => .opt p.2 (afterEq t)
        | none => match candidates t with
          | _ :: _ :: _ => .bad
          | [c] => .opt c.1 c.2
          | [] => if negative t ∨ ' ' ∈ t then .pos else .unknown

/-- The words with what they are; after `--` they are all arguments. -/
def kinds : List Word → List (Word × Kind)
  | [] => []
  | t :: r => if t = ['-', '-'] then (t, .sep) :: r.map fun t => (t, .pos) else (t, classify t) :: kinds r

/-- The result of `options()`, options.py 52-53. -/
structure Opts where
  log : Word
  monitoring : Bool
  np : Fin 3 → Int

/-- The default values, options.py 21, 27, 33, 40, 47. -/
def defaults : Opts := ⟨['W', 'A', 'R', 'N', 'I', 'N', 'G'], false, fun _ => 1⟩

/-- The levels, options.py 22. -/
def levels : List Word :=
  [['W', 'A', 'R', 'N', 'I', 'N', 'G'], ['I', 'N', 'F', 'O'], ['D', 'E', 'B', 'U', 'G'], ['E', 'R', 'R', 'O', 'R']]

/-- The value of decimal digits. -/
def parseNat (v : Word) : Option Nat :=
  if v ≠ [] ∧ v.all Char.isDigit then some (v.foldl (fun a c => 10 * a + (c.toNat - 48)) 0) else none

/-- `int` of Python (`type=int`, options.py 34, 41, 48); the spaces and underscores which it accepts are left out. -/
def parseInt (v : Word) : Option Int :=
  match v with
  | '-' :: ds => (parseNat ds).map fun n => -(n : Int)
  | '+' :: ds => (parseNat ds).map fun n => (n : Int)
  | ds => (parseNat ds).map fun n => (n : Int)

/-- The options with one argument: `none` is an error message and the end of the program. -/
def store (o : Opts) (a : Act) (v : Word) : Option Opts :=
  match a with
  | .np i => (parseInt v).map fun n => { o with np := Function.update o.np i n }
  | .log => if v ∈ levels then some { o with log := v } else none
  | _ => none

/-- The loop of `_parse_known_args` with `consume_optional`: `none` is the end of the program, after a message or the help. -/
def consume (o : Opts) : List (Word × Kind) → Option Opts
  | [] => some o
  | (_, .pos) :: r => consume o r
  | (_, .sep) :: r => consume o r
  | (_, .unknown) :: r => consume o r
  | (_, .bad) :: _ => none
  | (_, .opt .help _) :: _ => none
  | (_, .opt .monitoring none) :: r => consume { o with monitoring := true } r
  | (_, .opt .monitoring (some _)) :: _ => none
  | (_, .opt a (some v)) :: r => (store o a v).bind fun o => consume o r
  | (_, .opt a none) :: (v, .pos) :: r => (store o a v).bind fun o => consume o r
  | (_, .opt _ none) :: _ => none

/-- `options`, options.py 13-53, for the words of the command line; ambiguous words are found before the others are read. -/
def parse (ts : List Word) : Option Opts :=
  if (kinds ts).any fun p => p.2 = .bad then none else consume defaults (kinds ts)

/-! ## Specification -/

/-- Words of the user's program which have nothing in common with the options of pylbm: they do not begin with a dash, or
are not an abbreviation of an option of pylbm, with or without `=`, and do not begin with `-h`. -/
def Foreign (t : Word) : Prop :=
  t ≠ ['-', '-'] ∧ (¬ ['-'] <+: t ∨ t = ['-'] ∨
    (['-', '-'] <+: t ∧ ∀ n ∈ [['-', '-', 'h', 'e', 'l', 'p'], ['-', '-', 'l', 'o', 'g'],
      ['-', '-', 'm', 'o', 'n', 'i', 't', 'o', 'r', 'i', 'n', 'g']], ¬ t.takeWhile (· ≠ '=') <+: n) ∨
    (¬ ['-', '-'] <+: t ∧ ¬ ['-', 'h'] <+: t ∧
      ∀ c ∈ ['x', 'y', 'z'], ¬ t <+: ['-', 'n', 'p', c] ∧ ¬ ['-', 'n', 'p', c, '='] <+: t))

/-- Decimal numerals. -/
inductive Numeral : Word → Nat → Prop
  | digit {d : Nat} : d < 10 → Numeral [Nat.digitChar d] d
  | snoc {v : Word} {n d : Nat} : Numeral v n → d < 10 → Numeral (v ++ [Nat.digitChar d]) (10 * n + d)

/-- Pieces of a command line: a word of the user's program, a number of processes or a level of the log, in two words or with
`=`, or the request of the monitoring. The options with two dashes may be abbreviated. -/
inductive Piece
  | other (t : Word)
  | two (i : Fin 3) (v : Word) (n : Nat)
  | one (i : Fin 3) (v : Word) (n : Nat)
  | logTwo (k : Fin 3) (v : Word)
  | logOne (k : Fin 3) (v : Word)
  | monitor (k : Fin 10)

/-- `--l`, `--lo`, `--log`. -/
def logWord (k : Fin 3) : Word := ['-', '-', 'l', 'o', 'g'].take (k + 3)

/-- `--m`, `--mo`, …, `--monitoring`. -/
def monitorWord (k : Fin 10) : Word := ['-', '-', 'm', 'o', 'n', 'i', 't', 'o', 'r', 'i', 'n', 'g'].take (k + 3)

/-- The names of the levels of `logging`. -/
def Level (v : Word) : Prop := v ∈ ["DEBUG", "INFO", "WARNING", "ERROR"].map String.toList

instance (v : Word) : Decidable (Level v) := inferInstanceAs (Decidable (v ∈ _))

def Piece.words : Piece → List Word
  | .other t => [t]
  | .two i v _ => [['-', 'n', 'p', ![('x' : Char), 'y', 'z'] i], v]
  | .one i v _ => [['-', 'n', 'p', ![('x' : Char), 'y', 'z'] i, '='] ++ v]
  | .logTwo k v => [logWord k, v]
  | .logOne k v => [logWord k ++ '=' :: v]
  | .monitor k => [monitorWord k]

def Piece.Ok : Piece → Prop
  | .other t => Foreign t
  | .two _ v n => Numeral v n
  | .one _ v n => Numeral v n
  | .logTwo _ v => Level v
  | .logOne _ v => Level v
  | .monitor _ => True

/-- The numbers of processes after a piece. -/
def Piece.set (o : Fin 3 → Int) : Piece → Fin 3 → Int
  | .two i _ n => Function.update o i (n : Int)
  | .one i _ n => Function.update o i (n : Int)
  | _ => o

/-- The numbers of processes: the last one given for each direction, 1 if there is none. -/
def asked (l : List Piece) : Fin 3 → Int := l.foldl Piece.set fun _ => 1

/-- The level after a piece. -/
def Piece.level (o : Word) : Piece → Word
  | .logTwo _ v => v
  | .logOne _ v => v
  | _ => o

/-- The level: the last one given, `WARNING` if there is none. -/
def askedLevel (l : List Piece) : Word := l.foldl Piece.level "WARNING".toList

/-- The monitoring is asked for. -/
def Piece.isMonitor : Piece → Bool
  | .monitor _ => true
  | _ => false

/-! ## Lemmas -/

theorem digit_isDigit {d : Nat} (h : d < 10) : (Nat.digitChar d).isDigit = true ∧ (Nat.digitChar d).toNat - 48 = d ∧
    Nat.digitChar d ≠ '-' ∧ Nat.digitChar d ≠ '+' := by
  interval_cases d <;> decide

theorem Numeral.spec {v : Word} {n : Nat} (h : Numeral v n) : v ≠ [] ∧ v.all Char.isDigit = true ∧
    v.foldl (fun a c => 10 * a + (c.toNat - 48)) 0 = n ∧ ∀ c ∈ v, c ≠ '-' ∧ c ≠ '+' := by
  induction h with
  | @digit d h =>
    obtain ⟨h1, h2, h3⟩ := digit_isDigit h
    refine ⟨by simp, by simp [h1], by simp [h2], by simp [h3]⟩
  | @snoc v n d _ h ih =>
    obtain ⟨h1, h2, h3⟩ := digit_isDigit h
    obtain ⟨i1, i2, i3, i4⟩ := ih
    refine ⟨by simp, ?_, ?_, ?_⟩
    · rw [List.all_append, i2]; simp [h1]
    · rw [List.foldl_append, i3]; simp [h2]
    · intro c hc
      rcases List.mem_append.1 hc with hc | hc
      · exact i4 c hc
      · rw [List.mem_singleton.1 hc]; exact h3

theorem Numeral.parse {v : Word} {n : Nat} (h : Numeral v n) : parseInt v = some (n : Int) := by
  obtain ⟨h1, h2, h3, h4⟩ := h.spec
  cases v with
  | nil => exact absurd rfl h1
  | cons c v =>
    obtain ⟨h5, h6⟩ := h4 c List.mem_cons_self
    unfold parseInt
    split
    · rename_i heq; simp only [List.cons.injEq] at heq; exact absurd heq.1 h5
    · rename_i heq; simp only [List.cons.injEq] at heq; exact absurd heq.1 h6
    · unfold parseNat
      rw [if_pos ⟨h1, h2⟩, h3]
      rfl

theorem Numeral.pos {v : Word} {n : Nat} (h : Numeral v n) : ¬ ['-'] <+: v := by
  intro hp
  obtain ⟨t, rfl⟩ := hp
  exact (h.spec.2.2.2 '-' (by simp)).1 rfl

theorem eq_prefix {t n : Word} (h : t.takeWhile (· ≠ '=') = n) (he : '=' ∈ t) : n ++ ['='] <+: t := by
  have h1 := List.takeWhile_append_dropWhile (p := (· ≠ '=')) (l := t)
  cases hd : t.dropWhile (· ≠ '=') with
  | nil =>
    rw [hd, List.append_nil] at h1
    rw [← h1] at he
    have hall : (t.takeWhile (· ≠ '=')).all (· ≠ '=') = true := List.all_takeWhile
    have := List.all_eq_true.1 hall _ he
    simp at this
  | cons c r =>
    have hc := List.head_dropWhile_not (p := (· ≠ '=')) (l := t) (by rw [hd]; simp)
    simp only [hd, List.head_cons] at hc
    simp only [ne_eq, decide_not, Bool.not_eq_eq_eq_not, Bool.not_false, decide_eq_true_eq] at hc
    rw [hd, h, hc] at h1
    exact ⟨r, by rw [← h1]; simp⟩

theorem classify_foreign {t : Word} (h : Foreign t) : classify t = .pos ∨ classify t = .unknown := by
  obtain ⟨h0, h⟩ := h
  by_cases h1 : ['-'] <+: t
  swap
  · left; simp [classify, h1]
  have key : table.find? (fun p => p.1 = t) = none → t.length ≠ 1 →
      (if '=' ∈ t then table.find? (fun p => p.1 = beforeEq t) else none) = none → candidates t = [] →
      classify t = .pos ∨ classify t = .unknown := by
    intro k1 k2 k3 k4
    unfold classify
    simp only [h1, not_true_eq_false, if_false, k1, k2, k3, k4]
    split_ifs
    · exact Or.inl rfl
    · exact Or.inr rfl
  rcases h with h | rfl | ⟨h2, h3⟩ | ⟨h2, h3, h4⟩
  · exact absurd h1 h
  · left; decide
  · obtain ⟨r, rfl⟩ := h2
    simp only [List.cons_append, List.nil_append] at *
    have e : beforeEq ('-' :: '-' :: r) = '-' :: '-' :: r.takeWhile (· ≠ '=') := by simp [beforeEq]
    refine key ?_ (by simp) ?_ ?_
    · rw [List.find?_eq_none]
      intro p hp
      simp only [decide_eq_true_eq]
      intro hpe
      simp only [table, npName, List.mem_cons, List.not_mem_nil, or_false] at hp
      rcases hp with rfl | rfl | rfl | rfl | rfl | rfl | rfl
      · simp at hpe
      · rw [← hpe] at h3; revert h3; decide
      · rw [← hpe] at h3; revert h3; decide
      · rw [← hpe] at h3; revert h3; decide
      all_goals simp at hpe
    · split_ifs with heq
      · rw [List.find?_eq_none]
        intro p hp
        simp only [decide_eq_true_eq]
        intro hpe
        have h3' : ∀ n ∈ [['-', '-', 'h', 'e', 'l', 'p'], ['-', '-', 'l', 'o', 'g'],
          ['-', '-', 'm', 'o', 'n', 'i', 't', 'o', 'r', 'i', 'n', 'g']], ¬ beforeEq ('-' :: '-' :: r) <+: n := h3
        rw [← hpe] at h3'
        simp only [table, npName, List.mem_cons, List.not_mem_nil, or_false] at hp
        rcases hp with rfl | rfl | rfl | rfl | rfl | rfl | rfl
        · rw [e] at hpe; simp at hpe
        · revert h3'; decide
        · revert h3'; decide
        · revert h3'; decide
        all_goals (rw [e] at hpe; simp at hpe)
      · rfl
    · unfold candidates
      rw [List.filterMap_eq_nil_iff]
      intro p hp
      have hpre : ['-', '-'] <+: '-' :: '-' :: r := ⟨r, rfl⟩
      rw [if_pos hpre, if_neg]
      simp only [table, npName, List.mem_cons, List.not_mem_nil, or_false] at hp
      rcases hp with rfl | rfl | rfl | rfl | rfl | rfl | rfl
      · rw [e]; simp [List.cons_prefix_cons]
      · exact h3 _ (by simp)
      · exact h3 _ (by simp)
      · exact h3 _ (by simp)
      all_goals (rw [e]; simp [List.cons_prefix_cons])
  · obtain ⟨r, rfl⟩ := h1
    cases r with
    | nil => exact absurd (by decide) (h4 'x' (by simp)).1
    | cons c r =>
      simp only [List.cons_append, List.nil_append] at *
      have hc1 : c ≠ '-' := by rintro rfl; exact h2 ⟨r, rfl⟩
      have hc2 : c ≠ 'h' := by rintro rfl; exact h3 ⟨r, rfl⟩
      refine key ?_ (by simp) ?_ ?_
      · rw [List.find?_eq_none]
        intro p hp
        simp only [decide_eq_true_eq]
        intro hpe
        simp only [table, npName, List.mem_cons, List.not_mem_nil, or_false] at hp
        rcases hp with rfl | rfl | rfl | rfl | rfl | rfl | rfl
        · simp only [List.cons.injEq] at hpe; exact hc2 hpe.2.1.symm
        · simp only [List.cons.injEq] at hpe; exact hc1 hpe.2.1.symm
        · simp only [List.cons.injEq] at hpe; exact hc1 hpe.2.1.symm
        · simp only [List.cons.injEq] at hpe; exact hc1 hpe.2.1.symm
        · exact (h4 'x' (by simp)).1 (hpe ▸ List.prefix_rfl)
        · exact (h4 'y' (by simp)).1 (hpe ▸ List.prefix_rfl)
        · exact (h4 'z' (by simp)).1 (hpe ▸ List.prefix_rfl)
      · split_ifs with heq
        · rw [List.find?_eq_none]
          intro p hp
          simp only [decide_eq_true_eq]
          intro hpe
          have hp' : p.1 <+: '-' :: c :: r := hpe ▸ List.takeWhile_prefix _
          have hq' := eq_prefix hpe.symm heq
          simp only [table, npName, List.mem_cons, List.not_mem_nil, or_false] at hp
          rcases hp with rfl | rfl | rfl | rfl | rfl | rfl | rfl
          · simp only [List.cons_prefix_cons] at hp'; exact hc2 hp'.2.1.symm
          · simp only [List.cons_prefix_cons] at hp'; exact hc1 hp'.2.1.symm
          · simp only [List.cons_prefix_cons] at hp'; exact hc1 hp'.2.1.symm
          · simp only [List.cons_prefix_cons] at hp'; exact hc1 hp'.2.1.symm
          · exact (h4 'x' (by simp)).2 hq'
          · exact (h4 'y' (by simp)).2 hq'
          · exact (h4 'z' (by simp)).2 hq'
        · rfl
      · unfold candidates
        rw [List.filterMap_eq_nil_iff]
        intro p hp
        rw [if_neg h2]
        simp only [table, npName, List.mem_cons, List.not_mem_nil, or_false] at hp
        rcases hp with rfl | rfl | rfl | rfl | rfl | rfl | rfl
        · simp [List.cons_prefix_cons, hc2, hc2.symm]
        · simp [List.cons_prefix_cons, hc1, hc1.symm]
        · simp [List.cons_prefix_cons, hc1, hc1.symm]
        · simp [List.cons_prefix_cons, hc1, hc1.symm]
        · have := (h4 'x' (by simp)).1
          rw [if_neg (by simp)]
          exact if_neg this
        · have := (h4 'y' (by simp)).1
          rw [if_neg (by simp)]
          exact if_neg this
        · have := (h4 'z' (by simp)).1
          rw [if_neg (by simp)]
          exact if_neg this

theorem classify_numeral {v : Word} {n : Nat} (h : Numeral v n) : classify v = .pos := by
  simp [classify, h.pos]

theorem classify_two (i : Fin 3) : classify ['-', 'n', 'p', ![('x' : Char), 'y', 'z'] i] = .opt (.np i) none := by
  fin_cases i <;> decide

theorem classify_one (i : Fin 3) (v : Word) :
    classify (['-', 'n', 'p', ![('x' : Char), 'y', 'z'] i, '='] ++ v) = .opt (.np i) (some v) := by
  fin_cases i <;>
    simp [classify, table, npName, beforeEq, afterEq, List.cons_prefix_cons]

theorem kinds_append {pre : List Word} (h : ['-', '-'] ∉ pre) (post : List Word) :
    kinds (pre ++ post) = pre.map (fun t => (t, classify t)) ++ kinds post := by
  induction pre with
  | nil => rfl
  | cons t pre ih =>
    simp only [List.mem_cons, not_or] at h
    show kinds (t :: (pre ++ post)) = _
    rw [kinds, if_neg (Ne.symm h.1), ih h.2]
    rfl

theorem kinds_rest {rest : List Word} (h : rest = [] ∨ ∃ post, rest = ['-', '-'] :: post) :
    (kinds rest).any (fun p => p.2 = .bad) = false ∧ ∀ o, consume o (kinds rest) = some o := by
  rcases h with rfl | ⟨post, rfl⟩
  · exact ⟨rfl, fun o => rfl⟩
  · rw [kinds, if_pos rfl]
    constructor
    · simp
    · intro o
      rw [consume]
      induction post with
      | nil => rfl
      | cons t post ih => rw [List.map_cons, consume]; exact ih

theorem classify_level {v : Word} (h : Level v) : classify v = .pos ∧ v ≠ ['-', '-'] ∧ v ∈ levels := by
  unfold Level at h
  simp only [List.map_cons, List.map_nil, List.mem_cons, List.not_mem_nil, or_false] at h
  rcases h with rfl | rfl | rfl | rfl <;> decide

theorem classify_logTwo (k : Fin 3) : classify (logWord k) = .opt .log none ∧ logWord k ≠ ['-', '-'] := by
  fin_cases k <;> decide

theorem classify_logOne (k : Fin 3) (v : Word) : classify (logWord k ++ '=' :: v) = .opt .log (some v) ∧
    logWord k ++ '=' :: v ≠ ['-', '-'] := by
  fin_cases k <;>
    simp [logWord, classify, table, npName, candidates, beforeEq, afterEq, List.cons_prefix_cons]

theorem classify_monitor (k : Fin 10) : classify (monitorWord k) = .opt .monitoring none ∧ monitorWord k ≠ ['-', '-'] := by
  fin_cases k <;> decide

/-- The options after a piece. -/
def Piece.apply (o : Opts) (p : Piece) : Opts := ⟨p.level o.log, o.monitoring || p.isMonitor, p.set o.np⟩

theorem foldl_apply (l : List Piece) : ∀ o : Opts, l.foldl Piece.apply o =
    ⟨l.foldl Piece.level o.log, o.monitoring || l.any Piece.isMonitor, l.foldl Piece.set o.np⟩ := by
  induction l with
  | nil => intro o; simp
  | cons p l ih => intro o; rw [List.foldl_cons, ih]; simp [Piece.apply, Bool.or_assoc]

theorem Piece.read {l : List Piece} (hl : ∀ p ∈ l, p.Ok) (rest : List Word) :
    (kinds (l.flatMap Piece.words ++ rest)).any (fun p => p.2 = .bad) = (kinds rest).any (fun p => p.2 = .bad) ∧
    ∀ o : Opts, consume o (kinds (l.flatMap Piece.words ++ rest)) = consume (l.foldl Piece.apply o) (kinds rest) := by
  induction l with
  | nil => exact ⟨rfl, fun o => rfl⟩
  | cons p l ih =>
    obtain ⟨i1, i2⟩ := ih fun q hq => hl q (List.mem_cons_of_mem _ hq)
    have hp := hl p List.mem_cons_self
    rw [List.flatMap_cons, List.append_assoc, ← i1]
    simp only [List.foldl_cons, ← i2]
    cases p with
    | other t =>
      have hc := classify_foreign hp
      have e : kinds (Piece.words (.other t) ++ (l.flatMap Piece.words ++ rest)) =
          (t, classify t) :: kinds (l.flatMap Piece.words ++ rest) := by
        show kinds (t :: _) = _
        rw [kinds, if_neg hp.1]
        rfl
      rw [e]
      constructor
      · rw [List.any_cons]
        rcases hc with h | h <;> simp [h]
      · intro o
        rcases hc with h | h <;> (rw [h, consume]; simp [Piece.apply, Piece.level, Piece.isMonitor, Piece.set])
    | two i v n =>
      have hv : v ≠ ['-', '-'] := by rintro rfl; exact Numeral.pos hp ⟨['-'], rfl⟩
      have e : kinds (Piece.words (.two i v n) ++ (l.flatMap Piece.words ++ rest)) =
          (['-', 'n', 'p', ![('x' : Char), 'y', 'z'] i], .opt (.np i) none) :: (v, .pos) ::
            kinds (l.flatMap Piece.words ++ rest) := by
        show kinds (_ :: v :: _) = _
        rw [kinds, if_neg (by simp), kinds, if_neg hv, classify_two, classify_numeral hp]
        rfl
      rw [e]
      constructor
      · rw [List.any_cons, List.any_cons]; simp
      · intro o
        rw [consume, store, Numeral.parse hp]
        simp [Piece.apply, Piece.level, Piece.isMonitor, Piece.set]
        all_goals simp
    | one i v n =>
      have e : kinds (Piece.words (.one i v n) ++ (l.flatMap Piece.words ++ rest)) =
          (['-', 'n', 'p', ![('x' : Char), 'y', 'z'] i, '='] ++ v, .opt (.np i) (some v)) ::
            kinds (l.flatMap Piece.words ++ rest) := by
        show kinds (_ :: _) = _
        rw [kinds, if_neg (by simp), classify_one]
        rfl
      rw [e]
      constructor
      · rw [List.any_cons]; simp
      · intro o
        rw [consume, store, Numeral.parse hp]
        simp [Piece.apply, Piece.level, Piece.isMonitor, Piece.set]
        all_goals simp
    | logTwo k v =>
      obtain ⟨h1, h2, h3⟩ := classify_level hp
      have e : kinds (Piece.words (.logTwo k v) ++ (l.flatMap Piece.words ++ rest)) =
          (logWord k, .opt .log none) :: (v, .pos) :: kinds (l.flatMap Piece.words ++ rest) := by
        show kinds (_ :: v :: _) = _
        rw [kinds, if_neg (classify_logTwo k).2, kinds, if_neg h2, (classify_logTwo k).1, h1]
        rfl
      rw [e]
      constructor
      · rw [List.any_cons, List.any_cons]; simp
      · intro o
        rw [consume, store, if_pos h3]
        simp [Piece.apply, Piece.level, Piece.isMonitor, Piece.set]
        all_goals simp
    | logOne k v =>
      obtain ⟨h1, h2, h3⟩ := classify_level hp
      have e : kinds (Piece.words (.logOne k v) ++ (l.flatMap Piece.words ++ rest)) =
          (logWord k ++ '=' :: v, .opt .log (some v)) :: kinds (l.flatMap Piece.words ++ rest) := by
        show kinds (_ :: _) = _
        rw [kinds, if_neg (classify_logOne k v).2, (classify_logOne k v).1]
        rfl
      rw [e]
      constructor
      · rw [List.any_cons]; simp
      · intro o
        rw [consume, store, if_pos h3]
        simp [Piece.apply, Piece.level, Piece.isMonitor, Piece.set]
        all_goals simp
    | monitor k =>
      have e : kinds (Piece.words (.monitor k) ++ (l.flatMap Piece.words ++ rest)) =
          (monitorWord k, .opt .monitoring none) :: kinds (l.flatMap Piece.words ++ rest) := by
        show kinds (_ :: _) = _
        rw [kinds, if_neg (classify_monitor k).2, (classify_monitor k).1]
        rfl
      rw [e]
      constructor
      · rw [List.any_cons]; simp
      · intro o
        rw [consume]
        simp [Piece.apply, Piece.level, Piece.isMonitor, Piece.set]

theorem digits_only (c : Char) (h : c.isDigit = true) : c ∈ "0123456789+".toList := by
  have h1 : 48 ≤ c.toNat ∧ c.toNat ≤ 57 := by
    unfold Char.isDigit at h
    simp only [ge_iff_le, Bool.and_eq_true, decide_eq_true_eq] at h
    exact ⟨h.1, h.2⟩
  obtain ⟨h2, h3⟩ := h1
  have hc : c = Char.ofNat c.toNat := (Char.ofNat_toNat c).symm
  generalize c.toNat = n at *
  subst hc
  interval_cases n <;> decide

theorem consume_help (o : Opts) (l : List (Word × Kind)) (h : ∃ p ∈ l, ∃ a, p.2 = .opt .help a) : consume o l = none := by
  fun_induction consume o l with
  | case1 => obtain ⟨p, hp, _⟩ := h; cases hp
  | _ => simp_all <;> grind

/-! ## Properties -/

/-- **C117.** The numbers of processes given with `-npx`, `-npy`, `-npz` and the level given with `--log`, in two words or with
`=`, are read wherever they are on the command line of the user's program, the last one if there are several, and so is
`--monitoring`; the words of the user's program which have nothing in common with the options of pylbm, and those after `--`,
change nothing. -/
theorem C117_asked (l : List Piece) (hl : ∀ p ∈ l, p.Ok) (rest : List Word)
    (hrest : rest = [] ∨ ∃ post, rest = ['-', '-'] :: post) :
    parse (l.flatMap Piece.words ++ rest) =
      some { log := askedLevel l, monitoring := l.any Piece.isMonitor, np := asked l } := by
  obtain ⟨h1, h2⟩ := Piece.read hl rest
  obtain ⟨h3, h4⟩ := kinds_rest hrest
  unfold parse
  rw [if_neg (by rw [h1, h3]; simp), h2, h4, foldl_apply]
  rfl

/-- **C117.** A value which is not a number, or not a level, is refused whatever follows: pylbm is not imported. -/
theorem C117_refused (l : List Piece) (hl : ∀ p ∈ l, p.Ok) (v : Word) (hv : ¬ ['-'] <+: v) (post : List Word) :
    ((∃ c ∈ v, c ∉ "0123456789+".toList) → ∀ i, parse (l.flatMap Piece.words ++ npName i :: v :: post) = none) ∧
    (¬ Level v → ∀ k, parse (l.flatMap Piece.words ++ logWord k :: v :: post) = none) := by
  have hv2 : v ≠ ['-', '-'] := by rintro rfl; exact hv ⟨['-'], rfl⟩
  have hvc : classify v = .pos := by simp [classify, hv]
  constructor
  · rintro ⟨c, hc, hcd⟩ i
    obtain ⟨_, h2⟩ := Piece.read hl (npName i :: v :: post)
    unfold parse
    split_ifs
    · rfl
    · have hi : npName i = ['-', 'n', 'p', ![('x' : Char), 'y', 'z'] i] := by fin_cases i <;> rfl
      rw [h2, kinds, if_neg (by rw [hi]; simp), kinds, if_neg hv2, hvc, hi, classify_two, consume, store]
      · have hn : ∀ w : Word, c ∈ w → parseNat w = none := by
          intro w hw
          unfold parseNat
          rw [if_neg]
          rintro ⟨_, h⟩
          have := List.all_eq_true.1 h c hw
          apply hcd
          have hd := digits_only c this
          exact hd
        have : parseInt v = none := by
          unfold parseInt
          split
          · exact absurd ⟨_, rfl⟩ hv
          · rw [hn _ ((List.mem_cons.1 hc).resolve_left (by rintro rfl; exact hcd (by decide)))]; rfl
          · rw [hn v hc]; rfl
        rw [this]; rfl
      all_goals simp
  · intro hL k
    obtain ⟨_, h2⟩ := Piece.read hl (logWord k :: v :: post)
    have hlev : v ∉ levels := by
      intro h
      apply hL
      unfold levels at h
      simp only [List.mem_cons, List.not_mem_nil, or_false] at h
      rcases h with rfl | rfl | rfl | rfl <;> decide
    unfold parse
    split_ifs
    · rfl
    · rw [h2, kinds, if_neg (classify_logTwo k).2, kinds, if_neg hv2, hvc, (classify_logTwo k).1, consume, store, if_neg hlev]
      · rfl
      all_goals simp

/-- `--case cavity -npx 2 out -npy=13 --lo=INFO -npx 4 --mon -- -n`: four processes in x and thirteen in y. -/
def cavityLine : List Piece :=
  [.other "--case".toList, .other "cavity".toList, .two 0 "2".toList 2, .other "out".toList, .one 1 "13".toList 13,
    .logOne 1 "INFO".toList, .two 0 "4".toList 4, .monitor 2]

theorem numeral13 : Numeral "13".toList 13 := Numeral.snoc (v := ['1']) (Numeral.digit (d := 1) (by decide)) (d := 3) (by decide)

theorem cavityLine_ok : ∀ p ∈ cavityLine, p.Ok := by
  intro p hp
  simp only [cavityLine, List.mem_cons, List.not_mem_nil, or_false] at hp
  rcases hp with rfl | rfl | rfl | rfl | rfl | rfl | rfl | rfl
  · exact ⟨by decide, by decide⟩
  · exact ⟨by decide, by decide⟩
  · exact Numeral.digit (d := 2) (by decide)
  · exact ⟨by decide, by decide⟩
  · exact numeral13
  · show Level _; decide
  · exact Numeral.digit (d := 4) (by decide)
  · trivial

example : ∃ o, parse (["--case", "cavity", "-npx", "2", "out", "-npy=13", "--lo=INFO", "-npx", "4", "--mon", "--",
    "-n"].map String.toList) = some o ∧ o.np = ![4, 13, 1] ∧ o.log = "INFO".toList ∧ o.monitoring = true :=
  ⟨_, C117_asked cavityLine cavityLine_ok [['-', '-'], ['-', 'n']] (Or.inr ⟨_, rfl⟩), by
    funext i; fin_cases i <;> rfl, rfl, rfl⟩

/-- A level in small letters, and a number in letters. -/
example : parse (["-npx", "2", "--log", "info", "-npy", "3"].map String.toList) = none ∧
    parse (["-npx", "2", "-npy", "two"].map String.toList) = none :=
  ⟨(C117_refused [.two 0 ['2'] 2] (by intro p hp; rw [List.mem_singleton.1 hp]; exact Numeral.digit (d := 2) (by decide))
      "info".toList (by decide) _).2 (by decide) 2,
    (C117_refused [.two 0 ['2'] 2] (by intro p hp; rw [List.mem_singleton.1 hp]; exact Numeral.digit (d := 2) (by decide))
      "two".toList (by decide) _).1 ⟨'t', by decide, by decide⟩ 1⟩

/-- **C117, negation.** A program which uses pylbm cannot have an option `-n` or `-np` of its own: the command line is refused
(as an abbreviation of `-npx`, `-npy` and `-npz`), whatever the other words. -/
theorem C117_abbreviation_negation (pre post : List Word) (hpre : ['-', '-'] ∉ pre) (t : Word)
    (ht : t = ['-', 'n'] ∨ t = ['-', 'n', 'p']) : parse (pre ++ t :: post) = none := by
  unfold parse
  rw [if_pos]
  have hc : classify t = .bad ∧ t ≠ ['-', '-'] := by rcases ht with rfl | rfl <;> decide
  rw [kinds_append hpre, kinds, if_neg hc.2, List.any_append, List.any_cons, hc.1]
  simp

example : parse (["--case", "cavity", "-n", "100"].map String.toList) = none :=
  C117_abbreviation_negation (["--case", "cavity"].map String.toList) [['1', '0', '0']] (by decide) _ (Or.inl rfl)

/-- **C117, negation.** Nor an option which begins with `-h`, nor `--help`: the program ends when pylbm is imported. -/
theorem C117_help_negation (pre post : List Word) (hpre : ['-', '-'] ∉ pre) (t : Word)
    (ht : ['-', 'h'] <+: t ∨ t = ['-', '-', 'h', 'e', 'l', 'p']) : parse (pre ++ t :: post) = none := by
  have hc : (∃ a, classify t = .opt .help a) ∧ t ≠ ['-', '-'] := by
    rcases ht with ⟨r, rfl⟩ | rfl
    · refine ⟨?_, by simp⟩
      cases r with
      | nil => exact ⟨none, by decide⟩
      | cons c r =>
        by_cases h : c = '='
        · subst h
          refine ⟨some r, ?_⟩
          simp [classify, table, npName, beforeEq, afterEq, List.cons_prefix_cons]
        · refine ⟨some (c :: r), ?_⟩
          have hb : beforeEq (['-', 'h'] ++ c :: r) = '-' :: 'h' :: c :: r.takeWhile (· ≠ '=') := by
            simp [beforeEq, h]
          unfold classify
          rw [if_neg (by simp)]
          have h1 : table.find? (fun p => p.1 = ['-', 'h'] ++ c :: r) = none := by simp [table, npName]
          have h2 : (if '=' ∈ ['-', 'h'] ++ c :: r then table.find? (fun p => p.1 = beforeEq (['-', 'h'] ++ c :: r))
              else none) = none := by
            rw [hb]; simp [table, npName]
          have h3 : candidates (['-', 'h'] ++ c :: r) = [(.help, some (c :: r))] := by
            simp [candidates, table, npName, List.cons_prefix_cons]
          rw [h1, h2, h3]
          simp
    · exact ⟨⟨none, by decide⟩, by decide⟩
  unfold parse
  split_ifs
  · rfl
  · apply consume_help
    obtain ⟨a, ha⟩ := hc.1
    rw [kinds_append hpre, kinds, if_neg hc.2]
    exact ⟨(t, classify t), by simp, a, ha⟩

example : parse (["-npx", "2", "-height", "3"].map String.toList) = none :=
  C117_help_negation (["-npx", "2"].map String.toList) [['3']] (by decide) _ (Or.inl (by decide))

/-- **C117, negation.** A number glued to its option, as in `-npx4`, is dropped without a message. -/
theorem C117_glued_negation (l : List Piece) (hl : ∀ p ∈ l, p.Ok) (i : Fin 3) (v : Word) (n : Nat) (hv : Numeral v n) :
    parse (l.flatMap Piece.words ++ [npName i ++ v]) = some { log := askedLevel l, monitoring := l.any Piece.isMonitor, np := asked l } := by
  have hf : Foreign (npName i ++ v) := by
    obtain ⟨h1, _, _, h4⟩ := hv.spec
    have h2 : ∀ c r, v = c :: r → c ≠ '=' := by
      rintro c r rfl rfl
      have := hv.spec.2.1
      simp [Char.isDigit] at this
    refine ⟨by fin_cases i <;> simp [npName], Or.inr (Or.inr (Or.inr ⟨?_, ?_, fun c hc => ⟨?_, ?_⟩⟩))⟩
    · fin_cases i <;> simp [npName, List.cons_prefix_cons]
    · fin_cases i <;> simp [npName, List.cons_prefix_cons]
    · fin_cases i <;> simp [npName, List.cons_prefix_cons, h1]
    · cases v with
      | nil => exact absurd rfl h1
      | cons d r =>
        have := h2 d r rfl
        fin_cases i <;> simp [npName, List.cons_prefix_cons, Ne.symm this]
  have h := C117_asked (l ++ [.other (npName i ++ v)]) (by
    intro p hp
    rcases List.mem_append.1 hp with hp | hp
    · exact hl p hp
    · rw [List.mem_singleton.1 hp]; exact hf) [] (Or.inl rfl)
  rw [List.flatMap_append, List.append_nil] at h
  have e : asked (l ++ [.other (npName i ++ v)]) = asked l := by simp [asked, Piece.set]
  have e2 : askedLevel (l ++ [.other (npName i ++ v)]) = askedLevel l := by simp [askedLevel, Piece.level]
  have e3 : (l ++ [Piece.other (npName i ++ v)]).any Piece.isMonitor = l.any Piece.isMonitor := by simp [Piece.isMonitor]
  rw [e, e2, e3] at h
  exact h

example : ∃ o, parse ["-npx4".toList] = some o ∧ o.np = fun _ => 1 :=
  ⟨_, C117_glued_negation [] (by simp) 0 ['4'] 4 (Numeral.digit (d := 4) (by decide)), rfl⟩

end Pylbm.Cli
