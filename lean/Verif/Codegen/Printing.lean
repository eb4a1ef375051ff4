import Mathlib.Algebra.Field.Basic
import Mathlib.Data.Rat.Cast.CharZero
import Mathlib.Tactic.Ring
import Mathlib.Data.List.Basic
import Mathlib.Algebra.BigOperators.Group.List.Basic
import Mathlib.Tactic.Linarith
import Mathlib.Data.Rat.Floor
import Mathlib.RingTheory.Int.Basic
import Mathlib.Analysis.SpecialFunctions.Pow.Real
/-!
# C76: the formulas of the generated code have the values of the symbolic expressions

The printers write a SymPy expression as a Python (NumPy) or Cython expression; operator precedences,
parentheses, signs, quotients and powers are theirs to get right. The specification is the grammar of the
arithmetic expressions of Python (which Cython shares), read with values, and the value of a symbolic expression;
both are independent of the printers.
-/

set_option linter.unusedSectionVars false

namespace Pylbm.Printing

/-! ## Specification: the grammar of the arithmetic expressions -/

/-- The tokens. A literal is given with its value; an access `m[0, i]` counts as a name, whose value is that of the
cell. `?` and `:` are used by the Cython printer for `Piecewise`. -/
inductive Tok
  | lit (q : ℚ)
  | name (s : String)
  | lp | rp | add | sub | mul | div | pow | comma
  | quest | colon
  deriving DecidableEq

abbrev Text := List Tok

variable {K : Type} [Field K]

/-- The values of the names, of the functions and of `**`. -/
structure Env (K : Type) where
  var : String → K
  fn : String → List K → K
  pow : K → K → K

/-- The categories of the grammar of Python: `sum`, `term`, `factor`, `power`, `primary` and the arguments of a call. -/
inductive Cat
  | sum | term | factor | power | atom | args

/-- `Reads E c t vs`: the text `t` is of the category `c` and its value is `vs` (one value, several for arguments).
This is the grammar of the Python reference, section 6; the division is the true division (the generated Cython files
have `language_level=3` and `cdivision=True`, and are given doubles). -/
inductive Reads (E : Env K) : Cat → Text → List K → Prop
  | sumTerm {t v} : Reads E .term t [v] → Reads E .sum t [v]
  | sumAdd {a b x y} : Reads E .sum a [x] → Reads E .term b [y] → Reads E .sum (a ++ .add :: b) [x + y]
  | sumSub {a b x y} : Reads E .sum a [x] → Reads E .term b [y] → Reads E .sum (a ++ .sub :: b) [x - y]
  | termFactor {t v} : Reads E .factor t [v] → Reads E .term t [v]
  | termMul {a b x y} : Reads E .term a [x] → Reads E .factor b [y] → Reads E .term (a ++ .mul :: b) [x * y]
  | termDiv {a b x y} : Reads E .term a [x] → Reads E .factor b [y] → Reads E .term (a ++ .div :: b) [x / y]
  | neg {a x} : Reads E .factor a [x] → Reads E .factor (.sub :: a) [-x]
  | factorPower {t v} : Reads E .power t [v] → Reads E .factor t [v]
  | powerAtom {t v} : Reads E .atom t [v] → Reads E .power t [v]
  | pow {a b x y} : Reads E .atom a [x] → Reads E .factor b [y] → Reads E .power (a ++ .pow :: b) [E.pow x y]
  | lit (q : ℚ) : Reads E .atom [.lit q] [(q : K)]
  | name (s : String) : Reads E .atom [.name s] [E.var s]
  | paren {a x} : Reads E .sum a [x] → Reads E .atom (.lp :: (a ++ [.rp])) [x]
  | call (s : String) {a xs} : Reads E .args a xs → Reads E .atom (.name s :: .lp :: (a ++ [.rp])) [E.fn s xs]
  | argsOne {a x} : Reads E .sum a [x] → Reads E .args a [x]
  | argsCons {a b x xs} : Reads E .sum a [x] → Reads E .args b xs → Reads E .args (a ++ .comma :: b) (x :: xs)

/-! ## The grammar is not ambiguous -/

/-- The categories of the reading from the left to the right: the tails hold the value read so far. -/
inductive GCat (K : Type)
  | sum | term | factor | power | atom | args
  | termTail (x : K)
  | sumTail (x : K)

/-- Reading from the left to the right, with what remains. -/
inductive Greedy (E : Env K) : GCat K → Text → List K → Text → Prop
  | sum {t x r w r'} : Greedy E .term t [x] r → Greedy E (.sumTail x) r [w] r' → Greedy E .sum t [w] r'
  | sumAdd {x y t r w r'} : Greedy E .term t [y] r → Greedy E (.sumTail (x + y)) r [w] r' →
      Greedy E (.sumTail x) (.add :: t) [w] r'
  | sumSub {x y t r w r'} : Greedy E .term t [y] r → Greedy E (.sumTail (x - y)) r [w] r' →
      Greedy E (.sumTail x) (.sub :: t) [w] r'
  | sumEnd {x t} : t.head? ≠ some .add → t.head? ≠ some .sub → Greedy E (.sumTail x) t [x] t
  | term {t x r w r'} : Greedy E .factor t [x] r → Greedy E (.termTail x) r [w] r' → Greedy E .term t [w] r'
  | termMul {x y t r w r'} : Greedy E .factor t [y] r → Greedy E (.termTail (x * y)) r [w] r' →
      Greedy E (.termTail x) (.mul :: t) [w] r'
  | termDiv {x y t r w r'} : Greedy E .factor t [y] r → Greedy E (.termTail (x / y)) r [w] r' →
      Greedy E (.termTail x) (.div :: t) [w] r'
  | termEnd {x t} : t.head? ≠ some .mul → t.head? ≠ some .div → Greedy E (.termTail x) t [x] t
  | neg {t x r} : Greedy E .factor t [x] r → Greedy E .factor (.sub :: t) [-x] r
  | factorPower {t v r} : t.head? ≠ some .sub → Greedy E .power t [v] r → Greedy E .factor t [v] r
  | powerAtom {t v r} : r.head? ≠ some .pow → Greedy E .atom t [v] r → Greedy E .power t [v] r
  | pow {t x y r r'} : Greedy E .atom t [x] (.pow :: r) → Greedy E .factor r [y] r' →
      Greedy E .power t [E.pow x y] r'
  | lit (q : ℚ) {r} : Greedy E .atom (.lit q :: r) [(q : K)] r
  | name (s : String) {r} : r.head? ≠ some .lp → Greedy E .atom (.name s :: r) [E.var s] r
  | paren {t x r} : Greedy E .sum t [x] (.rp :: r) → Greedy E .atom (.lp :: t) [x] r
  | call (s : String) {t xs r} : Greedy E .args t xs (.rp :: r) → Greedy E .atom (.name s :: .lp :: t) [E.fn s xs] r
  | argsOne {t x r} : r.head? ≠ some .comma → Greedy E .sum t [x] r → Greedy E .args t [x] r
  | argsCons {t x xs r r'} : Greedy E .sum t [x] (.comma :: r) → Greedy E .args r xs r' → Greedy E .args t (x :: xs) r'

theorem Greedy.unique {E : Env K} {c : GCat K} {t : Text} {v : List K} {r : Text} (h : Greedy E c t v r) :
    ∀ {w r'}, Greedy E c t w r' → v = w ∧ r = r' := by
  induction h with
  | sum h1 h2 ih1 ih2 =>
    intro w r' h
    cases h with
    | sum g1 g2 => obtain ⟨e1, e2⟩ := ih1 g1; cases e1; subst e2; exact ih2 g2
  | sumAdd h1 h2 ih1 ih2 =>
    intro w r' h
    cases h with
    | sumAdd g1 g2 => obtain ⟨e1, e2⟩ := ih1 g1; cases e1; subst e2; exact ih2 g2
    | sumEnd a b => exact absurd rfl a
  | sumSub h1 h2 ih1 ih2 =>
    intro w r' h
    cases h with
    | sumSub g1 g2 => obtain ⟨e1, e2⟩ := ih1 g1; cases e1; subst e2; exact ih2 g2
    | sumEnd a b => exact absurd rfl b
  | sumEnd a b =>
    intro w r' h
    cases h with
    | sumAdd g1 g2 => exact absurd rfl a
    | sumSub g1 g2 => exact absurd rfl b
    | sumEnd _ _ => exact ⟨rfl, rfl⟩
  | term h1 h2 ih1 ih2 =>
    intro w r' h
    cases h with
    | term g1 g2 => obtain ⟨e1, e2⟩ := ih1 g1; cases e1; subst e2; exact ih2 g2
  | termMul h1 h2 ih1 ih2 =>
    intro w r' h
    cases h with
    | termMul g1 g2 => obtain ⟨e1, e2⟩ := ih1 g1; cases e1; subst e2; exact ih2 g2
    | termEnd a b => exact absurd rfl a
  | termDiv h1 h2 ih1 ih2 =>
    intro w r' h
    cases h with
    | termDiv g1 g2 => obtain ⟨e1, e2⟩ := ih1 g1; cases e1; subst e2; exact ih2 g2
    | termEnd a b => exact absurd rfl b
  | termEnd a b =>
    intro w r' h
    cases h with
    | termMul g1 g2 => exact absurd rfl a
    | termDiv g1 g2 => exact absurd rfl b
    | termEnd _ _ => exact ⟨rfl, rfl⟩
  | neg h1 ih1 =>
    intro w r' h
    cases h with
    | neg g1 => obtain ⟨e1, e2⟩ := ih1 g1; cases e1; exact ⟨rfl, e2⟩
    | factorPower a g1 => exact absurd rfl a
  | factorPower a h1 ih1 =>
    intro w r' h
    cases h with
    | neg g1 => exact absurd rfl a
    | factorPower _ g1 => exact ih1 g1
  | powerAtom a h1 ih1 =>
    intro w r' h
    cases h with
    | powerAtom _ g1 => exact ih1 g1
    | pow g1 g2 => obtain ⟨e1, e2⟩ := ih1 g1; subst e2; exact absurd rfl a
  | pow h1 h2 ih1 ih2 =>
    intro w r' h
    cases h with
    | powerAtom a g1 => obtain ⟨e1, e2⟩ := ih1 g1; subst e2; exact absurd rfl a
    | pow g1 g2 =>
      obtain ⟨e1, e2⟩ := ih1 g1; cases e1; cases e2
      obtain ⟨e3, e4⟩ := ih2 g2; cases e3; exact ⟨rfl, e4⟩
  | lit q =>
    intro w r' h
    cases h with
    | lit => exact ⟨rfl, rfl⟩
  | name s a =>
    intro w r' h
    cases h with
    | name _ _ => exact ⟨rfl, rfl⟩
    | call _ g1 => exact absurd rfl a
  | paren h1 ih1 =>
    intro w r' h
    cases h with
    | paren g1 => obtain ⟨e1, e2⟩ := ih1 g1; cases e2; exact ⟨e1, rfl⟩
  | call s h1 ih1 =>
    intro w r' h
    cases h with
    | name _ a => exact absurd rfl a
    | call _ g1 => obtain ⟨e1, e2⟩ := ih1 g1; cases e1; cases e2; exact ⟨rfl, rfl⟩
  | argsOne a h1 ih1 =>
    intro w r' h
    cases h with
    | argsOne _ g1 => exact ih1 g1
    | argsCons g1 g2 => obtain ⟨e1, e2⟩ := ih1 g1; subst e2; exact absurd rfl a
  | argsCons h1 h2 ih1 ih2 =>
    intro w r' h
    cases h with
    | argsOne a g1 => obtain ⟨e1, e2⟩ := ih1 g1; subst e2; exact absurd rfl a
    | argsCons g1 g2 =>
      obtain ⟨e1, e2⟩ := ih1 g1; cases e1; cases e2
      obtain ⟨e3, e4⟩ := ih2 g2; cases e3; exact ⟨rfl, e4⟩

/-- What may follow a text of a category. -/
def After (l : List Tok) (r : Text) : Prop := ∀ t ∈ l, r.head? ≠ some t

theorem After.mono {l l' : List Tok} {r : Text} (h : After l r) (hl : ∀ t ∈ l', t ∈ l) : After l' r :=
  fun t ht => h t (hl t ht)

/-- The first token of a text. -/
theorem Reads.starts {E : Env K} {c : Cat} {t : Text} {v : List K} (h : Reads E c t v) :
    t ≠ [] ∧ (c = .power ∨ c = .atom → t.head? ≠ some .sub) := by
  induction h with
  | pow h1 h2 ih1 ih2 =>
    obtain ⟨hn, hs⟩ := ih1
    obtain ⟨a, b, rfl⟩ := List.exists_cons_of_ne_nil hn
    exact ⟨by simp, fun _ => by simpa using hs (Or.inr rfl)⟩
  | _ => simp_all

/-- A text followed by something that does not continue it is read to its end. -/
def Embed (E : Env K) : Cat → Text → List K → Prop
  | .sum, t, v => ∀ x, v = [x] → ∀ r, After [.lp, .pow, .mul, .div] r → ∀ w r', Greedy E (.sumTail x) r [w] r' →
      Greedy E .sum (t ++ r) [w] r'
  | .term, t, v => ∀ x, v = [x] → ∀ r, After [.lp, .pow] r → ∀ w r', Greedy E (.termTail x) r [w] r' →
      Greedy E .term (t ++ r) [w] r'
  | .factor, t, v => ∀ r, After [.lp, .pow] r → Greedy E .factor (t ++ r) v r
  | .power, t, v => ∀ r, After [.lp, .pow] r → Greedy E .power (t ++ r) v r
  | .atom, t, v => ∀ r, After [.lp] r → Greedy E .atom (t ++ r) v r
  | .args, t, v => ∀ r, After [.lp, .pow, .mul, .div, .add, .sub, .comma] r → Greedy E .args (t ++ r) v r

theorem Embed.term' {E : Env K} {t : Text} {x : K} (h : Embed E .term t [x]) (r : Text)
    (hr : After [.lp, .pow, .mul, .div] r) : Greedy E .term (t ++ r) [x] r :=
  h x rfl r (hr.mono (by simp)) x r (.termEnd (hr _ (by simp)) (hr _ (by simp)))

theorem Embed.sum' {E : Env K} {t : Text} {x : K} (h : Embed E .sum t [x]) (r : Text)
    (hr : After [.lp, .pow, .mul, .div, .add, .sub] r) : Greedy E .sum (t ++ r) [x] r :=
  h x rfl r (hr.mono (by simp)) x r (.sumEnd (hr _ (by simp)) (hr _ (by simp)))

theorem Reads.embed {E : Env K} {c : Cat} {t : Text} {v : List K} (h : Reads E c t v) : Embed E c t v := by
  induction h with
  | sumTerm h ih =>
    intro x hx r hr w r' hw
    cases hx
    exact .sum (ih.term' r hr) hw
  | sumAdd h1 h2 ih1 ih2 =>
    intro x hx r hr w r' hw
    cases hx
    rw [List.append_assoc]
    exact ih1 _ rfl _ (by simp [After]) _ _ (.sumAdd (ih2.term' r hr) hw)
  | sumSub h1 h2 ih1 ih2 =>
    intro x hx r hr w r' hw
    cases hx
    rw [List.append_assoc]
    exact ih1 _ rfl _ (by simp [After]) _ _ (.sumSub (ih2.term' r hr) hw)
  | termFactor h ih =>
    intro x hx r hr w r' hw
    cases hx
    exact .term (ih r hr) hw
  | termMul h1 h2 ih1 ih2 =>
    intro x hx r hr w r' hw
    cases hx
    rw [List.append_assoc]
    exact ih1 _ rfl _ (by simp [After]) _ _ (.termMul (ih2 r hr) hw)
  | termDiv h1 h2 ih1 ih2 =>
    intro x hx r hr w r' hw
    cases hx
    rw [List.append_assoc]
    exact ih1 _ rfl _ (by simp [After]) _ _ (.termDiv (ih2 r hr) hw)
  | neg h ih => intro r hr; exact .neg (ih r hr)
  | factorPower h ih =>
    intro r hr
    obtain ⟨hn, hs⟩ := h.starts
    obtain ⟨a, b, rfl⟩ := List.exists_cons_of_ne_nil hn
    exact .factorPower (by simpa using hs (Or.inl rfl)) (ih r hr)
  | powerAtom h ih => intro r hr; exact .powerAtom (hr _ (by simp)) (ih r (hr.mono (by simp)))
  | pow h1 h2 ih1 ih2 =>
    intro r hr
    rw [List.append_assoc]
    exact .pow (ih1 _ (by simp [After])) (ih2 r hr)
  | lit q => intro r hr; exact .lit q
  | name s => intro r hr; exact .name s (hr _ (by simp))
  | paren h ih =>
    intro r hr
    change Greedy E .atom (Tok.lp :: ((_ ++ [Tok.rp]) ++ r)) _ _
    rw [List.append_assoc]
    exact .paren (ih.sum' _ (by simp [After]))
  | call s h ih =>
    intro r hr
    change Greedy E .atom (Tok.name s :: Tok.lp :: ((_ ++ [Tok.rp]) ++ r)) _ _
    rw [List.append_assoc]
    exact .call s (ih _ (by simp [After]))
  | argsOne h ih => intro r hr; exact .argsOne (hr _ (by simp)) (ih.sum' r (hr.mono (by simp)))
  | argsCons h1 h2 ih1 ih2 =>
    intro r hr
    rw [List.append_assoc]
    exact .argsCons (ih1.sum' _ (by simp [After])) (ih2 r hr)

/-- A text has one value. -/
theorem Reads.unique {E : Env K} {t : Text} {v w : K} (h : Reads E .sum t [v]) (h' : Reads E .sum t [w]) : v = w := by
  have h1 := h.embed.sum' [] (by simp [After])
  have h2 := h'.embed.sum' [] (by simp [After])
  have := (h1.unique h2).1
  simpa using this

/-! ## Model of the printers -/

/-- The Cython and Loopy printers (`c`), whose methods used here are the same (cython.py 192-208 and loopy.py 231-247),
and the NumPy printer. -/
inductive Lang
  | c
  | numpy
  deriving DecidableEq

/-- The symbolic expressions: numbers (`fl` for a SymPy `Float`, an `Integer` or a `Rational` otherwise), symbols and
indexed symbols, functions (under the name given to them by `known_functions`), sums, products with their numerical
coefficient and powers, as SymPy stores them. The order of the terms and of the factors is that in which SymPy prints
them. -/
inductive Expr
  | num (q : ℚ) (fl : Bool)
  | sym (s : String)
  | app (f : String) (args : List Expr)
  | add (terms : List Expr)
  | mul (c : ℚ) (fl : Bool) (factors : List Expr)
  | pow (base exp : Expr)

/-- SymPy `precedence` of a number: `Add` when negative, `Mul` for a fraction, `Atom` otherwise. -/
def numPrec (q : ℚ) (fl : Bool) : Nat := if q < 0 then 40 else if fl ∨ q.den = 1 then 1000 else 50

/-- SymPy `precedence` (`PRECEDENCE`: Add 40, Mul 50, Pow 60, Func 70, Atom 1000; a product which could be written
with a minus sign counts as a sum). -/
def Expr.prec : Expr → Nat
  | .num q fl => numPrec q fl
  | .sym _ => 1000
  | .app _ _ => 70
  | .add _ => 40
  | .mul c _ _ => if c < 0 then 40 else 50
  | .pow _ _ => 60

def parens (t : Text) : Text := .lp :: (t ++ [.rp])

/-- SymPy `StrPrinter.parenthesize`, not strict, as called in cython.py 197, 201 and pycode.py 468, 469, 933. -/
def parenthesize (prec level : Nat) (t : Text) : Text := if prec ≤ level then parens t else t

/-- `sep.join(texts)`. -/
def join (sep : Tok) : List Text → Text
  | [] => []
  | [t] => t
  | t :: u :: l => t ++ sep :: join sep (u :: l)

section model
variable (lang : Lang) (r : ℚ → ℚ) -- the printer, and the decimal number written for a number

/-- A positive number: `_print_Rational` gives a decimal number in Cython and Loopy (cython.py 209-210, loopy.py
248-249) and a quotient in NumPy (pycode.py 475-478). -/
def absText (q : ℚ) (fl : Bool) : Text :=
  if fl then [.lit (r q)]
  else if q.den = 1 then [.lit q]
  else match lang with
    | .c => [.lit (r q)]
    | .numpy => [.lit q.num, .div, .lit q.den]

/-- A number with its sign. -/
def numText (q : ℚ) (fl : Bool) : Text :=
  if q < 0 then .sub :: absText lang r (-q) fl else absText lang r q fl

/-- `_print_Pow`: cython.py 192-207, loopy.py 231-246, NumPy: pycode.py 927-940 and `_hprint_Pow` 424-470. `bp`, `bt`
are the precedence and the text of the base, `et` is the text of the exponent. In Cython `expr.exp == 0.5` holds for
the `Float` only, since SymPy 1.13. -/
def powText (bp : Nat) (bt : Text) (e : Expr) (et : Text) : Text :=
  let b := parenthesize bp 60 bt
  let call := fun (f : String) (ts : List Text) => Tok.name f :: parens (join .comma ts)
  match lang, e with
  | .c, .num q fl =>
    if fl = false ∧ q = -1 then .lit 1 :: .div :: b
    else if fl = true ∧ q = 1 / 2 then call "sqrt" [bt]
    else if 0 < q ∧ fl = false ∧ q.den = 1 then parens (join .mul (List.replicate q.num.toNat b))
    else call "pow" [bt, et]
  | .c, _ => call "pow" [bt, et]
  | .numpy, .num q fl =>
    if fl = false ∧ q.den = 1 ∧ q < 0 then b ++ .pow :: parens (numText .numpy r q true)
    else if fl = false ∧ q.den = 1 then parens (join .mul (List.replicate (max 1 q.num.toNat) b))
    else if fl = false ∧ q = 1 / 2 then call "numpy.sqrt" [bt]
    else if fl = false ∧ q = -(1 / 2) then .lit 1 :: .div :: call "numpy.sqrt" [bt]
    else b ++ .pow :: parenthesize (numPrec q fl) 60 et
  | .numpy, e => b ++ .pow :: parenthesize e.prec 60 et

/-- A factor of a product: precedence and text, and those of its inverse when it goes to the denominator. -/
structure Item where
  prec : Nat
  text : Text
  den : Option (Nat × Text)

/-- The denominator, last lines of SymPy `CodePrinter._print_Mul`. -/
def quotient : List Text → Text
  | [] => []
  | [t] => .div :: t
  | l => .div :: parens (join .mul l)

/-- SymPy `CodePrinter._print_Mul`, used by the three printers: the sign first, the numerators (the only one is
parenthesized more after a minus sign), and the denominators; the precedence is that of the whole product, the one of a
sum when it has a minus sign. The second pair of parentheses that SymPy puts around
some bases (`pow_paren`) is left out. -/
def mulText (neg : Bool) (items : List Item) : Text :=
  let a := items.filterMap fun i => if i.den.isSome then none else some (i.prec, i.text)
  let b := items.filterMap Item.den
  let a := if a = [] then [(1000, [Tok.lit 1])] else a
  let prec := if neg then 40 else 50
  let level := if a.length = 1 ∧ neg then 55 else prec
  let at_ := join .mul (a.map fun x => parenthesize x.1 level x.2)
  let bt := b.map fun x => parenthesize x.1 prec x.2
  (if neg then [Tok.sub] else []) ++ at_ ++ quotient bt

/-- A term of a sum: its sign is taken out of its text (SymPy `StrPrinter._print_Add`); the flag is `true` for a minus
sign. -/
def addTerm (isAdd : Bool) (t : Text) : Bool × Text :=
  match isAdd, t with
  | true, t => (false, parens t)
  | false, .sub :: t => (true, t)
  | false, t => (false, t)

def Expr.isAdd : Expr → Bool
  | .add _ => true
  | _ => false

/-- SymPy `StrPrinter._print_Add`. -/
def addText : List (Bool × Text) → Text
  | [] => []
  | (s, t) :: l => (if s then [.sub] else []) ++ t ++ l.flatMap fun x => (if x.1 then .sub else .add) :: x.2

mutual
/-- `_print` of an expression. -/
def print : Expr → Text
  | .num q fl => numText lang r q fl
  | .sym s => [.name s]
  | .app f args => .name f :: parens (join .comma (printL args))
  | .add terms => addText (terms.map Expr.isAdd |>.zipWith addTerm <| printL terms)
  | .mul c fl fs =>
    let c' := if c < 0 then -c else c
    mulText (decide (c < 0)) ((if fl = false ∧ c' = 1 then [] else [⟨numPrec c' fl, numText lang r c' fl, none⟩]) ++ items fs)
  | .pow b e => powText lang r b.prec (print b) e (print e)
def printL : List Expr → List Text
  | [] => []
  | e :: es => print e :: printL es
/-- The factors of a product in SymPy `CodePrinter._print_Mul`: the powers with a negative rational exponent go to the
denominator, with the opposite exponent. -/
def items : List Expr → List Item
  | [] => []
  | .pow b (.num q false) :: es =>
    ⟨60, powText lang r b.prec (print b) (.num q false) (numText lang r q false),
      if q < 0 then
        some (if q = -1 then (b.prec, print b)
          else (60, powText lang r b.prec (print b) (.num (-q) false) (numText lang r (-q) false)))
      else none⟩ :: items es
  | e :: es => ⟨e.prec, print e, none⟩ :: items es
end

/-- The exponents which stop the Cython and Loopy printers: `expr.exp > 0 and …` (cython.py 200, loopy.py 239) asks for
the truth of an inequality, which SymPy refuses for a plain symbol. The comparison is evaluated for numbers; for other
expressions it depends on what SymPy knows of their sign, and the model goes on. -/
def Expr.stops : Expr → Bool
  | .sym _ => lang = .c
  | _ => false

mutual
/-- Some power cannot be printed. -/
def raises : Expr → Bool
  | .num _ _ => false
  | .sym _ => false
  | .app _ args => raisesL args
  | .add terms => raisesL terms
  | .mul _ _ fs => raisesL fs
  | .pow b e => e.stops lang || raises b || raises e
def raisesL : List Expr → Bool
  | [] => false
  | e :: es => raises e || raisesL es
end

/-- `doprint`, cython.py 101-165, pycode.py; `none` for an exception. -/
def doprint (e : Expr) : Option Text := if raises lang e then none else some (print lang r e)

/-- The Cython `_print_Piecewise` in an expression, cython.py 264-277 (loopy.py is the same): the texts of the
conditions and of the values. -/
def piecewiseText (l : List (Text × Text)) (last : Text) : Text :=
  join .colon (l.map fun x => .lp :: parens x.1 ++ .quest :: parens x.2) ++ .colon :: parens last ++
    List.replicate l.length .rp

end model

section spec
variable {K : Type} [Field K] [CharZero K]

/-! ## Specification: the value of an expression -/

/-- The value of the number written in the code: floats, and rational numbers in Cython and Loopy, are rounded to
decimal numbers. -/
def numVal (lang : Lang) (r : ℚ → ℚ) (q : ℚ) (fl : Bool) : K :=
  if fl = true ∨ (lang = .c ∧ q.den ≠ 1) then (r q : K) else (q : K)

mutual
/-- The value of an expression. -/
def eval (E : Env K) (ν : ℚ → Bool → K) : Expr → K
  | .num q fl => ν q fl
  | .sym s => E.var s
  | .app f args => E.fn f (evalL E ν args)
  | .add terms => (evalL E ν terms).sum
  | .mul c fl fs => ν c fl * (evalL E ν fs).prod
  | .pow b e => E.pow (eval E ν b) (eval E ν e)
def evalL (E : Env K) (ν : ℚ → Bool → K) : List Expr → List K
  | [] => []
  | e :: es => eval E ν e :: evalL E ν es
end

/-- The power function and the functions of the libraries: integer powers, the rule for opposite exponents (`x⁻¹ = 0`
at `0`, as everywhere in Lean), the square roots and `pow`. -/
structure Env.OK (E : Env K) : Prop where
  zpow : ∀ (x : K) (n : ℤ), E.pow x n = x ^ n
  neg : ∀ x y, E.pow x (-y) = (E.pow x y)⁻¹
  sqrt : ∀ x, E.fn "sqrt" [x] = E.pow x ((1 / 2 : ℚ) : K)
  npsqrt : ∀ x, E.fn "numpy.sqrt" [x] = E.pow x ((1 / 2 : ℚ) : K)
  fpow : ∀ x y, E.fn "pow" [x, y] = E.pow x y

/-- The decimal rounding is odd, exact at one half and at the integers of at most 15 digits. -/
structure Rounding (r : ℚ → ℚ) : Prop where
  odd : ∀ q, r (-q) = -r q
  half : r (1 / 2) = 1 / 2
  int : ∀ n : ℤ, |n| ≤ 10 ^ 15 → r n = n

/-- Not a number, not a product. -/
def Expr.factor : Expr → Bool
  | .num _ _ => false
  | .mul _ _ _ => false
  | _ => true

/-- Not a number, not a product, not a power. -/
def Expr.base : Expr → Bool
  | .num _ _ => false
  | .mul _ _ _ => false
  | .pow _ _ => false
  | _ => true

mutual
/-- The forms SymPy keeps: a function, a sum have arguments, an integer exponent is not zero and its base is not a
power (SymPy rewrites `(b^e)^n` as `b^(e n)`); the exponents have at most 15 digits. -/
def Expr.Canon : Expr → Prop
  | .num _ _ => True
  | .sym _ => True
  | .app _ args => args ≠ [] ∧ CanonL args
  | .add terms => terms ≠ [] ∧ CanonL terms
  | .mul _ _ fs => CanonL fs ∧ ∀ e ∈ fs, e.factor = true
  | .pow b e => b.Canon ∧ e.Canon ∧
      ∀ q : ℚ, e = .num q false → q.den = 1 → q ≠ 0 ∧ |q| ≤ 10 ^ 15 ∧ b.base = true
def CanonL : List Expr → Prop
  | [] => True
  | e :: es => e.Canon ∧ CanonL es
end

end spec

section proofs
variable {K : Type} [Field K] [CharZero K] {E : Env K} {lang : Lang} {r : ℚ → ℚ}

/-! ## Proofs -/

theorem Reads.neg_term {t : Text} {x : K} (h : Reads E .term t [x]) : Reads E .term (.sub :: t) [-x] := by
  suffices ∀ c v, Reads E c t v → c = .term → ∀ x, v = [x] → Reads E .term (.sub :: t) [-x] from this _ _ h rfl x rfl
  clear h x
  intro c v h
  induction h with
  | termFactor h ih => intro _ x hx; cases hx; exact .termFactor (.neg h)
  | termMul h1 h2 ih1 ih2 =>
    intro _ x hx; cases hx
    rw [← neg_mul]; exact .termMul (ih1 rfl _ rfl) h2
  | termDiv h1 h2 ih1 ih2 =>
    intro _ x hx; cases hx
    rw [← neg_div]; exact .termDiv (ih1 rfl _ rfl) h2
  | _ => intro hc; cases hc

theorem Reads.atom_term {t : Text} {x : K} (h : Reads E .atom t [x]) : Reads E .term t [x] :=
  .termFactor (.factorPower (.powerAtom h))

theorem Reads.parens {t : Text} {x : K} (h : Reads E .sum t [x]) : Reads E .atom (parens t) [x] := .paren h

theorem join_cons (sep : Tok) (t : Text) (l : List Text) : join sep (t :: l) = t ++ l.flatMap fun u => sep :: u := by
  induction l generalizing t with
  | nil => simp [join]
  | cons u l ih => rw [join, ih]; simp

theorem reads_muls : ∀ {ts : List Text} {vs : List K}, List.Forall₂ (fun t v => Reads E .power t [v]) ts vs →
    ∀ {a x}, Reads E .term a [x] → Reads E .term (a ++ ts.flatMap fun u => .mul :: u) [x * vs.prod]
  | _, _, .nil, a, x, h => by simpa using h
  | _, _, .cons (l₁ := ts) (l₂ := vs) h1 h2, a, x, h => by
    have := reads_muls h2 (.termMul h (.factorPower h1))
    simpa [mul_assoc] using this

theorem reads_join {t : Text} {v : K} (h : Reads E .power t [v]) {ts : List Text} {vs : List K}
    (hs : List.Forall₂ (fun t v => Reads E .power t [v]) ts vs) :
    Reads E .term (join .mul (t :: ts)) [(v :: vs).prod] := by
  rw [join_cons, List.prod_cons]
  exact reads_muls hs (.termFactor (.factorPower h))

theorem reads_replicate {t : Text} {v : K} (h : Reads E .atom t [v]) (n : Nat) (hn : n ≠ 0) :
    Reads E .term (join .mul (List.replicate n t)) [v ^ n] := by
  obtain ⟨m, rfl⟩ := Nat.exists_eq_succ_of_ne_zero hn
  have hs : List.Forall₂ (fun t (v : K) => Reads E .power t [v]) (List.replicate m t) (List.replicate m v) := by
    clear hn
    induction m with
    | zero => exact .nil
    | succ m ih => exact .cons (.powerAtom h) ih
  have := reads_join (.powerAtom h) hs
  rw [List.prod_cons, List.prod_replicate] at this
  rw [List.replicate_succ, Nat.succ_eq_add_one, pow_succ']
  exact this

theorem reads_args {ts : List Text} {vs : List K} (hs : List.Forall₂ (fun t v => Reads E .sum t [v]) ts vs)
    (hne : ts ≠ []) : Reads E .args (join .comma ts) vs := by
  induction hs with
  | nil => exact absurd rfl hne
  | @cons t v ts vs h hs ih =>
    cases hs with
    | nil => exact .argsOne h
    | @cons u w us ws h' hs' => rw [join]; exact .argsCons h (ih (by simp))

/-- A text which can be a term of a sum. -/
def TermText (E : Env K) (t : Text) (v : K) : Prop :=
  Reads E .term t [v] ∧ ∀ u, t = .sub :: u → Reads E .term u [-v]

theorem TermText.of_head {t : Text} {v : K} (h : Reads E .term t [v]) (h' : t.head? ≠ some .sub) : TermText E t v :=
  ⟨h, fun u hu => absurd (by rw [hu]; rfl) h'⟩

theorem TermText.of_power {t : Text} {v : K} (h : Reads E .power t [v]) : TermText E t v :=
  .of_head (.termFactor (.factorPower h)) (h.starts.2 (Or.inl rfl))

theorem TermText.of_neg {t : Text} {v : K} (h : Reads E .term t [v]) : TermText E (.sub :: t) (-v) :=
  ⟨h.neg_term, fun u hu => by cases hu; rwa [neg_neg]⟩

theorem absText_term (q : ℚ) (fl : Bool) :
    Reads E .term (absText lang r q fl) [numVal lang r q fl] ∧
      (fl = true ∨ q.den = 1 ∨ lang = .c → Reads E .atom (absText lang r q fl) [numVal lang r q fl]) := by
  unfold absText numVal
  rcases fl with _ | _
  · simp only [Bool.false_eq_true, if_false, false_or]
    by_cases hd : q.den = 1
    · simp only [hd, if_true, ne_eq, not_true, and_false, if_false]
      exact ⟨(Reads.lit q).atom_term, fun _ => .lit q⟩
    · rw [if_neg hd]
      cases lang with
      | c =>
        simp only [ne_eq, hd, not_false_eq_true, and_self, if_true]
        exact ⟨(Reads.lit _).atom_term, fun _ => .lit _⟩
      | numpy =>
        simp only [reduceCtorEq, false_and, if_false, hd, or_self, false_implies, and_true]
        have := Reads.termDiv (E := E) (Reads.lit (q.num : ℚ)).atom_term (.factorPower (.powerAtom (Reads.lit (q.den : ℚ))))
        rw [← Rat.cast_div, Rat.num_div_den] at this
        exact this
  · simp only [if_true, true_or]
    exact ⟨(Reads.lit _).atom_term, fun _ => .lit _⟩

theorem numVal_neg (hr : Rounding r) (q : ℚ) (fl : Bool) :
    (numVal lang r (-q) fl : K) = -numVal lang r q fl := by
  unfold numVal
  rw [Rat.den_neg_eq_den]
  split_ifs <;> simp [hr.odd]

theorem absText_head (q : ℚ) (fl : Bool) : (absText lang r q fl).head? ≠ some .sub := by
  unfold absText
  split_ifs
  · simp
  · simp
  · cases lang <;> simp

theorem numText_term (hr : Rounding r) (q : ℚ) (fl : Bool) :
    TermText E (numText lang r q fl) (numVal lang r q fl) := by
  unfold numText
  split_ifs with h
  · have := TermText.of_neg (absText_term (E := E) (lang := lang) (r := r) (-q) fl).1
    rwa [numVal_neg hr, neg_neg] at this
  · exact .of_head (absText_term q fl).1 (absText_head q fl)

theorem numText_atom (q : ℚ) (fl : Bool) (h : 50 < numPrec q fl) :
    Reads E .atom (numText lang r q fl) [numVal lang r q fl] := by
  unfold numPrec at h
  split_ifs at h with h1 h2
  · omega
  · unfold numText
    rw [if_neg h1]
    exact (absText_term q fl).2 (by tauto)
  · omega

theorem parenthesize_atom {p level : Nat} {t : Text} {v : K} (h : Reads E .sum t [v])
    (h' : level < p → Reads E .atom t [v]) : Reads E .atom (parenthesize p level t) [v] := by
  unfold parenthesize
  split_ifs with hp
  · exact h.parens
  · exact h' (by omega)

theorem parenthesize_power {p level : Nat} {t : Text} {v : K} (h : Reads E .sum t [v])
    (h' : level < p → Reads E .power t [v]) : Reads E .power (parenthesize p level t) [v] := by
  unfold parenthesize
  split_ifs with hp
  · exact .powerAtom h.parens
  · exact h' (by omega)

/-- The exponents which are printed with a division. -/
def Inverse : Expr → Prop
  | .num q fl => fl = false ∧ (q = -1 ∨ q = -(1 / 2))
  | _ => False

theorem call_power {f : String} {ts : List Text} {vs : List K}
    (hs : List.Forall₂ (fun t v => Reads E .sum t [v]) ts vs) (hne : ts ≠ []) :
    Reads E .power (.name f :: parens (join .comma ts)) [E.fn f vs] :=
  .powerAtom (.call f (reads_args hs hne))

theorem inv_term {t : Text} {v : K} (h : Reads E .power t [v]) : Reads E .term (.lit 1 :: .div :: t) [v⁻¹] := by
  have := Reads.termDiv (E := E) (Reads.lit 1).atom_term (.factorPower h)
  simpa using this

theorem toNat_pow {q : ℚ} (hq : 0 < q) (hd : q.den = 1) (x : K) (hE : E.OK) :
    E.pow x (q : K) = x ^ q.num.toNat ∧ q.num.toNat ≠ 0 := by
  have hn : 0 < q.num := Rat.num_pos.2 hq
  have h1 : (q : K) = ((q.num : ℤ) : K) := by
    conv_lhs => rw [← Rat.coe_int_num_of_den_eq_one hd]
    push_cast; rfl
  rw [h1, hE.zpow]
  constructor
  · conv_lhs => rw [← Int.toNat_of_nonneg hn.le]
    rw [zpow_natCast]
  · omega

theorem powText_ok (hE : E.OK) (hr : Rounding r) {bp : Nat} {bt : Text} {x : K} (hb : Reads E .sum bt [x])
    (hb' : 60 < bp → Reads E .atom bt [x]) (e : Expr) {et : Text} {y : K} (he : Reads E .sum et [y])
    (he' : 60 < e.prec → Reads E .atom et [y]) (hy : ∀ q fl, e = .num q fl → y = numVal lang r q fl)
    (hz : ∀ q : ℚ, e = .num q false → q.den = 1 → q ≠ 0 ∧ |q| ≤ 10 ^ 15) :
    Reads E .term (powText lang r bp bt e et) [E.pow x y] ∧ (powText lang r bp bt e et).head? ≠ some .sub ∧
      (¬ Inverse e → Reads E .power (powText lang r bp bt e et) [E.pow x y]) := by
  suffices h : Reads E .power (powText lang r bp bt e et) [E.pow x y] ∨
      Inverse e ∧ Reads E .term (powText lang r bp bt e et) [E.pow x y] ∧
        (powText lang r bp bt e et).head? ≠ some .sub by
    rcases h with h | ⟨h1, h2, h3⟩
    · exact ⟨.termFactor (.factorPower h), h.starts.2 (Or.inl rfl), fun _ => h⟩
    · exact ⟨h2, h3, fun h => absurd h1 h⟩
  have hb60 : Reads E .atom (parenthesize bp 60 bt) [x] := parenthesize_atom hb hb'
  have hcall : Reads E .power (.name "pow" :: parens (join .comma [bt, et])) [E.pow x y] := by
    have := call_power (f := "pow") (.cons hb (.cons he .nil)) (by simp)
    rwa [hE.fpow] at this
  have hstar : Reads E .power (parenthesize bp 60 bt ++ .pow :: parenthesize e.prec 60 et) [E.pow x y] :=
    .pow hb60 (.factorPower (.powerAtom (parenthesize_atom he he')))
  cases lang with
  | c =>
    cases e with
    | num q fl =>
      have hy := hy q fl rfl
      unfold powText
      simp only
      split_ifs with h1 h2 h3
      · right
        obtain ⟨rfl, rfl⟩ := h1
        refine ⟨⟨rfl, Or.inl rfl⟩, ?_, by simp⟩
        have h4 : E.pow x y = x⁻¹ := by
          rw [hy, numVal, if_neg (by simp), show ((-1 : ℚ) : K) = ((-1 : ℤ) : K) by norm_num, hE.zpow, zpow_neg_one]
        rw [h4]
        exact inv_term (.powerAtom hb60)
      · left
        obtain ⟨rfl, rfl⟩ := h2
        have := call_power (f := "sqrt") (.cons hb .nil) (by simp)
        rw [hE.sqrt] at this
        rw [hy, numVal, if_pos (by simp), hr.half]
        exact this
      · left
        obtain ⟨h4, rfl, h6⟩ := h3
        have h7 : y = (q : K) := by rw [hy, numVal, if_neg (by simp [h6])]
        obtain ⟨h8, h9⟩ := toNat_pow h4 h6 x hE
        rw [h7, h8]
        exact .powerAtom (Reads.sumTerm (reads_replicate hb60 _ h9)).parens
      · left; exact hcall
    | _ => left; unfold powText; exact hcall
  | numpy =>
    cases e with
    | num q fl =>
      have hy := hy q fl rfl
      unfold powText
      simp only
      split_ifs with h1 h2 h3 h4
      · left
        obtain ⟨rfl, h5, h6⟩ := h1
        have h7 : (numVal .numpy r q true : K) = y := by
          obtain ⟨-, h8⟩ := hz q rfl h5
          rw [hy, numVal, numVal, if_pos (by simp), if_neg (by simp)]
          have h9 : q = ((q.num : ℤ) : ℚ) := (Rat.coe_int_num_of_den_eq_one h5).symm
          rw [h9, hr.int]
          rw [h9] at h8
          exact_mod_cast h8
        have := (numText_term (E := E) (lang := .numpy) hr q true).1
        rw [h7] at this
        exact .pow hb60 (.factorPower (.powerAtom (Reads.sumTerm this).parens))
      · left
        obtain ⟨rfl, h5⟩ := h2
        obtain ⟨h6, -⟩ := hz q rfl h5
        have h4 : 0 < q := by
          rcases lt_or_ge q 0 with h | h
          · exact absurd ⟨rfl, h5, h⟩ h1
          · exact lt_of_le_of_ne h (Ne.symm h6)
        have h7 : y = (q : K) := by rw [hy, numVal, if_neg (by simp)]
        obtain ⟨h8, h9⟩ := toNat_pow h4 h5 x hE
        rw [h7, h8, max_eq_right (by omega)]
        exact .powerAtom (Reads.sumTerm (reads_replicate hb60 _ h9)).parens
      · left
        obtain ⟨rfl, rfl⟩ := h3
        have := call_power (f := "numpy.sqrt") (.cons hb .nil) (by simp)
        rw [hE.npsqrt] at this
        rw [hy, numVal, if_neg (by simp)]
        exact this
      · right
        obtain ⟨rfl, rfl⟩ := h4
        refine ⟨⟨rfl, Or.inr rfl⟩, ?_, by simp⟩
        have := call_power (f := "numpy.sqrt") (.cons hb .nil) (by simp)
        rw [hE.npsqrt] at this
        have h5 : E.pow x y = (E.pow x ((1 / 2 : ℚ) : K))⁻¹ := by
          rw [hy, numVal, if_neg (by simp), Rat.cast_neg, hE.neg]
        rw [h5]
        exact inv_term this
      · left; exact hstar
    | _ => left; unfold powText; exact hstar

/-! ### Products -/

/-- What the product needs to know of a factor of value `v`. -/
def ItemOK (E : Env K) (i : Item) (v : K) : Prop :=
  match i.den with
  | none => ∀ level, 40 ≤ level → level < 60 → Reads E .power (parenthesize i.prec level i.text) [v]
  | some d => ∀ level, 40 ≤ level → level < 60 → Reads E .power (parenthesize d.1 level d.2) [v⁻¹]

/-- What it needs to know of the first numerator. -/
def HeadOK (E : Env K) (a : Nat × Text) (v : K) : Prop :=
  ∀ level, 40 ≤ level → level < 60 → Reads E .term (parenthesize a.1 level a.2) [v] ∧
    (parenthesize a.1 level a.2).head? ≠ some .sub

def numerators (items : List Item) : List (Nat × Text) :=
  items.filterMap fun i => if i.den.isSome then none else some (i.prec, i.text)

def PartOK (E : Env K) (a : Nat × Text) (v : K) : Prop :=
  ∀ level, 40 ≤ level → level < 60 → Reads E .power (parenthesize a.1 level a.2) [v]

theorem PartOK.head {a : Nat × Text} {v : K} (h : PartOK E a v) : HeadOK E a v := fun level h1 h2 =>
  ⟨.termFactor (.factorPower (h level h1 h2)), (h level h1 h2).starts.2 (Or.inl rfl)⟩

theorem split_items {items : List Item} {vs : List K} (h : List.Forall₂ (ItemOK E) items vs) :
    ∃ va vb : List K, List.Forall₂ (PartOK E) (numerators items) va ∧
      List.Forall₂ (PartOK E) (items.filterMap Item.den) vb ∧ vs.prod = va.prod / vb.prod := by
  induction h with
  | nil => exact ⟨[], [], .nil, .nil, by simp⟩
  | @cons i v items vs h hs ih =>
    obtain ⟨va, vb, h1, h2, h3⟩ := ih
    unfold ItemOK at h
    cases hd : i.den with
    | none =>
      rw [hd] at h
      refine ⟨v :: va, vb, ?_, ?_, ?_⟩
      · rw [numerators, List.filterMap_cons_some (b := (i.prec, i.text)) (by simp [hd])]
        exact .cons h h1
      · rw [List.filterMap_cons_none hd]; exact h2
      · rw [List.prod_cons, List.prod_cons, h3, mul_div_assoc]
    | some d =>
      rw [hd] at h
      refine ⟨va, v⁻¹ :: vb, ?_, ?_, ?_⟩
      · rw [numerators, List.filterMap_cons_none (by simp [hd])]
        exact h1
      · rw [List.filterMap_cons_some hd]; exact .cons h h2
      · rw [List.prod_cons, List.prod_cons, h3, div_eq_mul_inv, div_eq_mul_inv, mul_inv, inv_inv]
        ring

theorem quotient_term {a : Text} {x : K} (ha : Reads E .term a [x]) {ts : List Text} {vs : List K}
    (hs : List.Forall₂ (fun t v => Reads E .power t [v]) ts vs) :
    Reads E .term (a ++ quotient ts) [x / vs.prod] := by
  cases hs with
  | nil => simpa [quotient] using ha
  | @cons t v ts vs h hs =>
    cases hs with
    | nil => simpa [quotient] using Reads.termDiv ha (.factorPower h)
    | @cons u w us ws h' hs' =>
      exact .termDiv ha (.factorPower (.powerAtom (Reads.sumTerm (reads_join h (.cons h' hs'))).parens))

theorem one_part : PartOK E (1000, [Tok.lit 1]) 1 := by
  intro level _ _
  have h := (Reads.lit (E := E) 1)
  rw [Rat.cast_one] at h
  exact parenthesize_power (.sumTerm h.atom_term) fun _ => .powerAtom h

theorem mulText_term {co : List (Nat × Text)} {vco : List K} {items : List Item} {vs : List K}
    (hco : co = [] ∧ vco = [] ∨ ∃ c v, co = [c] ∧ vco = [v] ∧ HeadOK E c v)
    (h : List.Forall₂ (ItemOK E) items vs) (neg : Bool) :
    TermText E (mulText neg ((co.map fun c => ⟨c.1, c.2, none⟩) ++ items))
      (if neg then -(vco.prod * vs.prod) else vco.prod * vs.prod) := by
  obtain ⟨va, vb, h1, h2, h3⟩ := split_items h
  obtain ⟨a0, v0, a, va', h4, h4', h5, ha⟩ : ∃ (a0 : Nat × Text) (v0 : K) (a : List (Nat × Text)) (va' : List K),
      HeadOK E a0 v0 ∧ List.Forall₂ (PartOK E) a va' ∧ v0 * va'.prod = vco.prod * va.prod ∧
      a0 :: a = if co ++ numerators items = [] then [(1000, [Tok.lit 1])] else co ++ numerators items := by
    rcases hco with ⟨rfl, rfl⟩ | ⟨c, v, rfl, rfl, hc⟩
    · rw [List.nil_append]
      generalize numerators items = A at h1
      cases h1 with
      | nil => exact ⟨_, 1, [], [], one_part.head, .nil, by simp, by simp⟩
      | @cons a0 v0 a va' g gs => exact ⟨a0, v0, a, va', g.head, gs, by simp, by simp⟩
    · exact ⟨c, v, _, va, hc, h1, by simp, by simp⟩
  have hnum : numerators ((co.map fun c => (⟨c.1, c.2, none⟩ : Item)) ++ items) = co ++ numerators items := by
    rw [numerators, List.filterMap_append]
    congr 1
    rcases hco with ⟨rfl, rfl⟩ | ⟨c, v, rfl, rfl, hc⟩ <;> simp
  have hden : ((co.map fun c => (⟨c.1, c.2, none⟩ : Item)) ++ items).filterMap Item.den =
      items.filterMap Item.den := by
    rw [List.filterMap_append]
    rcases hco with ⟨rfl, rfl⟩ | ⟨c, v, rfl, rfl, hc⟩ <;> simp
  have hm : mulText neg ((co.map fun c => (⟨c.1, c.2, none⟩ : Item)) ++ items) = (if neg then [Tok.sub] else []) ++
      join .mul ((a0 :: a).map fun x => parenthesize x.1
        (if (a0 :: a).length = 1 ∧ neg then 55 else if neg then 40 else 50) x.2) ++
      quotient ((items.filterMap Item.den).map fun x => parenthesize x.1 (if neg then 40 else 50) x.2) := by
    rw [ha, ← hnum, ← hden]; rfl
  set level := if (a0 :: a).length = 1 ∧ neg then 55 else if neg then 40 else 50 with hlev
  have hl1 : 40 ≤ level := by rw [hlev]; split_ifs <;> omega
  have hl2 : level < 60 := by rw [hlev]; split_ifs <;> omega
  clear_value level
  set prec := if neg then 40 else 50 with hprec
  have hp1 : 40 ≤ prec := by rw [hprec]; split_ifs <;> omega
  have hp2 : prec < 60 := by rw [hprec]; split_ifs <;> omega
  clear_value prec
  have ha' : List.Forall₂ (fun t v => Reads E .power t [v]) (a.map fun x => parenthesize x.1 level x.2) va' := by
    rw [List.forall₂_map_left_iff]
    exact h4'.imp fun _ _ h => h level hl1 hl2
  have hb' : List.Forall₂ (fun t v => Reads E .power t [v])
      ((items.filterMap Item.den).map fun x => parenthesize x.1 prec x.2) vb := by
    rw [List.forall₂_map_left_iff]; exact h2.imp fun _ _ h => h prec hp1 hp2
  obtain ⟨g1, g2⟩ := h4 level hl1 hl2
  have hj := reads_muls ha' g1
  rw [← join_cons, h5] at hj
  have hq := quotient_term hj hb'
  rw [mul_div_assoc, ← h3] at hq
  rw [hm, List.append_assoc]
  cases neg with
  | true =>
    simp only [if_true]
    exact TermText.of_neg hq
  | false =>
    simp only [Bool.false_eq_true, if_false, List.nil_append]
    refine .of_head hq ?_
    rw [List.map_cons, join_cons]
    obtain ⟨hn, -⟩ := g1.starts
    obtain ⟨x, y, hxy⟩ := List.exists_cons_of_ne_nil hn
    rw [hxy] at g2 ⊢
    simpa using g2

/-! ### Sums -/

theorem addText_sum {l : List (Bool × Text)} {vs : List K}
    (h : List.Forall₂ (fun (a : Bool × Text) v => Reads E .term a.2 [if a.1 then -v else v]) l vs) :
    ∀ {t x}, Reads E .sum t [x] →
      Reads E .sum (t ++ l.flatMap fun x => (if x.1 then Tok.sub else .add) :: x.2) [x + vs.sum] := by
  induction h with
  | nil => intro t x h; simpa using h
  | @cons a v l vs h hs ih =>
    intro t x ht
    obtain ⟨s, u⟩ := a
    cases s with
    | true =>
      have := ih (.sumSub ht h)
      simpa [add_assoc, sub_neg_eq_add] using this
    | false =>
      have := ih (.sumAdd ht h)
      simpa [add_assoc] using this

theorem addText_ok {l : List (Bool × Text)} {vs : List K} (hne : l ≠ [])
    (h : List.Forall₂ (fun (a : Bool × Text) v => Reads E .term a.2 [if a.1 then -v else v]) l vs) :
    Reads E .sum (addText l) [vs.sum] := by
  cases h with
  | nil => exact absurd rfl hne
  | @cons a v l vs h hs =>
    obtain ⟨s, u⟩ := a
    rw [addText, List.sum_cons]
    refine addText_sum hs (.sumTerm ?_)
    cases s with
    | true => have := h.neg_term; simpa using this
    | false => simpa using h

theorem addTerm_ok {isAdd : Bool} {t : Text} {v : K} (h : Reads E .sum t [v])
    (h' : isAdd = false → TermText E t v) :
    Reads E .term (addTerm isAdd t).2 [if (addTerm isAdd t).1 then -v else v] := by
  cases isAdd with
  | true => simp only [addTerm, Bool.false_eq_true, if_false]; exact h.parens.atom_term
  | false =>
    obtain ⟨h1, h2⟩ := h' rfl
    unfold addTerm
    split
    · simp_all
    · simpa using h2 _ rfl
    · simpa using h1

/-! ### Expressions -/

/-- What is known of the printed text of an expression. -/
structure Printed (E : Env K) (e : Expr) (t : Text) (v : K) : Prop where
  sum : Reads E .sum t [v]
  term : e.isAdd = false → TermText E t v
  atom : 60 < e.prec → Reads E .atom t [v]
  power : 50 < e.prec → (∀ b x, e = .pow b x → ¬ Inverse x) → Reads E .power t [v]

theorem Expr.factor_prec {e : Expr} (h : e.factor = true) : e.prec ≤ 40 ∨ 50 < e.prec := by
  cases e <;> simp_all [Expr.factor, Expr.prec]

theorem Expr.base_factor {e : Expr} (h : e.base = true) : e.factor = true := by
  cases e <;> simp_all [Expr.factor, Expr.base]

theorem Printed.par {e : Expr} {t : Text} {v : K} (h : Printed E e t v)
    (hp : ∀ b x, e = .pow b x → ¬ Inverse x) (hf : e.factor = true) (level : Nat) (hl : 40 ≤ level) :
    Reads E .power (parenthesize e.prec level t) [v] :=
  parenthesize_power h.sum fun h' => h.power (by have := e.factor_prec hf; omega) hp

theorem numPrec_cases (q : ℚ) (fl : Bool) : numPrec q fl = 40 ∨ numPrec q fl = 1000 ∨ numPrec q fl = 50 := by
  unfold numPrec; split_ifs <;> simp

theorem num_printed (hr : Rounding r) (q : ℚ) (fl : Bool) :
    Printed E (.num q fl) (numText lang r q fl) (numVal lang r q fl) where
  sum := .sumTerm (numText_term hr q fl).1
  term := fun _ => numText_term hr q fl
  atom := fun h => numText_atom q fl (by simp only [Expr.prec] at h; omega)
  power := fun h _ => .powerAtom (numText_atom q fl h)

theorem pow_printed (hE : E.OK) (hr : Rounding r) {b e : Expr} {bt et : Text} {x y : K}
    (hb : Printed E b bt x) (he : Printed E e et y) (hy : ∀ q fl, e = .num q fl → y = numVal lang r q fl)
    (hz : ∀ q : ℚ, e = .num q false → q.den = 1 → q ≠ 0 ∧ |q| ≤ 10 ^ 15) :
    Printed E (.pow b e) (powText lang r b.prec bt e et) (E.pow x y) := by
  obtain ⟨h1, h2, h3⟩ := powText_ok (lang := lang) hE hr hb.sum hb.atom e he.sum he.atom hy hz
  exact ⟨.sumTerm h1, fun _ => .of_head h1 h2, fun h => by simp [Expr.prec] at h, fun _ h => h3 (h b e rfl)⟩

inductive PrintedL (E : Env K) : List Expr → List Text → List K → Prop
  | nil : PrintedL E [] [] []
  | cons {e t v es ts vs} : Printed E e t v → PrintedL E es ts vs → PrintedL E (e :: es) (t :: ts) (v :: vs)

theorem other_ok {e : Expr} {es : List Expr} (hf : e.factor = true) (h : ¬ ∃ b q, e = .pow b (.num q false))
    (h1 : Printed E e (print lang r e) (eval E (numVal lang r) e))
    (h2 : List.Forall₂ (ItemOK E) (items lang r es) (evalL E (numVal lang r) es)) :
    List.Forall₂ (ItemOK E) (items lang r (e :: es)) (evalL E (numVal lang r) (e :: es)) := by
  rw [evalL, items]
  · refine .cons ?_ h2
    intro level hl _
    refine h1.par (fun b x h' => ?_) hf level hl
    subst h'
    cases x with
    | num q fl => rintro ⟨rfl, -⟩; exact h ⟨b, q, rfl⟩
    | _ => exact id
  · rintro b q rfl; exact h ⟨b, q, rfl⟩

mutual
theorem print_ok (hE : E.OK) (hr : Rounding r) :
    ∀ e : Expr, e.Canon → Printed E e (print lang r e) (eval E (numVal lang r) e)
  | .num q fl, _ => by rw [print, eval]; exact num_printed hr q fl
  | .sym s, _ => by
    rw [print, eval]
    have h := Reads.name (E := E) s
    exact ⟨.sumTerm h.atom_term, fun _ => .of_power (.powerAtom h), fun _ => h, fun _ _ => .powerAtom h⟩
  | .app f args, hc => by
    rw [Expr.Canon] at hc
    rw [print, eval]
    have h1 := printL_ok hE hr args hc.2
    have h2 : Reads E .atom (.name f :: parens (join .comma (printL lang r args)))
        [E.fn f (evalL E (numVal lang r) args)] := by
      refine .call f (reads_args ?_ ?_)
      · have : ∀ (l : List Expr) (ts : List Text) (vs : List K), PrintedL E l ts vs →
            List.Forall₂ (fun t v => Reads E .sum t [v]) ts vs := by
          intro l ts vs h
          induction h with
          | nil => exact .nil
          | cons h _ ih => exact .cons h.sum ih
        exact this _ _ _ h1
      · cases args with
        | nil => exact absurd rfl hc.1
        | cons => rw [printL]; simp
    exact ⟨.sumTerm h2.atom_term, fun _ => .of_power (.powerAtom h2), fun _ => h2, fun _ _ => .powerAtom h2⟩
  | .add terms, hc => by
    rw [Expr.Canon] at hc
    rw [print, eval]
    have h1 := printL_ok hE hr terms hc.2
    have h2 : ∀ (l : List Expr) (ts : List Text) (vs : List K), PrintedL E l ts vs →
        List.Forall₂ (fun (a : Bool × Text) v => Reads E .term a.2 [if a.1 then -v else v])
          (List.zipWith addTerm (l.map Expr.isAdd) ts) vs := by
      intro l ts vs h
      induction h with
      | nil => exact .nil
      | cons h _ ih => exact .cons (addTerm_ok h.sum h.term) ih
    have h3 := addText_ok (l := List.zipWith addTerm (terms.map Expr.isAdd) (printL lang r terms)) ?_ (h2 _ _ _ h1)
    · exact ⟨h3, fun h => by simp [Expr.isAdd] at h, fun h => by simp [Expr.prec] at h,
        fun h => by simp [Expr.prec] at h⟩
    · cases terms with
      | nil => exact absurd rfl hc.1
      | cons => rw [printL]; simp
  | .mul c fl fs, hc => by
    rw [Expr.Canon] at hc
    rw [print, eval]
    have h1 := items_ok hE hr fs hc.1 hc.2
    have hq : ¬ (if c < 0 then -c else c) < 0 := by split_ifs with h <;> linarith
    have h3 : TermText E _ _ := mulText_term
      (co := if fl = false ∧ (if c < 0 then -c else c) = 1 then [] else
        [(numPrec (if c < 0 then -c else c) fl, numText lang r (if c < 0 then -c else c) fl)])
      (vco := if fl = false ∧ (if c < 0 then -c else c) = 1 then [] else
        [(numVal lang r (if c < 0 then -c else c) fl : K)]) ?_ h1 (decide (c < 0))
    · have h4 : (if fl = false ∧ (if c < 0 then -c else c) = 1 then [] else
          [(numVal lang r (if c < 0 then -c else c) fl : K)]).prod = numVal lang r (if c < 0 then -c else c) fl := by
        generalize (if c < 0 then -c else c) = q
        split_ifs with h
        · obtain ⟨rfl, rfl⟩ := h; simp [numVal]
        · simp
      rw [h4] at h3
      have h5 : (if decide (c < 0) = true then
          -(numVal lang r (if c < 0 then -c else c) fl * (evalL E (numVal lang r) fs).prod)
          else numVal lang r (if c < 0 then -c else c) fl * (evalL E (numVal lang r) fs).prod) =
          (numVal lang r c fl : K) * (evalL E (numVal lang r) fs).prod := by
        by_cases h : c < 0
        · simp only [h, decide_true, if_true, numVal_neg hr]; ring
        · simp only [h, decide_false, if_false]; rfl
      rw [h5] at h3
      have h6 : (if fl = false ∧ (if c < 0 then -c else c) = 1 then [] else
          [(⟨numPrec (if c < 0 then -c else c) fl, numText lang r (if c < 0 then -c else c) fl, none⟩ : Item)]) =
          (if fl = false ∧ (if c < 0 then -c else c) = 1 then [] else
            [(numPrec (if c < 0 then -c else c) fl, numText lang r (if c < 0 then -c else c) fl)]).map
            fun c => (⟨c.1, c.2, none⟩ : Item) := by
        generalize (if c < 0 then -c else c) = q
        split_ifs <;> rfl
      rw [h6]
      refine ⟨.sumTerm h3.1, fun _ => h3, fun h => ?_, fun h => ?_⟩
      · simp only [Expr.prec] at h; split_ifs at h <;> omega
      · simp only [Expr.prec] at h; split_ifs at h <;> omega
    · generalize (if c < 0 then -c else c) = q at hq
      split_ifs with h
      · exact Or.inl ⟨rfl, rfl⟩
      · refine Or.inr ⟨_, _, rfl, rfl, fun level _ _ => ?_⟩
        have h2 := numText_term (E := E) (lang := lang) hr q fl
        unfold parenthesize
        split_ifs
        · have := (Reads.sumTerm h2.1).parens
          exact ⟨this.atom_term, by simp [parens]⟩
        · refine ⟨h2.1, ?_⟩
          simp only [numText, if_neg hq]
          exact absText_head q fl
  | .pow b e, hc => by
    rw [Expr.Canon] at hc
    rw [print, eval]
    refine pow_printed hE hr (print_ok hE hr b hc.1) (print_ok hE hr e hc.2.1) ?_ ?_
    · rintro q fl rfl; rw [eval]
    · intro q hq hd; obtain ⟨h1, h2, -⟩ := hc.2.2 q hq hd; exact ⟨h1, h2⟩
theorem printL_ok (hE : E.OK) (hr : Rounding r) :
    ∀ l : List Expr, CanonL l → PrintedL E l (printL lang r l) (evalL E (numVal lang r) l)
  | [], _ => by rw [printL, evalL]; exact .nil
  | e :: es, hc => by
    rw [CanonL] at hc
    rw [printL, evalL]
    exact .cons (print_ok hE hr e hc.1) (printL_ok hE hr es hc.2)
theorem items_ok (hE : E.OK) (hr : Rounding r) :
    ∀ l : List Expr, CanonL l → (∀ e ∈ l, e.factor = true) → List.Forall₂ (ItemOK E) (items lang r l) (evalL E (numVal lang r) l)
  | [], _, _ => by rw [items, evalL]; exact .nil
  | .pow b (.num q false) :: es, hc, hf => by
    rw [List.forall_mem_cons] at hf
    rw [CanonL, Expr.Canon] at hc
    obtain ⟨⟨hb, -, hq⟩, hes⟩ := hc
    rw [items, evalL]
    refine .cons ?_ (items_ok hE hr es hes hf.2)
    have hb := print_ok hE hr b hb
    have hq' : ∀ p : ℚ, Expr.num q false = .num p false → p.den = 1 → p ≠ 0 ∧ |p| ≤ 10 ^ 15 := by
      intro p hp hd; obtain ⟨h1, h2, -⟩ := hq p hp hd; exact ⟨h1, h2⟩
    rw [eval, eval]
    unfold ItemOK
    by_cases hneg : q < 0
    · simp only [hneg, if_true]
      by_cases h1 : q = -1
      · subst h1
        simp only [if_true]
        obtain ⟨-, -, h2⟩ := hq (-1) rfl (by norm_num)
        have h3 : E.pow (eval E (numVal lang r) b) (numVal lang r (-1) false) =
            (eval E (numVal lang r) b)⁻¹ := by
          have := hE.zpow (eval E (numVal lang r) b) (-1)
          rw [zpow_neg_one] at this
          rw [← this]; simp [numVal]
        rw [h3, inv_inv]
        intro level hl _
        exact hb.par (fun _ _ h => by rw [h] at h2; cases h2) (Expr.base_factor h2) level hl
      · simp only [h1, if_false]
        have h2 : (E.pow (eval E (numVal lang r) b) (numVal lang r q false))⁻¹ =
            E.pow (eval E (numVal lang r) b) (numVal lang r (-q) false) := by
          rw [numVal_neg hr, hE.neg]
        rw [h2]
        have h3 := pow_printed (lang := lang) hE hr hb (num_printed (lang := lang) hr (-q) false)
          (fun p fl h => by cases h; rfl) (fun p h hd => by
            cases h
            obtain ⟨h4, h5⟩ := hq' q rfl (by simpa using hd)
            exact ⟨by simpa using h4, by simpa using h5⟩)
        intro level hl _
        refine h3.par (fun b' x h => ?_) rfl level hl
        cases h
        rintro ⟨-, h | h⟩ <;> linarith
    · simp only [hneg, if_false]
      intro level hl _
      have h3 := pow_printed (lang := lang) hE hr hb (num_printed (lang := lang) hr q false)
          (fun p fl h => by cases h; rfl) hq'
      refine h3.par (fun b' x h => ?_) rfl level hl
      cases h
      rintro ⟨-, h | h⟩ <;> linarith
  | .num p fl :: es, hc, hf => by
    rw [CanonL] at hc
    rw [List.forall_mem_cons] at hf
    exact other_ok hf.1 (by rintro ⟨_, _, h⟩; cases h) (print_ok hE hr (.num p fl) hc.1) (items_ok hE hr es hc.2 hf.2)
  | .sym s :: es, hc, hf => by
    rw [CanonL] at hc
    rw [List.forall_mem_cons] at hf
    exact other_ok hf.1 (by rintro ⟨_, _, h⟩; cases h) (print_ok hE hr (.sym s) hc.1) (items_ok hE hr es hc.2 hf.2)
  | .app f args :: es, hc, hf => by
    rw [CanonL] at hc
    rw [List.forall_mem_cons] at hf
    exact other_ok hf.1 (by rintro ⟨_, _, h⟩; cases h) (print_ok hE hr (.app f args) hc.1) (items_ok hE hr es hc.2 hf.2)
  | .add terms :: es, hc, hf => by
    rw [CanonL] at hc
    rw [List.forall_mem_cons] at hf
    exact other_ok hf.1 (by rintro ⟨_, _, h⟩; cases h) (print_ok hE hr (.add terms) hc.1) (items_ok hE hr es hc.2 hf.2)
  | .mul c fl fs :: es, hc, hf => by
    rw [CanonL] at hc
    rw [List.forall_mem_cons] at hf
    exact other_ok hf.1 (by rintro ⟨_, _, h⟩; cases h) (print_ok hE hr (.mul c fl fs) hc.1) (items_ok hE hr es hc.2 hf.2)
  | .pow b (.num p true) :: es, hc, hf => by
    rw [CanonL] at hc
    rw [List.forall_mem_cons] at hf
    exact other_ok hf.1 (by rintro ⟨_, _, h⟩; cases h) (print_ok hE hr (.pow b (.num p true)) hc.1) (items_ok hE hr es hc.2 hf.2)
  | .pow b (.sym s) :: es, hc, hf => by
    rw [CanonL] at hc
    rw [List.forall_mem_cons] at hf
    exact other_ok hf.1 (by rintro ⟨_, _, h⟩; cases h) (print_ok hE hr (.pow b (.sym s)) hc.1) (items_ok hE hr es hc.2 hf.2)
  | .pow b (.app f args) :: es, hc, hf => by
    rw [CanonL] at hc
    rw [List.forall_mem_cons] at hf
    exact other_ok hf.1 (by rintro ⟨_, _, h⟩; cases h) (print_ok hE hr (.pow b (.app f args)) hc.1) (items_ok hE hr es hc.2 hf.2)
  | .pow b (.add terms) :: es, hc, hf => by
    rw [CanonL] at hc
    rw [List.forall_mem_cons] at hf
    exact other_ok hf.1 (by rintro ⟨_, _, h⟩; cases h) (print_ok hE hr (.pow b (.add terms)) hc.1) (items_ok hE hr es hc.2 hf.2)
  | .pow b (.mul c fl fs) :: es, hc, hf => by
    rw [CanonL] at hc
    rw [List.forall_mem_cons] at hf
    exact other_ok hf.1 (by rintro ⟨_, _, h⟩; cases h) (print_ok hE hr (.pow b (.mul c fl fs)) hc.1) (items_ok hE hr es hc.2 hf.2)
  | .pow b (.pow b' x) :: es, hc, hf => by
    rw [CanonL] at hc
    rw [List.forall_mem_cons] at hf
    exact other_ok hf.1 (by rintro ⟨_, _, h⟩; cases h) (print_ok hE hr (.pow b (.pow b' x)) hc.1) (items_ok hE hr es hc.2 hf.2)
end

theorem Reads.no_quest {c : Cat} {t : Text} {v : List K} (h : Reads E c t v) : Tok.quest ∉ t := by
  induction h <;> simp_all

/-! ## Properties -/

/-- C76: when the printer accepts the expression, the text it writes is an arithmetic expression of Python whose value,
its only value, is that of the symbolic expression (with the numbers as they are written). -/
theorem C76_value_partial (hE : E.OK) (hr : Rounding r) {e : Expr} (hc : e.Canon) {t : Text}
    (ht : doprint lang r e = some t) (v : K) : Reads E .sum t [v] ↔ v = eval E (numVal lang r) e := by
  unfold doprint at ht
  split_ifs at ht
  cases ht
  have h := (print_ok (lang := lang) hE hr e hc).sum
  exact ⟨fun h' => h'.unique h, fun h' => h' ▸ h⟩

mutual
/-- No `Float` in the expression. -/
def Expr.exact : Expr → Bool
  | .num _ fl => !fl
  | .sym _ => true
  | .app _ args => exactL args
  | .add terms => exactL terms
  | .mul _ fl fs => !fl && exactL fs
  | .pow b e => b.exact && e.exact
def exactL : List Expr → Bool
  | [] => true
  | e :: es => e.exact && exactL es
end

mutual
theorem eval_exact : ∀ e : Expr, e.exact → eval E (numVal .numpy r) e = eval E (fun q _ => (q : K)) e
  | .num q fl, h => by simp [Expr.exact] at h; subst h; simp [eval, numVal]
  | .sym s, _ => by rw [eval, eval]
  | .app f args, h => by rw [Expr.exact] at h; rw [eval, eval, evalL_exact args h]
  | .add terms, h => by rw [Expr.exact] at h; rw [eval, eval, evalL_exact terms h]
  | .mul c fl fs, h => by
    simp [Expr.exact] at h
    obtain ⟨rfl, h⟩ := h
    rw [eval, eval, evalL_exact fs h]; simp [numVal]
  | .pow b e, h => by
    simp [Expr.exact] at h
    rw [eval, eval, eval_exact b h.1, eval_exact e h.2]
theorem evalL_exact : ∀ l : List Expr, exactL l → evalL E (numVal .numpy r) l = evalL E (fun q _ => (q : K)) l
  | [], _ => by rw [evalL, evalL]
  | e :: es, h => by
    simp [exactL] at h
    rw [evalL, evalL, eval_exact e h.1, evalL_exact es h.2]
end

mutual
theorem raises_numpy : ∀ e : Expr, raises .numpy e = false
  | .num _ _ => by rw [raises]
  | .sym _ => by rw [raises]
  | .app _ args => by rw [raises, raisesL_numpy args]
  | .add terms => by rw [raises, raisesL_numpy terms]
  | .mul _ _ fs => by rw [raises, raisesL_numpy fs]
  | .pow b e => by
    rw [raises, raises_numpy b, raises_numpy e]
    cases e <;> simp [Expr.stops]
theorem raisesL_numpy : ∀ l : List Expr, raisesL .numpy l = false
  | [] => by rw [raisesL]
  | e :: es => by rw [raisesL, raises_numpy e, raisesL_numpy es]; rfl
end

/-- The NumPy printer accepts every expression of the model, and writes the exact value of an expression without
floats. -/
theorem C76_numpy_exact_partial (hE : E.OK) (hr : Rounding r) {e : Expr} (hc : e.Canon) (he : e.exact) :
    ∃ t, doprint .numpy r e = some t ∧
      ∀ v, Reads E .sum t [v] ↔ v = eval E (fun q _ => (q : K)) e := by
  refine ⟨print .numpy r e, by simp [doprint, raises_numpy], fun v => ?_⟩
  rw [← eval_exact (r := r) e he]
  exact C76_value_partial hE hr hc (by simp [doprint, raises_numpy]) v

/-- The Cython and Loopy printers refuse an exponent which is a symbol: `rho**gamma` cannot be printed. -/
theorem C76_symbolic_exponent_negation (b : Expr) (s : String) :
    doprint .c r (.pow b (.sym s)) = none ∧ (doprint .numpy r (.pow b (.sym s))).isSome := by
  refine ⟨by simp [doprint, raises, Expr.stops], by simp [doprint, raises_numpy]⟩

/-- A rational number which is not decimal loses its value in Cython: `1/3`. -/
theorem C76_cython_rational_negation (h10 : ∀ q, ∃ k : ℕ, ∃ m : ℤ, r q = m / 10 ^ k) :
    ∃ t, doprint .c r (.num (1 / 3) false) = some t ∧ ∀ v : K, Reads E .sum t [v] → v ≠ ((1 / 3 : ℚ) : K) := by
  have hd : (1 / 3 : ℚ).den ≠ 1 := by decide +kernel
  have hn : ¬ (1 / 3 : ℚ) < 0 := by norm_num
  refine ⟨[.lit (r (1 / 3))], by rw [doprint, raises, print, numText, if_neg hn, absText, if_neg Bool.false_ne_true, if_neg hd]; rfl, ?_⟩
  intro v h hv
  have h2 := (Reads.sumTerm (Reads.lit (E := E) (r (1 / 3))).atom_term).unique h
  rw [hv, Rat.cast_inj] at h2
  obtain ⟨k, m, hm⟩ := h10 (1 / 3)
  rw [hm, div_eq_div_iff (by positivity) (by norm_num), one_mul] at h2
  have h3 : m * 3 = (10 ^ k : ℤ) := by exact_mod_cast h2
  have h4 : (3 : ℤ) ∣ 10 ^ k := ⟨m, by rw [← h3]; ring⟩
  have h5 : (3 : ℤ) ∣ 10 := Int.prime_three.dvd_of_dvd_pow h4
  revert h5; decide

/-- The text written by the Cython printer for a `Piecewise` in an expression is not a Python expression. -/
theorem C76_piecewise_negation (l : List (Text × Text)) (hl : l ≠ []) (last : Text) (v : List K) :
    ¬ Reads E .sum (piecewiseText l last) v := by
  intro h
  refine h.no_quest ?_
  obtain ⟨x, l, rfl⟩ := List.exists_cons_of_ne_nil hl
  unfold piecewiseText
  rw [List.map_cons, join_cons]
  simp

end proofs

/-! ## Examples -/

/-- The real power: the integer powers, and the powers of the absolute value otherwise (the library gives `nan` for a
negative number there). -/
noncomputable def realPow (x y : ℝ) : ℝ := open Classical in if h : ∃ n : ℤ, y = n then x ^ h.choose else |x| ^ y

theorem realPow_int (x : ℝ) (n : ℤ) : realPow x n = x ^ n := by
  unfold realPow
  have h : ∃ m : ℤ, (n : ℝ) = m := ⟨n, rfl⟩
  rw [dif_pos h]
  congr 1
  exact_mod_cast h.choose_spec.symm

/-- Real variables, the library functions of the examples. -/
noncomputable def realEnv (var : String → ℝ) : Env ℝ where
  var := var
  fn f args := match f, args with
    | "sqrt", [x] => realPow x ((1 / 2 : ℚ) : ℝ)
    | "numpy.sqrt", [x] => realPow x ((1 / 2 : ℚ) : ℝ)
    | "pow", [x, y] => realPow x y
    | _, _ => 0
  pow := realPow

theorem realEnv_ok (var : String → ℝ) : (realEnv var).OK where
  zpow := realPow_int
  neg x y := by
    show realPow x (-y) = (realPow x y)⁻¹
    by_cases h : ∃ n : ℤ, y = n
    · obtain ⟨n, rfl⟩ := h
      rw [← Int.cast_neg, realPow_int, realPow_int, zpow_neg]
    · have h' : ¬ ∃ n : ℤ, -y = n := by
        rintro ⟨n, hn⟩; exact h ⟨-n, by push_cast; linarith⟩
      rw [realPow, realPow, dif_neg h, dif_neg h', Real.rpow_neg (abs_nonneg x)]
  sqrt _ := rfl
  npsqrt _ := rfl
  fpow _ _ := rfl

/-- 15 decimals, towards zero. -/
def trunc (q : ℚ) : ℚ := if q < 0 then -(⌊-q * 10 ^ 15⌋ / 10 ^ 15 : ℚ) else ⌊q * 10 ^ 15⌋ / 10 ^ 15

theorem trunc_ok : Rounding trunc where
  odd q := by
    unfold trunc
    rcases lt_trichotomy q 0 with h | rfl | h
    · rw [if_neg (by linarith), if_pos h, neg_neg]
    · simp
    · rw [if_pos (by linarith), if_neg (by linarith), neg_neg]
  half := by decide +kernel
  int n _ := by
    have key : ∀ m : ℤ, ((⌊(m : ℚ) * 10 ^ 15⌋ : ℤ) : ℚ) / 10 ^ 15 = m := by
      intro m
      have : (m : ℚ) * 10 ^ 15 = ((m * 10 ^ 15 : ℤ) : ℚ) := by push_cast; ring
      rw [this, Int.floor_intCast]
      push_cast
      exact mul_div_cancel_right₀ _ (by norm_num)
    unfold trunc
    split_ifs
    · have := key (-n); push_cast at this ⊢; rw [this]; ring
    · exact key n

/-- `-(x - 3*y)**2 / (2*z) + 1/3`, an entry of an equilibrium. -/
def sample : Expr :=
  .add [.mul (-(1 / 2)) false [.pow (.add [.sym "x", .mul (-3) false [.sym "y"]]) (.num 2 false),
    .pow (.sym "z") (.num (-1) false)], .num (1 / 3) false]

theorem sample_canon : sample.Canon := by
  simp only [sample, Expr.Canon, CanonL, ne_eq, not_false_eq_true, and_true, true_and,
    List.cons_ne_nil]
  refine ⟨⟨⟨?_, ?_⟩, ?_⟩, ?_⟩
  · decide
  · intro q h _
    cases h
    exact ⟨by norm_num, by norm_num [abs_of_pos], rfl⟩
  · intro q h _
    cases h
    exact ⟨by norm_num, by norm_num [abs_of_neg], rfl⟩
  · simp [Expr.factor]

/-- NumPy: `-1/2*((x - 3*y)*(x - 3*y))/z + 1/3`. -/
example : doprint .numpy trunc sample = some
    [.sub, .lit 1, .div, .lit 2, .mul, .lp, .lp, .name "x", .sub, .lit 3, .mul, .name "y", .rp, .mul,
      .lp, .name "x", .sub, .lit 3, .mul, .name "y", .rp, .rp, .div, .name "z", .add, .lit 1, .div, .lit 3] := by
  decide +kernel

/-- Cython: `-0.5*((x - 3*y)*(x - 3*y))/z + 0.333333333333333`. -/
example (r : ℚ → ℚ) : doprint .c r sample = some
    [.sub, .lit (r (1 / 2)), .mul, .lp, .lp, .name "x", .sub, .lit 3, .mul, .name "y", .rp, .mul,
      .lp, .name "x", .sub, .lit 3, .mul, .name "y", .rp, .rp, .div, .name "z", .add,
      .lit (r (1 / 3))] := by
  with_unfolding_all rfl

example : trunc (1 / 2) = 1 / 2 ∧ trunc (1 / 3) = 333333333333333 / 1000000000000000 := by decide +kernel

example (var : String → ℝ) (v : ℝ) :
    ∃ t, doprint .numpy trunc sample = some t ∧ (Reads (realEnv var) .sum t [v] ↔
      v = eval (realEnv var) (fun q _ => (q : ℝ)) sample) := by
  obtain ⟨t, h1, h2⟩ := C76_numpy_exact_partial (E := realEnv var) (realEnv_ok var) trunc_ok sample_canon (by decide)
  exact ⟨t, h1, h2 v⟩

example (var : String → ℝ) (t : Text) (h : doprint .c trunc sample = some t) (v : ℝ) :
    Reads (realEnv var) .sum t [v] ↔ v = eval (realEnv var) (numVal .c trunc) sample :=
  C76_value_partial (realEnv_ok var) trunc_ok sample_canon h v

/-- The hypothesis on the decimal numbers. -/
example : ∀ q, ∃ k : ℕ, ∃ m : ℤ, trunc q = m / 10 ^ k := by
  intro q
  refine ⟨15, if q < 0 then -⌊-q * 10 ^ 15⌋ else ⌊q * 10 ^ 15⌋, ?_⟩
  unfold trunc
  split_ifs <;> push_cast <;> ring

/-- `(x > 0) ? x : y`. -/
example (var : String → ℝ) (c : Text) (v : List ℝ) :
    ¬ Reads (realEnv var) .sum (piecewiseText [(c, [.name "x"])] [.name "y"]) v :=
  C76_piecewise_negation _ (by simp) _ _

end Pylbm.Printing
