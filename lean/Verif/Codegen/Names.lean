import Mathlib.Data.List.Dedup
import Mathlib.Data.List.Nodup
/-!
# C70: the names in the generated functions

Which symbols a scheme may use: the arguments of the generated functions are the free symbols of their
expressions (`CodeGen.routine`, generator/codegen.py 786-847) and they are looked up by name when the function
is called (`_get_args`, algorithm/base.py 630-667, and `call_genfunction`, symbolic.py 288-299).
An expression is modelled by the list of the symbols in it.
-/

namespace Pylbm.Codegen

/-- A free symbol of an expression: a SymPy `Symbol` (also the label of an `IndexedBase`), or a `MatrixSymbol`.
Two symbols of different kinds with the same name are different for SymPy and are printed in the same way. -/
inductive Sym
  | sym (s : String)
  | mat (s : String)
  deriving DecidableEq

/-- The name of the symbol. -/
def Sym.name : Sym → String
  | .sym s => s
  | .mat s => s

/-- The symbols of a user expression, before the substitutions. -/
inductive Use
  /-- a conserved moment -/
  | moment
  /-- the coordinate `X`, `Y` or `Z` (`symb_coord`, scheme.py 192-200) -/
  | coord (k : Nat)
  /-- a key of the dictionary `parameters`, replaced by its value, which is a number -/
  | param (p : String)
  /-- another symbol: time, or a symbol given later in `extra_parameters` -/
  | free (p : String)
  deriving DecidableEq

/-- `symb_coord_local`, base.py 93-94. -/
def localCoord (k : Nat) : String := ["xx", "yy", "zz"].getD k "zz"

/-- `recursive_sub(expr, to_subs_full)`, base.py 120-142: conserved moments become entries of the
`MatrixSymbol` `mv`, coordinates become local symbols, parameters are replaced by numbers. -/
def Use.subst : Use → List Sym
  | .moment => [.mat "m"]
  | .coord k => [.sym (localCoord k)]
  | .param _ => []
  | .free p => [.sym p]

/-- The symbols after the substitutions. -/
def subst (l : List Use) : List Sym := l.flatMap Use.subst

/-- `.subs(list(zip(self.mv, m)))` with an array `m`, as in base.py 391 and 420-422: the entries of `mv` become
`Indexed` objects of label `m`.  `parse_expr` does the same in the source terms. -/
def inArray (l : List Sym) : List Sym := l.map fun x => if x = .mat "m" then .sym "m" else x

/-- The expressions of a scheme: equilibrium, relaxation parameters, relative velocity, source terms, and the
matrices of the moments (which only contain symbols like the scheme velocity). -/
structure Scheme where
  dim : Nat
  eq : List Use
  s : List Use
  rel : List Use
  src : List Use
  mat : List Use
  hasRel : Bool
  hasSrc : Bool

/-- A generated function: the symbols in its body, the declared local variables and the symbols which are
assigned in the body. -/
structure Routine where
  name : String
  syms : List Sym
  locals : List Sym
  assigned : List Sym

/-- The upper bounds of the loops, base.py 157-189: `_update_symbols` (codegen.py 648-659) replaces an `Idx` by
the free symbols of its range. -/
def sizes (dim : Nat) : List Sym := (["nx", "ny", "nz"].take dim).map .sym

/-- `rel_ux, rel_uy, rel_uz`. -/
def relSyms (dim : Nat) : List Sym := (["rel_ux", "rel_uy", "rel_uz"].take dim).map .sym

/-- `local_vars` for the coordinates, base.py 154. -/
def coordSyms (dim : Nat) : List Sym := ((List.range dim).map localCoord).map .sym

/-- `transport`, base.py 289-296. -/
def Scheme.transport (S : Scheme) : Routine :=
  ⟨"transport", [.sym "f", .sym "fnew"] ++ sizes S.dim, [], [.sym "fnew"]⟩

/-- `f2m`, base.py 336-344. -/
def Scheme.f2m (S : Scheme) : Routine :=
  ⟨"f2m", [.sym "f", .sym "m"] ++ sizes S.dim ++ subst S.mat, [], [.sym "m"]⟩

/-- `m2f`, base.py 371-379. -/
def Scheme.m2f (S : Scheme) : Routine :=
  ⟨"m2f", [.sym "f", .sym "m"] ++ sizes S.dim ++ subst S.mat, [], [.sym "f"]⟩

/-- `relaxation`, base.py 404-437: the entries of `mv` are replaced in the equilibrium, not in `self.s`
(base.py 426). -/
def Scheme.relaxation (S : Scheme) : Routine :=
  ⟨"relaxation", [.sym "m"] ++ sizes S.dim ++ inArray (subst S.eq) ++ subst S.s, [], [.sym "m"]⟩

/-- `equilibrium`, base.py 381-402. -/
def Scheme.equilibrium (S : Scheme) : Routine :=
  ⟨"equilibrium", [.sym "m"] ++ sizes S.dim ++ inArray (subst S.eq), [], [.sym "m"]⟩

/-- `source_term`, base.py 439-504. -/
def Scheme.sourceTerm (S : Scheme) : Routine :=
  ⟨"source_term", [.sym "m", .sym "dt"] ++ sizes S.dim ++ inArray (subst S.src), [], [.sym "m"]⟩

/-- `one_time_step`, base.py 506-600; the calls of `coords()`, which would assign the local coordinates, are
commented out (lines 590 and 593); `loc` is `m_local and not split`, `fluid` is `check_isfluid`. -/
def Scheme.step (S : Scheme) (loc fluid : Bool) : Routine :=
  let conv := fun l => if loc then l else inArray l
  let m : Sym := if loc then .mat "m" else .sym "m"
  ⟨"one_time_step",
    [.sym "f", .sym "fnew", m] ++ sizes S.dim ++ subst S.mat ++ conv (subst S.eq) ++ subst S.s
      ++ (if S.hasRel then conv (subst S.rel) ++ relSyms S.dim else [])
      ++ (if S.hasSrc then .sym "dt" :: conv (subst S.src) else [])
      ++ (if fluid then [.sym "in_or_out", .sym "valin"] else []),
    (if loc then [.mat "m"] else []) ++ (if S.hasRel then relSyms S.dim else []) ++ coordSyms S.dim,
    [.sym "fnew", m] ++ if S.hasRel then relSyms S.dim else []⟩

/-- `generate`, base.py 602-628. -/
def Scheme.routines (S : Scheme) (loc fluid : Bool) : List Routine :=
  [S.transport, S.f2m, S.m2f, S.relaxation, S.equilibrium, S.step loc fluid]
    ++ if S.hasSrc then [S.sourceTerm] else []

/-- The arguments, codegen.py 815-820 and 841-847: the set of the symbols which are not local. -/
def Routine.args (R : Routine) : List Sym := (R.syms.filter fun x => decide (x ∉ R.locals)).dedup

/-- The object found for a name: something of the simulation, or an extra parameter of the user. -/
inductive Val
  | own (s : String)
  | extra (s : String)
  deriving DecidableEq

/-- The local variables which have a value at the end of `_get_args`, base.py 630-667. -/
def reserved (dim : Nat) : List String :=
  ["self", "simulation", "m_user", "f_user", "kwargs", "mm", "m", "dim", "nx", "X", "f", "fnew", "t", "dt",
    "in_or_out", "valin", "local", "extra"]
    ++ (if 1 < dim then ["ny", "Y"] else []) ++ (if 2 < dim then ["nz", "Z"] else [])

/-- All the local variables in the text of `_get_args`. -/
def declared : List String := reserved 3

/-- The version of CPython. Before 3.13 the calls of `locals()` (and of `exec` without dictionary) during one call of a
function use one dictionary; from 3.13 on (PEP 667) each of them makes a new one. `requires-python = ">=3.6"` in
pyproject.toml allows both. -/
inductive Python
  | before313
  | since313
  deriving DecidableEq

/-- A dictionary of objects. -/
abbrev Dict := String → Option Val

/-- A call of `locals()` in a function with the local variables `decl`, whose values are `fast` (`none`: no value yet);
`frame` is the dictionary left by the previous calls. The old dictionary gets the values of the local variables and
loses those without value; the other keys in it stay. -/
def callLocals (py : Python) (decl : List String) (fast frame : Dict) : Dict := fun s =>
  if s ∈ decl then fast s else match py with
    | .before313 => frame s
    | .since313 => none

/-- `extra` and `local.update(extra)`, base.py 663-666: the parameters of the user, each with the truth value of its
value (for a number: whether it is not zero). -/
def updateExtra (extra : List (String × Bool)) (d : Dict) : Dict := fun s =>
  if s = "lambda_" ∧ extra.lookup "lambda" = some true then some (.extra "lambda")
  else if (extra.lookup s).isSome then some (.extra s) else d s

/-- The dictionary returned by `_get_args`, base.py 662-667: `locals()` is called a second time after the update of the
dictionary given by the first call. -/
def lookup (py : Python) (dim : Nat) (extra : List (String × Bool)) : Dict :=
  let fast : Dict := fun s => if s ∈ reserved dim then some (.own s) else none
  let loc := callLocals py declared fast fun _ => none
  callLocals py declared fast (updateExtra extra loc)

/-- The backends. -/
inductive Backend
  | numpy | cython | loopy
  deriving DecidableEq

/-- `reserved_words` of the printers: cython.py 35-69, loopy.py 39-73, pycode.py 17-49 and 113. -/
def words : Backend → List String
  | .numpy => ["and", "as", "assert", "break", "class", "continue", "def", "del", "elif", "else", "except", "finally",
      "for", "from", "global", "if", "import", "in", "is", "lambda", "not", "or", "pass", "raise", "return", "try",
      "while", "with", "yield", "None", "False", "nonlocal", "True"]
  | _ => ["auto", "if", "break", "int", "case", "long", "char", "register", "continue", "return", "default", "short",
      "do", "sizeof", "double", "static", "else", "struct", "entry", "switch", "extern", "typedef", "float", "union",
      "for", "unsigned", "goto", "while", "enum", "void", "const", "signed", "volatile"]

/-- `_print_Symbol`, cython.py 291-299, loopy.py 275-281 and SymPy's `CodePrinter`, with the suffix `_` for the reserved
words (`reserved_word_suffix`). -/
def text (b : Backend) (s : String) : String :=
  if s ∈ words b then s ++ "_" else if b = .cython ∧ s = "lambda" then "lambda_" else s

/-- The name of an argument in the generated function, by which its value is looked up (symbolic.py 288-299). -/
def Sym.text (b : Backend) (x : Sym) : String := Codegen.text b x.name

/-! ## Specification -/

/-- The names the code uses for the objects of the simulation. -/
def system : List String := ["f", "fnew", "m", "nx", "ny", "nz", "t", "dt", "in_or_out", "valin"]

/-- The keywords of Python, and those added by Cython: a function with such an argument is not read. The grammar of the
Loopy kernels is left out. -/
def keywords : Backend → List String
  | .loopy => []
  | .numpy => python
  | .cython => python ++ ["include", "ctypedef", "cdef", "cpdef", "cimport", "DEF", "IF", "ELIF", "ELSE"]
where python : List String :=
  ["False", "None", "True", "and", "as", "assert", "async", "await", "break", "class", "continue", "def", "del", "elif",
    "else", "except", "finally", "for", "from", "global", "if", "import", "in", "is", "lambda", "nonlocal", "not", "or",
    "pass", "raise", "return", "try", "while", "with", "yield"]

/-- The variables of the loops (symbolic.py 23-25; `_declare_locals`, codegen.py 1113-1116). -/
def loopVars : List String := ["ix_", "iy_", "iz_"]

/-- A generated function can be compiled and called, and gets what is meant: its arguments have different
names which are neither keywords nor variables of the loops, every argument is found, system names are the objects of the simulation and the other
ones the extra parameters of the user, and every local variable which is used is assigned. -/
structure Routine.Good (R : Routine) (b : Backend) (py : Python) (dim : Nat) (extra : List (String × Bool)) : Prop where
  distinct : (R.args.map (Sym.text b)).Nodup
  read : ∀ a ∈ R.args, a.text b ∉ keywords b ∧ a.text b ∉ loopVars
  found : ∀ a ∈ R.args,
    lookup py dim extra (a.text b) = some (if a.name ∈ system then .own a.name else .extra a.name)
  assigned : ∀ x ∈ R.syms, x ∈ R.locals → x ∈ R.assigned

/-- The names of the user: known as extra parameters (before Python 3.13), not used by pylbm, not reserved words; the
name `lambda` is possible for NumPy and Cython with a value other than zero; the time and the time step may be used
without being given. -/
def Allowed (b : Backend) (py : Python) (dim : Nat) (extra : List (String × Bool)) : Use → Prop
  | .moment => True
  | .coord _ => False
  | .param _ => True
  | .free p => p = "t" ∨ p = "dt" ∨
      (py = .before313 ∧
        ((p = "lambda" ∧ b ≠ .loopy ∧ extra.lookup "lambda" = some true) ∨
          ((extra.lookup p).isSome ∧ p ∉ declared ∧ .sym p ∉ relSyms dim ∧ .sym p ∉ coordSyms dim ∧
            p ∉ words b ∧ p ∉ keywords b ∧ p ∉ loopVars ∧ p ≠ "lambda" ∧ p ≠ "lambda_")))

/-- What an argument may be. -/
def Fine (b : Backend) (py : Python) (dim : Nat) (extra : List (String × Bool)) (x : Sym) : Prop :=
  ∃ s, x = .sym s ∧ lookup py dim extra (text b s) = some (if s ∈ system then .own s else .extra s) ∧
    text b s ∉ keywords b ∧ text b s ∉ loopVars ∧ (text b s = s ∨ s = "lambda" ∧ text b s = "lambda_") ∧ s ≠ "lambda_"

theorem nodup_names {b : Backend} {py : Python} {dim : Nat} {extra : List (String × Bool)} {l : List Sym} (hl : l.Nodup)
    (h : ∀ x ∈ l, Fine b py dim extra x) : (l.map (Sym.text b)).Nodup := by
  refine List.Nodup.map_on ?_ hl
  intro x hx y hy e
  obtain ⟨s, rfl, _, _, _, h1, h2⟩ := h x hx
  obtain ⟨t, rfl, _, _, _, h3, h4⟩ := h y hy
  have e : text b s = text b t := e
  congr 1
  rcases h1 with h1 | ⟨rfl, h1⟩ <;> rcases h3 with h3 | ⟨rfl, h3⟩
  · rw [← h1, e, h3]
  · exact absurd (h1.symm.trans (e.trans h3)) h2
  · exact absurd (h3.symm.trans (e.symm.trans h1)) h4
  · rfl

theorem lookup_reserved {py : Python} {dim : Nat} {extra : List (String × Bool)} {s : String} (h : s ∈ reserved dim) :
    lookup py dim extra s = some (.own s) := by
  have hd : s ∈ declared := by
    simp only [declared, reserved, List.mem_append] at h ⊢
    rcases h with (h | h) | h
    · exact Or.inl (Or.inl h)
    · split at h
      · exact Or.inl (Or.inr (by simpa using h))
      · simp at h
    · split at h
      · exact Or.inr (by simpa using h)
      · simp at h
  simp only [lookup, callLocals, if_pos hd, if_pos h]

/-- The names which pylbm gives itself are printed as they are. -/
theorem text_system {b : Backend} {s : String} (h : s ∈ system) :
    text b s = s ∧ s ∉ keywords b ∧ s ∉ loopVars ∧ s ≠ "lambda_" := by
  simp only [system, List.mem_cons, List.not_mem_nil, or_false] at h
  rcases h with rfl | rfl | rfl | rfl | rfl | rfl | rfl | rfl | rfl | rfl <;> cases b <;> decide

theorem fine_own {b : Backend} {py : Python} {dim : Nat} (extra : List (String × Bool)) {s : String}
    (h1 : s ∈ reserved dim) (h2 : s ∈ system) : Fine b py dim extra (.sym s) := by
  obtain ⟨e1, e2, e3, e4⟩ := text_system (b := b) h2
  refine ⟨s, rfl, ?_, ?_, ?_, Or.inl e1, e4⟩
  · rw [e1, if_pos h2]
    exact lookup_reserved h1
  · rwa [e1]
  · rwa [e1]

theorem fine_system {b : Backend} {py : Python} {dim : Nat} (extra : List (String × Bool)) {s : String}
    (h : s ∈ ["f", "fnew", "m", "nx", "t", "dt", "in_or_out", "valin"]) : Fine b py dim extra (.sym s) := by
  refine fine_own extra ?_ ?_
  · simp only [reserved, List.mem_append, List.mem_cons, List.not_mem_nil, or_false] at h ⊢
    tauto
  · simp only [system, List.mem_cons, List.not_mem_nil, or_false] at h ⊢
    tauto

theorem fine_sizes {b : Backend} {py : Python} {dim : Nat} (hd : dim ≤ 3) (extra : List (String × Bool)) :
    ∀ x ∈ sizes dim, Fine b py dim extra x := by
  intro x hx
  obtain ⟨s, hs, rfl⟩ := List.mem_map.1 hx
  have : dim = 0 ∨ dim = 1 ∨ dim = 2 ∨ dim = 3 := by omega
  rcases this with rfl | rfl | rfl | rfl
  · simp at hs
  · obtain rfl : s = "nx" := by simpa using hs
    exact fine_own extra (by decide) (by decide)
  · have : s = "nx" ∨ s = "ny" := by simpa using hs
    rcases this with rfl | rfl <;> exact fine_own extra (by decide) (by decide)
  · have : s = "nx" ∨ s = "ny" ∨ s = "nz" := by simpa using hs
    rcases this with rfl | rfl | rfl <;> exact fine_own extra (by decide) (by decide)

theorem system_declared {s : String} (h : s ∈ system) : s ∈ declared := by
  simp only [system, List.mem_cons, List.not_mem_nil, or_false] at h
  rcases h with rfl | rfl | rfl | rfl | rfl | rfl | rfl | rfl | rfl | rfl <;> decide

theorem fine_allowed {b : Backend} {py : Python} {dim : Nat} {extra : List (String × Bool)} {u : Use}
    (h : Allowed b py dim extra u) :
    ∀ x ∈ u.subst, x = .mat "m" ∨ (Fine b py dim extra x ∧ x ∉ relSyms dim ∧ x ∉ coordSyms dim) := by
  intro x hx
  cases u with
  | moment => left; simpa [Use.subst] using hx
  | coord k => exact h.elim
  | param p => simp [Use.subst] at hx
  | free p =>
    right
    obtain rfl : x = .sym p := by simpa [Use.subst] using hx
    have hrel : ∀ s, s = "t" ∨ s = "dt" ∨ s = "lambda" → Sym.sym s ∉ relSyms dim ∧ Sym.sym s ∉ coordSyms dim := by
      intro s hs
      constructor
      · intro h
        obtain ⟨s', hs', e⟩ := List.mem_map.1 h
        have := List.mem_of_mem_take hs'
        simp only [Sym.sym.injEq] at e
        subst e
        rcases hs with rfl | rfl | rfl <;> simp at this
      · intro h
        obtain ⟨s', hs', e⟩ := List.mem_map.1 h
        obtain ⟨k, _, rfl⟩ := List.mem_map.1 hs'
        simp only [Sym.sym.injEq] at e
        have : localCoord k = "xx" ∨ localCoord k = "yy" ∨ localCoord k = "zz" := by
          unfold localCoord
          match k with
          | 0 => simp
          | 1 => simp
          | 2 => simp
          | k + 3 => simp
        rcases hs with rfl | rfl | rfl <;> rw [e] at this <;> simp at this
    rcases h with rfl | rfl | ⟨rfl, ⟨rfl, hb, hl⟩ | ⟨h1, h2, h3, h4, h5, h6, h7, h8, h9⟩⟩
    · exact ⟨fine_system extra (by simp), hrel _ (Or.inl rfl)⟩
    · exact ⟨fine_system extra (by simp), hrel _ (Or.inr (Or.inl rfl))⟩
    · refine ⟨?_, hrel _ (Or.inr (Or.inr rfl))⟩
      have ht : text b "lambda" = "lambda_" := by
        cases b
        · decide
        · decide
        · exact absurd rfl hb
      refine ⟨_, rfl, ?_, ?_, ?_, Or.inr ⟨rfl, ht⟩, by decide⟩
      · rw [ht, if_neg (by decide)]
        have hd : ¬ "lambda_" ∈ declared := by decide
        simp only [lookup, callLocals, if_neg hd, updateExtra, hl, and_self, if_true]
      · rw [ht]
        cases b <;> decide
      · rw [ht]
        decide
    · have ht : text b p = p := by
        rw [text, if_neg h5, if_neg (fun h => h8 h.2)]
      have hs : p ∉ system := fun h => h2 (system_declared h)
      refine ⟨⟨p, rfl, ?_, by rwa [ht], by rwa [ht], Or.inl ht, h9⟩, h3, h4⟩
      rw [ht, if_neg hs]
      simp only [lookup, callLocals, if_neg h2, updateExtra, h9, false_and, if_false, h1, if_true]

/-- Symbols of an allowed expression after the substitutions. -/
theorem fine_subst {b : Backend} {py : Python} {dim : Nat} {extra : List (String × Bool)} {l : List Use} (h : ∀ u ∈ l, Allowed b py dim extra u) :
    ∀ x ∈ subst l, x = .mat "m" ∨ (Fine b py dim extra x ∧ x ∉ relSyms dim ∧ x ∉ coordSyms dim) := by
  intro x hx
  obtain ⟨u, hu, hx⟩ := List.mem_flatMap.1 hx
  exact fine_allowed (h u hu) x hx

theorem noMoment_subst {l : List Use} (h : .moment ∉ l) : Sym.mat "m" ∉ subst l := by
  intro hx
  obtain ⟨u, hu, hx⟩ := List.mem_flatMap.1 hx
  cases u with
  | moment => exact h hu
  | coord k => simp [Use.subst] at hx
  | param p => simp [Use.subst] at hx
  | free p => simp [Use.subst] at hx


/-! ## Theorems -/

theorem good_of {R : Routine} {b : Backend} {py : Python} {dim : Nat} {extra : List (String × Bool)}
    (h : ∀ x ∈ R.syms, x ∈ R.locals → x ∈ R.assigned)
    (h' : ∀ x ∈ R.syms, x ∉ R.locals → Fine b py dim extra x) : R.Good b py dim extra := by
  have hf : ∀ x ∈ R.args, Fine b py dim extra x := by
    intro x hx
    have := List.mem_filter.1 (List.mem_dedup.1 hx)
    exact h' x this.1 (by simpa using this.2)
  refine ⟨nodup_names (List.nodup_dedup _) hf, fun a ha => ?_, fun a ha => ?_, h⟩
  · obtain ⟨s, rfl, _, h1, h2, _⟩ := hf a ha
    exact ⟨h1, h2⟩
  · obtain ⟨s, rfl, e, _⟩ := hf a ha
    exact e

theorem fine_inArray {b : Backend} {py : Python} {dim : Nat} {extra : List (String × Bool)} {l : List Use} (h : ∀ u ∈ l, Allowed b py dim extra u) :
    ∀ x ∈ inArray (subst l), Fine b py dim extra x := by
  intro x hx
  obtain ⟨y, hy, rfl⟩ := List.mem_map.1 hx
  by_cases e : y = .mat "m"
  · simp only [e, if_true]
    exact fine_system extra (by simp)
  · simp only [e, if_false]
    exact ((fine_subst h y hy).resolve_left e).1

theorem fine_raw {b : Backend} {py : Python} {dim : Nat} {extra : List (String × Bool)} {l : List Use} (h : ∀ u ∈ l, Allowed b py dim extra u)
    (hm : .moment ∉ l) : ∀ x ∈ subst l, Fine b py dim extra x := by
  intro x hx
  refine ((fine_subst h x hx).resolve_left ?_).1
  rintro rfl
  exact noMoment_subst hm hx

/-- **C70.**  If the expressions of a scheme do not use the coordinates, the relaxation parameters do not
depend on the conserved moments, and the other symbols are given as extra parameters with names which pylbm does
not use, then every generated function can be compiled and called and gets what is meant. -/
theorem C70_callable_partial (S : Scheme) (b : Backend) (py : Python) (extra : List (String × Bool)) (loc fluid : Bool) (hd : S.dim ≤ 3)
    (heq : ∀ u ∈ S.eq, Allowed b py S.dim extra u) (hs : ∀ u ∈ S.s, Allowed b py S.dim extra u)
    (hrel : ∀ u ∈ S.rel, Allowed b py S.dim extra u) (hsrc : ∀ u ∈ S.src, Allowed b py S.dim extra u)
    (hmat : ∀ u ∈ S.mat, Allowed b py S.dim extra u) (hsm : .moment ∉ S.s) (hmm : .moment ∉ S.mat) :
    ∀ R ∈ S.routines loc fluid, R.Good b py S.dim extra := by
  have sysf : Fine b py S.dim extra (.sym "f") := fine_system extra (by simp)
  have sysfn : Fine b py S.dim extra (.sym "fnew") := fine_system extra (by simp)
  have sysm : Fine b py S.dim extra (.sym "m") := fine_system extra (by simp)
  have sysdt : Fine b py S.dim extra (.sym "dt") := fine_system extra (by simp)
  have sysio : Fine b py S.dim extra (.sym "in_or_out") := fine_system extra (by simp)
  have sysv : Fine b py S.dim extra (.sym "valin") := fine_system extra (by simp)
  have szs := fine_sizes (b := b) (py := py) hd extra
  intro R hR
  simp only [Scheme.routines, List.mem_append, List.mem_cons, List.not_mem_nil, or_false] at hR
  have key : R = S.transport ∨ R = S.f2m ∨ R = S.m2f ∨ R = S.relaxation ∨ R = S.equilibrium ∨
      R = S.step loc fluid ∨ R = S.sourceTerm := by
    rcases hR with (h | h | h | h | h | h) | h
    · exact Or.inl h
    · exact Or.inr (Or.inl h)
    · exact Or.inr (Or.inr (Or.inl h))
    · exact Or.inr (Or.inr (Or.inr (Or.inl h)))
    · exact Or.inr (Or.inr (Or.inr (Or.inr (Or.inl h))))
    · exact Or.inr (Or.inr (Or.inr (Or.inr (Or.inr (Or.inl h)))))
    · split at h
      · exact Or.inr (Or.inr (Or.inr (Or.inr (Or.inr (Or.inr (by simpa using h))))))
      · simp at h
  rcases key with rfl | rfl | rfl | rfl | rfl | rfl | rfl
  · refine good_of (fun x _ h => by simp [Scheme.transport] at h) fun x hx _ => ?_
    simp only [Scheme.transport, List.mem_append, List.mem_cons, List.not_mem_nil, or_false] at hx
    rcases hx with (rfl | rfl) | hx
    exacts [sysf, sysfn, szs x hx]
  · refine good_of (fun x _ h => by simp [Scheme.f2m] at h) fun x hx _ => ?_
    simp only [Scheme.f2m, List.mem_append, List.mem_cons, List.not_mem_nil, or_false] at hx
    rcases hx with ((rfl | rfl) | hx) | hx
    exacts [sysf, sysm, szs x hx, fine_raw hmat hmm x hx]
  · refine good_of (fun x _ h => by simp [Scheme.m2f] at h) fun x hx _ => ?_
    simp only [Scheme.m2f, List.mem_append, List.mem_cons, List.not_mem_nil, or_false] at hx
    rcases hx with ((rfl | rfl) | hx) | hx
    exacts [sysf, sysm, szs x hx, fine_raw hmat hmm x hx]
  · refine good_of (fun x _ h => by simp [Scheme.relaxation] at h) fun x hx _ => ?_
    simp only [Scheme.relaxation, List.mem_append, List.mem_cons, List.not_mem_nil, or_false] at hx
    rcases hx with ((rfl | hx) | hx) | hx
    exacts [sysm, szs x hx, fine_inArray heq x hx, fine_raw hs hsm x hx]
  · refine good_of (fun x _ h => by simp [Scheme.equilibrium] at h) fun x hx _ => ?_
    simp only [Scheme.equilibrium, List.mem_append, List.mem_cons, List.not_mem_nil, or_false] at hx
    rcases hx with (rfl | hx) | hx
    exacts [sysm, szs x hx, fine_inArray heq x hx]
  · have conv : ∀ l : List Use, (∀ u ∈ l, Allowed b py S.dim extra u) →
        ∀ x ∈ (if loc then subst l else inArray (subst l)), x = (if loc then .mat "m" else .sym "m") ∨
          (Fine b py S.dim extra x ∧ x ∉ relSyms S.dim ∧ x ∉ coordSyms S.dim) := by
      intro l hl x hx
      cases loc with
      | true => simpa using fine_subst hl x (by simpa using hx)
      | false =>
        obtain ⟨y, hy, rfl⟩ := List.mem_map.1 (show x ∈ inArray (subst l) by simpa using hx)
        rcases fine_subst hl y hy with rfl | h
        · left; simp
        · by_cases e : y = .mat "m"
          · left; simp [e]
          · right; simpa [e] using h
    have raw : ∀ l : List Use, (∀ u ∈ l, Allowed b py S.dim extra u) → .moment ∉ l →
        ∀ x ∈ subst l, Fine b py S.dim extra x ∧ x ∉ relSyms S.dim ∧ x ∉ coordSyms S.dim := by
      intro l hl hm x hx
      refine (fine_subst hl x hx).resolve_left ?_
      rintro rfl
      exact noMoment_subst hm hx
    have notrel : ∀ s, s ∈ ["f", "fnew", "m", "nx", "ny", "nz", "dt", "in_or_out", "valin"] →
        Sym.sym s ∉ relSyms S.dim ∧ Sym.sym s ∉ coordSyms S.dim := by
      intro s hs
      constructor
      · intro h
        obtain ⟨s', hs', e⟩ := List.mem_map.1 h
        have := List.mem_of_mem_take hs'
        simp only [Sym.sym.injEq] at e
        subst e
        simp only [List.mem_cons, List.not_mem_nil, or_false] at hs this
        rcases this with rfl | rfl | rfl <;> simp at hs
      · intro h
        obtain ⟨s', hs', e⟩ := List.mem_map.1 h
        obtain ⟨k, _, rfl⟩ := List.mem_map.1 hs'
        simp only [Sym.sym.injEq] at e
        have : localCoord k = "xx" ∨ localCoord k = "yy" ∨ localCoord k = "zz" := by
          unfold localCoord
          match k with
          | 0 => simp
          | 1 => simp
          | 2 => simp
          | k + 3 => simp
        rw [e] at this
        rcases this with rfl | rfl | rfl <;> simp at hs
    have sz' : ∀ x ∈ sizes S.dim, x ∉ relSyms S.dim ∧ x ∉ coordSyms S.dim := by
      intro x hx
      obtain ⟨s, hs, rfl⟩ := List.mem_map.1 hx
      have := List.mem_of_mem_take hs
      apply notrel
      simp only [List.mem_cons, List.not_mem_nil, or_false] at this ⊢
      tauto
    -- every symbol is the moments, a relative velocity, or an argument which is not local
    have cls : ∀ x ∈ (S.step loc fluid).syms, x = (if loc then .mat "m" else .sym "m") ∨
        (S.hasRel = true ∧ x ∈ relSyms S.dim) ∨
        (Fine b py S.dim extra x ∧ x ∉ relSyms S.dim ∧ x ∉ coordSyms S.dim) := by
      intro x hx
      simp only [Scheme.step, List.mem_append, List.mem_cons, List.not_mem_nil, or_false] at hx
      rcases hx with (((((((hx | hx | hx) | hx) | hx) | hx) | hx) | hx) | hx) | hx
      · rcases hx with rfl
        exact Or.inr (Or.inr ⟨sysf, notrel _ (by simp)⟩)
      · rcases hx with rfl
        exact Or.inr (Or.inr ⟨sysfn, notrel _ (by simp)⟩)
      · exact Or.inl hx
      · exact Or.inr (Or.inr ⟨szs x hx, sz' x hx⟩)
      · exact Or.inr (Or.inr (raw _ hmat hmm x hx))
      · exact (conv _ heq x hx).imp_right Or.inr
      · exact Or.inr (Or.inr (raw _ hs hsm x hx))
      · split at hx
        next hr =>
          rcases List.mem_append.1 hx with hx | hx
          · exact (conv _ hrel x hx).imp_right Or.inr
          · exact Or.inr (Or.inl ⟨hr, hx⟩)
        next => simp at hx
      · split at hx
        · rcases List.mem_cons.1 hx with rfl | hx
          · exact Or.inr (Or.inr ⟨sysdt, notrel _ (by simp)⟩)
          · exact (conv _ hsrc x hx).imp_right Or.inr
        · simp at hx
      · split at hx
        · simp only [List.mem_cons, List.not_mem_nil, or_false] at hx
          rcases hx with rfl | rfl
          · exact Or.inr (Or.inr ⟨sysio, notrel _ (by simp)⟩)
          · exact Or.inr (Or.inr ⟨sysv, notrel _ (by simp)⟩)
        · simp at hx
    have asg : ∀ x, x = (if loc then Sym.mat "m" else .sym "m") → x ∈ (S.step loc fluid).assigned := by
      rintro x rfl
      simp [Scheme.step]
    have asg' : ∀ x, S.hasRel = true → x ∈ relSyms S.dim → x ∈ (S.step loc fluid).assigned := by
      intro x h hx
      simp [Scheme.step, h, hx]
    refine good_of (fun x hx hl => ?_) fun x hx hl => ?_
    · rcases cls x hx with h | ⟨h, hx⟩ | ⟨h, h1, h2⟩
      · exact asg x h
      · exact asg' x h hx
      · obtain ⟨s, rfl, _⟩ := h
        simp only [Scheme.step, List.mem_append] at hl
        rcases hl with (hl | hl) | hl
        · cases loc <;> simp at hl
        · split at hl
          · exact absurd hl h1
          · simp at hl
        · exact absurd hl h2
    · rcases cls x hx with h | ⟨h, hx⟩ | ⟨h, _⟩
      · cases loc with
        | true => exact absurd (by simp [Scheme.step, h]) hl
        | false => simpa [h] using sysm
      · exact absurd (by simp [Scheme.step, h, hx]) hl
      · exact h
  · refine good_of (fun x _ h => by simp [Scheme.sourceTerm] at h) fun x hx _ => ?_
    simp only [Scheme.sourceTerm, List.mem_append, List.mem_cons, List.not_mem_nil, or_false] at hx
    rcases hx with ((rfl | rfl) | hx) | hx
    exacts [sysm, sysdt, szs x hx, fine_inArray hsrc x hx]

/-- The hypotheses hold for the shallow water scheme of demo/2D/shallow_water.py with a relative velocity and a
friction: conserved moments everywhere, `g` a parameter, and a rate given later. -/
example : ∀ R ∈ (⟨2, [.moment, .param "g"], [.param "s", .free "omega"], [.moment], [.moment, .free "t"],
    [.param "LA"], true, true⟩ : Scheme).routines true false, R.Good .cython .before313 2 [("omega", true)] := by
  refine C70_callable_partial _ _ _ _ true false (by decide) ?_ ?_ ?_ ?_ ?_ (by decide) (by decide)
  · intro u hu
    simp only [List.mem_cons, List.not_mem_nil, or_false] at hu
    rcases hu with rfl | rfl <;> trivial
  · intro u hu
    simp only [List.mem_cons, List.not_mem_nil, or_false] at hu
    rcases hu with rfl | rfl
    · trivial
    · exact Or.inr (Or.inr ⟨rfl, Or.inr (by decide)⟩)
  · intro u hu
    simp only [List.mem_cons, List.not_mem_nil, or_false] at hu
    rcases hu with rfl
    trivial
  · intro u hu
    simp only [List.mem_cons, List.not_mem_nil, or_false] at hu
    rcases hu with rfl | rfl
    · trivial
    · exact Or.inl rfl
  · intro u hu
    simp only [List.mem_cons, List.not_mem_nil, or_false] at hu
    rcases hu with rfl
    trivial

theorem mem_args {R : Routine} {x : Sym} (h : x ∈ R.syms) (hl : x ∉ R.locals) : x ∈ R.args :=
  List.mem_dedup.2 (List.mem_filter.2 ⟨h, by simpa using hl⟩)

/-- **C70, relaxation parameters.**  As soon as a relaxation parameter depends on a conserved moment, the
generated function `relaxation` has two arguments named `m` and no generator produces a valid module: in
`relaxation_local` the moments are replaced by the array in the equilibrium only. -/
theorem C70_rates_negation (S : Scheme) (b : Backend) (py : Python) (loc fluid : Bool) (extra : List (String × Bool))
    (h : .moment ∈ S.s) : ∃ R ∈ S.routines loc fluid, R.name = "relaxation" ∧ ¬ (R.args.map (Sym.text b)).Nodup ∧
      ¬ R.Good b py S.dim extra := by
  have hn : ¬ (S.relaxation.args.map (Sym.text b)).Nodup := by
    intro hn
    have h1 : Sym.mat "m" ∈ S.relaxation.args := mem_args (by
      simp only [Scheme.relaxation, List.mem_append]
      exact Or.inr (List.mem_flatMap.2 ⟨_, h, by simp [Use.subst]⟩)) (by simp [Scheme.relaxation])
    have h2 : Sym.sym "m" ∈ S.relaxation.args := mem_args (by simp [Scheme.relaxation]) (by
      simp [Scheme.relaxation])
    have := List.inj_on_of_nodup_map hn h1 h2 rfl
    simp at this
  exact ⟨S.relaxation, by simp [Scheme.routines], rfl, hn, fun hg => hn hg.distinct⟩

theorem lookup_none {py : Python} {dim : Nat} {extra : List (String × Bool)} {s : String} (h1 : s ∉ declared)
    (h2 : (extra.lookup s).isSome = false) (h3 : s ≠ "lambda_") : lookup py dim extra s = none := by
  cases py <;> simp [lookup, callLocals, if_neg h1, updateExtra, h2, h3]

theorem localCoord_text (b : Backend) (k : Nat) : text b (localCoord k) = localCoord k ∧ localCoord k ∉ declared ∧
    localCoord k ≠ "lambda_" := by
  have h1 : localCoord k = "xx" ∨ localCoord k = "yy" ∨ localCoord k = "zz" := by
    unfold localCoord
    match k with
    | 0 => simp
    | 1 => simp
    | 2 => simp
    | k + 3 => simp
  rcases h1 with e | e | e <;> rw [e] <;> cases b <;> decide

theorem localCoord_lookup {py : Python} {dim k : Nat} {extra : List (String × Bool)}
    (h : (extra.lookup (localCoord k)).isSome = false) : lookup py dim extra (localCoord k) = none :=
  lookup_none (localCoord_text .numpy k).2.1 h (localCoord_text .numpy k).2.2

/-- **C70, equilibrium depending on the position.**  Whatever the scheme, if a coordinate is in the equilibrium,
then the function `equilibrium` has an argument (`xx`, `yy` or `zz`) for which nothing is given: the
initialisation of a simulation fails with a `KeyError`. -/
theorem C70_position_equilibrium_negation (S : Scheme) (b : Backend) (py : Python) (loc fluid : Bool)
    (extra : List (String × Bool)) (k : Nat) (h : .coord k ∈ S.eq) (he : (extra.lookup (localCoord k)).isSome = false) :
    ∃ R ∈ S.routines loc fluid, R.name = "equilibrium" ∧ ∃ a ∈ R.args, lookup py S.dim extra (a.text b) = none := by
  refine ⟨S.equilibrium, by simp [Scheme.routines], rfl, .sym (localCoord k), mem_args ?_ ?_, ?_⟩
  rotate_left 2
  · rw [Sym.text, Sym.name, (localCoord_text b k).1]
    exact localCoord_lookup he
  · simp only [Scheme.equilibrium, List.mem_append]
    refine Or.inr (List.mem_map.2 ⟨.sym (localCoord k), List.mem_flatMap.2 ⟨_, h, by simp [Use.subst]⟩, by simp⟩)
  · simp [Scheme.equilibrium]

/-- **C70, source terms, relaxation parameters and relative velocities depending on the position.**  If a
coordinate is in one of them, then in `one_time_step` the local variable which stands for it is declared and
used but never assigned: C reads an uninitialised variable, Python raises a `NameError`. -/
theorem C70_position_step_negation (S : Scheme) (loc fluid : Bool) (k : Nat) (hk : k < S.dim)
    (h : .coord k ∈ S.eq ∨ .coord k ∈ S.s ∨ (S.hasRel = true ∧ .coord k ∈ S.rel) ∨
      (S.hasSrc = true ∧ .coord k ∈ S.src)) :
    ∃ R ∈ S.routines loc fluid, R.name = "one_time_step" ∧
      ∃ x ∈ R.syms, x ∈ R.locals ∧ x ∉ R.assigned := by
  have h1 : localCoord k = "xx" ∨ localCoord k = "yy" ∨ localCoord k = "zz" := by
    unfold localCoord
    match k with
    | 0 => simp
    | 1 => simp
    | 2 => simp
    | k + 3 => simp
  have hsub : ∀ l : List Use, .coord k ∈ l → Sym.sym (localCoord k) ∈ subst l :=
    fun l hl => List.mem_flatMap.2 ⟨_, hl, by simp [Use.subst]⟩
  have hconv : ∀ l : List Use, .coord k ∈ l →
      Sym.sym (localCoord k) ∈ (if loc then subst l else inArray (subst l)) := by
    intro l hl
    cases loc with
    | true => simpa using hsub l hl
    | false => exact List.mem_map.2 ⟨.sym (localCoord k), hsub l hl, by simp⟩
  refine ⟨S.step loc fluid, by simp [Scheme.routines], rfl, .sym (localCoord k), ?_, ?_, ?_⟩
  · simp only [Scheme.step, List.mem_append]
    rcases h with h | h | ⟨hr, h⟩ | ⟨hr, h⟩
    · exact Or.inl (Or.inl (Or.inl (Or.inl (Or.inr (hconv _ h)))))
    · exact Or.inl (Or.inl (Or.inl (Or.inr (hsub _ h))))
    · refine Or.inl (Or.inl (Or.inr ?_))
      rw [if_pos hr]
      exact List.mem_append_left _ (hconv _ h)
    · refine Or.inl (Or.inr ?_)
      rw [if_pos hr]
      exact List.mem_cons_of_mem _ (hconv _ h)
  · simp only [Scheme.step, List.mem_append]
    exact Or.inr (List.mem_map.2 ⟨_, List.mem_map.2 ⟨k, List.mem_range.2 hk, rfl⟩, rfl⟩)
  · intro hm
    simp only [Scheme.step, List.mem_append, List.mem_cons, List.not_mem_nil, or_false] at hm
    rcases hm with (hm | hm) | hm
    · simp only [Sym.sym.injEq] at hm
      rcases h1 with e | e | e <;> rw [e] at hm <;> simp at hm
    · cases loc
      · simp only [Bool.false_eq_true, if_false, Sym.sym.injEq] at hm
        rcases h1 with e | e | e <;> rw [e] at hm <;> simp at hm
      · simp at hm
    · split at hm
      · obtain ⟨s, hs, e⟩ := List.mem_map.1 hm
        have := List.mem_of_mem_take hs
        simp only [Sym.sym.injEq] at e
        subst e
        simp only [List.mem_cons, List.not_mem_nil, or_false] at this
        rcases h1 with e | e | e <;> rw [e] at this <;> simp at this
      · simp at hm

theorem free_args {S : Scheme} {p : String} (h : .free p ∈ S.eq) : Sym.sym p ∈ S.equilibrium.args := by
  refine mem_args ?_ (by simp [Scheme.equilibrium])
  simp only [Scheme.equilibrium, List.mem_append]
  exact Or.inr (List.mem_map.2 ⟨.sym p, List.mem_flatMap.2 ⟨_, h, by simp [Use.subst]⟩, by simp⟩)

theorem reserved_text (b : Backend) {dim : Nat} {p : String} (hp : p ∈ reserved dim) : text b p = p := by
  have : ∀ p ∈ declared, text b p = p := by cases b <;> decide
  refine this p ?_
  simp only [declared, reserved, List.mem_append] at hp ⊢
  rcases hp with (h | h) | h
  · exact Or.inl (Or.inl h)
  · split at h
    · exact Or.inl (Or.inr (by simpa using h))
    · simp at h
  · split at h
    · exact Or.inr (by simpa using h)
    · simp at h

/-- **C70, extra parameters.**  An extra parameter with the name of a local variable of `_get_args`, such as
`dim`, `local` or `X`, is silently replaced by that variable in every generated function which uses it. -/
theorem C70_shadow_negation (S : Scheme) (b : Backend) (py : Python) (loc fluid : Bool) (extra : List (String × Bool))
    (p : String) (hp : p ∈ reserved S.dim) (h : .free p ∈ S.eq) :
    ∃ R ∈ S.routines loc fluid, ∃ a ∈ R.args, a.name = p ∧ lookup py S.dim extra (a.text b) = some (.own p) := by
  refine ⟨S.equilibrium, by simp [Scheme.routines], .sym p, free_args h, rfl, ?_⟩
  rw [Sym.text, Sym.name, reserved_text b hp]
  exact lookup_reserved hp

/-- **C70, names of other dimensions.**  An extra parameter named `ny` or `Y` in one dimension, `nz` or `Z` in one or two
dimensions is not found, although it is given: these local variables of `_get_args` have no value there, and the second
call of `locals()` removes them from the dictionary. -/
theorem C70_unbound_negation (S : Scheme) (b : Backend) (py : Python) (loc fluid : Bool) (extra : List (String × Bool))
    (p : String) (hp : p ∈ declared) (hp' : p ∉ reserved S.dim) (h : .free p ∈ S.eq) :
    ∃ R ∈ S.routines loc fluid, ∃ a ∈ R.args, a.name = p ∧ lookup py S.dim extra (a.text b) = none := by
  refine ⟨S.equilibrium, by simp [Scheme.routines], .sym p, free_args h, rfl, ?_⟩
  rw [Sym.text, Sym.name, reserved_text b (dim := 3) hp]
  simp only [lookup, callLocals, if_pos hp, if_neg hp']

/-- **C70, Python 3.13.**  From Python 3.13 on no extra parameter reaches the generated functions: a scheme whose
equilibrium uses one cannot be initialised, whatever its name, its value and the backend. -/
theorem C70_python_negation (S : Scheme) (b : Backend) (loc fluid : Bool) (extra : List (String × Bool)) (p : String)
    (hp : text b p ∉ reserved S.dim) (h : .free p ∈ S.eq) :
    ∃ R ∈ S.routines loc fluid, R.name = "equilibrium" ∧
      ∃ a ∈ R.args, a.name = p ∧ lookup .since313 S.dim extra (a.text b) = none := by
  refine ⟨S.equilibrium, by simp [Scheme.routines], rfl, .sym p, free_args h, rfl, ?_⟩
  simp only [Sym.text, Sym.name, lookup, callLocals, if_neg hp, ite_self]

/-- **C70, reserved words.**  An extra parameter whose name is a reserved word of the backend (`int`, `long`, `static`,
`const` and the other words of C with Cython and Loopy; those of Python with NumPy) is printed with a suffix, and nothing
is found under the new name; only `lambda` is provided for. -/
theorem C70_word_negation (S : Scheme) (b : Backend) (py : Python) (loc fluid : Bool) (extra : List (String × Bool))
    (p : String) (hp : p ∈ words b) (hl : p ≠ "lambda") (he : (extra.lookup (p ++ "_")).isSome = false)
    (h : .free p ∈ S.eq) :
    ∃ R ∈ S.routines loc fluid, ∃ a ∈ R.args, a.name = p ∧ lookup py S.dim extra (a.text b) = none := by
  refine ⟨S.equilibrium, by simp [Scheme.routines], .sym p, free_args h, rfl, ?_⟩
  rw [Sym.text, Sym.name, text, if_pos hp]
  have hw : ∀ p ∈ words b, p ≠ "lambda" → p ++ "_" ∉ declared ∧ p ++ "_" ≠ "lambda_" := by
    cases b <;> decide
  exact lookup_none (hw p hp hl).1 he (hw p hp hl).2

/-- **C70, `lambda`.**  The value zero of an extra parameter `lambda` is taken for a missing one: with NumPy and Cython
the function is not called. -/
theorem C70_lambda_negation (S : Scheme) (b : Backend) (hb : b ≠ .loopy) (py : Python) (loc fluid : Bool)
    (extra : List (String × Bool)) (hz : extra.lookup "lambda" = some false)
    (he : (extra.lookup "lambda_").isSome = false) (h : .free "lambda" ∈ S.eq) :
    ∃ R ∈ S.routines loc fluid, ∃ a ∈ R.args, a.name = "lambda" ∧ lookup py S.dim extra (a.text b) = none := by
  refine ⟨S.equilibrium, by simp [Scheme.routines], .sym "lambda", free_args h, rfl, ?_⟩
  have ht : text b "lambda" = "lambda_" := by
    cases b
    · decide
    · decide
    · exact absurd rfl hb
  rw [Sym.text, Sym.name, ht]
  have hd : ¬ "lambda_" ∈ declared := by decide
  cases py <;> simp [lookup, callLocals, if_neg hd, updateExtra, he, hz]

/-- **C70, keywords.**  An extra parameter whose name is a keyword of Python which is not a word of C (`in`, `is`, `as`,
`from`, `not`, ...) gives a Cython function with an argument which is not a name: the module is not compiled; with NumPy
the same holds for `async` and `await`. -/
theorem C70_keyword_negation (S : Scheme) (b : Backend) (py : Python) (loc fluid : Bool) (extra : List (String × Bool))
    (p : String) (hp : p ∈ keywords b) (hw : p ∉ words b) (hl : p ≠ "lambda") (h : .free p ∈ S.eq) :
    ∃ R ∈ S.routines loc fluid, ∃ a ∈ R.args, a.name = p ∧ a.text b ∈ keywords b ∧ ¬ R.Good b py S.dim extra := by
  have ht : text b p = p := by rw [text, if_neg hw, if_neg fun h => hl h.2]
  have hk : (Sym.sym p).text b ∈ keywords b := by rwa [Sym.text, Sym.name, ht]
  exact ⟨S.equilibrium, by simp [Scheme.routines], .sym p, free_args h, rfl, hk,
    fun hg => (hg.read _ (free_args h)).1 hk⟩

/-- **C70, loops.**  An extra parameter named `ix_`, `iy_` or `iz_` is printed under this name, which is the one of the
variable of a loop: with Cython the function has an argument which it declares again. -/
theorem C70_loop_negation (S : Scheme) (py : Python) (loc fluid : Bool) (extra : List (String × Bool)) (p : String)
    (hp : p ∈ ["ix_", "iy_", "iz_"].take S.dim) (h : .free p ∈ S.eq) :
    ∃ R ∈ S.routines loc fluid, R.name = "equilibrium" ∧
      ∃ a ∈ R.args, a.text .cython = p ∧ ¬ R.Good .cython py S.dim extra := by
  have hp : p ∈ ["ix_", "iy_", "iz_"] := List.mem_of_mem_take hp
  have ht : ∀ q ∈ ["ix_", "iy_", "iz_"], text .cython q = q ∧ q ∈ loopVars := by decide
  have hk : (Sym.sym p).text .cython = p := (ht p hp).1
  refine ⟨S.equilibrium, by simp [Scheme.routines], rfl, .sym p, free_args h, hk, fun hg => ?_⟩
  refine (hg.read _ (free_args h)).2 ?_
  rw [hk]
  exact (ht p hp).2

/-- A parameter `iy_` in two dimensions. -/
example : ∃ R ∈ (⟨2, [.moment, .free "iy_"], [], [], [], [], false, false⟩ : Scheme).routines true false,
    R.name = "equilibrium" ∧
      ∃ a ∈ R.args, a.text .cython = "iy_" ∧ ¬ R.Good .cython .before313 2 [("iy_", true)] :=
  C70_loop_negation _ _ true false _ "iy_" (by decide) (by decide)

/-- A user who names a parameter `dim` in a one-dimensional scheme. -/
example : ∃ R ∈ (⟨1, [.free "dim"], [], [], [], [], false, false⟩ : Scheme).routines true false,
    ∃ a ∈ R.args, a.name = "dim" ∧ lookup .before313 1 [("dim", true)] (a.text .cython) = some (.own "dim") :=
  C70_shadow_negation _ _ _ true false _ "dim" (by decide) (by decide)

/-- A parameter `Y` in one dimension; a parameter `omega` with Python 3.13; a parameter `signed` with Cython; `lambda = 0`;
a parameter `in` with Cython. -/
example : ∃ R ∈ (⟨1, [.free "Y"], [], [], [], [], false, false⟩ : Scheme).routines true false,
    ∃ a ∈ R.args, a.name = "Y" ∧ lookup .before313 1 [("Y", true)] (a.text .numpy) = none :=
  C70_unbound_negation _ _ _ true false _ "Y" (by decide) (by decide) (by decide)

example : ∃ R ∈ (⟨2, [.moment, .free "omega"], [], [], [], [], false, false⟩ : Scheme).routines true false,
    R.name = "equilibrium" ∧
      ∃ a ∈ R.args, a.name = "omega" ∧ lookup .since313 2 [("omega", true)] (a.text .numpy) = none :=
  C70_python_negation _ _ true false _ "omega" (by decide) (by decide)

example : ∃ R ∈ (⟨2, [.free "signed"], [], [], [], [], false, false⟩ : Scheme).routines true false,
    ∃ a ∈ R.args, a.name = "signed" ∧ lookup .before313 2 [("signed", true)] (a.text .cython) = none :=
  C70_word_negation _ _ _ true false _ "signed" (by decide) (by decide) (by decide) (by decide)

example : ∃ R ∈ (⟨2, [.free "lambda"], [], [], [], [], false, false⟩ : Scheme).routines true false,
    ∃ a ∈ R.args, a.name = "lambda" ∧ lookup .before313 2 [("lambda", false)] (a.text .cython) = none :=
  C70_lambda_negation _ _ (by decide) _ true false _ (by decide) (by decide) (by decide)

example : ∃ R ∈ (⟨2, [.free "in"], [], [], [], [], false, false⟩ : Scheme).routines true false,
    ∃ a ∈ R.args, a.name = "in" ∧ a.text .cython ∈ keywords .cython ∧ ¬ R.Good .cython .before313 2 [("in", true)] :=
  C70_keyword_negation _ _ _ true false _ "in" (by decide) (by decide) (by decide) (by decide)

/-- Instances of the other negations: a rate depending on a moment, an equilibrium and a source term depending
on `X`. -/
example : ∃ R ∈ (⟨1, [.moment], [.moment], [], [], [], false, false⟩ : Scheme).routines true false,
    R.name = "relaxation" ∧ ¬ (R.args.map (Sym.text .numpy)).Nodup ∧ ¬ R.Good .numpy .before313 1 [] :=
  C70_rates_negation _ _ _ true false [] (by decide)

example : ∃ R ∈ (⟨1, [.coord 0], [], [], [], [], false, false⟩ : Scheme).routines true false,
    R.name = "equilibrium" ∧ ∃ a ∈ R.args, lookup .before313 1 [] (a.text .numpy) = none :=
  C70_position_equilibrium_negation _ _ _ true false [] 0 (by decide) (by decide)

example : ∃ R ∈ (⟨1, [.moment], [], [], [.coord 0], [], false, true⟩ : Scheme).routines true false,
    R.name = "one_time_step" ∧ ∃ x ∈ R.syms, x ∈ R.locals ∧ x ∉ R.assigned :=
  C70_position_step_negation _ true false 0 (by decide) (by decide)

end Pylbm.Codegen
