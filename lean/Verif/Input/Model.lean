import Mathlib.Data.Rat.Defs
import Mathlib.Algebra.Order.Ring.Rat
/-!
# The input dictionary: validation (validator.py) and what the constructors read

Model of `validate` with the report of `rec_dict` and `rec_list`, and of the reads of the dictionary in the constructors
of `Geometry`, `Stencil`, `Domain`, `Scheme` and `Simulation`.

Cerberus is not in the repository: its rules are transcribed from its documentation (the rules `type`, `schema`, `items`,
`keysrules`, `valuesrules`, `anyof`, `allowed`, `min`, `nullable`, `required`, `excludes`; unknown fields are refused).
-/
namespace Pylbm.Input

/-- Keys of the dictionaries. -/
inductive Key
  | str (s : String)
  | int (z : Int)
  /-- `sympy.Symbol` or `sympy.IndexedBase` -/
  | symbol (s : String)
  | other
  deriving DecidableEq

/-- Values of the dictionaries. -/
inductive Val
  | null
  | bool (b : Bool)
  | int (z : Int)
  | float (q : ℚ)
  | str (s : String)
  /-- `sympy.Symbol` or `sympy.IndexedBase` -/
  | symbol (s : String)
  /-- another `sympy.Expr` -/
  | expr
  /-- `sympy.Matrix` -/
  | matrix
  /-- an element of the library, with its dimension -/
  | element (dim : Nat)
  /-- a Python function (`types.FunctionType`) -/
  | func
  /-- a class which derives from `BoundaryMethod` -/
  | method
  /-- a class which derives from `BaseAlgorithm` -/
  | algorithm
  | list (l : List Val)
  | tuple (l : List Val)
  | dict (l : List (Key × Val))
  /-- anything else -/
  | other

abbrev Dict := List (Key × Val)

/-- The keys are also values for `keysrules`. -/
def Key.toVal : Key → Val
  | .str s => .str s
  | .int z => .int z
  | .symbol s => .symbol s
  | .other => .other

/-- `key in dico`. -/
def has (d : Dict) (k : String) : Bool := d.any fun p => decide (p.1 = .str k)

/-- `dico.get(key, None)`; `none` when the key is missing. -/
def get (d : Dict) (k : String) : Option Val := (d.find? fun p => decide (p.1 = .str k)).map Prod.snd

/-! ## Cerberus -/

/-- `integer`: an `int` which is not a `bool`. -/
def isInt : Val → Bool
  | .int _ => true
  | _ => false

/-- `number`: an `int` or a `float`, not a `bool`. -/
def isNumber : Val → Bool
  | .int _ => true
  | .float _ => true
  | _ => false

def isBool : Val → Bool
  | .bool _ => true
  | _ => false

def isStr : Val → Bool
  | .str _ => true
  | _ => false

/-- validator.py 24-25. -/
def isSymbol : Val → Bool
  | .symbol _ => true
  | _ => false

/-- validator.py 27-28: symbols are expressions. -/
def isExpr : Val → Bool
  | .symbol _ => true
  | .expr => true
  | _ => false

/-- validator.py 30-31. -/
def isMatrix : Val → Bool
  | .matrix => true
  | _ => false

/-- validator.py 33-34. -/
def isElement : Val → Bool
  | .element _ => true
  | _ => false

/-- validator.py 36-37. -/
def isFunc : Val → Bool
  | .func => true
  | _ => false

/-- `_validate_isboundary`, validator.py 50-57. -/
def isMethod : Val → Bool
  | .method => true
  | _ => false

/-- `_validate_isalgorithm`, validator.py 59-66. -/
def isAlgorithm : Val → Bool
  | .algorithm => true
  | _ => false

/-- The items of a sequence: the type `list` of Cerberus accepts lists and tuples. -/
def seq? : Val → Option (List Val)
  | .list l => some l
  | .tuple l => some l
  | _ => none

/-- `{"type": "list"}`. -/
def isSeq (v : Val) : Bool := (seq? v).isSome

/-- `{"type": "list", "schema": c}`. -/
def seqOf (c : Val → Bool) (v : Val) : Bool :=
  match seq? v with
  | some l => l.all c
  | none => false

/-- `{"type": "list", "items": [c, c']}`: exactly two items. -/
def pairOf (c c' : Val → Bool) (v : Val) : Bool :=
  match seq? v with
  | some [a, b] => c a && c' b
  | _ => false

/-- `{"type": "dict", "keysrules": ck, "valuesrules": cv}`. -/
def dictOf (ck cv : Val → Bool) : Val → Bool
  | .dict l => l.all fun p => ck p.1.toVal && cv p.2
  | _ => false

/-- One field of a schema; the value `None` is refused by `check` (no field is `nullable`). -/
structure Field where
  name : String
  required : Bool
  excludes : Option String
  check : Val → Bool

/-- The fields which are not required because a field which excludes them is given (`_validate_excludes` of Cerberus:
`_unrequired_by_excludes`). -/
def unrequired (F : List Field) (d : Dict) : List String :=
  F.flatMap fun f =>
    if has d f.name && f.required then
      match f.excludes with
      | some g => [f.name, g]
      | none => []
    else []

/-- The rule `excludes`: the field and the field it excludes are not both given. -/
def Field.notExcluded (f : Field) (d : Dict) : Bool :=
  match f.excludes with
  | some g => !(has d f.name && has d g)
  | none => true

/-- A mapping validated with a schema: known fields, correct values, no excluded fields together, no required field
missing. -/
def fields (F : List Field) (d : Dict) : Bool :=
  (d.all fun p => F.any fun f => decide (p.1 = .str f.name) && f.check p.2) &&
  F.all (fun f => f.notExcluded d) &&
  F.all fun f => !f.required || has d f.name || decide (f.name ∈ unrequired F d)

/-- `{"type": "dict", "schema": F}`. -/
def mapping (F : List Field) : Val → Bool
  | .dict l => fields F l
  | _ => false

/-! ## The schema of pylbm -/

/-- The class which calls `validate`. -/
inductive Cls
  | stencil
  | geometry
  | domain
  | scheme
  | simulation
  deriving DecidableEq

def numOrExpr (v : Val) : Bool := isNumber v || isExpr v

/-- A number at least equal to 0 (`min: 0`). -/
def isNonneg : Val → Bool
  | .int z => decide (0 ≤ z)
  | .float q => decide (0 ≤ q)
  | _ => false

/-- A string of the list (`allowed`). -/
def oneOf (l : List String) : Val → Bool
  | .str s => decide (s ∈ l)
  | _ => false

/-- The fields of one scheme, validator.py 189-235. -/
def schemeFields (c : Cls) : List Field :=
  let req := decide (c ∈ [Cls.scheme, .simulation])
  [⟨"velocities", decide (c ∈ [Cls.domain, .scheme, .simulation, .stencil]), none,
      seqOf fun v => isInt v && isNonneg v⟩,
   ⟨"M", req, some "polynomials", isMatrix⟩,
   ⟨"polynomials", req, some "M", seqOf numOrExpr⟩,
   ⟨"relaxation_parameters", req, none, seqOf numOrExpr⟩,
   ⟨"equilibrium", req, some "feq", seqOf numOrExpr⟩,
   ⟨"feq", req, some "equilibrium", pairOf isFunc isSeq⟩,
   ⟨"conserved_moments", req, none, fun v => isSymbol v || seqOf isSymbol v⟩,
   ⟨"source_terms", false, none, dictOf isSymbol numOrExpr⟩]

/-- The rule for `None` in the second item of `value`, validator.py 248. -/
def nullOrSeq : Val → Bool
  | .null => true
  | v => isSeq v

/-- The fields of one boundary condition, validator.py 237-253. -/
def boundaryFields : List Field :=
  [⟨"method", false, none, dictOf isInt isMethod⟩,
   ⟨"value", false, none, fun v => isFunc v || pairOf isFunc nullOrSeq v⟩,
   ⟨"time_bc", false, none, isBool⟩]

/-- `{"schema": boundary}` without a type, validator.py 322: the rule `schema` looks at mappings and sequences only, and
a sequence is refused (its items are not described by this schema). -/
def boundaryEntry : Val → Bool
  | .dict l => fields boundaryFields l
  | .null => false
  | .list _ => false
  | .tuple _ => false
  | _ => true

def interval : Val → Bool := pairOf isNumber isNumber

/-- The fields of the box, validator.py 261-281. -/
def boxFields : List Field :=
  [⟨"x", false, none, interval⟩, ⟨"y", false, none, interval⟩, ⟨"z", false, none, interval⟩,
   ⟨"label", false, none, fun v => isInt v || seqOf isInt v⟩]

/-- `{"type": "integer", "allowed": [1, 2, 3]}`. -/
def isDim : Val → Bool
  | .int z => decide (z ∈ ([1, 2, 3] : List Int))
  | _ => false

def isDict : Val → Bool
  | .dict _ => true
  | _ => false

/-- The fields of the dictionary, validator.py 255-341. -/
def mainFields (c : Cls) : List Field :=
  [⟨"dim", decide (c ∈ [Cls.stencil, .scheme]), some "box", isDim⟩,
   ⟨"box", decide (c ∈ [Cls.domain, .geometry, .scheme, .simulation, .stencil]), some "dim", mapping boxFields⟩,
   ⟨"elements", false, none, seqOf isElement⟩,
   ⟨"space_step", decide (c ∈ [Cls.domain, .simulation]), none, isNonneg⟩,
   ⟨"scheme_velocity", decide (c ∈ [Cls.scheme, .simulation]), none, fun v => isNumber v || isSymbol v⟩,
   ⟨"schemes", decide (c ∈ [Cls.domain, .scheme, .simulation, .stencil]), none, seqOf (mapping (schemeFields c))⟩,
   ⟨"parameters", false, none, dictOf isSymbol numOrExpr⟩,
   ⟨"inittype", false, none, oneOf ["moments", "distributions"]⟩,
   ⟨"init", decide (c ∈ [Cls.simulation]), none,
      dictOf (fun k => isSymbol k || isNumber k) fun v => isNumber v || isFunc v || pairOf isFunc isSeq v⟩,
   ⟨"boundary_conditions", false, none, dictOf isInt boundaryEntry⟩,
   ⟨"relative_velocity", false, none, seqOf numOrExpr⟩,
   ⟨"generator", false, none, oneOf ["numpy", "cython", "loopy"]⟩,
   ⟨"codegen_option", false, none, mapping [⟨"directory", false, none, isStr⟩, ⟨"generate", false, none, isBool⟩]⟩,
   ⟨"lbm_algorithm", false, none, mapping [⟨"name", false, none, isAlgorithm⟩, ⟨"settings", false, none, isDict⟩]⟩,
   ⟨"show_code", false, none, isBool⟩]

/-- `v.validate(dico)`, validator.py 343-344. -/
def accepts (c : Cls) (d : Dict) : Bool := fields (mainFields c) d

/-! ## The report -/

/-- The errors of Cerberus for a mapping or a sequence: for a key or an index, a list of messages or of nested errors. -/
inductive Err
  | msg (s : String)
  | nest (l : List (Key × List Err))

abbrev Errs := List (Key × List Err)

/-- `errors[key]`. -/
def Errs.find (e : Errs) (k : Key) : Option (List Err) := (List.find? (fun p => decide (p.1 = k)) e).map Prod.snd

/-- A line of the report: its indentation (divided by 4), whether it has the prompt of the errors, the key (or the index)
and the first error shown with a leaf. -/
structure Line where
  depth : Nat
  wrong : Bool
  key : Key
  shown : Option Err

/-- `errors[key][0]` as the errors of the value (validator.py 96-103 and 146-153): an `IndexError` on an empty list of
errors (which Cerberus does not produce). -/
def nested (e : Err) (k : Key) : Option (Bool × Err × Option Err) :=
  match e with
  | .msg _ => none
  | .nest l => match Errs.find l k with
    | none => some (false, .nest [], none)
    | some [] => none
    | some (x :: _) => some (true, x, some x)

mutual

/-- `rec_dict`, validator.py 119-172; `none` is the `IndexError` of `value[0]` (line 158).  The first items are the lines
for the keys of the dictionary, the last ones the missing fields (168-171). -/
def recDict (d : List (Key × Val)) (e : Err) (i : Nat) : Option (List Line) :=
  match e with
  | .msg s => some [⟨i, true, .other, some (.msg s)⟩]
  | .nest l => do
    let a ← recItems d (.nest l) i
    return a ++ (l.filter fun p => !(d.any fun q => decide (q.1 = p.1))).map fun p => ⟨i, true, p.1, none⟩

/-- The loop of `rec_dict`, validator.py 145-166. -/
def recItems (d : List (Key × Val)) (e : Err) (i : Nat) : Option (List Line) :=
  match d with
  | [] => some []
  | (k, v) :: d => do
    let x ← nested e k
    let a ← recValue v x k i
    let b ← recItems d e i
    return a ++ b

/-- One value of a dictionary, validator.py 155-166. -/
def recValue (v : Val) (x : Bool × Err × Option Err) (k : Key) (i : Nat) : Option (List Line) :=
  match v with
  | .list [] => none
  | .list (.dict q :: l) => do
    let b ← recList (.dict q :: l) x.2.1 (i + 1)
    return ⟨i, x.1, k, none⟩ :: b
  | .dict q => do
    let b ← recDict q x.2.1 (i + 1)
    return ⟨i, x.1, k, none⟩ :: b
  | _ => some [⟨i, x.1, k, x.2.2⟩]

/-- `rec_list`, validator.py 69-116. -/
def recList (l : List Val) (e : Err) (i : Nat) : Option (List Line) :=
  match e with
  | .msg s => some [⟨i, true, .other, some (.msg s)⟩]
  | .nest q => recEnum l 0 (.nest q) i

/-- The loop of `rec_list`, validator.py 95-115. -/
def recEnum (l : List Val) (n : Nat) (e : Err) (i : Nat) : Option (List Line) :=
  match l with
  | [] => some []
  | v :: l => do
    let x ← nested e (.int n)
    let a ← recItem v x (.int n) i
    let b ← recEnum l (n + 1) e i
    return a ++ b

/-- One item of a list, validator.py 105-115; the key and the leaf are on two lines. -/
def recItem (v : Val) (x : Bool × Err × Option Err) (k : Key) (i : Nat) : Option (List Line) :=
  match v with
  | .list q => do
    let b ← recList q x.2.1 (i + 1)
    return ⟨i, x.1, k, none⟩ :: b
  | .dict q => do
    let b ← recDict q x.2.1 (i + 1)
    return ⟨i, x.1, k, none⟩ :: b
  | _ => some [⟨i, x.1, k, none⟩, ⟨i + 1, x.1, k, x.2.2⟩]

end

/-- What `validate` does, validator.py 343-353: the report is built first (line 345), whatever the verdict. -/
inductive Outcome
  /-- the constructor goes on -/
  | accepted (report : List Line)
  /-- `sys.exit()`, with the status of a normal end -/
  | exit (report : List Line)
  /-- the report raises an `IndexError` -/
  | indexError

/-- `validate`, validator.py 175-353; `e` are the errors of Cerberus (`v.errors`). -/
def validate (c : Cls) (d : Dict) (e : Errs) : Outcome :=
  match recDict d (.nest e) 0 with
  | none => .indexError
  | some r => if accepts c d then .accepted r else .exit r

end Pylbm.Input
