import Verif.Input.Accept
/-!
# C91: the values of an accepted dictionary

The kinds of the values written one by one, without the rules of Cerberus: `Typed`, in the theorems of `Accept`, is the
condition `Value` on each key (`C91_values`), and `SchemeValue` in each scheme.
-/
namespace Pylbm.Input

/-! ## Specification -/

inductive Integer : Val → Prop
  | mk (z : Int) : Integer (.int z)

inductive Number : Val → Prop
  | int (z : Int) : Number (.int z)
  | float (q : ℚ) : Number (.float q)

inductive Symb : Val → Prop
  | mk (s : String) : Symb (.symbol s)

inductive Formula : Val → Prop
  | int (z : Int) : Formula (.int z)
  | float (q : ℚ) : Formula (.float q)
  | symbol (s : String) : Formula (.symbol s)
  | expr : Formula .expr

/-- A list or a tuple of values of a kind. -/
inductive Sequence (P : Val → Prop) : Val → Prop
  | list {l : List Val} : (∀ a ∈ l, P a) → Sequence P (.list l)
  | tuple {l : List Val} : (∀ a ∈ l, P a) → Sequence P (.tuple l)

/-- A list or a tuple of two values. -/
inductive Couple (P Q : Val → Prop) : Val → Prop
  | list {a b : Val} : P a → Q b → Couple P Q (.list [a, b])
  | tuple {a b : Val} : P a → Q b → Couple P Q (.tuple [a, b])

/-- Anything in a list or a tuple. -/
def Any : Val → Prop := Sequence fun _ => True

inductive BoxValue : Key × Val → Prop
  | x {v : Val} : Couple Number Number v → BoxValue (.str "x", v)
  | y {v : Val} : Couple Number Number v → BoxValue (.str "y", v)
  | z {v : Val} : Couple Number Number v → BoxValue (.str "z", v)
  | label {v : Val} : Integer v ∨ Sequence Integer v → BoxValue (.str "label", v)

inductive SchemeValue : Key × Val → Prop
  | velocities {v : Val} : Sequence (fun a => ∃ n : Nat, a = .int n) v → SchemeValue (.str "velocities", v)
  | M : SchemeValue (.str "M", .matrix)
  | polynomials {v : Val} : Sequence Formula v → SchemeValue (.str "polynomials", v)
  | relaxation {v : Val} : Sequence Formula v → SchemeValue (.str "relaxation_parameters", v)
  | equilibrium {v : Val} : Sequence Formula v → SchemeValue (.str "equilibrium", v)
  | feq {v : Val} : Couple (· = .func) Any v → SchemeValue (.str "feq", v)
  | conserved {v : Val} : Symb v ∨ Sequence Symb v → SchemeValue (.str "conserved_moments", v)
  | source {l : Dict} : (∀ p ∈ l, (∃ s, p.1 = .symbol s) ∧ Formula p.2) → SchemeValue (.str "source_terms", .dict l)

inductive BoundaryValue : Key × Val → Prop
  | method {l : Dict} : (∀ p ∈ l, (∃ z, p.1 = .int z) ∧ p.2 = .method) → BoundaryValue (.str "method", .dict l)
  | value : BoundaryValue (.str "value", .func)
  | args {v : Val} : Couple (· = .func) (fun a => a = .null ∨ Any a) v → BoundaryValue (.str "value", v)
  | time (b : Bool) : BoundaryValue (.str "time_bc", .bool b)

/-- The entry of a label: a dictionary, or a value that is not looked at (neither `None` nor a sequence). -/
inductive BoundaryEntry : Val → Prop
  | dict {l : Dict} : (∀ p ∈ l, BoundaryValue p) → BoundaryEntry (.dict l)
  | any {v : Val} : (∀ l, v ≠ .dict l) → v ≠ .null → ¬ Any v → BoundaryEntry v

inductive Value (c : Cls) : Key × Val → Prop
  | dim {z : Int} : z = 1 ∨ z = 2 ∨ z = 3 → Value c (.str "dim", .int z)
  | box {l : Dict} : (∀ p ∈ l, BoxValue p) → Value c (.str "box", .dict l)
  | elements {v : Val} : Sequence (fun a => ∃ n, a = .element n) v → Value c (.str "elements", v)
  | step {v : Val} : (∃ n : Nat, v = .int n) ∨ (∃ q : ℚ, 0 ≤ q ∧ v = .float q) → Value c (.str "space_step", v)
  | velocity {v : Val} : Number v ∨ Symb v → Value c (.str "scheme_velocity", v)
  | schemes {v : Val} : Sequence (fun s => mapping (schemeFields c) s = true) v → Value c (.str "schemes", v)
  | parameters {l : Dict} : (∀ p ∈ l, (∃ s, p.1 = .symbol s) ∧ Formula p.2) → Value c (.str "parameters", .dict l)
  | inittype {s : String} : s = "moments" ∨ s = "distributions" → Value c (.str "inittype", .str s)
  | init {l : Dict} : (∀ p ∈ l, ((∃ s, p.1 = .symbol s) ∨ ∃ z, p.1 = .int z) ∧
      (Number p.2 ∨ p.2 = .func ∨ Couple (· = .func) Any p.2)) → Value c (.str "init", .dict l)
  | boundary {l : Dict} : (∀ p ∈ l, (∃ z, p.1 = .int z) ∧ BoundaryEntry p.2) →
      Value c (.str "boundary_conditions", .dict l)
  | relative {v : Val} : Sequence Formula v → Value c (.str "relative_velocity", v)
  | generator {s : String} : s = "numpy" ∨ s = "cython" ∨ s = "loopy" → Value c (.str "generator", .str s)
  | codegen {l : Dict} : (∀ p ∈ l, (p.1 = .str "directory" ∧ ∃ s, p.2 = .str s) ∨
      (p.1 = .str "generate" ∧ ∃ b, p.2 = .bool b)) → Value c (.str "codegen_option", .dict l)
  | algorithm {l : Dict} : (∀ p ∈ l, (p.1 = .str "name" ∧ p.2 = .algorithm) ∨
      (p.1 = .str "settings" ∧ ∃ q, p.2 = .dict q)) → Value c (.str "lbm_algorithm", .dict l)
  | show (b : Bool) : Value c (.str "show_code", .bool b)

/-! ## Lemmas -/

theorem isInt_iff (v : Val) : isInt v = true ↔ Integer v := by
  cases v <;> simp [isInt] <;> first | exact ⟨_⟩ | (intro h; cases h)

theorem isNumber_iff (v : Val) : isNumber v = true ↔ Number v := by
  cases v <;> simp [isNumber] <;> first | exact .int _ | exact .float _ | (intro h; cases h)

theorem isSymbol_iff (v : Val) : isSymbol v = true ↔ Symb v := by
  cases v <;> simp [isSymbol] <;> first | exact ⟨_⟩ | (intro h; cases h)

theorem isFunc_iff (v : Val) : isFunc v = true ↔ v = .func := by
  cases v <;> simp [isFunc]

theorem isMethod_iff (v : Val) : isMethod v = true ↔ v = .method := by
  cases v <;> simp [isMethod]

theorem numOrExpr_iff (v : Val) : numOrExpr v = true ↔ Formula v := by
  cases v <;> simp [numOrExpr, isNumber, isExpr] <;>
    first | exact .int _ | exact .float _ | exact .symbol _ | exact .expr | (intro h; cases h)

theorem seqOf_iff {f : Val → Bool} {P : Val → Prop} (h : ∀ a, f a = true ↔ P a) (v : Val) :
    seqOf f v = true ↔ Sequence P v := by
  cases v with
  | list l =>
    simp only [seqOf, seq?, List.all_eq_true, h]
    exact ⟨.list, fun h => by cases h; assumption⟩
  | tuple l =>
    simp only [seqOf, seq?, List.all_eq_true, h]
    exact ⟨.tuple, fun h => by cases h; assumption⟩
  | _ =>
    simp only [seqOf, seq?]
    exact ⟨fun h => (by cases h), fun h => (by cases h)⟩

theorem pairOf_iff {f g : Val → Bool} {P Q : Val → Prop} (hf : ∀ a, f a = true ↔ P a) (hg : ∀ a, g a = true ↔ Q a)
    (v : Val) : pairOf f g v = true ↔ Couple P Q v := by
  match v with
  | .list [a, b] =>
    simp only [pairOf, seq?, Bool.and_eq_true, hf, hg]
    exact ⟨fun h => .list h.1 h.2, fun h => by cases h; exact ⟨by assumption, by assumption⟩⟩
  | .tuple [a, b] =>
    simp only [pairOf, seq?, Bool.and_eq_true, hf, hg]
    exact ⟨fun h => .tuple h.1 h.2, fun h => by cases h; exact ⟨by assumption, by assumption⟩⟩
  | .list [] | .list [_] | .list (_ :: _ :: _ :: _) | .tuple [] | .tuple [_] | .tuple (_ :: _ :: _ :: _)
  | .null | .bool _ | .int _ | .float _ | .str _ | .symbol _ | .expr | .matrix
  | .element _ | .func | .method | .algorithm | .dict _ | .other =>
    simp only [pairOf, seq?]
    exact ⟨fun h => (by cases h), fun h => (by cases h)⟩

theorem isSeq_iff (v : Val) : isSeq v = true ↔ Any v := by
  cases v with
  | list l => exact ⟨fun _ => .list fun _ _ => trivial, fun _ => rfl⟩
  | tuple l => exact ⟨fun _ => .tuple fun _ _ => trivial, fun _ => rfl⟩
  | _ => exact ⟨fun h => (by cases h), fun h => (by cases h)⟩

theorem nullOrSeq_iff (v : Val) : nullOrSeq v = true ↔ v = .null ∨ Any v := by
  cases v with
  | null => simp [nullOrSeq]
  | _ =>
    rw [nullOrSeq.eq_2 _ (by simp), isSeq_iff]
    simp

theorem symbol_key (k : Key) : isSymbol k.toVal = true ↔ ∃ s, k = .symbol s := by
  cases k <;> simp [Key.toVal, isSymbol]

theorem int_key (k : Key) : isInt k.toVal = true ↔ ∃ z, k = .int z := by
  cases k <;> simp [Key.toVal, isInt]

theorem number_key (k : Key) : isNumber k.toVal = true ↔ ∃ z, k = .int z := by
  cases k <;> simp [Key.toVal, isNumber]

theorem dictOf_dict (f g : Val → Bool) (l : Dict) :
    dictOf f g (.dict l) = true ↔ ∀ p ∈ l, f p.1.toVal = true ∧ g p.2 = true := by
  simp [dictOf]

/-- The fields without requirements. -/
theorem mapping_free {F : List Field} (h : ∀ f ∈ F, f.required = false ∧ f.excludes = none) (l : Dict) :
    mapping F (.dict l) = true ↔ Typed F l := by
  rw [mapping, fields_iff]
  refine ⟨fun h => h.1, fun ht => ⟨ht, ?_, ?_⟩⟩
  · rw [List.all_eq_true]
    intro f hf
    rw [Field.notExcluded, (h f hf).2]
  · rw [List.all_eq_true]
    intro f hf
    simp [(h f hf).1]

theorem box_values (l : Dict) : mapping boxFields (.dict l) = true ↔ ∀ p ∈ l, BoxValue p := by
  rw [mapping_free (by simp [boxFields])]
  refine forall₂_congr fun p _ => ?_
  obtain ⟨k, v⟩ := p
  have hl : (isInt v || seqOf isInt v) = true ↔ Integer v ∨ Sequence Integer v := by
    rw [Bool.or_eq_true, isInt_iff, seqOf_iff isInt_iff]
  constructor
  · rintro ⟨f, hf, hk, hc⟩
    simp only [boxFields, List.mem_cons, List.not_mem_nil, or_false] at hf
    rcases hf with rfl | rfl | rfl | rfl <;> cases hk
    · exact .x ((pairOf_iff isNumber_iff isNumber_iff v).1 hc)
    · exact .y ((pairOf_iff isNumber_iff isNumber_iff v).1 hc)
    · exact .z ((pairOf_iff isNumber_iff isNumber_iff v).1 hc)
    · exact .label (hl.1 hc)
  · intro h
    cases h with
    | x h => exact ⟨⟨"x", _, _, _⟩, .head _, rfl, (pairOf_iff isNumber_iff isNumber_iff v).2 h⟩
    | y h => exact ⟨⟨"y", _, _, _⟩, .tail _ (.head _), rfl, (pairOf_iff isNumber_iff isNumber_iff v).2 h⟩
    | z h => exact ⟨⟨"z", _, _, _⟩, .tail _ (.tail _ (.head _)), rfl, (pairOf_iff isNumber_iff isNumber_iff v).2 h⟩
    | label h => exact ⟨⟨"label", _, _, _⟩, .tail _ (.tail _ (.tail _ (.head _))), rfl, hl.2 h⟩

theorem boundary_values (l : Dict) : fields boundaryFields l = true ↔ ∀ p ∈ l, BoundaryValue p := by
  change mapping boundaryFields (.dict l) = true ↔ _
  rw [mapping_free (by simp [boundaryFields])]
  refine forall₂_congr fun p _ => ?_
  obtain ⟨k, v⟩ := p
  have hv : (isFunc v || pairOf isFunc nullOrSeq v) = true ↔
      v = .func ∨ Couple (· = .func) (fun a => a = .null ∨ Any a) v := by
    rw [Bool.or_eq_true, isFunc_iff, pairOf_iff isFunc_iff nullOrSeq_iff]
  constructor
  · rintro ⟨f, hf, hk, hc⟩
    simp only [boundaryFields, List.mem_cons, List.not_mem_nil, or_false] at hf
    rcases hf with rfl | rfl | rfl <;> cases hk
    · cases v with
      | dict m =>
        refine .method fun p hp => ?_
        have := (dictOf_dict _ _ _).1 hc p hp
        rwa [int_key, isMethod_iff] at this
      | _ => cases hc
    · rcases hv.1 hc with rfl | h
      · exact .value
      · exact .args h
    · cases v with
      | bool b => exact .time b
      | _ => cases hc
  · intro h
    cases h with
    | @method m h =>
      refine ⟨⟨"method", _, _, _⟩, .head _, rfl, (dictOf_dict _ _ _).2 fun p hp => ?_⟩
      rw [int_key, isMethod_iff]
      exact h p hp
    | value => exact ⟨⟨"value", _, _, _⟩, .tail _ (.head _), rfl, rfl⟩
    | args h => exact ⟨⟨"value", _, _, _⟩, .tail _ (.head _), rfl, hv.2 (Or.inr h)⟩
    | time b => exact ⟨⟨"time_bc", _, _, _⟩, .tail _ (.tail _ (.head _)), rfl, rfl⟩

theorem boundaryEntry_iff (v : Val) : boundaryEntry v = true ↔ BoundaryEntry v := by
  cases v with
  | dict l =>
    rw [boundaryEntry, boundary_values]
    refine ⟨.dict, fun h => ?_⟩
    cases h with
    | dict h => exact h
    | any h => exact absurd rfl (h l)
  | null =>
    refine ⟨fun h => (by cases h), fun h => ?_⟩
    cases h with
    | any _ h => exact absurd rfl h
  | list l =>
    refine ⟨fun h => (by cases h), fun h => ?_⟩
    cases h with
    | any _ _ h => exact absurd (.list fun _ _ => trivial) h
  | tuple l =>
    refine ⟨fun h => (by cases h), fun h => ?_⟩
    cases h with
    | any _ _ h => exact absurd (.tuple fun _ _ => trivial) h
  | _ =>
    refine ⟨fun _ => .any (by simp) (by simp) (fun h => by cases h), fun _ => rfl⟩

theorem natural_iff (v : Val) : (isInt v && isNonneg v) = true ↔ ∃ n : Nat, v = .int n := by
  cases v <;> simp [isInt, isNonneg]
  rename_i z
  exact ⟨fun h => ⟨z.toNat, by omega⟩, fun ⟨n, h⟩ => by omega⟩

/-- **C91** (values of a scheme): the kinds of the values in one scheme. -/
theorem C91_scheme_values (c : Cls) (s : Dict) : Typed (schemeFields c) s ↔ ∀ p ∈ s, SchemeValue p := by
  refine forall₂_congr fun p _ => ?_
  obtain ⟨k, v⟩ := p
  have hc' : (isSymbol v || seqOf isSymbol v) = true ↔ Symb v ∨ Sequence Symb v := by
    rw [Bool.or_eq_true, isSymbol_iff, seqOf_iff isSymbol_iff]
  constructor
  · rintro ⟨f, hf, hk, hc⟩
    simp only [schemeFields, List.mem_cons, List.not_mem_nil, or_false] at hf
    rcases hf with rfl | rfl | rfl | rfl | rfl | rfl | rfl | rfl <;> cases hk
    · exact .velocities ((seqOf_iff natural_iff v).1 hc)
    · cases v with
      | matrix => exact .M
      | _ => cases hc
    · exact .polynomials ((seqOf_iff numOrExpr_iff v).1 hc)
    · exact .relaxation ((seqOf_iff numOrExpr_iff v).1 hc)
    · exact .equilibrium ((seqOf_iff numOrExpr_iff v).1 hc)
    · exact .feq ((pairOf_iff isFunc_iff isSeq_iff v).1 hc)
    · exact .conserved (hc'.1 hc)
    · cases v with
      | dict m =>
        refine .source fun p hp => ?_
        have := (dictOf_dict _ _ _).1 hc p hp
        rwa [symbol_key, numOrExpr_iff] at this
      | _ => cases hc
  · intro h
    simp only [schemeFields]
    cases h with
    | velocities h => exact ⟨⟨"velocities", _, _, _⟩, .head _, rfl, (seqOf_iff natural_iff v).2 h⟩
    | M => exact ⟨⟨"M", _, _, _⟩, .tail _ (.head _), rfl, rfl⟩
    | polynomials h => exact ⟨⟨"polynomials", _, _, _⟩, .tail _ (.tail _ (.head _)), rfl, (seqOf_iff numOrExpr_iff v).2 h⟩
    | relaxation h =>
      exact ⟨⟨"relaxation_parameters", _, _, _⟩, .tail _ (.tail _ (.tail _ (.head _))), rfl,
        (seqOf_iff numOrExpr_iff v).2 h⟩
    | equilibrium h =>
      exact ⟨⟨"equilibrium", _, _, _⟩, .tail _ (.tail _ (.tail _ (.tail _ (.head _)))), rfl,
        (seqOf_iff numOrExpr_iff v).2 h⟩
    | feq h =>
      exact ⟨⟨"feq", _, _, _⟩, .tail _ (.tail _ (.tail _ (.tail _ (.tail _ (.head _))))), rfl,
        (pairOf_iff isFunc_iff isSeq_iff v).2 h⟩
    | conserved h =>
      exact ⟨⟨"conserved_moments", _, _, _⟩, .tail _ (.tail _ (.tail _ (.tail _ (.tail _ (.tail _ (.head _)))))), rfl,
        hc'.2 h⟩
    | source h =>
      refine ⟨⟨"source_terms", _, _, _⟩, .tail _ (.tail _ (.tail _ (.tail _ (.tail _ (.tail _ (.tail _ (.head _))))))),
        rfl, (dictOf_dict _ _ _).2 fun p hp => ?_⟩
      rw [symbol_key, numOrExpr_iff]
      exact h p hp

theorem nonneg_iff (v : Val) : isNonneg v = true ↔ (∃ n : Nat, v = .int n) ∨ ∃ q : ℚ, 0 ≤ q ∧ v = .float q := by
  cases v <;> simp [isNonneg]
  rename_i z
  exact ⟨fun h => ⟨z.toNat, by omega⟩, fun ⟨n, h⟩ => by omega⟩

/-- **C91** (values): the kinds of the values of an accepted dictionary (with `C91_simulation` and the similar theorems on
the keys, this says which dictionaries are accepted). -/
theorem C91_values (c : Cls) (d : Dict) : Typed (mainFields c) d ↔ ∀ p ∈ d, Value c p := by
  refine forall₂_congr fun p _ => ?_
  obtain ⟨k, v⟩ := p
  have hstep := nonneg_iff v
  have hvel : (isNumber v || isSymbol v) = true ↔ Number v ∨ Symb v := by
    rw [Bool.or_eq_true, isNumber_iff, isSymbol_iff]
  have helem : ∀ a, isElement a = true ↔ ∃ n, a = .element n := by
    intro a
    cases a <;> simp [isElement]
  have hinit : ∀ p : Key × Val, ((isSymbol p.1.toVal || isNumber p.1.toVal) = true ∧
      (isNumber p.2 || isFunc p.2 || pairOf isFunc isSeq p.2) = true) ↔
      ((∃ s, p.1 = .symbol s) ∨ ∃ z, p.1 = .int z) ∧
      (Number p.2 ∨ p.2 = .func ∨ Couple (· = .func) Any p.2) := by
    intro p
    rw [Bool.or_eq_true, Bool.or_eq_true, Bool.or_eq_true, symbol_key, number_key, isNumber_iff, isFunc_iff,
      pairOf_iff isFunc_iff isSeq_iff, or_assoc]
  have hgen : ∀ l : Dict, mapping [⟨"directory", false, none, isStr⟩, ⟨"generate", false, none, isBool⟩] (.dict l) = true ↔
      ∀ p ∈ l, (p.1 = .str "directory" ∧ ∃ s, p.2 = .str s) ∨ (p.1 = .str "generate" ∧ ∃ b, p.2 = .bool b) := by
    intro l
    rw [mapping_free (by simp)]
    refine forall₂_congr fun p _ => ?_
    have h1 : isStr p.2 = true ↔ ∃ s, p.2 = .str s := by cases p.2 <;> simp [isStr]
    have h2 : isBool p.2 = true ↔ ∃ s, p.2 = .bool s := by cases p.2 <;> simp [isBool]
    simp [h1, h2]
  have halg : ∀ l : Dict, mapping [⟨"name", false, none, isAlgorithm⟩, ⟨"settings", false, none, isDict⟩] (.dict l) = true ↔
      ∀ p ∈ l, (p.1 = .str "name" ∧ p.2 = .algorithm) ∨ (p.1 = .str "settings" ∧ ∃ b, p.2 = .dict b) := by
    intro l
    rw [mapping_free (by simp)]
    refine forall₂_congr fun p _ => ?_
    have h1 : isAlgorithm p.2 = true ↔ p.2 = .algorithm := by cases p.2 <;> simp [isAlgorithm]
    have h2 : isDict p.2 = true ↔ ∃ s, p.2 = .dict s := by cases p.2 <;> simp [isDict]
    simp [h1, h2]
  constructor
  · rintro ⟨f, hf, hk, hc⟩
    simp only [mainFields, List.mem_cons, List.not_mem_nil, or_false] at hf
    rcases hf with rfl | rfl | rfl | rfl | rfl | rfl | rfl | rfl | rfl | rfl | rfl | rfl | rfl | rfl | rfl <;> cases hk
    · cases v with
      | int z => exact .dim (by simpa [isDim] using hc)
      | _ => cases hc
    · cases v with
      | dict l => exact .box ((box_values l).1 hc)
      | _ => cases hc
    · exact .elements ((seqOf_iff helem v).1 hc)
    · exact .step (hstep.1 hc)
    · exact .velocity (hvel.1 hc)
    · exact .schemes ((seqOf_iff (fun _ => Iff.rfl) v).1 hc)
    · cases v with
      | dict l =>
        refine .parameters fun p hp => ?_
        have := (dictOf_dict _ _ _).1 hc p hp
        rwa [symbol_key, numOrExpr_iff] at this
      | _ => cases hc
    · cases v with
      | str s => exact .inittype (by simpa [oneOf] using hc)
      | _ => cases hc
    · cases v with
      | dict l => exact .init fun p hp => (hinit p).1 ((dictOf_dict (fun k => isSymbol k || isNumber k)
        (fun v => isNumber v || isFunc v || pairOf isFunc isSeq v) _).1 hc p hp)
      | _ => cases hc
    · cases v with
      | dict l =>
        refine .boundary fun p hp => ?_
        have := (dictOf_dict _ _ _).1 hc p hp
        rwa [int_key, boundaryEntry_iff] at this
      | _ => cases hc
    · exact .relative ((seqOf_iff numOrExpr_iff v).1 hc)
    · cases v with
      | str s => exact .generator (by simpa [oneOf] using hc)
      | _ => cases hc
    · cases v with
      | dict l => exact .codegen ((hgen l).1 hc)
      | _ => cases hc
    · cases v with
      | dict l => exact .algorithm ((halg l).1 hc)
      | _ => cases hc
    · cases v with
      | bool b => exact .show b
      | _ => cases hc
  · intro h
    have key : ∀ f ∈ mainFields c, k = .str f.name → f.check v = true →
        ∃ f ∈ mainFields c, (k, v).1 = .str f.name ∧ f.check (k, v).2 = true := fun f hf hk hc => ⟨f, hf, hk, hc⟩
    cases h with
    | dim h => exact key ((mainFields c)[0]'(by simp [mainFields])) (List.getElem_mem _) rfl (by simpa [mainFields, isDim] using h)
    | box h => exact key ((mainFields c)[1]'(by simp [mainFields])) (List.getElem_mem _) rfl ((box_values _).2 h)
    | elements h => exact key ((mainFields c)[2]'(by simp [mainFields])) (List.getElem_mem _) rfl ((seqOf_iff helem v).2 h)
    | step h => exact key ((mainFields c)[3]'(by simp [mainFields])) (List.getElem_mem _) rfl (hstep.2 h)
    | velocity h => exact key ((mainFields c)[4]'(by simp [mainFields])) (List.getElem_mem _) rfl (hvel.2 h)
    | schemes h => exact key ((mainFields c)[5]'(by simp [mainFields])) (List.getElem_mem _) rfl ((seqOf_iff (fun _ => Iff.rfl) v).2 h)
    | parameters h =>
      refine key ((mainFields c)[6]'(by simp [mainFields])) (List.getElem_mem _) rfl ((dictOf_dict _ _ _).2 fun p hp => ?_)
      rw [symbol_key, numOrExpr_iff]
      exact h p hp
    | inittype h => exact key ((mainFields c)[7]'(by simp [mainFields])) (List.getElem_mem _) rfl (by simpa [mainFields, oneOf] using h)
    | init h =>
      exact key ((mainFields c)[8]'(by simp [mainFields])) (List.getElem_mem _) rfl
        ((dictOf_dict (fun k => isSymbol k || isNumber k)
          (fun v => isNumber v || isFunc v || pairOf isFunc isSeq v) _).2 fun p hp => (hinit p).2 (h p hp))
    | boundary h =>
      refine key ((mainFields c)[9]'(by simp [mainFields])) (List.getElem_mem _) rfl ((dictOf_dict _ _ _).2 fun p hp => ?_)
      rw [int_key, boundaryEntry_iff]
      exact h p hp
    | relative h => exact key ((mainFields c)[10]'(by simp [mainFields])) (List.getElem_mem _) rfl ((seqOf_iff numOrExpr_iff v).2 h)
    | generator h => exact key ((mainFields c)[11]'(by simp [mainFields])) (List.getElem_mem _) rfl (by simpa [mainFields, oneOf] using h)
    | codegen h => exact key ((mainFields c)[12]'(by simp [mainFields])) (List.getElem_mem _) rfl ((hgen _).2 h)
    | algorithm h => exact key ((mainFields c)[13]'(by simp [mainFields])) (List.getElem_mem _) rfl ((halg _).2 h)
    | «show» b => exact key ((mainFields c)[14]'(by simp [mainFields])) (List.getElem_mem _) rfl rfl

end Pylbm.Input
