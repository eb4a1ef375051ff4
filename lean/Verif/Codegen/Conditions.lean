import Mathlib.Algebra.Order.Field.Rat
import Mathlib.Data.List.ReduceOption
import Mathlib.Order.Lattice
import Mathlib.Tactic.NormNum
/-!
# C99: conditions, minima and maxima in the formulas (NumPy)

With the NumPy backend a formula is computed for all the cells at once: the moments are arrays, the numbers and the
parameters are scalars. A `Piecewise` becomes `numpy.select`, the comparisons and the logical operations become
functions of NumPy, `Min` and `Max` become `numpy.amin` and `numpy.amax` of a tuple. The specification is the value of
the formula at one cell; a number which is not defined (`nan`) is `none`.
-/

set_option linter.unusedSectionVars false

namespace Pylbm.Conditions

variable {K : Type} [Field K] [LinearOrder K] [IsStrictOrderedRing K]

/-! ## Formulas -/

/-- The comparisons of SymPy. -/
inductive Rel
  | eq | ne | lt | le | gt | ge
  deriving DecidableEq

mutual
/-- The formulas with conditions. `mom k` is the access `m[k, …]` to a moment (the conserved moments are replaced by
them, algorithm/base.py 124-136), `par s` a parameter, `dt` or `t`, `fn` a function of one argument (a ufunc). -/
inductive Num (K : Type)
  | const (q : K)
  | par (s : String)
  | mom (k : ℕ)
  | add (a b : Num K)
  | mul (a b : Num K)
  | fn (f : String) (a : Num K)
  | piecewise (bs : Branches K)
  | minOf (l : Nums K)
  | maxOf (l : Nums K)
/-- The conditions. -/
inductive Cond (K : Type)
  | lit (b : Bool)
  | rel (op : Rel) (a b : Num K)
  | and (l : Conds K)
  | or (l : Conds K)
  | not (c : Cond K)
/-- The arguments of `Min` and `Max` (at least one). -/
inductive Nums (K : Type)
  | one (a : Num K)
  | more (a : Num K) (l : Nums K)
/-- The arguments of `And` and `Or` (at least one). -/
inductive Conds (K : Type)
  | one (c : Cond K)
  | more (c : Cond K) (l : Conds K)
/-- The pairs of a `Piecewise` (at least one). -/
inductive Branches (K : Type)
  | one (e : Num K) (c : Cond K)
  | more (e : Num K) (c : Cond K) (bs : Branches K)
end

/-! ## Specification: the value at one cell -/

/-- The values of the names at one cell; `none` is `nan`. -/
structure Local (K : Type) where
  par : String → Option K
  mom : ℕ → Option K
  fn : String → Option K → Option K

/-- The smallest of several numbers, `nan` if one of them is `nan`. -/
def leastOf (vs : List (Option K)) : Option K :=
  if none ∈ vs then none else vs.reduceOption.min?

/-- The largest of several numbers, `nan` if one of them is `nan`. -/
def largestOf (vs : List (Option K)) : Option K :=
  if none ∈ vs then none else vs.reduceOption.max?

/-- The value attached to the first condition which holds, `nan` if there is none. -/
def firstOf (bs : List (Option K × Bool)) : Option K := (bs.find? (·.2)).bind (·.1)

/-- Comparison of two numbers; with `nan` only `!=` holds. -/
def Rel.holds (op : Rel) : Option K → Option K → Bool
  | some a, some b =>
    match op with
    | .eq => decide (a = b)
    | .ne => decide (a ≠ b)
    | .lt => decide (a < b)
    | .le => decide (a ≤ b)
    | .gt => decide (b < a)
    | .ge => decide (b ≤ a)
  | _, _ => decide (op = .ne)

mutual
/-- The value of a formula at one cell. -/
def Num.value (L : Local K) : Num K → Option K
  | .const q => some q
  | .par s => L.par s
  | .mom k => L.mom k
  | .add a b => Option.map₂ (· + ·) (a.value L) (b.value L)
  | .mul a b => Option.map₂ (· * ·) (a.value L) (b.value L)
  | .fn f a => L.fn f (a.value L)
  | .piecewise bs => firstOf (bs.values L)
  | .minOf l => leastOf (l.values L)
  | .maxOf l => largestOf (l.values L)
/-- Whether a condition holds at one cell. -/
def Cond.value (L : Local K) : Cond K → Bool
  | .lit b => b
  | .rel op a b => op.holds (a.value L) (b.value L)
  | .and l => (l.values L).all id
  | .or l => (l.values L).any id
  | .not c => !(c.value L)
def Nums.values (L : Local K) : Nums K → List (Option K)
  | .one a => [a.value L]
  | .more a l => a.value L :: l.values L
def Conds.values (L : Local K) : Conds K → List Bool
  | .one c => [c.value L]
  | .more c l => c.value L :: l.values L
def Branches.values (L : Local K) : Branches K → List (Option K × Bool)
  | .one e c => [(e.value L, c.value L)]
  | .more e c bs => (e.value L, c.value L) :: bs.values L
end

mutual
/-- Whether a moment occurs in a formula. -/
def Num.hasMoment : Num K → Bool
  | .const _ => false
  | .par _ => false
  | .mom _ => true
  | .add a b => a.hasMoment || b.hasMoment
  | .mul a b => a.hasMoment || b.hasMoment
  | .fn _ a => a.hasMoment
  | .piecewise bs => bs.hasMoment
  | .minOf l => l.occurs.any id
  | .maxOf l => l.occurs.any id
def Cond.hasMoment : Cond K → Bool
  | .lit _ => false
  | .rel _ a b => a.hasMoment || b.hasMoment
  | .and l => l.occurs.any id
  | .or l => l.occurs.any id
  | .not c => c.hasMoment
/-- For each argument, whether a moment occurs in it. -/
def Nums.occurs : Nums K → List Bool
  | .one a => [a.hasMoment]
  | .more a l => a.hasMoment :: l.occurs
def Conds.occurs : Conds K → List Bool
  | .one c => [c.hasMoment]
  | .more c l => c.hasMoment :: l.occurs
def Branches.hasMoment : Branches K → Bool
  | .one e c => e.hasMoment || c.hasMoment
  | .more e c bs => e.hasMoment || c.hasMoment || bs.hasMoment
end

/-- All the elements of a list of booleans are equal. -/
def same (l : List Bool) : Bool := l.all id || l.all not

mutual
/-- The arguments of every `Min`, `Max`, `And` and `Or` of the formula use all a moment, or none of them does. -/
def Num.uniform : Num K → Bool
  | .const _ => true
  | .par _ => true
  | .mom _ => true
  | .add a b => a.uniform && b.uniform
  | .mul a b => a.uniform && b.uniform
  | .fn _ a => a.uniform
  | .piecewise bs => bs.uniform
  | .minOf l => l.uniform && same l.occurs
  | .maxOf l => l.uniform && same l.occurs
def Cond.uniform : Cond K → Bool
  | .lit _ => true
  | .rel _ a b => a.uniform && b.uniform
  | .and l => l.uniform && same l.occurs
  | .or l => l.uniform && same l.occurs
  | .not c => c.uniform
def Nums.uniform : Nums K → Bool
  | .one a => a.uniform
  | .more a l => a.uniform && l.uniform
def Conds.uniform : Conds K → Bool
  | .one c => c.uniform
  | .more c l => c.uniform && l.uniform
def Branches.uniform : Branches K → Bool
  | .one e c => e.uniform && c.uniform
  | .more e c bs => e.uniform && c.uniform && bs.uniform
end

/-! ## NumPy -/

/-- A value of NumPy in the vectorised code: a scalar, or an array over the cells of the loop (the slices of the
arrays of moments have all the same shape). -/
inductive Val (C α : Type)
  | scalar (a : α)
  | array (a : C → α)

namespace Val
variable {C α β γ : Type}

/-- The element of a cell, after broadcasting. -/
def at' (c : C) : Val C α → α
  | .scalar a => a
  | .array a => a c

/-- Is it an array? -/
def isArray : Val C α → Bool
  | .scalar _ => false
  | .array _ => true

/-- A ufunc of one argument. -/
def map (f : α → β) : Val C α → Val C β
  | .scalar a => .scalar (f a)
  | .array a => .array fun c => f (a c)

/-- A ufunc of two arguments, with broadcasting. -/
def map₂ (f : α → β → γ) : Val C α → Val C β → Val C γ
  | .scalar a, .scalar b => .scalar (f a b)
  | .scalar a, .array b => .array fun c => f a (b c)
  | .array a, .scalar b => .array fun c => f (a c) b
  | .array a, .array b => .array fun c => f (a c) (b c)

end Val

/-- `numpy.asarray` of a tuple: the elements have to have the same shape, otherwise `ValueError` (inhomogeneous shape).
The result is the list of the elements along the axis 0, for scalars or for arrays. -/
inductive Stack (C α : Type)
  | scalars (l : List α)
  | arrays (l : List (C → α))

/-- See `Stack`. The tuple is given by its first element and the others. -/
def stackOf {C α : Type} : Val C α → List (Val C α) → Option (Stack C α)
  | .scalar a, [] => some (.scalars [a])
  | .array a, [] => some (.arrays [a])
  | .scalar a, v :: l =>
    match stackOf v l with
    | some (.scalars s) => some (.scalars (a :: s))
    | _ => none
  | .array a, v :: l =>
    match stackOf v l with
    | some (.arrays s) => some (.arrays (a :: s))
    | _ => none

/-- `ufunc.reduce(…)` along the axis 0 for a nonempty array: the first element, combined with the others from the left
to the right. -/
def reduceList {α : Type} (f : α → α → α) : List α → Option α
  | [] => none
  | a :: l => some (l.foldl f a)

/-- `ufunc.reduce((a, b, …))`, `numpy.amin((a, b, …), axis=0)`. -/
def reduce {C α : Type} (f : α → α → α) (v : Val C α) (l : List (Val C α)) : Option (Val C α) :=
  match stackOf v l with
  | some (.scalars s) => (reduceList f s).map .scalar
  | some (.arrays s) => (reduceList (fun a b c => f (a c) (b c)) s).map .array
  | none => none

/-- `numpy.minimum` of two numbers: `nan` wins. -/
def minimum (a b : Option K) : Option K := Option.map₂ min a b

/-- `numpy.maximum` of two numbers: `nan` wins. -/
def maximum (a b : Option K) : Option K := Option.map₂ max a b

/-- `numpy.copyto(result, choice, where=cond)`. -/
def copyto {C α : Type} (result choice : Val C α) (cond : Val C Bool) : Val C α :=
  Val.map₂ (fun (p : Bool × α) (r : α) => if p.1 then p.2 else r) (Val.map₂ Prod.mk cond choice) result

/-- `numpy.select(conds, exprs, default=nan)`: the result is filled with the default value, then the choices are copied
where their condition holds, from the last one to the first one. Simplified: the shape of the result is found with the
copies instead of beforehand. -/
def select {C α : Type} (default : α) (conds : List (Val C Bool)) (exprs : List (Val C α)) : Option (Val C α) :=
  if conds.length = exprs.length ∧ conds ≠ [] then
    some ((conds.zip exprs).foldr (fun p r => copyto r p.2 p.1) (.scalar default))
  else none

/-- The functions of NumPy for the comparisons, generator/printing/pycode.py 879-895. On floats they follow IEEE 754:
with `nan` only `not_equal` is true. -/
def relational (op : Rel) (a b : Option K) : Bool :=
  match op, a, b with
  | .eq, some x, some y => decide (x = y)
  | .ne, some x, some y => !decide (x = y)
  | .lt, some x, some y => decide (x < y)
  | .le, some x, some y => decide (x ≤ y)
  | .gt, some x, some y => decide (x > y)
  | .ge, some x, some y => decide (x ≥ y)
  | .ne, _, _ => true
  | _, _, _ => false

/-- The names of the generated function: the parameters are scalars, the accesses to the moments are arrays. -/
structure Args (C K : Type) where
  par : String → Option K
  mom : ℕ → C → Option K
  fn : String → Option K → Option K

/-- What is seen from one cell. -/
def Args.cell {C : Type} (A : Args C K) (c : C) : Local K := ⟨A.par, fun k => A.mom k c, A.fn⟩

mutual
/-- The value of the text printed by `NumPyPrinter` for a formula, generator/printing/pycode.py 867-952 (`none`: an
exception). Simplified: the text is not read again (C76 is about the text), every constructor is the call which is
printed for it. -/
def Num.numpy {C : Type} (A : Args C K) : Num K → Option (Val C (Option K))
  | .const q => some (.scalar (some q))
  | .par s => some (.scalar (A.par s))
  | .mom k => some (.array (A.mom k))
  | .add a b => do return Val.map₂ (Option.map₂ (· + ·)) (← a.numpy A) (← b.numpy A)
  | .mul a b => do return Val.map₂ (Option.map₂ (· * ·)) (← a.numpy A) (← b.numpy A)
  | .fn f a => do return Val.map (A.fn f) (← a.numpy A)
  | .piecewise bs => do select none (← bs.conds A) (← bs.exprs A)
  | .minOf l => do let (v, vs) ← l.numpy A; reduce minimum v vs
  | .maxOf l => do let (v, vs) ← l.numpy A; reduce maximum v vs
/-- The same for the conditions, generator/printing/pycode.py 879-925. -/
def Cond.numpy {C : Type} (A : Args C K) : Cond K → Option (Val C Bool)
  | .lit b => some (.scalar b)
  | .rel op a b => do return Val.map₂ (relational op) (← a.numpy A) (← b.numpy A)
  | .and l => do let (v, vs) ← l.numpy A; reduce (· && ·) v vs
  | .or l => do let (v, vs) ← l.numpy A; reduce (· || ·) v vs
  | .not c => do return Val.map not (← c.numpy A)
/-- The tuple of the arguments. -/
def Nums.numpy {C : Type} (A : Args C K) : Nums K → Option (Val C (Option K) × List (Val C (Option K)))
  | .one a => do return (← a.numpy A, [])
  | .more a l => do
    let v ← a.numpy A
    let (w, ws) ← l.numpy A
    return (v, w :: ws)
/-- The tuple of the arguments. -/
def Conds.numpy {C : Type} (A : Args C K) : Conds K → Option (Val C Bool × List (Val C Bool))
  | .one c => do return (← c.numpy A, [])
  | .more c l => do
    let v ← c.numpy A
    let (w, ws) ← l.numpy A
    return (v, w :: ws)
/-- The list `conds` of `_print_Piecewise`, pycode.py 870. -/
def Branches.conds {C : Type} (A : Args C K) : Branches K → Option (List (Val C Bool))
  | .one _ c => do return [← c.numpy A]
  | .more _ c bs => do return (← c.numpy A) :: (← bs.conds A)
/-- The list `exprs` of `_print_Piecewise`, pycode.py 869. -/
def Branches.exprs {C : Type} (A : Args C K) : Branches K → Option (List (Val C (Option K)))
  | .one e _ => do return [← e.numpy A]
  | .more e _ bs => do return (← e.numpy A) :: (← bs.exprs A)
end

/-- `m[k, …] = value`: a scalar is copied in all the cells. -/
def assign {C : Type} (A : Args C K) (k : ℕ) (v : Val C (Option K)) : Args C K :=
  { A with mom := Function.update A.mom k fun c => v.at' c }

/-! ## Lemmas on NumPy -/

section
variable {C α β γ : Type}

@[simp] theorem Val.at_map (f : α → β) (v : Val C α) (c : C) : (v.map f).at' c = f (v.at' c) := by
  cases v <;> rfl

@[simp] theorem Val.at_map₂ (f : α → β → γ) (v : Val C α) (w : Val C β) (c : C) :
    (Val.map₂ f v w).at' c = f (v.at' c) (w.at' c) := by
  cases v <;> cases w <;> rfl

@[simp] theorem Val.isArray_map (f : α → β) (v : Val C α) : (v.map f).isArray = v.isArray := by
  cases v <;> rfl

@[simp] theorem Val.isArray_map₂ (f : α → β → γ) (v : Val C α) (w : Val C β) :
    (Val.map₂ f v w).isArray = (v.isArray || w.isArray) := by
  cases v <;> cases w <;> rfl

theorem stackOf_spec (v : Val C α) (l : List (Val C α)) :
    (∀ s, stackOf v l = some (.scalars s) → (∀ w ∈ v :: l, w.isArray = false) ∧ ∀ c, s = (v :: l).map (·.at' c)) ∧
    (∀ s, stackOf v l = some (.arrays s) →
      (∀ w ∈ v :: l, w.isArray = true) ∧ ∀ c, s.map (· c) = (v :: l).map (·.at' c)) ∧
    ((stackOf v l).isSome = same ((v :: l).map (·.isArray))) := by
  induction l generalizing v with
  | nil =>
    cases v <;> simp [stackOf, Val.isArray, Val.at', same]
  | cons w l ih =>
    obtain ⟨h1, h2, h3⟩ := ih w
    cases v with
    | scalar a =>
      simp only [stackOf]
      cases hs : stackOf w l with
      | none =>
        rw [hs] at h3
        refine ⟨by simp, by simp, ?_⟩
        have h4 := h3.symm
        simp only [same, List.map_cons, List.all_cons, Option.isSome_none] at h4 ⊢
        revert h4
        generalize (List.map (fun x : Val C α => x.isArray) l).all id = p
        generalize (List.map (fun x : Val C α => x.isArray) l).all not = q
        generalize w.isArray = b
        cases b <;> cases p <;> cases q <;> simp [Val.isArray]
      | some t =>
        cases t with
        | scalars s =>
          obtain ⟨ha, hb⟩ := h1 s hs
          refine ⟨?_, by simp, ?_⟩
          · intro s' e
            simp only [Option.some.injEq, Stack.scalars.injEq] at e
            subst e
            refine ⟨by simpa [Val.isArray] using ha, fun c => ?_⟩
            rw [List.map_cons, ← hb c]; rfl
          · simp only [Option.isSome_some]
            symm
            simp only [same, Bool.or_eq_true, List.all_eq_true, List.mem_map, forall_exists_index, and_imp]
            right
            rintro b x hx rfl
            rcases List.mem_cons.1 hx with rfl | hx
            · rfl
            · rw [ha x hx]; rfl
        | arrays s =>
          obtain ⟨ha, _⟩ := h2 s hs
          refine ⟨by simp, by simp, ?_⟩
          have := ha w (by simp)
          simp only [same, List.map_cons, List.all_cons, Option.isSome_none, this]
          simp [Val.isArray]
    | array a =>
      simp only [stackOf]
      cases hs : stackOf w l with
      | none =>
        rw [hs] at h3
        refine ⟨by simp, by simp, ?_⟩
        have h4 := h3.symm
        simp only [same, List.map_cons, List.all_cons, Option.isSome_none] at h4 ⊢
        revert h4
        generalize (List.map (fun x : Val C α => x.isArray) l).all id = p
        generalize (List.map (fun x : Val C α => x.isArray) l).all not = q
        generalize w.isArray = b
        cases b <;> cases p <;> cases q <;> simp [Val.isArray]
      | some t =>
        cases t with
        | scalars s =>
          obtain ⟨ha, _⟩ := h1 s hs
          refine ⟨by simp, by simp, ?_⟩
          have := ha w (by simp)
          simp only [same, List.map_cons, List.all_cons, Option.isSome_none, this]
          simp [Val.isArray]
        | arrays s =>
          obtain ⟨ha, hb⟩ := h2 s hs
          refine ⟨by simp, ?_, ?_⟩
          · intro s' e
            simp only [Option.some.injEq, Stack.arrays.injEq] at e
            subst e
            refine ⟨by simpa [Val.isArray] using ha, fun c => ?_⟩
            rw [List.map_cons, hb c]; rfl
          · simp only [Option.isSome_some]
            symm
            simp only [same, Bool.or_eq_true, List.all_eq_true, List.mem_map, forall_exists_index, and_imp]
            left
            rintro b x hx rfl
            rcases List.mem_cons.1 hx with rfl | hx
            · rfl
            · rw [ha x hx]; rfl

theorem foldl_at (f : α → α → α) (s : List (C → α)) (a : C → α) (c : C) :
    s.foldl (fun a b c => f (a c) (b c)) a c = (s.map (· c)).foldl f (a c) := by
  induction s generalizing a with
  | nil => rfl
  | cons b s ih => simp only [List.foldl_cons, List.map_cons]; rw [ih]

/-- A reduction fails exactly for a mixed tuple; otherwise it is the reduction of the values at each cell. -/
theorem reduce_spec (f : α → α → α) (v : Val C α) (l : List (Val C α)) :
    ((reduce f v l).isSome = same ((v :: l).map (·.isArray))) ∧
    ∀ r, reduce f v l = some r → r.isArray = ((v :: l).map (·.isArray)).any id ∧
      ∀ c, r.at' c = (l.map (·.at' c)).foldl f (v.at' c) := by
  obtain ⟨h1, h2, h3⟩ := stackOf_spec v l
  unfold reduce
  rw [← h3]
  cases hs : stackOf v l with
  | none => simp
  | some t =>
    cases t with
    | scalars s =>
      obtain ⟨ha, hb⟩ := h1 s hs
      have hne : s ≠ [] := by
        rintro rfl
        cases v with
        | scalar a =>
          cases l with
          | nil => simp [stackOf] at hs
          | cons w l =>
            simp only [stackOf] at hs
            split at hs <;> simp at hs
        | array a =>
          cases l with
          | nil => simp [stackOf] at hs
          | cons w l =>
            simp only [stackOf] at hs
            split at hs <;> simp at hs
      obtain ⟨x, xs, rfl⟩ := List.exists_cons_of_ne_nil hne
      refine ⟨by simp [reduceList], ?_⟩
      intro r e
      simp only [reduceList, Option.map_some, Option.some.injEq] at e
      subst e
      refine ⟨?_, fun c => ?_⟩
      · symm
        rw [Val.isArray, Bool.eq_false_iff]
        intro hany
        simp only [List.any_eq_true, List.mem_map] at hany
        obtain ⟨b, ⟨w, hw, rfl⟩, hb'⟩ := hany
        rw [ha w hw] at hb'
        exact absurd hb' (by simp)
      · have := hb c
        simp only [List.map_cons, List.cons.injEq] at this
        rw [← this.1, ← this.2]; rfl
    | arrays s =>
      obtain ⟨ha, hb⟩ := h2 s hs
      have hne : s ≠ [] := by
        rintro rfl
        cases v with
        | scalar a =>
          cases l with
          | nil => simp [stackOf] at hs
          | cons w l =>
            simp only [stackOf] at hs
            split at hs <;> simp at hs
        | array a =>
          cases l with
          | nil => simp [stackOf] at hs
          | cons w l =>
            simp only [stackOf] at hs
            split at hs <;> simp at hs
      obtain ⟨x, xs, rfl⟩ := List.exists_cons_of_ne_nil hne
      refine ⟨by simp [reduceList], ?_⟩
      intro r e
      simp only [reduceList, Option.map_some, Option.some.injEq] at e
      subst e
      refine ⟨?_, fun c => ?_⟩
      · symm
        rw [Val.isArray]
        simp only [List.any_eq_true, List.mem_map]
        exact ⟨_, ⟨v, by simp, rfl⟩, ha v (by simp)⟩
      · have := hb c
        simp only [List.map_cons, List.cons.injEq] at this
        rw [← this.1, ← this.2]
        exact foldl_at f xs x c

theorem copyto_at (r e : Val C α) (b : Val C Bool) (c : C) :
    (copyto r e b).at' c = if b.at' c then e.at' c else r.at' c := by
  simp [copyto]

theorem copyto_isArray (r e : Val C α) (b : Val C Bool) :
    (copyto r e b).isArray = (b.isArray || e.isArray || r.isArray) := by
  simp [copyto]

end

theorem minimum_fold (vs : List (Option K)) (v : Option K) : vs.foldl minimum v = leastOf (v :: vs) := by
  induction vs generalizing v with
  | nil => cases v <;> simp [leastOf, List.reduceOption]
  | cons w vs ih =>
    rw [List.foldl_cons, ih]
    cases v with
    | none => simp [leastOf, minimum]
    | some a =>
      cases w with
      | none => simp [leastOf, minimum]
      | some b =>
        unfold leastOf minimum
        by_cases h : none ∈ vs
        · simp [h]
        · simp only [List.mem_cons, h, reduceCtorEq, or_self, if_false, List.reduceOption_cons_of_some, List.min?_cons,
            Option.map₂_some_some]
          generalize vs.reduceOption.min? = o
          cases o <;> simp [min_assoc]

theorem maximum_fold (vs : List (Option K)) (v : Option K) : vs.foldl maximum v = largestOf (v :: vs) := by
  induction vs generalizing v with
  | nil => cases v <;> simp [largestOf, List.reduceOption]
  | cons w vs ih =>
    rw [List.foldl_cons, ih]
    cases v with
    | none => simp [largestOf, maximum]
    | some a =>
      cases w with
      | none => simp [largestOf, maximum]
      | some b =>
        unfold largestOf maximum
        by_cases h : none ∈ vs
        · simp [h]
        · simp only [List.mem_cons, h, reduceCtorEq, or_self, if_false, List.reduceOption_cons_of_some, List.max?_cons,
            Option.map₂_some_some]
          generalize vs.reduceOption.max? = o
          cases o <;> simp [max_assoc]

theorem and_fold (bs : List Bool) (b : Bool) : bs.foldl (· && ·) b = (b :: bs).all id := by
  induction bs generalizing b with
  | nil => simp
  | cons a bs ih => rw [List.foldl_cons, ih]; simp [Bool.and_assoc]

theorem or_fold (bs : List Bool) (b : Bool) : bs.foldl (· || ·) b = (b :: bs).any id := by
  induction bs generalizing b with
  | nil => simp
  | cons a bs ih => rw [List.foldl_cons, ih]; simp [Bool.or_assoc]

theorem relational_holds (op : Rel) (a b : Option K) : relational op a b = op.holds a b := by
  cases op <;> cases a <;> cases b <;> simp [relational, Rel.holds]

theorem foldr_copyto_at {C : Type} (cs : List (Val C Bool)) (es : List (Val C (Option K))) (c : C) :
    ((cs.zip es).foldr (fun p r => copyto r p.2 p.1) (.scalar none)).at' c
      = firstOf ((cs.zip es).map fun p => (p.2.at' c, p.1.at' c)) := by
  induction cs.zip es with
  | nil => rfl
  | cons p l ih =>
    rw [List.foldr_cons, copyto_at, ih]
    unfold firstOf
    rw [List.map_cons, List.find?_cons]
    cases p.1.at' c <;> simp

theorem foldr_copyto_isArray {C α : Type} (d : α) (l : List (Val C Bool × Val C α)) :
    (l.foldr (fun p r => copyto r p.2 p.1) (.scalar d)).isArray = l.any fun p => p.2.isArray || p.1.isArray := by
  induction l with
  | nil => rfl
  | cons p l ih =>
    rw [List.foldr_cons, copyto_isArray, ih, List.any_cons, Bool.or_comm p.1.isArray]

/-! ## The value of the printed text -/

/-- What the evaluation of a text has to satisfy. -/
def Right {C α : Type} (r : Option (Val C α)) (ok arr : Bool) (value : C → α) : Prop :=
  r.isSome = ok ∧ ∀ v, r = some v → v.isArray = arr ∧ ∀ c, v.at' c = value c

/-- The same for a tuple. -/
def RightAll {C α : Type} (r : Option (Val C α × List (Val C α))) (ok : Bool) (arr : List Bool)
    (values : C → List α) : Prop :=
  r.isSome = ok ∧ ∀ v vs, r = some (v, vs) → (v :: vs).map (·.isArray) = arr ∧ ∀ c, (v :: vs).map (·.at' c) = values c

theorem Right.map {C α β : Type} {r : Option (Val C α)} {ok arr : Bool} {value : C → α} (h : Right r ok arr value)
    (f : α → β) : Right (do return Val.map f (← r)) ok arr fun c => f (value c) := by
  obtain ⟨h1, h2⟩ := h
  cases r with
  | none => exact ⟨h1, by simp⟩
  | some v =>
    refine ⟨h1, ?_⟩
    rintro w hw
    have hw' : Val.map f v = w := Option.some.inj hw
    subst hw'
    obtain ⟨a, b⟩ := h2 v rfl
    exact ⟨by rw [Val.isArray_map, a], fun c => by rw [Val.at_map, b]⟩

theorem Right.map₂ {C α β γ : Type} {r : Option (Val C α)} {s : Option (Val C β)} {ok ok' arr arr' : Bool}
    {value : C → α} {value' : C → β} (h : Right r ok arr value) (h' : Right s ok' arr' value') (f : α → β → γ) :
    Right (do return Val.map₂ f (← r) (← s)) (ok && ok') (arr || arr') fun c => f (value c) (value' c) := by
  obtain ⟨h1, h2⟩ := h
  obtain ⟨h1', h2'⟩ := h'
  cases r with
  | none => subst h1; exact ⟨by simp, by simp⟩
  | some v =>
    cases s with
    | none => subst h1 h1'; exact ⟨by simp, by simp⟩
    | some w =>
      subst h1 h1'
      refine ⟨rfl, ?_⟩
      rintro z hz
      have hz' : Val.map₂ f v w = z := Option.some.inj hz
      subst hz'
      obtain ⟨a, b⟩ := h2 v rfl
      obtain ⟨a', b'⟩ := h2' w rfl
      exact ⟨by rw [Val.isArray_map₂, a, a'], fun c => by rw [Val.at_map₂, b, b']⟩

theorem RightAll.reduce {C α : Type} {r : Option (Val C α × List (Val C α))} {ok : Bool} {arr : List Bool}
    {values : C → List α} (h : RightAll r ok arr values) (f : α → α → α) (g : List α → α)
    (hg : ∀ v vs, vs.foldl f v = g (v :: vs)) :
    Right (do let (v, vs) ← r; Conditions.reduce f v vs) (ok && same arr) (arr.any id) fun c => g (values c) := by
  obtain ⟨h1, h2⟩ := h
  cases r with
  | none => subst h1; exact ⟨by simp, by simp⟩
  | some p =>
    obtain ⟨v, vs⟩ := p
    subst h1
    obtain ⟨a, b⟩ := h2 v vs rfl
    obtain ⟨i, j⟩ := reduce_spec f v vs
    refine ⟨?_, ?_⟩
    · show (Conditions.reduce f v vs).isSome = _
      rw [i, a]; simp
    · intro w hw
      have hw' : Conditions.reduce f v vs = some w := hw
      obtain ⟨k, l⟩ := j w hw'
      exact ⟨by rw [k, a], fun c => by rw [l, hg]; exact congrArg g (b c)⟩

theorem RightAll.one {C α : Type} {r : Option (Val C α)} {ok arr : Bool} {value : C → α} (h : Right r ok arr value) :
    RightAll (do return (← r, [])) ok [arr] fun c => [value c] := by
  obtain ⟨h1, h2⟩ := h
  cases r with
  | none => exact ⟨h1, by simp⟩
  | some v =>
    refine ⟨h1, ?_⟩
    rintro w ws hw
    have hw' : (v, []) = (w, ws) := Option.some.inj hw
    obtain ⟨rfl, rfl⟩ := Prod.mk.inj hw'
    obtain ⟨a, b⟩ := h2 v rfl
    exact ⟨by simp [a], fun c => by simp [b]⟩

theorem RightAll.more {C α : Type} {r : Option (Val C α)} {s : Option (Val C α × List (Val C α))} {ok ok' arr : Bool}
    {arr' : List Bool} {value : C → α} {values : C → List α} (h : Right r ok arr value)
    (h' : RightAll s ok' arr' values) :
    RightAll (do let v ← r; let (w, ws) ← s; return (v, w :: ws)) (ok && ok') (arr :: arr')
      fun c => value c :: values c := by
  obtain ⟨h1, h2⟩ := h
  obtain ⟨h1', h2'⟩ := h'
  cases r with
  | none => subst h1; exact ⟨by simp, by simp⟩
  | some v =>
    cases s with
    | none => subst h1 h1'; exact ⟨by simp, by simp⟩
    | some p =>
      obtain ⟨w, ws⟩ := p
      subst h1 h1'
      refine ⟨rfl, ?_⟩
      rintro z zs hz
      have hz' : (v, w :: ws) = (z, zs) := Option.some.inj hz
      obtain ⟨rfl, rfl⟩ := Prod.mk.inj hz'
      obtain ⟨a, b⟩ := h2 v rfl
      obtain ⟨a', b'⟩ := h2' w ws rfl
      exact ⟨by rw [List.map_cons, a, a'], fun c => by rw [List.map_cons, b, b']⟩

/-- The two lists of a `Piecewise`. -/
def RightBranches {C : Type} (A : Args C K) (bs : Branches K) : Prop :=
  ((bs.conds A).isSome && (bs.exprs A).isSome) = bs.uniform ∧
  ∀ cs es, bs.conds A = some cs → bs.exprs A = some es →
    cs.length = es.length ∧ cs ≠ [] ∧ ((cs.zip es).any fun p => p.2.isArray || p.1.isArray) = bs.hasMoment ∧
    ∀ c, ((cs.zip es).map fun p => (p.2.at' c, p.1.at' c)) = bs.values (A.cell c)

mutual
theorem Num.numpy_right {C : Type} (A : Args C K) : ∀ e : Num K,
    Right (e.numpy A) e.uniform e.hasMoment fun c => e.value (A.cell c)
  | .const q => ⟨rfl, by rintro v hv; cases hv; exact ⟨rfl, fun _ => rfl⟩⟩
  | .par s => ⟨rfl, by rintro v hv; cases hv; exact ⟨rfl, fun _ => rfl⟩⟩
  | .mom k => ⟨rfl, by rintro v hv; cases hv; exact ⟨rfl, fun _ => rfl⟩⟩
  | .add a b => by
    have := (a.numpy_right A).map₂ (b.numpy_right A) (Option.map₂ (· + ·))
    simpa only [Num.numpy, Num.uniform, Num.hasMoment, Num.value] using this
  | .mul a b => by
    have := (a.numpy_right A).map₂ (b.numpy_right A) (Option.map₂ (· * ·))
    simpa only [Num.numpy, Num.uniform, Num.hasMoment, Num.value] using this
  | .fn f a => by
    have := (a.numpy_right A).map (A.fn f)
    simp only [Num.numpy, Num.uniform, Num.hasMoment, Num.value]
    exact this
  | .piecewise bs => by
    obtain ⟨h1, h2⟩ := bs.numpy_right A
    simp only [Num.numpy, Num.uniform, Num.hasMoment, Num.value]
    rw [← h1]
    cases hc : bs.conds A with
    | none => exact ⟨by simp, by simp⟩
    | some cs =>
      cases he : bs.exprs A with
      | none => exact ⟨by simp, by simp⟩
      | some es =>
        obtain ⟨l, n, a, b⟩ := h2 cs es hc he
        simp only [Option.bind_eq_bind, Option.bind_some, select, l, n, ne_eq, not_false_eq_true, and_self, if_true]
        refine ⟨rfl, ?_⟩
        rintro v hv
        rw [← Option.some.inj hv, foldr_copyto_isArray]
        exact ⟨a, fun c => by rw [foldr_copyto_at, b]⟩
  | .minOf l => by
    have := (l.numpy_right A).reduce minimum leastOf fun v vs => minimum_fold vs v
    simpa only [Num.numpy, Num.uniform, Num.hasMoment, Num.value] using this
  | .maxOf l => by
    have := (l.numpy_right A).reduce maximum largestOf fun v vs => maximum_fold vs v
    simpa only [Num.numpy, Num.uniform, Num.hasMoment, Num.value] using this
theorem Cond.numpy_right {C : Type} (A : Args C K) : ∀ e : Cond K,
    Right (e.numpy A) e.uniform e.hasMoment fun c => e.value (A.cell c)
  | .lit b => ⟨rfl, by rintro v hv; cases hv; exact ⟨rfl, fun _ => rfl⟩⟩
  | .rel op a b => by
    have := (a.numpy_right A).map₂ (b.numpy_right A) (relational op)
    simp only [relational_holds] at this
    have e : (relational op : Option K → Option K → Bool) = op.holds := by
      funext x y; exact relational_holds op x y
    simpa only [Cond.numpy, Cond.uniform, Cond.hasMoment, Cond.value, e] using this
  | .and l => by
    have := (l.numpy_right A).reduce (· && ·) (fun l => l.all id) fun v vs => and_fold vs v
    simpa only [Cond.numpy, Cond.uniform, Cond.hasMoment, Cond.value] using this
  | .or l => by
    have := (l.numpy_right A).reduce (· || ·) (fun l => l.any id) fun v vs => or_fold vs v
    simpa only [Cond.numpy, Cond.uniform, Cond.hasMoment, Cond.value] using this
  | .not c => by
    have := (c.numpy_right A).map not
    simpa only [Cond.numpy, Cond.uniform, Cond.hasMoment, Cond.value] using this
theorem Nums.numpy_right {C : Type} (A : Args C K) : ∀ l : Nums K,
    RightAll (l.numpy A) l.uniform l.occurs fun c => l.values (A.cell c)
  | .one a => by
    have := RightAll.one (a.numpy_right A)
    simpa only [Nums.numpy, Nums.uniform, Nums.occurs, Nums.values] using this
  | .more a l => by
    have := RightAll.more (a.numpy_right A) (l.numpy_right A)
    simpa only [Nums.numpy, Nums.uniform, Nums.occurs, Nums.values] using this
theorem Conds.numpy_right {C : Type} (A : Args C K) : ∀ l : Conds K,
    RightAll (l.numpy A) l.uniform l.occurs fun c => l.values (A.cell c)
  | .one a => by
    have := RightAll.one (a.numpy_right A)
    simpa only [Conds.numpy, Conds.uniform, Conds.occurs, Conds.values] using this
  | .more a l => by
    have := RightAll.more (a.numpy_right A) (l.numpy_right A)
    simpa only [Conds.numpy, Conds.uniform, Conds.occurs, Conds.values] using this
theorem Branches.numpy_right {C : Type} (A : Args C K) : ∀ bs : Branches K, RightBranches A bs
  | .one e c => by
    obtain ⟨h1, h2⟩ := e.numpy_right A
    obtain ⟨k1, k2⟩ := c.numpy_right A
    unfold RightBranches
    simp only [Branches.conds, Branches.exprs, Branches.uniform, Branches.hasMoment, Branches.values]
    rw [← h1, ← k1]
    cases he : e.numpy A with
    | none => cases hc : c.numpy A <;> simp
    | some v =>
      cases hc : c.numpy A with
      | none => simp
      | some b =>
        obtain ⟨i, j⟩ := h2 v he
        obtain ⟨i', j'⟩ := k2 b hc
        refine ⟨rfl, ?_⟩
        rintro cs es hcs hes
        obtain rfl : [b] = cs := Option.some.inj hcs
        obtain rfl : [v] = es := Option.some.inj hes
        exact ⟨rfl, by simp, by simp [i, i'], fun c => by simp [j, j']⟩
  | .more e c bs => by
    obtain ⟨h1, h2⟩ := e.numpy_right A
    obtain ⟨k1, k2⟩ := c.numpy_right A
    obtain ⟨l1, l2⟩ := bs.numpy_right A
    unfold RightBranches
    simp only [Branches.conds, Branches.exprs, Branches.uniform, Branches.hasMoment, Branches.values]
    rw [← h1, ← k1, ← l1]
    cases he : e.numpy A with
    | none => cases hc : c.numpy A <;> cases hb : bs.conds A <;> simp
    | some v =>
      cases hc : c.numpy A with
      | none => simp
      | some b =>
        cases hb : bs.conds A with
        | none => simp
        | some cs =>
          cases hx : bs.exprs A with
          | none => simp
          | some es =>
            obtain ⟨i, j⟩ := h2 v he
            obtain ⟨i', j'⟩ := k2 b hc
            obtain ⟨l, n, p, q⟩ := l2 cs es hb hx
            refine ⟨rfl, ?_⟩
            rintro cs' es' hcs hes
            obtain rfl : b :: cs = cs' := Option.some.inj hcs
            obtain rfl : v :: es = es' := Option.some.inj hes
            exact ⟨by simp [l], by simp, by rw [List.zip_cons_cons, List.any_cons, p, i, i'],
              fun c => by rw [List.zip_cons_cons, List.map_cons, q, j, j']⟩
end

/-! ## C99 -/

/-- C99: when the generated statement `m[k, …] = formula` runs, each cell of the moment `k` holds the value of the
formula at that cell (the first condition which holds decides, `nan` if none does; the smallest and the largest
argument; all the conditions, one of them), computed with the moments of this cell only, and nothing else changes. -/
theorem C99_assignment {C : Type} (A : Args C K) (e : Num K) (k : ℕ) (v : Val C (Option K)) (h : e.numpy A = some v)
    (c : C) :
    (assign A k v).mom k c = e.value ⟨A.par, fun j => A.mom j c, A.fn⟩ ∧
    ∀ j ≠ k, (assign A k v).mom j c = A.mom j c := by
  refine ⟨?_, fun j hj => ?_⟩
  · simp only [assign, Function.update_self]
    exact ((e.numpy_right A).2 v h).2 c
  · simp [assign, Function.update_of_ne hj]

/-- C99: the statement raises an exception exactly when the arguments of some `Min`, `Max`, `And` or `Or` mix formulas
with moments and formulas without, whatever the values and the number of cells. -/
theorem C99_defined {C : Type} (A : Args C K) (e : Num K) : e.numpy A = none ↔ e.uniform = false := by
  rw [← (e.numpy_right A).1, Option.isSome_eq_false_iff, Option.isNone_iff_eq_none]

/-- C99, negation: the maximum (or the minimum) of a formula with a moment and of a formula without moments, like
`Max(rho, 0)`, raises an exception for all the values; in SymPy it has a value. -/
theorem C99_extremum_negation {C : Type} (A : Args C K) (a b : Num K) (ha : a.hasMoment = true)
    (hb : b.hasMoment = false) :
    (Num.maxOf (.more a (.one b))).numpy A = none ∧ (Num.maxOf (.more b (.one a))).numpy A = none ∧
    (Num.minOf (.more a (.one b))).numpy A = none ∧ (Num.minOf (.more b (.one a))).numpy A = none ∧
    ∀ (L : Local K) (x y : K), a.value L = some x → b.value L = some y →
      (Num.maxOf (.more a (.one b))).value L = some (max x y) ∧
      (Num.minOf (.more a (.one b))).value L = some (min x y) := by
  refine ⟨?_, ?_, ?_, ?_, ?_⟩
  iterate 4 (rw [C99_defined]; simp [Num.uniform, Nums.occurs, same, ha, hb])
  intro L x y hx hy
  simp [Num.value, Nums.values, largestOf, leastOf, hx, hy, List.reduceOption]

/-- C99, negation: a conjunction (or a disjunction) of a condition on a moment and of a condition on the parameters or
on the time makes the formula fail, for all the values. -/
theorem C99_condition_negation {C : Type} (A : Args C K) (a b : Cond K) (e e' : Num K) (ha : a.hasMoment = true)
    (hb : b.hasMoment = false) :
    (Num.piecewise (.more e (.and (.more a (.one b))) (.one e' (.lit true)))).numpy A = none ∧
    (Num.piecewise (.more e (.or (.more a (.one b))) (.one e' (.lit true)))).numpy A = none := by
  refine ⟨?_, ?_⟩ <;>
  · rw [C99_defined]
    simp [Num.uniform, Branches.uniform, Cond.uniform, Conds.occurs, same, ha, hb]

/-- C99: what can be written instead: `Piecewise((a, a >= b), (b, True))` is computed for all the formulas `a` and `b`
which are, and at each cell where `a` is a number it is the maximum. -/
theorem C99_piecewise_maximum {C : Type} (A : Args C K) (a b : Num K) (ha : a.uniform = true) (hb : b.uniform = true) :
    ∃ v, (Num.piecewise (.more a (.rel .ge a b) (.one b (.lit true)))).numpy A = some v ∧
      ∀ c, a.value (A.cell c) ≠ none → v.at' c = (Num.maxOf (.more a (.one b))).value (A.cell c) := by
  have hu : (Num.piecewise (.more a (.rel .ge a b) (.one b (.lit true)))).uniform = true := by
    simp [Num.uniform, Branches.uniform, Cond.uniform, ha, hb]
  obtain ⟨h1, h2⟩ := (Num.piecewise (.more a (.rel .ge a b) (.one b (.lit true)))).numpy_right A
  rw [hu, Option.isSome_iff_exists] at h1
  obtain ⟨v, hv⟩ := h1
  refine ⟨v, hv, fun c hc => ?_⟩
  rw [(h2 v hv).2 c]
  obtain ⟨x, hx⟩ := Option.ne_none_iff_exists'.1 hc
  simp only [Num.value, Branches.values, Cond.value, Nums.values, hx]
  cases hy : b.value (A.cell c) with
  | none => simp [firstOf, largestOf, Rel.holds]
  | some y =>
    by_cases h : y ≤ x
    · simp [firstOf, largestOf, Rel.holds, List.reduceOption, h]
    · simp [firstOf, largestOf, Rel.holds, List.reduceOption, h, le_of_not_ge h]

/-! ## Examples -/

/-- Two cells, two moments; the second moment is not defined in the second cell. -/
def twoCells : Args Bool ℚ :=
  ⟨fun s => if s = "s" then some 3 else none, fun k c => if k = 0 then (if c then some (-2) else some 5)
    else if c then none else some 4, fun _ x => x.map (· ^ 2)⟩

/-- `Piecewise((m1, And(m0 > 0, m1 > 0)), (Max(s, 1), m0 < -1))` -/
def branches : Num ℚ :=
  .piecewise (.more (.mom 1) (.and (.more (.rel .gt (.mom 0) (.const 0)) (.one (.rel .gt (.mom 1) (.const 0)))))
    (.one (.maxOf (.more (.par "s") (.one (.const 1)))) (.rel .lt (.mom 0) (.const (-1)))))

example : branches.uniform = true ∧ branches.value (twoCells.cell false) = some 4 ∧
    branches.value (twoCells.cell true) = some 3 := by
  refine ⟨?_, ?_, ?_⟩ <;> decide +kernel

/-- No condition holds: `nan`. -/
example : (Num.piecewise (.one (.const 1) (.rel .lt (.mom 0) (.par "s")))).value (twoCells.cell false) = none := by
  decide +kernel

/-- `Max(m0, 0)` is 5 and 0 in SymPy; NumPy refuses it. -/
example : (Num.maxOf (.more (.mom 0) (.one (.const (0 : ℚ))))).numpy twoCells = none :=
  (C99_extremum_negation twoCells _ _ rfl rfl).1

/-- The order of the pairs matters: both conditions hold in the first cell. -/
example : (Num.piecewise (.more (.const (1 : ℚ)) (.rel .gt (.mom 0) (.const 4))
      (.one (.const 2) (.rel .gt (.mom 0) (.const 3))))).value (twoCells.cell false) = some 1 := by
  decide +kernel

end Pylbm.Conditions
