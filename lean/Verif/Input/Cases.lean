import Verif.Input.Report
import Verif.Input.Kinds
/-!
# C91: dictionaries

Dictionaries which are accepted and can be used, which are accepted and cannot be used, and which can be used by the
constructors and are never accepted.
-/
namespace Pylbm.Input

/-! ## Keys and values that are never accepted -/

/-- **C91** (negation): the communicator that the domain reads in the key `comm` (domain.py 382) cannot be given: a
dictionary with this key is refused for all the classes. -/
theorem C91_comm_negation (c : Cls) (d : Dict) (v : Val) (h : (.str "comm", v) ∈ d) : accepts c d = false := by
  by_contra ha
  rw [Bool.not_eq_false] at ha
  obtain ⟨f, hf, hn, _⟩ := ((fields_iff _ _).1 ha).1 _ h
  have hn := Key.str.inj hn
  simp only [mainFields, List.mem_cons, List.not_mem_nil, or_false] at hf
  rcases hf with rfl | rfl | rfl | rfl | rfl | rfl | rfl | rfl | rfl | rfl | rfl | rfl | rfl | rfl | rfl <;>
    simp at hn

/-- **C91** (negation): `None` and a tuple with a function only, which the boundary conditions and the initialisation can
use (boundary.py 257, simulation.py 305), are never accepted as the value of a boundary condition, and such a tuple is never
accepted as an initial value. -/
theorem C91_values_negation (c : Cls) (d : Dict) (h : accepts c d = true) :
    (∀ b z e, get d "boundary_conditions" = some (.dict b) → (z, .dict e) ∈ b →
      get e "value" ≠ some .null ∧ ∀ f, get e "value" ≠ some (.tuple [f])) ∧
    ∀ l k f, get d "init" = some (.dict l) → (k, .tuple [f]) ∉ l := by
  have ht := ((fields_iff _ _).1 h).1
  constructor
  · intro b z e hb he
    obtain ⟨b', hb', hB⟩ := dictOf_some (typed_boundary ht hb)
    cases hb'
    have hf : fields boundaryFields e = true := (hB _ he).2
    have ht' := ((fields_iff _ _).1 hf).1
    constructor
    · intro hv
      have := get_typed ht' hv
      simp [boundaryFields, isFunc, pairOf, seq?] at this
    · intro f hv
      have := get_typed ht' hv
      simp [boundaryFields, isFunc, pairOf, seq?] at this
  · intro l k f hl hk
    obtain ⟨l', hl', hL⟩ := dictOf_some (typed_init ht hl)
    cases hl'
    have := (hL _ hk).2
    simp [isNumber, isFunc, pairOf, seq?] at this

/-! ## Empty lists -/

theorem has_append (d : Dict) (k k' : String) (v : Val) :
    has (d ++ [(.str k', v)]) k = (has d k || decide (k' = k)) := by
  simp only [has, List.any_append, List.any_cons, List.any_nil, Bool.or_false, Key.str.injEq]

/-- **C91** (negation): the empty list of elements is accepted with every accepted dictionary, and stops the constructor
with an `IndexError` in the report. -/
theorem C91_empty_negation (c : Cls) (d : Dict) (h : accepts c d = true) :
    accepts c (d ++ [(.str "elements", .list [])]) = true ∧
    validate c (d ++ [(.str "elements", .list [])]) [] = .indexError := by
  have ha : accepts c (d ++ [(.str "elements", .list [])]) = true := by
    rw [accepts, fields_iff] at h ⊢
    obtain ⟨h1, h2, h3⟩ := h
    refine ⟨?_, ?_, ?_⟩
    · intro p hp
      rcases List.mem_append.1 hp with hp | hp
      · exact h1 p hp
      · rw [List.mem_singleton] at hp
        subst hp
        exact ⟨⟨"elements", false, none, seqOf isElement⟩, by simp [mainFields], rfl, rfl⟩
    · simp only [mainFields, Field.notExcluded, List.all_cons, List.all_nil, has_append] at h2 ⊢
      simpa using h2
    · simp only [mainFields, unrequired, List.all_cons, List.all_nil, List.flatMap_cons, List.flatMap_nil,
        has_append] at h3 ⊢
      simpa using h3
  refine ⟨ha, ?_⟩
  exact (C91_validate c _ [] (fun _ => rfl) (.nest (by simp) (by simp))).2.2 ha (.here (k := .str "elements") (by simp))

/-! ## The keys of the methods -/

theorem scanl_getElem (nv : List Nat) (a k : Nat) (h : k ≤ nv.length) :
    (nv.scanl (· + ·) a)[k]? = some (a + (nv.take k).sum) := by
  induction nv generalizing a k with
  | nil =>
    have : k = 0 := by simpa using h
    subst this
    simp
  | cons n nv ih =>
    cases k with
    | zero => simp
    | succ k =>
      rw [List.scanl_cons, List.getElem?_cons_succ, ih (a + n) k (by simpa using h)]
      simp [Nat.add_assoc]

/-- **C91** (methods): the key of a method is the number of a scheme: the velocities are those of this scheme. -/
theorem C91_method (nv : List Nat) (k : Nat) (n : Nat) (hn : nv[k]? = some n) :
    methodVelocities nv (.int k) = .ok ((List.range n).map fun i => i + (nv.take k).sum) := by
  have hk : k < nv.length := (List.getElem?_eq_some_iff.1 hn).1
  simp [methodVelocities, pyIndex, hn, scanl_getElem nv 0 k hk.le]

example : methodVelocities [2, 3] (.int (1 : Nat)) = .ok [2, 3, 4] := by decide +kernel

/-- **C91** (methods, negation): the integers are not checked.  A negative key is accepted and counts from the end, for the
velocities of the scheme and for their numbers, but the second list is longer: the key `-1` is the last scheme with numbers
after the last velocity. -/
theorem C91_method_negation (nv : List Nat) (n : Nat) :
    methodVelocities (nv ++ [n]) (.int (-1)) = .ok ((List.range n).map fun i => i + (nv ++ [n]).sum) := by
  have h : methodVelocities (nv ++ [n]) (.int (-1)) =
    match pyIndex (nv ++ [n]) (-1), pyIndex ((nv ++ [n]).scanl (· + ·) 0) (-1) with
    | some n, some p => .ok ((List.range n).map fun i => i + p)
    | _, _ => .error .indexError := rfl
  have h1 : pyIndex (nv ++ [n]) (-1) = some n := by
    have hl : ((((nv ++ [n]).length : Nat) : Int) + -1).toNat = nv.length := by simp
    rw [pyIndex, if_neg (by omega), if_neg (by simp), hl]
    simp
  have h2 : pyIndex ((nv ++ [n]).scanl (· + ·) 0) (-1) = some (nv ++ [n]).sum := by
    have hl : (((((nv ++ [n]).scanl (· + ·) 0).length : Nat) : Int) + -1).toNat = (nv ++ [n]).length := by
      rw [List.length_scanl]
      simp
    rw [pyIndex, if_neg (by omega), if_neg (by rw [List.length_scanl]; simp; omega), hl,
      scanl_getElem _ _ _ le_rfl, List.take_length, Nat.zero_add]
  rw [h, h1, h2]

example : methodVelocities [2, 3] (.int (-1)) = .ok [5, 6, 7] := by decide +kernel

/-! ## A simulation -/

def sym (s : String) : Val := .symbol s

/-- A scheme with two velocities. -/
def d1q2 (moments : Key × Val) : Val :=
  .dict [(.str "velocities", .list [.int 1, .int 2]), moments,
    (.str "relaxation_parameters", .list [.int 0, .float (3 / 2)]), (.str "equilibrium", .list [sym "u", .expr]),
    (.str "conserved_moments", sym "u")]

def polynomials : Key × Val := (.str "polynomials", .list [.int 1, sym "X"])

/-- The dictionary of a simulation in a box. -/
def problem (box : Dict) (step : Val) (schemes : List Val) (init : Val) (more : Dict) : Dict :=
  [(.str "box", .dict box), (.str "space_step", step), (.str "scheme_velocity", .int 1),
    (.str "schemes", .list schemes), (.str "init", .dict [(.symbol "u", init)])] ++ more

def segment : Key × Val := (.str "x", .list [.int 0, .int 1])

/-- A boundary condition on the label 0. -/
def walls (e : Val) : Key × Val := (.str "boundary_conditions", .dict [(.int 0, e)])

def labelled : Dict := [segment, (.str "label", .int 0)]

def tenth : Val := .float (1 / 10)

def usual : Dict := problem labelled tenth [d1q2 polynomials] (.tuple [.func, .tuple [.float (1 / 2)]])
  [walls (.dict [(.str "method", .dict [(.int 0, .method)]), (.str "value", .func)]), (.str "generator", .str "numpy")]

def isOk {α : Type} : Res α → Bool
  | .ok _ => true
  | .error _ => false

/-- The exception of the constructor. -/
def raised (d : Dict) (labels : List Int) : Option Exc :=
  match simulation d labels fun _ _ => true with
  | .ok _ => none
  | .error e => some e

example : accepts .simulation usual = true := by decide +kernel
example : raised usual [0] = none := by decide +kernel
example : simulation usual [0] (fun _ _ => true) = .ok (1, 1) := by decide +kernel
example : ¬ EmptyIn (.dict usual) := by
  rw [← C91_report_iff usual 0]
  simp [usual, problem, recDict, recItems, recValue, recList, recEnum, recItem, nested, Errs.find, segment, walls,
    labelled, tenth, d1q2, polynomials, sym]
example : Usable usual [0] fun _ _ => true :=
  (C91_reads usual [0] _ (by decide +kernel)).1 ⟨(1, 1), by decide +kernel⟩
example : accepts .geometry usual = true ∧ accepts .domain usual = true ∧ accepts .stencil usual = true ∧
    accepts .scheme usual = true := by decide +kernel
example : accepts .stencil [(.str "dim", .int 2), (.str "schemes", .list [.dict [(.str "velocities", .tuple [.int 0])]])] =
    true := by decide +kernel
example : ∀ p ∈ usual, Value .simulation p :=
  (C91_values _ _).1 ((C91_simulation _).1 (by decide +kernel)).1
/-- A boolean is not an integer, a negative step is not a step. -/
example : accepts .geometry [(.str "box", .dict [segment, (.str "label", .bool true)])] = false ∧
    accepts .simulation (problem [segment] (.float (-1 / 10)) [d1q2 polynomials] (.int 0) []) = false := by
  decide +kernel
/-- `dim` and `box` together are refused. -/
example : accepts .scheme (usual ++ [(.str "dim", .int 1)]) = false := by decide +kernel

/-- **C91** (negation): a dictionary which is accepted for a simulation and which its constructor cannot use.  In each case
one clause of `Usable` is missing. -/
theorem C91_unusable_negation :
    (-- the box has no `x`
      let d := problem [(.str "y", .list [.int 0, .int 1])] tenth [d1q2 polynomials] (.int 0) []
      accepts .simulation d = true ∧ raised d [] = some .unbound) ∧
    (-- the labels of the box are in a tuple
      let d := problem [segment, (.str "label", .tuple [.int (-1), .int (-1)])] tenth [d1q2 polynomials] (.int 0) []
      accepts .simulation d = true ∧ raised d [] = some .attributeError) ∧
    (-- an element of another dimension
      let d := problem [segment] tenth [d1q2 polynomials] (.int 0) [(.str "elements", .list [.element 2])]
      accepts .simulation d = true ∧ raised d [] = some .valueError) ∧
    (-- the space step is 0
      let d := problem [segment] (.int 0) [d1q2 polynomials] (.int 0) []
      accepts .simulation d = true ∧ raised d [] = some .overflow) ∧
    (-- there is no scheme (in a tuple, see `C91_empty_negation` for a list)
      let d : Dict := [(.str "box", .dict [segment]), (.str "space_step", tenth), (.str "scheme_velocity", .int 1),
        (.str "schemes", .tuple []), (.str "init", .dict [])]
      accepts .simulation d = true ∧ raised d [] = some .valueError) ∧
    (-- two schemes with their matrices
      let d := problem [segment] tenth [d1q2 (.str "M", .matrix), d1q2 (.str "M", .matrix)] (.int 0) []
      accepts .simulation d = true ∧ raised d [] = some .keyError) ∧
    (-- the options of the generated code without the directory
      let d := problem [segment] tenth [d1q2 polynomials] (.int 0)
        [(.str "codegen_option", .dict [(.str "generate", .bool false)])]
      accepts .simulation d = true ∧ raised d [] = some .keyError) ∧
    (-- the label of the box without boundary condition
      let d := problem labelled tenth [d1q2 polynomials] (.int 0) []
      accepts .simulation d = true ∧ raised d [0] = some .keyError) ∧
    (-- a boundary condition without method
      let d := problem labelled tenth [d1q2 polynomials] (.int 0) [walls (.dict [(.str "value", .func)])]
      accepts .simulation d = true ∧ raised d [0] = some .keyError) ∧
    (-- a boundary condition which is a number
      let d := problem labelled tenth [d1q2 polynomials] (.int 0) [walls (.int 5)]
      accepts .simulation d = true ∧ raised d [0] = some .attributeError) ∧
    (-- a boundary condition for a scheme which does not exist
      let d := problem labelled tenth [d1q2 polynomials] (.int 0)
        [walls (.dict [(.str "method", .dict [(.int 1, .method)])])]
      accepts .simulation d = true ∧ raised d [0] = some .indexError) ∧
    (-- a boundary value in a list
      let d := problem labelled tenth [d1q2 polynomials] (.int 0)
        [walls (.dict [(.str "method", .dict [(.int 0, .method)]), (.str "value", .list [.func, .tuple []])])]
      accepts .simulation d = true ∧ raised d [0] = some .typeError) ∧
    (-- a boundary value with `None` as arguments
      let d := problem labelled tenth [d1q2 polynomials] (.int 0)
        [walls (.dict [(.str "method", .dict [(.int 0, .method)]), (.str "value", .tuple [.func, .null])])]
      accepts .simulation d = true ∧ raised d [0] = some .typeError) ∧
    (-- an initial value in a list
      let d := problem [segment] tenth [d1q2 polynomials] (.list [.func, .tuple []]) []
      accepts .simulation d = true ∧ raised d [] = some .typeError) ∧
    (-- an initial value with its arguments in a list
      let d := problem [segment] tenth [d1q2 polynomials] (.tuple [.func, .list [.int 1]]) []
      accepts .simulation d = true ∧ raised d [] = some .typeError) := by
  decide +kernel

/-- **C91** (negation): a box with `x` and `z` is accepted and is of dimension 1; the interval `z` is not used. -/
theorem C91_axes_negation :
    let d := problem [segment, (.str "z", .list [.int 0, .int 1])] tenth [d1q2 polynomials] (.int 0) []
    accepts .simulation d = true ∧ simulation d [] (fun _ _ => true) = .ok (1, 1) :=
  ⟨by decide +kernel, by decide +kernel⟩

/-- A rejected dictionary has a report, with the missing keys. -/
example : ∃ r, validate .geometry [(.str "dim", .int 4)]
    [(.str "dim", [.msg "unallowed value 4"]), (.str "box", [.msg "required field"])] = .exit r ∧
    (∃ a ∈ r, a.wrong = true ∧ a.key = .str "box") := by
  have hg : Good (.nest [(.str "dim", [.msg "unallowed value 4"]), (.str "box", [.msg "required field"])]) :=
    .nest (by simp) (by simp [Good.msg])
  have hE : ¬ EmptyIn (.dict [(.str "dim", .int 4)]) := by
    rw [← C91_report_iff _ 0]
    simp [recDict, recItems, recValue, nested, Errs.find]
  obtain ⟨r, hr⟩ := C91_report _ _ hg hE 0
  refine ⟨r, ?_, ?_⟩
  · have : accepts .geometry [(.str "dim", .int 4)] = false := by decide +kernel
    rw [validate, hr, this]
    rfl
  · obtain ⟨a, ha, _, h⟩ := (C91_report_keys _ _ r hr (.str "box")).2
      ⟨(.str "box", [.msg "required field"]), by simp, rfl⟩
    exact ⟨a, ha, h⟩

/-- The dictionary of two schemes with a string in the place of a relaxation parameter in the second one. -/
def wrongScheme : Dict := [(.str "dim", .int 1), (.str "schemes", .list [.dict [(.str "velocities", .list [.int 0])],
  .dict [(.str "velocities", .str "0")]])]

def wrongErrors : Errs := [(.str "schemes", [.nest [(.int 1, [.nest [(.str "velocities", [.msg "must be of list type"])]])]])]

example : accepts .stencil wrongScheme = false := by decide +kernel

example (r : List Line) (hr : recDict wrongScheme (.nest wrongErrors) 0 = some r) :
    ⟨2, true, .str "velocities", some (.msg "must be of list type")⟩ ∈ r :=
  (C91_report_schemes wrongScheme wrongErrors r hr (.str "schemes") _ _ (.tail _ (.head _)) _ [] rfl 1 _ rfl _ [] rfl
    (.str "velocities") (.str "0") (.head _) rfl _ [] rfl).2

example : ∃ r, recDict wrongScheme (.nest wrongErrors) 0 = some r := by
  simp [wrongScheme, wrongErrors, recDict, recItems, recValue, recList, recEnum, recItem, nested, Errs.find]

end Pylbm.Input
