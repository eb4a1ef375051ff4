import Verif.Codegen.Names
import Verif.Boundary.Model
/-!
# C70: the arguments of the functions of the boundary conditions

`BoundaryMethod._get_args`, boundary.py 358-376, gives the generated functions of the boundary methods the local variables
of a Python function, some of which are made by `exec`.
-/

namespace Pylbm.Codegen

open Boundary (Method)

variable {dim : Nat}

/-- `len(self.iload)` after `set_iload`: boundary.py 411-419 and the classes derived from `BounceBack`, 508-534, 777-784,
and the copies of it for `NeumannX`, `NeumannY`, `NeumannZ`. -/
def loads : Method dim → Nat
  | .bouzidiBounceBack | .bouzidiAntiBounceBack => 2
  | _ => 1

/-- Whether `_get_args` makes `fcopy` (the version of `BouzidiBounceBack`, boundary.py 536-559, also used by
`BouzidiAntiBounceBack`) and whether the object has the attribute `s` (boundary.py 506). -/
def interpolated : Method dim → Bool
  | .bouzidiBounceBack | .bouzidiAntiBounceBack => true
  | _ => false

/-- The local variables in the text of `_get_args`. -/
def bcDeclared (M : Method dim) : List String :=
  ["self", "ff", "dim", "nx", "ny", "nz", "f", "i", "istore", "rhs", "dist", "ncond"]
    ++ if interpolated M then ["fcopy"] else []

/-- Those which have a value at the end. -/
def bcReserved (M : Method dim) : List String :=
  ["self", "ff", "dim", "nx", "f", "i", "istore", "rhs", "ncond"] ++ (if 1 < dim then ["ny"] else [])
    ++ (if 2 < dim then ["nz"] else []) ++ if interpolated M then ["fcopy", "dist"] else []

/-- The name assigned by `exec` in boundary.py 369 and 552. -/
def loadName (i : Nat) : String := "iload" ++ toString i

/-- The dictionary returned by `_get_args`: each `exec` uses the dictionary of `locals()` and adds one key to it; then
`locals()` is called. Simplified: during the loop the local variables already have their values of the end, which does
not matter, since `locals()` takes them again. -/
def bcLookup (py : Python) (M : Method dim) : Dict :=
  let fast : Dict := fun s => if s ∈ bcReserved M then some (.own s) else none
  let frame := (List.range (loads M)).foldl (fun frame i =>
    Function.update (callLocals py (bcDeclared M) fast frame) (loadName i) (some (.own (loadName i)))) fun _ => none
  callLocals py (bcDeclared M) fast frame

/-- The arguments of the generated function: the arrays in the assignment and the number of links (`generate` in
boundary.py 430-464, 569-619, 646-680, 707-757, 787-818; codegen.py 648-659 for the bound of the loop). -/
def bcArgs (M : Method dim) : List String :=
  match M with
  | .bounceBack | .antiBounceBack => ["f", "istore", "iload0", "rhs", "ncond"]
  | .bouzidiBounceBack => ["f", "fcopy", "istore", "iload0", "iload1", "rhs", "dist", "ncond"]
  | .bouzidiAntiBounceBack => ["f", "istore", "iload0", "iload1", "rhs", "dist", "ncond"]
  | .neumann | .neumannAxis _ => ["f", "istore", "iload0", "ncond"]

/-- **C70, boundary conditions.**  Before Python 3.13, for every class of boundary conditions and in every dimension, the
arguments of the generated function are found and each is the array of its name. -/
theorem C70_boundary_partial (M : Method dim) : ∀ a ∈ bcArgs M, bcLookup .before313 M a = some (.own a) := by
  have key : ∀ a ∈ bcArgs M, a ∈ bcReserved M ∧ a ∈ bcDeclared M ∨
      a ∉ bcDeclared M ∧ ∃ i < loads M, a = loadName i := by
    intro a ha
    cases M <;> simp only [bcArgs, List.mem_cons, List.not_mem_nil, or_false] at ha <;>
      simp only [bcReserved, bcDeclared, loads, interpolated, List.mem_append, List.mem_cons, List.not_mem_nil, or_false,
        if_true]
    · rcases ha with rfl | rfl | rfl | rfl | rfl <;>
        first | (left; simp; done) | exact Or.inr ⟨by simp, 0, by simp, rfl⟩
    · rcases ha with rfl | rfl | rfl | rfl | rfl | rfl | rfl | rfl <;>
        first | (left; simp; done) | exact Or.inr ⟨by simp, 0, by simp, rfl⟩ | exact Or.inr ⟨by simp, 1, by simp, rfl⟩
    · rcases ha with rfl | rfl | rfl | rfl | rfl <;>
        first | (left; simp; done) | exact Or.inr ⟨by simp, 0, by simp, rfl⟩
    · rcases ha with rfl | rfl | rfl | rfl | rfl | rfl | rfl <;>
        first | (left; simp; done) | exact Or.inr ⟨by simp, 0, by simp, rfl⟩ | exact Or.inr ⟨by simp, 1, by simp, rfl⟩
    · rcases ha with rfl | rfl | rfl | rfl <;>
        first | (left; simp; done) | exact Or.inr ⟨by simp, 0, by simp, rfl⟩
    · rcases ha with rfl | rfl | rfl | rfl <;>
        first | (left; simp; done) | exact Or.inr ⟨by simp, 0, by simp, rfl⟩
  intro a ha
  rcases key a ha with ⟨h1, h2⟩ | ⟨h, i, hi, rfl⟩
  · simp only [bcLookup, callLocals, if_pos h2, if_pos h1]
  · simp only [bcLookup]
    rw [callLocals, if_neg h]
    have gen : ∀ (n : Nat) (fast : Dict), i < n → (List.range n).foldl (fun frame j =>
        Function.update (callLocals .before313 (bcDeclared M) fast frame) (loadName j) (some (.own (loadName j))))
        (fun _ => none) (loadName i) = some (.own (loadName i)) := by
      intro n fast
      induction n with
      | zero => intro h; omega
      | succ n ih =>
        intro hn
        rw [List.range_succ, List.foldl_append]
        simp only [List.foldl_cons, List.foldl_nil]
        by_cases e : loadName i = loadName n
        · rw [e, Function.update_self]
        · rw [Function.update_of_ne e, callLocals, if_neg h]
          exact ih (lt_of_le_of_ne (Nat.lt_succ_iff.1 hn) fun h => e (h ▸ rfl))
    exact gen _ _ hi

/-- **C70, boundary conditions with Python 3.13.**  From Python 3.13 on the function of every class of boundary conditions
has an argument which is not found (`iload0`): no simulation with a boundary condition which is not periodic makes a
time step. -/
theorem C70_boundary_negation (M : Method dim) : "iload0" ∈ bcArgs M ∧ bcLookup .since313 M "iload0" = none := by
  refine ⟨by cases M <;> simp [bcArgs], ?_⟩
  have h : "iload0" ∉ bcDeclared M := by cases M <;> simp [bcDeclared, interpolated]
  simp only [bcLookup]
  rw [callLocals, if_neg h]

/-- The two versions of Python for the interpolated bounce-back in two dimensions. -/
example : (bcArgs (.bouzidiBounceBack : Method 2)).map (bcLookup .before313 (.bouzidiBounceBack : Method 2)) =
    ["f", "fcopy", "istore", "iload0", "iload1", "rhs", "dist", "ncond"].map (fun a => some (.own a)) := by
  refine List.map_congr_left fun a ha => ?_
  exact C70_boundary_partial _ a ha

example : bcLookup .since313 (.neumannAxis 1 : Method 2) "iload0" = none := (C70_boundary_negation _).2

end Pylbm.Codegen
