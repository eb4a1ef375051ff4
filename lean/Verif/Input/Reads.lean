import Verif.Input.Model
/-!
# What the constructors read in the dictionary

The reads of `Geometry`, `Stencil`, `Domain`, `Scheme`, `Simulation`, `Boundary` and of the initialisation, with the
exceptions they raise.  What is done afterwards with the values (the distances, the moments, the generated code) is the
subject of the other modules.
-/
namespace Pylbm.Input

inductive Exc
  | keyError
  /-- `UnboundLocalError` -/
  | unbound
  | attributeError
  | valueError
  | overflow
  | typeError
  | indexError
  deriving DecidableEq

abbrev Res := Except Exc

/-- `d[key]`. -/
def item (d : Dict) (k : String) : Res Val :=
  match get d k with
  | some v => .ok v
  | none => .error .keyError

/-- A value used as a dictionary (`box["x"]`, `scheme["velocities"]`, `opt.get(…)`). -/
def asDict : Val → Res Dict
  | .dict l => .ok l
  | _ => .error .typeError

/-- A value used as a sequence. -/
def asSeq (v : Val) : Res (List Val) :=
  match seq? v with
  | some l => .ok l
  | none => .error .typeError

/-- The intervals of the box, geometry.py 45-54. -/
def boxBounds (b : Dict) : Res (Nat × List Val) :=
  match get b "x", get b "y", get b "z" with
  | none, _, _ => .error .unbound
  | some x, none, _ => .ok (1, [x])
  | some x, some y, none => .ok (2, [x, y])
  | some x, some y, some z => .ok (3, [x, y, z])

/-- `get_box`, geometry.py 23-64: the missing keys are logged (55-63), then the names `dim` and `bounds` are not bound. -/
def getBox (d : Dict) : Res (Nat × List Val) :=
  match get d "box" with
  | none => .error .unbound
  | some b => asDict b >>= boxBounds

/-- `box_label`, geometry.py 120-131: a value which is neither an integer nor a list is logged, and the attribute is
missing (line 135); the length of the list is only logged. -/
def boxLabel (d : Dict) (dim : Nat) : Res (List Val) := do
  let b ← asDict (← item d "box")
  match get b "label" with
  | none => return List.replicate (2 * dim) (.int (-1))
  | some (.int z) => return List.replicate (2 * dim) (.int z)
  | some (.list l) => return l
  | some _ => .error .attributeError

/-- `list_elem`, geometry.py 137-142. -/
def elements (d : Dict) (dim : Nat) : Res (List Val) :=
  match get d "elements" with
  | none => return []
  | some v => do
    let l ← asSeq v
    if l.all fun e => match e with
      | .element n => decide (n = dim)
      | _ => false then return l else .error .valueError

structure Geom where
  dim : Nat
  bounds : List Val
  label : List Val
  elems : List Val

/-- `Geometry.__init__`, geometry.py 111-144. -/
def geometry (d : Dict) : Res Geom := do
  let b ← getBox d
  let label ← boxLabel d b.1
  let elems ← elements d b.1
  return ⟨b.1, b.2, label, elems⟩

/-- `Stencil.extract_dim`, stencil.py 700-708. -/
def extractDim (d : Dict) : Res Nat :=
  match get d "dim" with
  | some (.int z) => if z = 0 then (do let b ← getBox d; return b.1) else return z.toNat
  | some _ => .error .typeError
  | none => do let b ← getBox d; return b.1

/-- The velocities of the schemes, stencil.py 655-659; the maximum over the numbers of the velocities (689) is a
`ValueError` when there is no velocity at all. -/
def stencil (d : Dict) : Res (Nat × List (List Val)) := do
  let dim ← extractDim d
  let schemes ← asSeq (← item d "schemes")
  let v ← schemes.mapM fun s => do asSeq (← item (← asDict s) "velocities")
  if v.all List.isEmpty then .error .valueError else return (dim, v)

def isZero : Val → Bool
  | .int z => decide (z = 0)
  | .float q => decide (q = 0)
  | _ => false

/-- `Domain.__init__`, domain.py 252-271 and 373-411: the number of cells is infinite when the space step vanishes, and
`round` raises an `OverflowError` (396).  The rounding of the number of cells is `globalSize` in `Domain/Model`. -/
def domain (d : Dict) : Res (Geom × Val) := do
  let g ← geometry d
  let _ ← stencil d
  let dx ← item d "space_step"
  if isZero dx then .error .overflow else return (g, dx)

/-- `_get_space_and_time_symbolic`, scheme.py 143-144 and 192-200. -/
def timeAndSpace (d : Dict) : Res (List Val) := do
  let p ← match get d "parameters" with
    | some v => asDict v
    | none => return [.symbol "t", .symbol "X", .symbol "Y", .symbol "Z"]
  return [(get p "time").getD (.symbol "t"), (get p "space_x").getD (.symbol "X"),
    (get p "space_y").getD (.symbol "Y"), (get p "space_z").getD (.symbol "Z")]

/-- Where the moments of the schemes come from, scheme.py 160-171. -/
inductive Moments
  | matrix
  | polynomials (p : List (List Val))

/-- `Scheme.__init__`, scheme.py 136-180 (the reads only). -/
def scheme (d : Dict) : Res (Nat × Moments) := do
  let v ← stencil d
  let _ ← item d "scheme_velocity"
  let _ ← timeAndSpace d
  let schemes ← asSeq (← item d "schemes")
  let ds ← schemes.mapM asDict
  let _ ← ds.mapM fun s => do asSeq (← item s "relaxation_parameters")
  if ds.length = 1 ∧ ds.all (has · "M") then return (v.1, .matrix)
  else
    let p ← ds.mapM fun s => do asSeq (← item s "polynomials")
    return (v.1, .polynomials p)

/-- The value of an initial condition or of a boundary condition: what is called, with which additional arguments. -/
inductive Use
  | number
  | call (args : List Val)

/-- One initial value, simulation.py 302-312: only a tuple is a function with its arguments (a list is given to the array,
which refuses it), and the arguments are added to a tuple. -/
def initValue : Val → Res Use
  | .tuple [_] => return .call []
  | .tuple [_, .tuple a] => return .call a
  | .tuple [_, _] => .error .typeError
  | .tuple (_ :: _ :: _ :: _) => return .call []
  | .tuple [] => .error .valueError
  | .func => return .call []
  | .int _ => return .number
  | .float _ => return .number
  | _ => .error .typeError

/-- `initialization`, simulation.py 294-312. -/
def initialization (d : Dict) : Res (List Use) :=
  match get d "init" with
  | none => return []
  | some v => do (← asDict v).mapM fun p => initValue p.2

/-- One boundary value in `prepare_rhs`, boundary.py 278-287 (and `update_bc`): `None` is not used. -/
def boundaryValue : Option Val → Res (Option (List Val))
  | none => return none
  | some .null => return none
  | some .func => return some []
  | some (.tuple [_, .tuple a]) => return some a
  | some _ => .error .typeError

/-- The value of a key which is an integer. -/
def getInt (d : Dict) (z : Int) : Option Val := (d.find? fun p => decide (p.1 = .int z)).map Prod.snd

/-- `l[k]` with a Python index: a negative index counts from the end. -/
def pyIndex {α : Type} (l : List α) (k : Int) : Option α :=
  if 0 ≤ k then l[k.toNat]? else if (l.length : Int) + k < 0 then none else l[((l.length : Int) + k).toNat]?

/-- The numbers (in the list of all the velocities) of the velocities of one method, boundary.py 115-132: `nv` are the
numbers of velocities of the schemes, `stencil.num[k]` has one item per scheme and `stencil.nv_ptr[k]` one item more. -/
def methodVelocities (nv : List Nat) (k : Key) : Res (List Nat) :=
  match k with
  | .int k => match pyIndex nv k, pyIndex (nv.scanl (· + ·) 0) k with
    | some n, some p => .ok ((List.range n).map fun i => i + p)
    | _, _ => .error .indexError
  | _ => .error .typeError

/-- One label, boundary.py 106-132, 212-214 and 256-290; `points z k`: the label `z` has points for the velocities of the
method with the key `k`.  The value is used when the label has points for one of its methods. -/
def boundaryLabel (nv : List Nat) (points : Int → Key → Bool) (b : Dict) (z : Int) : Res Unit :=
  match getInt b z with
  | none => .error .keyError
  | some (.dict e) => do
    let m ← asDict (← item e "method")
    let _ ← m.mapM fun p => methodVelocities nv p.1
    if m.any fun p => points z p.1 then
      let _ ← boundaryValue (get e "value")
      return ()
    else return ()
  | some _ => .error .attributeError

/-- `Boundary.__init__`, boundary.py 92-161: `labels` are the labels of the domain (`list_of_labels`). -/
def boundary (d : Dict) (nv : List Nat) (labels : List Int) (points : Int → Key → Bool) : Res (List Unit) := do
  let b ← match get d "boundary_conditions" with
    | none => pure []
    | some v => asDict v
  (labels.filter fun z => decide (z ≠ -1 ∧ z ≠ -2)).mapM (boundaryLabel nv points b)

/-- The directory of the generated code, simulation.py 112-116. -/
def codegen (d : Dict) : Res (Option Val) :=
  match get d "codegen_option" with
  | none => return none
  | some v => do
    let o ← asDict v
    if o.isEmpty then return none else return some (← item o "directory")

/-- `Simulation.__init__`, simulation.py 89-147; the two dimensions are compared there (99-103). -/
def simulation (d : Dict) (labels : List Int) (points : Int → Key → Bool) : Res (Nat × Nat) := do
  let g ← domain d
  let s ← scheme d
  let _ ← codegen d
  let v ← stencil d
  let _ ← boundary d (v.2.map List.length) labels points
  let _ ← initialization d
  return (g.1.dim, s.1)

end Pylbm.Input
