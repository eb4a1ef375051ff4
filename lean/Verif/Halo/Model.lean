import Verif.Mpi.Model
import Mathlib.Data.Fintype.Pi
import Mathlib.Logic.Function.Basic
/-!
# Model of the halo exchange: `Array._set_subarray` and `Array.update` of `pylbm/storage.py`

A process is given by its coordinates in the Cartesian communicator (all the directions of the
communicator are periodic, as `Domain` creates it, domain.py 377-383).  The values of all the
velocities at a cell are one value of the type `α`: the velocity axis is always exchanged in full.
The memory order of the subarrays (`swap`) is irrelevant by C13 and is dropped.
A side is `false` (towards the previous process) or `true` (towards the next process).
-/

namespace Pylbm.Halo
open Mpi

variable {dim : Nat} {α : Type}

/-- Global sizes, number of processes and halo width in each direction. -/
structure Grid (dim : Nat) where
  N : Fin dim → Nat
  p : Fin dim → Nat
  w : Fin dim → Nat
  hp : ∀ i, 0 < p i

/-- Coordinates of a process. -/
abbrev Proc (g : Grid dim) := ∀ i, Fin (g.p i)

/-- Position of a cell (global, or local with the halo). -/
abbrev Cell (dim : Nat) := Fin dim → Int

/-- First owned global index in the direction `i` (`get_region`, mpi_topology.py 145-177). -/
def start (g : Grid dim) (i : Fin dim) (c : Nat) : Nat := (regionIndices (g.N i) (g.p i)).getD c 0

/-- Number of owned cells in the direction `i`. -/
def size (g : Grid dim) (c : Proc g) (i : Fin dim) : Nat :=
  start g i ((c i : Nat) + 1) - start g i (c i)

/-- Local size with halo (`region_size`, storage.py 81-86; `nspace`, 182-186). -/
def nspace (g : Grid dim) (c : Proc g) (i : Fin dim) : Int := size g c i + 2 * g.w i

/-- `neighbors[2*d + side]`, storage.py 232-240, with the wrap of a periodic communicator. -/
def nbr (g : Grid dim) (c : Proc g) (d : Fin dim) (side : Bool) : Proc g :=
  Function.update c d
    (if side then ⟨((c d : Nat) + 1) % g.p d, Nat.mod_lt _ (g.hp d)⟩
     else ⟨((c d : Nat) + (g.p d - 1)) % g.p d, Nat.mod_lt _ (g.hp d)⟩)

/-- `subsizes`, storage.py 249-251. -/
def subsize (g : Grid dim) (c : Proc g) (d i : Fin dim) : Int :=
  if i = d then g.w d else nspace g c i

/-- Start of the sent subarray, storage.py 253-255 and 276-278. -/
def sstart (g : Grid dim) (c : Proc g) (d : Fin dim) (side : Bool) (i : Fin dim) : Int :=
  if i = d then (if side then nspace g c d - 2 * g.w d else g.w d) else 0

/-- Start of the received subarray, storage.py 256 and 279-281. -/
def rstart (g : Grid dim) (c : Proc g) (d : Fin dim) (side : Bool) (i : Fin dim) : Int :=
  if i = d then (if side then nspace g c d - g.w d else 0) else 0

/-- `x` is in the received subarray. -/
def InRecv (g : Grid dim) (c : Proc g) (d : Fin dim) (side : Bool) (x : Cell dim) : Prop :=
  ∀ i, rstart g c d side i ≤ x i ∧ x i < rstart g c d side i + subsize g c d i

/-- `send_tag[2*d + side]`, storage.py 242. -/
def sendTag (d : Nat) (side : Bool) : Nat := [0, 1, 2, 3, 4, 5].getD (2 * d + side.toNat) 0

/-- `recv_tag[2*d + side]`, storage.py 243. -/
def recvTag (d : Nat) (side : Bool) : Nat := [1, 0, 3, 2, 5, 4].getD (2 * d + side.toNat) 0

/-- State of all the processes and of the network during `Array.update` (storage.py 334-367). -/
structure State (g : Grid dim) (α : Type) where
  /-- number of directions finished -/
  ph : Proc g → Nat
  /-- number of requests posted in the current direction, in the order of the code:
  `Irecv` left, `Irecv` right, `Isend` left, `Isend` right -/
  po : Proc g → Nat
  /-- the send request of that direction and side is complete -/
  sent : Proc g → Fin dim → Bool → Bool
  /-- the receive request of that direction and side is complete -/
  rcvd : Proc g → Fin dim → Bool → Bool
  /-- the local array -/
  arr : Proc g → Cell dim → α
  /-- the messages in the network, by sender, direction and side of the sender -/
  net : Proc g → Fin dim → Bool → Option (Cell dim → α)

/-- Initial state: nothing done, local arrays `A`. -/
def State.init (g : Grid dim) (A : Proc g → Cell dim → α) : State g α where
  ph := fun _ => 0
  po := fun _ => 0
  sent := fun _ _ _ => false
  rcvd := fun _ _ _ => false
  arr := A
  net := fun _ _ _ => none

/-- The receive `(c, d, side)` is the one which matches the message sent by `src` in the
direction `d'` on the side `side'`: same source, destination and tag. -/
def Matches (g : Grid dim) (c : Proc g) (d : Fin dim) (side : Bool)
    (src : Proc g) (d' : Fin dim) (side' : Bool) : Prop :=
  src = nbr g c d side ∧ nbr g src d' side' = c ∧ sendTag d' side' = recvTag d side

/-- The receive request `(c, d, side)` is posted. -/
def State.RecvPosted {g : Grid dim} (s : State g α) (c : Proc g) (d : Fin dim) (side : Bool) : Prop :=
  s.ph c = d ∧ 1 + side.toNat ≤ s.po c

/-- The send request `(c, d, side)` is posted. -/
def State.SendPosted {g : Grid dim} (s : State g α) (c : Proc g) (d : Fin dim) (side : Bool) : Prop :=
  s.ph c = d ∧ 3 + side.toNat ≤ s.po c

open Classical in
/-- One event.  `eager c d side` says whether the MPI library may complete that send before the
matching receive is posted (buffering); the theorems hold for every choice.
The transfer of one message is atomic on each side. -/
inductive Step (g : Grid dim) (eager : Proc g → Fin dim → Bool → Prop) :
    State g α → State g α → Prop where
  /-- the next of the four requests is posted, storage.py 337-365 -/
  | post (s : State g α) (c : Proc g) (h1 : s.ph c < dim) (h2 : s.po c < 4) :
      Step g eager s { s with po := Function.update s.po c (s.po c + 1) }
  /-- the data of a send request leave the memory -/
  | inject (s : State g α) (c : Proc g) (d : Fin dim) (side : Bool)
      (h1 : s.SendPosted c d side) (h2 : s.sent c d side = false)
      (h3 : eager c d side ∨ ∃ side', Matches g (nbr g c d side) d side' c d side ∧
        s.RecvPosted (nbr g c d side) d side') :
      Step g eager s { s with
        sent := fun c' d' side' => if c' = c ∧ d' = d ∧ side' = side then true else s.sent c' d' side'
        net := fun c' d' side' => if c' = c ∧ d' = d ∧ side' = side then
            some (fun o => s.arr c (fun i => sstart g c d side i + o i)) else s.net c' d' side' }
  /-- a message is written in the receive buffer of a matching request -/
  | deliver (s : State g α) (c : Proc g) (d : Fin dim) (side : Bool)
      (src : Proc g) (d' : Fin dim) (side' : Bool) (data : Cell dim → α)
      (h1 : s.RecvPosted c d side) (h2 : s.rcvd c d side = false)
      (h3 : Matches g c d side src d' side') (h4 : s.net src d' side' = some data) :
      Step g eager s { s with
        rcvd := fun c' d' side' => if c' = c ∧ d' = d ∧ side' = side then true else s.rcvd c' d' side'
        arr := fun c' x => if c' = c ∧ InRecv g c d side x then
            data (fun i => x i - rstart g c d side i) else s.arr c' x
        net := fun c' e side'' => if c' = src ∧ e = d' ∧ side'' = side' then none else s.net c' e side'' }
  /-- `Waitall` returns, storage.py 367 -/
  | wait (s : State g α) (c : Proc g) (d : Fin dim) (h0 : s.ph c = d) (h1 : s.po c = 4)
      (h2 : ∀ side, s.sent c d side = true) (h3 : ∀ side, s.rcvd c d side = true) :
      Step g eager s { s with
        ph := Function.update s.ph c (s.ph c + 1)
        po := Function.update s.po c 0 }

/-- Executions: `Reach g eager A n s` when `s` is reached after `n` events from the local arrays
`A`. -/
inductive Reach (g : Grid dim) (eager : Proc g → Fin dim → Bool → Prop) (A : Proc g → Cell dim → α) :
    Nat → State g α → Prop where
  | init : Reach g eager A 0 (State.init g A)
  | step (n : Nat) (s s' : State g α) :
      Reach g eager A n s → Step g eager s s' → Reach g eager A (n + 1) s'

/-- All the processes have returned from `update`. -/
def State.Done {g : Grid dim} (s : State g α) : Prop := ∀ c, s.ph c = dim

end Pylbm.Halo
