import Verif.Common.Radix
/-!
# Model of `pylbm/mpi_topology.py`
-/

namespace Pylbm.Mpi
open Radix

/-- Loop of `get_region_indices_`, mpi_topology.py 101-105; `n % nproc` is only reached when
`nproc ≥ 1` (the loop is empty otherwise). -/
def regionIndices (n nproc : Nat) : List Nat :=
  (List.range nproc).foldl
    (fun acc i => acc ++ [acc.getLastD 0 + n / nproc + (if n % nproc > i then 1 else 0)]) [0]

/-- `Get_coords(rank)` of a Cartesian communicator (mpi_topology.py 142-143): row-major
coordinates, as the MPI standard requires. -/
def cartCoords (split : List Nat) (rank : Nat) : List Nat := unravel split rank

/-- `get_region`, mpi_topology.py 145-177 (with `get_region_indices` 107-135 inlined): for each
axis, `[region_indices[i][coords[i]], region_indices[i][coords[i] + 1]]`; `none` is an
`IndexError`. -/
def getRegion (ns split coords : List Nat) : Option (List (Nat × Nat)) :=
  ((ns.zip split).zip coords).mapM fun p => do
    let r := regionIndices p.1.1 p.1.2
    let a ← r[p.2]?
    let b ← r[p.2 + 1]?
    return (a, b)

/-- `np.repeat(row, k, axis=1).flatten()` of a one-row array: each value `k` times. -/
def repeatEach (k : Nat) (l : List Int) : List Int := l.flatMap (List.replicate k)

/-- `np.repeat(row, k, axis=0).flatten()` of a one-row array: the row `k` times. -/
def repeatRow (k : Nat) (l : List Int) : List Int := (List.replicate k l).flatten

/-- `get_directions`, mpi_topology.py 223-243; `none` for other dimensions, where
`directions` is unbound. -/
def getDirections (dim : Nat) : Option (List (List Int)) :=
  let c : List Int := [-1, 0, 1]
  match dim with
  | 1 => some (c.map ([·]))
  | 2 => some (List.zipWith (fun a b => [a, b]) (repeatEach 3 c) (repeatRow 3 c))
  | 3 => some (List.zipWith (fun a b => a :: b) (repeatEach 9 c)
      (List.zipWith (fun a b => [a, b]) (repeatEach 3 (repeatRow 3 c)) (repeatRow 9 c)))
  | _ => none

end Pylbm.Mpi
