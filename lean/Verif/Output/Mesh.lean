import Verif.Output.Hdf5
/-!
# C52: the whole of `set_grid`, and the mesh described by `save`
-/

namespace Pylbm.Hdf5
open Halo Mpi

variable {dim : Nat} {K : Type}

/-! ## Model -/

/-- The first lines of `set_grid` on a process for one direction, hdf5.py 79-88: `origin` is `x[0]` and `dx` is `x[1] - x[0]`;
`none` is the `IndexError`. -/
def firstPoints [Sub K] (x : List K) : Option (K × K) :=
  match x[0]?, x[1]? with
  | some a, some b => some (a, b - a)
  | _, _ => none

/-- `set_grid`, hdf5.py 57-121: `origin` and `dx` of each process, and what the root keeps. The communications involve all the
processes, so that an exception on one of them is a failure of the call. -/
def setGridAll [Sub K] (g : Grid dim) (x : Proc g → Fin dim → List K) :
    Option ((Proc g → Fin dim → K × K) × GridInfo K dim) :=
  if h : ∀ c i, (firstPoints (x c i)).isSome = true then
    (setGrid g x).map fun I => (fun c i => (firstPoints (x c i)).get (h c i), I)
  else none

/-- The mesh in the file written by `save`, hdf5.py 265-310: the number in `TopologyType` ("2DRectMesh", "3DRectMesh"), the entry
`NumberOfElements`, the entries `Dimensions` of the coordinates, and those of the scalars. -/
structure MeshText where
  kind : Nat
  elements : List Nat
  axes : List Nat
  scalar : List Nat

/-- `save` for the sizes `global_size`. -/
def meshText (sizes : List Nat) : MeshText where
  kind := if sizes.length = 2 then 2 else 3
  elements := sizes
  axes := sizes
  scalar := sizes.reverse

/-! ## Specification -/

/-- The text is the description of a rectilinear mesh with these numbers of points, x first, and of a scalar given at the points,
by the conventions of XDMF: as many coordinates as the type of the mesh has directions, x first; the other lists have the slowest
direction first. -/
structure MeshText.Describes (m : MeshText) (sizes : List Nat) : Prop where
  kind : m.kind = sizes.length
  axes : m.axes = sizes
  elements : m.elements = sizes.reverse
  scalar : m.scalar = sizes.reverse

/-! ## Properties -/

theorem firstPoints_some [Sub K] (x : List K) : (firstPoints x).isSome = true ↔ 2 ≤ x.length := by
  unfold firstPoints
  constructor
  · intro h
    by_contra hc
    have h1 : x[1]? = none := List.getElem?_eq_none (by omega)
    rw [h1] at h
    split at h
    · next h2 => cases h2
    · cases h
  · intro h
    rw [List.getElem?_eq_getElem (by omega : 0 < x.length), List.getElem?_eq_getElem (by omega : 1 < x.length)]
    rfl

/-- **C52 (coordinates, exactly).** `set_grid` with the coordinates of the cells of each process succeeds if and only if in each
direction the number of cells is a multiple of the number of processes and each process has at least two cells. -/
theorem C52_grid_iff [Sub K] (g : Grid dim) (X : Fin dim → Nat → K) (x : Proc g → Fin dim → List K)
    (hx : ∀ c i, x c i = (List.range (size g c i)).map fun k => X i (first g c i + k)) :
    (setGridAll g x).isSome = true ↔ ∀ i, g.p i ∣ g.N i ∧ 2 * g.p i ≤ g.N i := by
  have hxl : ∀ c i, (x c i).length = size g c i := by intro c i; rw [hx]; simp
  have hsz : ∀ c i, g.p i ∣ g.N i → size g c i = g.N i / g.p i := by
    intro c i hd
    rw [size_eq, bound_succ, Nat.mod_eq_zero_of_dvd hd]
    simp
  constructor
  · intro h i
    unfold setGridAll at h
    split at h
    · next h2 =>
      have hd : g.p i ∣ g.N i := by
        by_contra hc
        rw [C52_ragged_negation g x hxl i hc] at h
        cases h
      refine ⟨hd, ?_⟩
      have := (firstPoints_some _).1 (h2 (fun j => ⟨0, g.hp j⟩) i)
      rw [hxl, hsz _ _ hd, Nat.le_div_iff_mul_le (g.hp i)] at this
      exact this
    · cases h
  · intro h
    have h2 : ∀ c i, (firstPoints (x c i)).isSome = true := by
      intro c i
      rw [firstPoints_some, hxl, hsz c i (h i).1, Nat.le_div_iff_mul_le (g.hp i)]
      exact (h i).2
    obtain ⟨I, hI, -⟩ := C52_grid_partial g (fun i => (h i).1) X x hx
    unfold setGridAll
    rw [dif_pos h2, hI]
    rfl

/-- **C52 (origin and space step).** With equidistant coordinates all the processes have the same space step, and the origin of a
process is the coordinate of its first cell. -/
theorem C52_origin [Ring K] (g : Grid dim) (lo : Fin dim → K) (h : K) (x : Proc g → Fin dim → List K)
    (hx : ∀ c i, x c i = (List.range (size g c i)).map fun k => lo i + ((first g c i + k : ℕ) : K) * h)
    (O : Proc g → Fin dim → K × K) (I : GridInfo K dim) (hs : setGridAll g x = some (O, I)) (c : Proc g) (i : Fin dim) :
    O c i = (lo i + (first g c i : K) * h, h) := by
  unfold setGridAll at hs
  split at hs
  · next h2 =>
    rw [Option.map_eq_some_iff] at hs
    obtain ⟨I', -, he⟩ := hs
    cases he
    have h3 := (firstPoints_some _).1 (h2 c i)
    have h4 : firstPoints (x c i) = some (lo i + (first g c i : K) * h, h) := by
      rw [hx] at h3 ⊢
      simp only [List.length_map, List.length_range] at h3
      unfold firstPoints
      rw [List.getElem?_map, List.getElem?_map, List.getElem?_range (by omega), List.getElem?_range (by omega)]
      simp only [Option.map_some, Nat.cast_add, Nat.cast_one, Nat.cast_zero, add_mul, one_mul, zero_mul, add_zero]
      refine congrArg some (Prod.ext rfl ?_)
      show lo i + (_ + h) - (lo i + _) = h
      rw [← add_assoc, add_sub_cancel_left]
    simp only [h4, Option.get_some]
  · cases hs

/-- **C52 (negation: the mesh).** The file written by `save` describes the mesh exactly in dimensions 2 and 3 for lists of sizes
which are the same in both orders: with different numbers of cells the topology has the sizes in the order opposite to the one of the
data, and in dimension 1 the mesh is declared three-dimensional with one coordinate. -/
theorem C52_mesh_negation (sizes : List Nat) :
    (meshText sizes).Describes sizes ↔ (sizes.length = 2 ∨ sizes.length = 3) ∧ sizes.reverse = sizes := by
  constructor
  · rintro ⟨h1, -, h3, -⟩
    refine ⟨?_, h3.symm⟩
    unfold meshText at h1
    simp only at h1
    split at h1 <;> omega
  · rintro ⟨h1, h2⟩
    refine ⟨?_, rfl, h2.symm, rfl⟩
    unfold meshText
    simp only
    split <;> omega

/-- Cases: squares are described, 3 × 5 cells and segments are not. -/
example : (meshText [4, 4]).Describes [4, 4] ∧ ¬ (meshText [3, 5]).Describes [3, 5] ∧ ¬ (meshText [7]).Describes [7] := by
  simp only [C52_mesh_negation]
  decide

/-- A case for `C52_grid_iff` and `C52_origin`: 4 × 6 cells on 2 × 2 processes; on 4 × 2 processes the call fails, though the cells
are distributed evenly. -/
example : (∃ O I, setGridAll demo (fun c i => (List.range (size demo c i)).map fun k => ((0 : ℤ) + ((first demo c i + k : ℕ) : ℤ) * 2)) =
      some (O, I)) ∧
    setGridAll (⟨![4, 6], ![4, 2], fun _ => 1, by decide⟩ : Grid 2) (fun c i => (List.range (size _ c i)).map fun k =>
      ((0 : ℤ) + ((first _ c i + k : ℕ) : ℤ) * 2)) = none := by
  constructor
  · have h := (C52_grid_iff demo (fun _ k => (0 : ℤ) + (k : ℤ) * 2) _ fun _ _ => rfl).2 (by decide)
    obtain ⟨⟨O, I⟩, h⟩ := Option.isSome_iff_exists.1 h
    exact ⟨O, I, h⟩
  · have h := (C52_grid_iff (⟨![4, 6], ![4, 2], fun _ => 1, by decide⟩ : Grid 2) (fun _ k => (0 : ℤ) + (k : ℤ) * 2) _
      fun _ _ => rfl).not.2 (by decide)
    exact Option.not_isSome_iff_eq_none.1 h

end Pylbm.Hdf5
