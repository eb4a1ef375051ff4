import Verif.Mpi.Options
import Verif.Mpi.Props
import Mathlib.Algebra.BigOperators.Fin
/-!
# The grid of the processes (C118)

`MpiTopology.__init__` (mpi_topology.py 66-80): from the command line to the places of the processes and the cells they own.
-/
set_option linter.unusedSectionVars false

namespace Pylbm.Mpi
open Radix MpiSpec ListAux

/-! ## Model -/

/-- `self.split`, mpi_topology.py 71-79: the numbers of processes of the directions of space, from `Compute_dims` if those of
the command line are all 1 (the comparison `npx == npy == npz == 1` of Python is that of the neighbours). -/
def splitOf (computeDims : Nat → Nat → List Int) (dim size : Nat) (np : Fin 3 → Int) : List Int :=
  (if np 0 = np 1 ∧ np 1 = np 2 ∧ np 2 = 1 then computeDims size dim else [np 0, np 1, np 2]).take dim

/-- `comm.Create_cart(split, period)` and `Get_coords` (mpi_topology.py 80, 142-143) in the process `rank`: `none` if there is
an error. As the MPI standard says, `Create_cart` fails if a number is not positive or if their product is larger than the
number of processes, and it returns the null communicator, of which `Get_topo` and `Get_coords` are errors (line 102), in the
processes which have no place in the grid. -/
def place (split : List Int) (size rank : Nat) : Option (List Nat) :=
  if (∀ p ∈ split, 0 < p) ∧ split.prod ≤ size ∧ (rank : Int) < split.prod then
    some (cartCoords (split.map Int.toNat) rank)
  else none

/-- The region of the process `rank` in a program called with the words `line` on `size` processes, for a grid of `ns` cells:
`MpiTopology(dim, period)` then `get_region` (domain.py 269-275, 373-383). -/
def regionOf (computeDims : Nat → Nat → List Int) (line : List Cli.Word) (size : Nat) (ns : List Nat) (rank : Nat) :
    Option (List (Nat × Nat)) := do
  let o ← Cli.parse line
  let split := splitOf computeDims ns.length size o.np
  let c ← place split size rank
  getRegion ns (split.map Int.toNat) c

/-! ## Specification -/

/-- What MPI says of `Compute_dims(size, dim)`: positive numbers, one for each direction, of product the number of processes. -/
def Factors (computeDims : Nat → Nat → List Int) : Prop :=
  ∀ size dim, 0 < size → 0 < dim →
    (computeDims size dim).length = dim ∧ (∀ p ∈ computeDims size dim, 0 < p) ∧ (computeDims size dim).prod = size

/-- Each process has a region and each cell is in the region of exactly one process. -/
def Shared (region : Nat → Option (List (Nat × Nat))) (size : Nat) (ns : List Nat) : Prop :=
  (∀ rank < size, ∃ box, region rank = some box) ∧
    ∀ cell, InShape ns cell → ∃! rank, rank < size ∧ ∃ box, region rank = some box ∧ InBox box cell

/-- `-npx 1 -npy 1 -npz 1`. -/
def ones : List Cli.Piece := [.two 0 ['1'] 1, .two 1 ['1'] 1, .two 2 ['1'] 1]

/-! ## Lemmas -/

theorem toNat_prod : ∀ l : List Int, (∀ p ∈ l, 0 < p) → ((l.map Int.toNat).prod : Int) = l.prod
  | [], _ => by simp
  | p :: l, h => by
    have hp := h p (by simp)
    rw [List.map_cons, List.prod_cons, List.prod_cons, Nat.cast_mul, toNat_prod l (fun q hq => h q (by simp [hq])),
      Int.toNat_of_nonneg hp.le]

theorem getRegion_some : ∀ (ns split c : List Nat), InShape split c → ∃ box, getRegion ns split c = some box
  | [], split, c, _ => ⟨[], by simp [getRegion]⟩
  | n :: ns, _, _, .nil => ⟨[], by simp [getRegion]⟩
  | n :: ns, _, _, .cons (a := i) (b := p) (l₁ := c) (l₂ := split) hi ht => by
    obtain ⟨box, hb⟩ := getRegion_some ns split c ht
    have e1 : (regionIndices n p)[i]? = some (bound n p i) := by
      rw [regionIndices_eq, List.getElem?_map, List.getElem?_range (by omega)]; rfl
    have e2 : (regionIndices n p)[i + 1]? = some (bound n p (i + 1)) := by
      rw [regionIndices_eq, List.getElem?_map, List.getElem?_range (by omega)]; rfl
    refine ⟨(bound n p i, bound n p (i + 1)) :: box, ?_⟩
    unfold getRegion at hb ⊢
    rw [List.zip_cons_cons, List.zip_cons_cons, List.mapM_cons, hb]
    simp [e1, e2]

/-- With positive numbers of product the number of processes, the grid is shared. -/
theorem shared_of_split (split : List Int) (size : Nat) (ns : List Nat) (hlen : ns.length = split.length)
    (hpos : ∀ p ∈ split, 0 < p) (hprod : split.prod = size) :
    Shared (fun rank => (place split size rank).bind (getRegion ns (split.map Int.toNat))) size ns := by
  have hp : (split.map Int.toNat).prod = size := by
    have := toNat_prod split hpos
    rw [hprod] at this
    exact_mod_cast this
  have hplace : ∀ rank < size, place split size rank = some (cartCoords (split.map Int.toNat) rank) := by
    intro rank hr
    unfold place
    rw [if_pos ⟨hpos, hprod.le, by rw [hprod]; exact_mod_cast hr⟩]
  constructor
  · intro rank hr
    have hs := (unravel_inShape (split.map Int.toNat) rank (by rw [hp]; exact hr)).1
    obtain ⟨box, hb⟩ := getRegion_some ns _ _ hs
    exact ⟨box, by simp only [hplace rank hr]; exact hb⟩
  · intro cell hcell
    obtain ⟨r, ⟨hr, box, hb, hin⟩, hu⟩ := C11_owner_unique ns (split.map Int.toNat) (by simpa using hlen) (by
      intro p hp'
      obtain ⟨q, hq, rfl⟩ := List.mem_map.1 hp'
      have := hpos q hq
      omega) cell hcell
    rw [hp] at hr
    refine ⟨r, ⟨hr, box, by simp only [hplace r hr]; exact hb, hin⟩, ?_⟩
    rintro r' ⟨hr', box', hb', hin'⟩
    simp only [hplace r' hr'] at hb'
    exact hu r' ⟨by rw [hp]; exact hr', box', hb', hin'⟩

theorem take_spec (np : Fin 3 → Int) {d : Nat} (hd : d ≤ 3) :
    ([np 0, np 1, np 2].take d).length = d ∧
      ((∀ p ∈ [np 0, np 1, np 2].take d, 0 < p) ↔ ∀ i : Fin 3, (i : Nat) < d → 0 < np i) ∧
      ([np 0, np 1, np 2].take d).prod = ∏ i : Fin 3, (if (i : Nat) < d then np i else 1) := by
  interval_cases d <;> simp [Fin.forall_fin_succ, Fin.prod_univ_three, mul_assoc]

theorem place_some {split : List Int} {size rank : Nat} : (∃ c, place split size rank = some c) ↔
    (∀ p ∈ split, 0 < p) ∧ split.prod ≤ size ∧ (rank : Int) < split.prod := by
  unfold place
  split_ifs with h
  · exact ⟨fun _ => h, fun _ => ⟨_, rfl⟩⟩
  · exact iff_of_false (fun ⟨_, hc⟩ => hc.elim) h

theorem region_some {split : List Int} {size rank : Nat} (ns : List Nat) :
    (∃ box, (place split size rank).bind (getRegion ns (split.map Int.toNat)) = some box) ↔
    (∀ p ∈ split, 0 < p) ∧ split.prod ≤ size ∧ (rank : Int) < split.prod := by
  constructor
  · rintro ⟨box, hb⟩
    apply place_some.1
    cases h : place split size rank with
    | none => rw [h] at hb; cases hb
    | some c => exact ⟨c, rfl⟩
  · intro h
    have hs := (unravel_inShape (split.map Int.toNat) rank (by
      have := toNat_prod split h.1
      have h2 := h.2.2
      rw [← this] at h2
      exact_mod_cast h2)).1
    obtain ⟨box, hb⟩ := getRegion_some ns _ _ hs
    exact ⟨box, by unfold place; rw [if_pos h]; exact hb⟩

theorem regionOf_asked (cd : Nat → Nat → List Int) (l : List Cli.Piece) (hl : ∀ p ∈ l, p.Ok) (rest : List Cli.Word)
    (hrest : rest = [] ∨ ∃ post, rest = ['-', '-'] :: post) (size : Nat) (ns : List Nat) (rank : Nat) :
    regionOf cd (l.flatMap Cli.Piece.words ++ rest) size ns rank =
      (place (splitOf cd ns.length size (Cli.asked l)) size rank).bind
        (getRegion ns ((splitOf cd ns.length size (Cli.asked l)).map Int.toNat)) := by
  unfold regionOf
  rw [Cli.C117_asked l hl rest hrest]
  rfl

theorem split_asked (cd : Nat → Nat → List Int) {np : Fin 3 → Int} {dim : Nat} (size : Nat) (hyes : ∃ i, np i ≠ 1) :
    splitOf cd dim size np = [np 0, np 1, np 2].take dim := by
  unfold splitOf
  rw [if_neg]
  rintro ⟨h1, h2, h3⟩
  obtain ⟨i, hi⟩ := hyes
  apply hi
  fin_cases i
  · exact h1.trans (h2.trans h3)
  · exact h2.trans h3
  · exact h3

/-! ## Properties -/

section
variable (cd : Nat → Nat → List Int) (l : List Cli.Piece) (hl : ∀ p ∈ l, p.Ok) (rest : List Cli.Word)
  (hrest : rest = [] ∨ ∃ post, rest = ['-', '-'] :: post) (size : Nat) (ns : List Nat)
include hl hrest

/-- **C118.** When the command line gives no number of processes, each process has a region of the grid and each cell is in
exactly one of them, whatever the number of processes, the dimension and the grid. -/
theorem C118_default (hcd : Factors cd) (hsize : 0 < size) (hns : ns ≠ []) (hno : ∀ i, Cli.asked l i = 1) :
    Shared (regionOf cd (l.flatMap Cli.Piece.words ++ rest) size ns) size ns := by
  have e : regionOf cd (l.flatMap Cli.Piece.words ++ rest) size ns = fun rank =>
      (place (splitOf cd ns.length size (Cli.asked l)) size rank).bind
        (getRegion ns ((splitOf cd ns.length size (Cli.asked l)).map Int.toNat)) := by
    funext rank; exact regionOf_asked cd l hl rest hrest size ns rank
  obtain ⟨h1, h2, h3⟩ := hcd size ns.length hsize (List.length_pos_iff.2 hns)
  have es : splitOf cd ns.length size (Cli.asked l) = cd size ns.length := by
    unfold splitOf
    rw [if_pos ⟨by rw [hno, hno], by rw [hno, hno], hno 2⟩, List.take_of_length_le h1.le]
  rw [e, es]
  exact shared_of_split _ size ns h1.symm h2 h3

/-- With numbers on the command line: which processes have a region. -/
theorem region_asked (hdim : ns.length ≤ 3) (hyes : ∃ i, Cli.asked l i ≠ 1) (rank : Nat) :
    (∃ box, regionOf cd (l.flatMap Cli.Piece.words ++ rest) size ns rank = some box) ↔
      (∀ i : Fin 3, (i : Nat) < ns.length → 0 < Cli.asked l i) ∧
        ∏ i : Fin 3, (if (i : Nat) < ns.length then Cli.asked l i else 1) ≤ size ∧
        (rank : Int) < ∏ i : Fin 3, (if (i : Nat) < ns.length then Cli.asked l i else 1) := by
  obtain ⟨_, h2, h3⟩ := take_spec (Cli.asked l) hdim
  rw [regionOf_asked cd l hl rest hrest size ns rank, region_some, split_asked cd size hyes, h2, h3]

/-- **C118.** When it gives one, the numbers of the directions of space are those of the command line, 1 where there is none:
the grid is shared between the processes exactly if they are positive and their product is the number of processes. -/
theorem C118_asked (hsize : 0 < size) (hdim : ns.length ≤ 3) (hyes : ∃ i, Cli.asked l i ≠ 1) :
    Shared (regionOf cd (l.flatMap Cli.Piece.words ++ rest) size ns) size ns ↔
      (∀ i : Fin 3, (i : Nat) < ns.length → 0 < Cli.asked l i) ∧
        ∏ i : Fin 3, (if (i : Nat) < ns.length then Cli.asked l i else 1) = size := by
  constructor
  · rintro ⟨h, _⟩
    have h0 := (region_asked cd l hl rest hrest size ns hdim hyes 0).1 (h 0 hsize)
    have h1 := (region_asked cd l hl rest hrest size ns hdim hyes (size - 1)).1 (h (size - 1) (by omega))
    exact ⟨h0.1, by have := h1.2; omega⟩
  · rintro ⟨h1, h2⟩
    have e : regionOf cd (l.flatMap Cli.Piece.words ++ rest) size ns = fun rank =>
        (place (splitOf cd ns.length size (Cli.asked l)) size rank).bind
          (getRegion ns ((splitOf cd ns.length size (Cli.asked l)).map Int.toNat)) := by
      funext rank; exact regionOf_asked cd l hl rest hrest size ns rank
    obtain ⟨k1, k2, k3⟩ := take_spec (Cli.asked l) hdim
    rw [e, split_asked cd size hyes]
    exact shared_of_split _ size ns k1.symm (k2.2 h1) (k3.trans h2)

/-- **C118.** In that case the process `rank` has the region of its place in the grid of the numbers asked for: the part of
number `c i` of the axis `i`, cut in as many parts as asked for. -/
theorem C118_grid (hdim : ns.length ≤ 3) (hyes : ∃ i, Cli.asked l i ≠ 1)
    (hpos : ∀ i : Fin 3, (i : Nat) < ns.length → 0 < Cli.asked l i)
    (hprod : ∏ i : Fin 3, (if (i : Nat) < ns.length then Cli.asked l i else 1) = size) (rank : Nat) (hr : rank < size) :
    regionOf cd (l.flatMap Cli.Piece.words ++ rest) size ns rank =
      getRegion ns ((List.ofFn (Cli.asked l)).take ns.length |>.map Int.toNat)
        (unravel ((List.ofFn (Cli.asked l)).take ns.length |>.map Int.toNat) rank) := by
  obtain ⟨k1, k2, k3⟩ := take_spec (Cli.asked l) hdim
  have e : List.ofFn (Cli.asked l) = [Cli.asked l 0, Cli.asked l 1, Cli.asked l 2] := rfl
  rw [regionOf_asked cd l hl rest hrest size ns rank, split_asked cd size hyes, e]
  unfold place
  rw [if_pos ⟨k2.2 hpos, by rw [k3, hprod], by rw [k3, hprod]; exact_mod_cast hr⟩]
  rfl

/-- **C118.** With a smaller product, exactly the processes whose rank is not smaller than the product fail; with a larger one
or a number which is not positive, all of them. -/
theorem C118_failures (hdim : ns.length ≤ 3) (hyes : ∃ i, Cli.asked l i ≠ 1) :
    ((∀ i : Fin 3, (i : Nat) < ns.length → 0 < Cli.asked l i) →
      ∏ i : Fin 3, (if (i : Nat) < ns.length then Cli.asked l i else 1) ≤ size →
      ∀ rank, regionOf cd (l.flatMap Cli.Piece.words ++ rest) size ns rank = none ↔
        ∏ i : Fin 3, (if (i : Nat) < ns.length then Cli.asked l i else 1) ≤ rank) ∧
    ((size : Int) < ∏ i : Fin 3, (if (i : Nat) < ns.length then Cli.asked l i else 1) ∨
      (∃ i : Fin 3, (i : Nat) < ns.length ∧ Cli.asked l i ≤ 0) →
      ∀ rank, regionOf cd (l.flatMap Cli.Piece.words ++ rest) size ns rank = none) := by
  have key := region_asked cd l hl rest hrest size ns hdim hyes
  constructor
  · intro h1 h2 rank
    rw [Option.eq_none_iff_forall_ne_some, ← not_iff_not]
    push Not
    rw [key rank]
    exact ⟨fun h => h.2.2, fun h => ⟨h1, h2, h⟩⟩
  · intro h rank
    rw [Option.eq_none_iff_forall_ne_some]
    intro box hb
    have hk := (key rank).1 ⟨box, hb⟩
    rcases h with h | ⟨i, hi, h⟩
    · have := hk.2.1; omega
    · have := hk.1 i hi; omega

/-- **C118, negation.** The number of processes of a direction which the problem does not have is not ignored: it switches off
the automatic splitting, and all the processes but the first one fail. For example `-npz 2` in dimension 2. -/
theorem C118_unused_negation (hdim : ns.length ≤ 3) (i : Fin 3) (hi : Cli.asked l i ≠ 1)
    (hones : ∀ j : Fin 3, (j : Nat) < ns.length → Cli.asked l j = 1) (hsize : 0 < size) (rank : Nat) :
    regionOf cd (l.flatMap Cli.Piece.words ++ rest) size ns rank = none ↔ 0 < rank := by
  have hp : ∏ i : Fin 3, (if (i : Nat) < ns.length then Cli.asked l i else 1) = 1 := by
    apply Finset.prod_eq_one
    intro j _
    split_ifs with h
    · exact hones j h
    · rfl
  have h := (C118_failures cd l hl rest hrest size ns hdim ⟨i, hi⟩).1 (fun j hj => by rw [hones j hj]; exact one_pos)
    (by rw [hp]; omega) rank
  rw [h, hp]
  omega

omit hl hrest in
/-- The number 1 for each direction. -/
theorem asked_ones (i : Fin 3) : Cli.asked (l ++ ones) i = 1 := by
  simp only [Cli.asked, ones, List.foldl_append, List.foldl_cons, List.foldl_nil, Cli.Piece.set]
  fin_cases i <;> simp [Function.update]

/-- **C118, negation.** The value 1 cannot be asked for: with `-npx 1 -npy 1 -npz 1` on several processes, the grid is the one
of `Compute_dims`, and some direction is cut, instead of the error of the other products which are too small. -/
theorem C118_ones_negation (hcd : Factors cd) (hsize : 1 < size) (hns : ns ≠ []) :
    Shared (regionOf cd ((l ++ ones).flatMap Cli.Piece.words ++ rest) size ns)
      size ns ∧
    ∃ p ∈ splitOf cd ns.length size (Cli.asked (l ++ ones)), 1 < p := by
  have hno : ∀ i, Cli.asked (l ++ ones) i = 1 := asked_ones l
  constructor
  · refine C118_default cd _ ?_ rest hrest size ns hcd (by omega) hns hno
    intro p hp
    rcases List.mem_append.1 hp with hp | hp
    · exact hl p hp
    · simp only [ones, List.mem_cons, List.not_mem_nil, or_false] at hp
      rcases hp with rfl | rfl | rfl <;> exact Cli.Numeral.digit (d := 1) (by decide)
  · obtain ⟨h1, h2, h3⟩ := hcd size ns.length (by omega) (List.length_pos_iff.2 hns)
    have es : splitOf cd ns.length size (Cli.asked (l ++ ones)) =
        cd size ns.length := by
      unfold splitOf
      rw [if_pos ⟨by rw [hno, hno], by rw [hno, hno], hno 2⟩, List.take_of_length_le h1.le]
    rw [es]
    by_contra hc
    push Not at hc
    have : (cd size ns.length).prod = 1 := by
      apply List.prod_eq_one
      intro p hp
      have := hc p hp
      have := h2 p hp
      omega
    rw [h3] at this
    omega
end

/-! ## Cases -/

/-- A function which does what MPI says: all the processes along the first direction. -/
def slabs (size dim : Nat) : List Int := (size : Int) :: List.replicate (dim - 1) 1

theorem slabs_factors : Factors slabs := by
  intro size dim hs hd
  refine ⟨by simp [slabs]; omega, ?_, by simp [slabs]⟩
  intro p hp
  rcases List.mem_cons.1 hp with rfl | hp
  · exact_mod_cast hs
  · rw [List.eq_of_mem_replicate hp]; exact one_pos

/-- Six processes without options, in a plane of 10 × 7 cells. -/
example : Shared (regionOf slabs [] 6 [10, 7]) 6 [10, 7] :=
  C118_default slabs [] (by simp) [] (Or.inl rfl) 6 [10, 7] slabs_factors (by decide) (by simp) (fun _ => rfl)

/-- `-npx 2 -npy=3`: six processes, not five. -/
def twoThree : List Cli.Piece := [.two 0 ['2'] 2, .one 1 ['3'] 3]

theorem twoThree_ok : ∀ p ∈ twoThree, p.Ok := by
  intro p hp
  simp only [twoThree, List.mem_cons, List.not_mem_nil, or_false] at hp
  rcases hp with rfl | rfl
  · exact Cli.Numeral.digit (d := 2) (by decide)
  · exact Cli.Numeral.digit (d := 3) (by decide)

example : Shared (regionOf slabs (["-npx", "2", "-npy=3"].map String.toList) 6 [10, 7]) 6 [10, 7] :=
  (C118_asked slabs twoThree twoThree_ok [] (Or.inl rfl) 6 [10, 7] (by decide) (by decide) ⟨0, by decide⟩).2
    ⟨by decide, by decide⟩

example : regionOf slabs (["-npx", "2", "-npy=3"].map String.toList) 6 [10, 7] 4 = some [(5, 10), (3, 5)] :=
  (C118_grid slabs twoThree twoThree_ok [] (Or.inl rfl) 6 [10, 7] (by decide) ⟨0, by decide⟩ (by decide) (by decide) 4
    (by decide)).trans (by decide)

example : ¬ Shared (regionOf slabs (["-npx", "2", "-npy=3"].map String.toList) 5 [10, 7]) 5 [10, 7] := fun h =>
  absurd ((C118_asked slabs twoThree twoThree_ok [] (Or.inl rfl) 5 [10, 7] (by decide) (by decide) ⟨0, by decide⟩).1 h).2
    (by decide)

example : regionOf slabs (["-npx", "2", "-npy=3"].map String.toList) 7 [10, 7] 6 = none :=
  ((C118_failures slabs twoThree twoThree_ok [] (Or.inl rfl) 7 [10, 7] (by decide) ⟨0, by decide⟩).1 (by decide) (by decide)
    6).2 (by decide)

/-- `-npz 2` in dimension 2, on four processes. -/
example : regionOf slabs (["-npz", "2"].map String.toList) 4 [10, 7] 1 = none :=
  (C118_unused_negation slabs [.two 2 ['2'] 2]
    (by intro p hp; rw [List.mem_singleton.1 hp]; exact Cli.Numeral.digit (d := 2) (by decide))
    [] (Or.inl rfl) 4 [10, 7] (by decide) 2 (by decide) (by decide) (by decide) 1).2 (by decide)

end Pylbm.Mpi
