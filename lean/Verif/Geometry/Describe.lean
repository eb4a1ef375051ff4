/-
Model of the reading of the geometry of the dictionary: `get_box`, the labels of the box and of the
elements (`pylbm/geometry.py`, `pylbm/elements/base.py`).
-/
import Mathlib.Data.List.Sort
import Mathlib.Data.List.Dedup
import Mathlib.Tactic.Linarith

namespace Pylbm.Describe

/-- The value found under `label`: an integer or a list of integers (what the schema of
`pylbm/validator.py:276-280` accepts), or any other object. -/
inductive Label where
  | int (k : Int)
  | list (l : List Int)
  | other

/-- The dictionary `dico["box"]`: the three optional intervals and the optional label,
`pylbm/validator.py:260-281` (no key is required there). -/
structure BoxDict (K : Type) where
  x : Option (K × K)
  y : Option (K × K)
  z : Option (K × K)
  label : Option Label

/-- `get_box(dico)`, `pylbm/geometry.py:23-64`.  The argument is `dico.get("box")`.  A missing
`box` or a missing `x` is only logged there, and the `return` then raises `UnboundLocalError`
because `dim` and `bounds` were never assigned: `none`. -/
def getBox {K : Type} (box : Option (BoxDict K)) : Option (ℕ × List (K × K)) :=
  match box with
  | none => none
  | some b =>
    match b.x with
    | none => none
    | some x =>
      match b.y with
      | none => some (1, [x])
      | some y =>
        match b.z with
        | none => some (2, [x, y])
        | some z => some (3, [x, y, z])

/-- The computation of `box_label`, `pylbm/geometry.py:119-130`.  `log.error` does not stop the
constructor.  The attribute stays unset for the third kind of label: `none`. -/
def boxLabel (dim : ℕ) (label : Option Label) : Option (List Int) :=
  match label with
  | none => some (List.replicate (2 * dim) (-1))
  | some (.int k) => some (List.replicate (2 * dim) k)
  | some (.list l) => some l
  | some .other => none

/-- `Element.__init__`, `pylbm/elements/base.py:35-41`: the labels of an element; the result of
`test_label` is not used. -/
def elemLabel (numberOfBounds : ℕ) (label : Label) : Option (List Int) :=
  match label with
  | .int k => some (List.replicate numberOfBounds k)
  | .list l => some l
  | .other => none

/-- an element of the dictionary: its dimension and its labels -/
structure ElemInfo where
  dim : ℕ
  label : List Int

structure GeomInfo (K : Type) where
  dim : ℕ
  bounds : List (K × K)
  boxLabel : List Int
  elems : List ElemInfo

/-- The loop over the elements, `pylbm/geometry.py:137-142`; `none` is the `ValueError`. -/
def addElems (dim : ℕ) : List ElemInfo → List ElemInfo → Option (List ElemInfo)
  | acc, [] => some acc
  | acc, e :: t => if e.dim ≠ dim then none else addElems dim (acc ++ [e]) t

/-- `Geometry.__init__`, `pylbm/geometry.py:112-143`, without the validation of the dictionary. -/
def mkGeometry {K : Type} (box : Option (BoxDict K)) (elems : List ElemInfo) :
    Option (GeomInfo K) :=
  match getBox box, box with
  | some (dim, bounds), some b =>
    match boxLabel dim b.label with
    | none => none
    | some lab =>
      match addElems dim [] elems with
      | none => none
      | some el => some ⟨dim, bounds, lab, el⟩
  | _, _ => none

/-- `np.unique` of a list: sorted, without repetition. -/
def unique (l : List Int) : List Int := l.dedup.insertionSort (· ≤ ·)

/-- `np.union1d(a, b)` is `np.unique(np.concatenate((a, b)))`. -/
def union1d (a b : List Int) : List Int := unique (a ++ b)

/-- `Geometry.list_of_elements_labels`, `pylbm/geometry.py:330-338`.  The array is an array of
floats there. -/
def listOfElementsLabels {K : Type} (g : GeomInfo K) : List Int :=
  g.elems.foldl (fun labels e => union1d labels e.label) []

/-- `Geometry.list_of_labels`, `pylbm/geometry.py:323-328`. -/
def listOfLabels {K : Type} (g : GeomInfo K) : List Int :=
  union1d (unique g.boxLabel) (listOfElementsLabels g)

/-! ## Lemmas -/

theorem mem_unique {l : List Int} {k : Int} : k ∈ unique l ↔ k ∈ l := by
  rw [unique, (List.perm_insertionSort _ _).mem_iff, List.mem_dedup]

theorem unique_sorted (l : List Int) : (unique l).Pairwise (· < ·) := by
  have h1 : (unique l).Pairwise (· ≤ ·) := List.pairwise_insertionSort _ _
  have h2 : (unique l).Nodup := by
    rw [unique, (List.perm_insertionSort _ _).nodup_iff]; exact List.nodup_dedup l
  exact (h1.and h2).imp fun h => lt_of_le_of_ne h.1 h.2

theorem mem_union1d {a b : List Int} {k : Int} : k ∈ union1d a b ↔ k ∈ a ∨ k ∈ b := by
  rw [union1d, mem_unique, List.mem_append]

theorem mem_foldl_union (el : List ElemInfo) (acc : List Int) (k : Int) :
    k ∈ el.foldl (fun labels e => union1d labels e.label) acc ↔
      k ∈ acc ∨ ∃ e ∈ el, k ∈ e.label := by
  induction el generalizing acc with
  | nil => simp
  | cons e t ih =>
    rw [List.foldl_cons, ih, mem_union1d]
    simp [or_assoc]

theorem addElems_eq (dim : ℕ) (acc el : List ElemInfo) :
    addElems dim acc el = if ∀ e ∈ el, e.dim = dim then some (acc ++ el) else none := by
  induction el generalizing acc with
  | nil => simp [addElems]
  | cons e t ih =>
    rw [addElems]
    by_cases h : e.dim = dim
    · rw [if_neg (by simpa using h), ih]
      by_cases h2 : ∀ e ∈ t, e.dim = dim
      · rw [if_pos h2, if_pos (by simpa [h] using h2)]; simp
      · rw [if_neg h2, if_neg (by simpa [h] using h2)]
    · rw [if_pos h, if_neg]
      intro hh
      exact h (hh e (by simp))

/-! ## Properties -/

/-- Specification: the directions of a box are complete when no direction is given without those
before it. -/
def Complete {K : Type} (b : BoxDict K) : Prop :=
  b.x.isSome ∧ (b.z.isSome → b.y.isSome)

/-- Specification: the intervals given by the user, in the order x, y, z. -/
def given {K : Type} (b : BoxDict K) : List (K × K) := [b.x, b.y, b.z].reduceOption

/-- **C58**, box: without a box or without `x` the construction fails; a complete box gives the
number of intervals as dimension and the intervals themselves as bounds.  Partial: boxes with a
`z` but no `y` are excluded, see `C58_skipped_negation`. -/
theorem C58_box_partial {K : Type} (b : BoxDict K) :
    (getBox (K := K) none = none) ∧ (b.x = none → getBox (some b) = none) ∧
    (Complete b → getBox (some b) = some ((given b).length, given b)) := by
  refine ⟨rfl, fun h => by simp [getBox, h], ?_⟩
  rintro ⟨hx, hz⟩
  obtain ⟨x, y, z, l⟩ := b
  cases x with
  | none => simp at hx
  | some x =>
    cases y with
    | none =>
      cases z with
      | none => simp [getBox, given, List.reduceOption]
      | some z => simp at hz
    | some y =>
      cases z <;> simp [getBox, given, List.reduceOption]

/-- **C58** fails for a box with `x` and `z`: `z` is silently dropped and a one dimensional
geometry is built. -/
theorem C58_skipped_negation :
    ∃ b : BoxDict ℚ, ¬ Complete b ∧ ∃ g, mkGeometry (some b) [] = some g ∧ g.dim = 1 ∧
      (given b).length = 2 :=
  ⟨⟨some (0, 1), none, some (0, 2), none⟩, by simp [Complete],
    ⟨1, [(0, 1)], [-1, -1], []⟩, rfl, rfl, by simp [given, List.reduceOption]⟩

/-- **C58**, labels of the box: absent means −1 on every face, an integer is used for the `2*dim`
faces.  A list is taken as it is: partial, see `C58_length_negation`. -/
theorem C58_faces_partial {K : Type} (b : BoxDict K) (elems : List ElemInfo) (g : GeomInfo K)
    (h : mkGeometry (some b) elems = some g) :
    (b.label = none → g.boxLabel.length = 2 * g.dim ∧ ∀ l ∈ g.boxLabel, l = -1) ∧
    (∀ k, b.label = some (.int k) → g.boxLabel.length = 2 * g.dim ∧ ∀ l ∈ g.boxLabel, l = k) ∧
    (∀ l, b.label = some (.list l) → g.boxLabel = l) := by
  unfold mkGeometry at h
  split at h
  · rename_i dim bounds b' hb heq
    obtain rfl : b = b' := by simpa using heq
    split at h
    · simp at h
    · rename_i lab hl
      split at h
      · simp at h
      · rename_i el he
        simp only [Option.some.injEq] at h
        subst h
        refine ⟨fun hn => ?_, fun k hk => ?_, fun l hk => ?_⟩
        · rw [hn] at hl
          simp only [boxLabel, Option.some.injEq] at hl
          subst hl
          exact ⟨by simp, fun l hl => List.eq_of_mem_replicate hl⟩
        · rw [hk] at hl
          simp only [boxLabel, Option.some.injEq] at hl
          subst hl
          exact ⟨by simp, fun l hl => List.eq_of_mem_replicate hl⟩
        · rw [hk] at hl
          simp only [boxLabel, Option.some.injEq] at hl
          exact hl.symm
  · simp at h

/-- **C58** fails for a list of labels of the wrong length: the geometry is built with it, here
three labels for the two faces of a segment, or one label for four faces. -/
theorem C58_length_negation :
    (∃ (b : BoxDict ℚ) (g : GeomInfo ℚ), Complete b ∧ mkGeometry (some b) [] = some g ∧
      2 * g.dim < g.boxLabel.length) ∧
    (∃ (b : BoxDict ℚ) (g : GeomInfo ℚ), Complete b ∧ mkGeometry (some b) [] = some g ∧
      g.boxLabel.length < 2 * g.dim) ∧
    (∃ (l : List Int), elemLabel 4 (.list l) = some l ∧ l.length ≠ 4) :=
  ⟨⟨⟨some (0, 1), none, none, some (.list [0, 1, 2])⟩, ⟨1, [(0, 1)], [0, 1, 2], []⟩,
      by simp [Complete], rfl, by decide⟩,
    ⟨⟨some (0, 1), some (0, 1), none, some (.list [0])⟩, ⟨2, [(0, 1), (0, 1)], [0], []⟩,
      by simp [Complete], rfl, by decide⟩, ⟨[0], rfl, by decide⟩⟩

/-- **C58**, labels of an element: an integer is the label of every side which a link can meet (`label[i]`,
elements/utils.py 71), and there are no other ones. A list gives each side its own label when it has one label per side;
partial, see `C58_length_negation`. -/
theorem C58_sides_partial (n : ℕ) (label : Label) (l : List Int) (h : elemLabel n label = some l) :
    (∀ k, label = .int k → (∀ i < n, l[i]? = some k) ∧ ∀ m ∈ l, m = k) ∧
    (∀ l', label = .list l' → l'.length = n → ∀ i < n, l[i]? = l'[i]? ∧ l[i]? ≠ none) := by
  refine ⟨?_, ?_⟩
  · rintro k rfl
    simp only [elemLabel, Option.some.injEq] at h
    subst h
    exact ⟨fun i hi => by simp [hi], fun m hm => List.eq_of_mem_replicate hm⟩
  · rintro l' rfl hn i hi
    simp only [elemLabel, Option.some.injEq] at h
    subst h
    refine ⟨rfl, ?_⟩
    rw [ne_eq, List.getElem?_eq_none_iff]
    omega

example : elemLabel 4 (.int 3) = some [3, 3, 3, 3] := rfl

/-- **C58**, elements: the geometry keeps the elements of the dictionary in their order, and is
refused exactly when one of them has another dimension (given a readable box). -/
theorem C58_elements {K : Type} (b : BoxDict K) (elems : List ElemInfo) (dim : ℕ)
    (bounds : List (K × K)) (hb : getBox (some b) = some (dim, bounds))
    (hl : ¬ b.label = some .other) :
    (∀ g, mkGeometry (some b) elems = some g → g.elems = elems ∧ g.dim = dim ∧ g.bounds = bounds) ∧
    ((mkGeometry (some b) elems).isSome ↔ ∀ e ∈ elems, e.dim = dim) := by
  have hlab : ∃ lab, boxLabel dim b.label = some lab := by
    rcases hx : b.label with _ | (k | l | _)
    · exact ⟨_, rfl⟩
    · exact ⟨_, rfl⟩
    · exact ⟨_, rfl⟩
    · exact absurd hx hl
  obtain ⟨lab, hlab⟩ := hlab
  unfold mkGeometry
  rw [hb]
  simp only [hlab]
  rw [addElems_eq]
  by_cases h : ∀ e ∈ elems, e.dim = dim
  · rw [if_pos h]
    simp only [List.nil_append, Option.some.injEq, Option.isSome_some, true_iff]
    exact ⟨by rintro g rfl; exact ⟨rfl, rfl, rfl⟩, h⟩
  · rw [if_neg h]
    simp [h]

/-- **C58**, list of labels: it contains exactly the labels of the faces of the box and of the
elements, each once, in increasing order. -/
theorem C58_labels {K : Type} (g : GeomInfo K) :
    (∀ k, k ∈ listOfLabels g ↔ k ∈ g.boxLabel ∨ ∃ e ∈ g.elems, k ∈ e.label) ∧
    (listOfLabels g).Pairwise (· < ·) ∧
    (∀ k, k ∈ listOfElementsLabels g ↔ ∃ e ∈ g.elems, k ∈ e.label) := by
  have h : ∀ k, k ∈ listOfElementsLabels g ↔ ∃ e ∈ g.elems, k ∈ e.label := by
    intro k
    rw [listOfElementsLabels, mem_foldl_union]
    simp
  refine ⟨fun k => ?_, unique_sorted _, h⟩
  rw [listOfLabels, mem_union1d, mem_unique, h]

/-- the reading of labels does not depend on the order of the elements, hence the same holds for
every dictionary with the same box and the same elements -/
theorem C58_labels_perm {K : Type} (g g' : GeomInfo K) (hb : g.boxLabel = g'.boxLabel)
    (he : g.elems.Perm g'.elems) : listOfLabels g = listOfLabels g' := by
  have h1 := C58_labels g
  have h2 := C58_labels g'
  refine List.Perm.eq_of_pairwise (le := (· < ·)) (fun a b _ _ h h' => absurd h (lt_asymm h')) h1.2.1 h2.2.1 ?_
  refine (List.perm_ext_iff_of_nodup (h1.2.1.imp fun h => ne_of_lt h)
    (h2.2.1.imp fun h => ne_of_lt h)).mpr fun k => ?_
  rw [h1.1, h2.1, hb]
  constructor
  · rintro (h | ⟨e, he', h⟩)
    · exact Or.inl h
    · exact Or.inr ⟨e, he.mem_iff.mp he', h⟩
  · rintro (h | ⟨e, he', h⟩)
    · exact Or.inl h
    · exact Or.inr ⟨e, he.mem_iff.mpr he', h⟩

/-- a square with four labels and two obstacles, one of them labelled by an integer -/
def demoBox : BoxDict ℚ := ⟨some (0, 2), some (0, 1), none, some (.list [3, 0, 3, 1])⟩

example : Complete demoBox ∧ mkGeometry (some demoBox) [⟨2, [7]⟩, ⟨2, [1, 1, 2, 2]⟩] =
      some ⟨2, [(0, 2), (0, 1)], [3, 0, 3, 1], [⟨2, [7]⟩, ⟨2, [1, 1, 2, 2]⟩]⟩ ∧
    listOfLabels (K := ℚ) ⟨2, [(0, 2), (0, 1)], [3, 0, 3, 1], [⟨2, [7]⟩, ⟨2, [1, 1, 2, 2]⟩]⟩ =
      [0, 1, 2, 3, 7] := by
  refine ⟨by simp [Complete, demoBox], rfl, by decide⟩

end Pylbm.Describe
