import Verif.Geometry.Describe
/-!
# C58: `Geometry.add_elem`
-/

namespace Pylbm.Describe

/-- `Geometry.add_elem`, `pylbm/geometry.py:155-165`: the element is appended, its dimension is not looked at. -/
def addElem {K : Type} (g : GeomInfo K) (e : ElemInfo) : GeomInfo K := { g with elems := g.elems ++ [e] }

theorem mkGeometry_append {K : Type} {b : BoxDict K} {es fs : List ElemInfo} {g : GeomInfo K}
    (h : mkGeometry (some b) es = some g) :
    mkGeometry (some b) (es ++ fs) =
      if ∀ e ∈ fs, e.dim = g.dim then some { g with elems := es ++ fs } else none := by
  unfold mkGeometry at h ⊢
  split at h
  · rename_i dim bounds b' hb heq
    obtain rfl : b = b' := by simpa using heq
    split at h
    · cases h
    · rename_i lab hl
      rw [addElems_eq] at h
      by_cases hes : ∀ e ∈ es, e.dim = dim
      · rw [if_pos hes] at h
        simp only [Option.some.injEq] at h
        subst h
        simp only [addElems_eq, List.nil_append]
        by_cases hfs : ∀ e ∈ fs, e.dim = dim
        · rw [if_pos (by
            intro e he
            rcases List.mem_append.1 he with h | h
            exacts [hes e h, hfs e h]), if_pos hfs]
        · rw [if_neg (fun hh => hfs fun e he => hh e (List.mem_append_right _ he)), if_neg hfs]
      · rw [if_neg hes] at h
        cases h
  · cases h

/-- **C58, elements added later.** Adding elements of the dimension of the box one after the other gives the geometry of the
dictionary with all the elements. -/
theorem C58_add_elem_partial {K : Type} (b : BoxDict K) (es fs : List ElemInfo) (g : GeomInfo K)
    (h : mkGeometry (some b) es = some g) (hfs : ∀ e ∈ fs, e.dim = g.dim) :
    mkGeometry (some b) (es ++ fs) = some (fs.foldl addElem g) := by
  have key : ∀ (fs : List ElemInfo) (g : GeomInfo K), fs.foldl addElem g = { g with elems := g.elems ++ fs } := by
    intro fs
    induction fs with
    | nil => intro g; simp
    | cons f t ih =>
      intro g
      rw [List.foldl_cons, ih]
      simp [addElem]
  have hes : g.elems = es := by
    have := mkGeometry_append (fs := []) h
    rw [List.append_nil, h] at this
    simp only [List.not_mem_nil, false_implies, implies_true, if_true, Option.some.injEq] at this
    rw [this]
  rw [mkGeometry_append h, if_pos hfs, key, hes]

/-- C58 is false for `add_elem`: an element of another dimension, which the constructor refuses, is accepted for all geometries. -/
theorem C58_add_elem_negation {K : Type} (b : BoxDict K) (es : List ElemInfo) (g : GeomInfo K)
    (h : mkGeometry (some b) es = some g) (e : ElemInfo) (he : e.dim ≠ g.dim) :
    mkGeometry (some b) (es ++ [e]) = none ∧ e ∈ (addElem g e).elems ∧ (addElem g e).dim ≠ e.dim := by
  refine ⟨?_, by simp [addElem], fun hh => he hh.symm⟩
  rw [mkGeometry_append h, if_neg]
  intro hh
  exact he (hh e (by simp))

/-- A box of dimension 2 with a disc; a second disc, and a sphere. -/
example : ∃ g : GeomInfo ℚ, mkGeometry (some ⟨some (0, 1), some (0, 2), none, some (.int 3)⟩) [⟨2, [5]⟩] = some g ∧
    mkGeometry (some ⟨some ((0 : ℚ), 1), some (0, 2), none, some (.int 3)⟩) [⟨2, [5]⟩, ⟨2, [6]⟩] = some (addElem g ⟨2, [6]⟩) ∧
    mkGeometry (some ⟨some ((0 : ℚ), 1), some (0, 2), none, some (.int 3)⟩) [⟨2, [5]⟩, ⟨3, [6]⟩] = none ∧
    listOfLabels (addElem g ⟨3, [6]⟩) = [3, 5, 6] :=
  ⟨_, rfl, C58_add_elem_partial _ [⟨2, [5]⟩] [⟨2, [6]⟩] _ rfl (by simp), (C58_add_elem_negation _ [⟨2, [5]⟩] _ rfl ⟨3, [6]⟩ (by decide)).1,
    by decide +kernel⟩

end Pylbm.Describe
