import Verif.Geometry.Model
import Verif.Geometry.Spec
import Mathlib.Tactic
/-!
# Properties C25, C26: intersection of lines, distance to a list of edges
-/
set_option linter.unusedSectionVars false
namespace Pylbm.Geometry
open GeometrySpec

variable {K : Type} [Field K] [LinearOrder K] [IsStrictOrderedRing K]

/-- C25: `intersection_two_lines` gives nothing exactly for parallel directions, and otherwise the
only pair of parameters at which the two lines meet. -/
theorem C25_intersection (p1 v1 p2 v2 : K × K) :
    (intersectionTwoLines p1 v1 p2 v2 = none ↔ Parallel v1 v2) ∧
    ∀ a b, intersectionTwoLines p1 v1 p2 v2 = some (a, b) →
      ∀ s t, along p1 v1 s = along p2 v2 t ↔ s = a ∧ t = b := by
  unfold intersectionTwoLines Parallel
  constructor
  · by_cases h : v1.2 * v2.1 - v1.1 * v2.2 = 0
    · simp only [h, ne_eq, not_true_eq_false, if_false, true_iff]; linarith
    · simp only [ne_eq, h, not_false_eq_true, if_true, reduceCtorEq, false_iff]
      intro h'; exact h (by rw [h']; ring)
  · intro a b hab s t
    by_cases h : v1.2 * v2.1 - v1.1 * v2.2 = 0
    · simp [h] at hab
    · simp only [ne_eq, h, not_false_eq_true, if_true, Option.some.injEq, Prod.mk.injEq] at hab
      obtain ⟨ha, hb⟩ := hab
      have ha' : a * (v1.2 * v2.1 - v1.1 * v2.2) = -v2.2 * (p2.1 - p1.1) + v2.1 * (p2.2 - p1.2) := by
        rw [← ha, one_div, inv_mul_cancel_right₀ h]
      have hb' : b * (v1.2 * v2.1 - v1.1 * v2.2) = -v1.2 * (p2.1 - p1.1) + v1.1 * (p2.2 - p1.2) := by
        rw [← hb, one_div, inv_mul_cancel_right₀ h]
      unfold along
      rw [Prod.mk.injEq]
      constructor
      · rintro ⟨e1, e2⟩
        constructor
        · apply mul_right_cancel₀ h
          rw [ha']; linear_combination (-v2.2) * e1 + v2.1 * e2
        · apply mul_right_cancel₀ h
          rw [hb']; linear_combination (-v1.2) * e1 + v1.1 * e2
      · rintro ⟨rfl, rfl⟩
        constructor
        · apply mul_right_cancel₀ h
          linear_combination v1.1 * ha' - v2.1 * hb'
        · apply mul_right_cancel₀ h
          linear_combination v1.2 * ha' - v2.2 * hb'

example : intersectionTwoLines ((0, 0) : ℚ × ℚ) (1, 2) (3, 0) (-1, 1) = some (1, 2) := by
  decide +kernel

example : intersectionTwoLines ((0, 0) : ℚ × ℚ) (1, 2) (3, 0) (2, 4) = none := by decide +kernel

/-- The ray crosses the edge transversally at the parameter `t`, at most `dmax`. -/
def EdgeHit (x v : K × K) (dmax : Option K) (e : Edge K) (t : K) : Prop :=
  ¬ Parallel v e.vt ∧ 0 < t ∧ leDmax dmax t ∧ along x v t ∈ segment e.p e.vt

theorem lineStep_eq {N : Type} (nf : K × K → N) (x v : K × K) (dmax : Option K) (h : Hit K N)
    (e : Edge K) :
    (∃ t, EdgeHit x v dmax e t ∧ t < h.alpha ∧ lineStep nf x v dmax h e = ⟨t, e.label, nf e.vt⟩) ∨
    ((∀ t, EdgeHit x v dmax e t → h.alpha ≤ t) ∧ lineStep nf x v dmax h e = h) := by
  obtain ⟨h1, h2⟩ := C25_intersection x v e.p e.vt
  unfold lineStep
  cases hc : intersectionTwoLines x v e.p e.vt with
  | none =>
    right
    refine ⟨fun t ht => absurd (h1.1 hc) ht.1, rfl⟩
  | some ab =>
    obtain ⟨a, b⟩ := ab
    have hnp : ¬ Parallel v e.vt := fun h => by rw [h1.2 h] at hc; simp at hc
    have h3 := h2 a b hc
    simp only
    by_cases hcond : h.alpha > a ∧ (a > 0 ∧ leDmax dmax a) ∧ (b ≥ 0 ∧ b ≤ 1)
    · left
      rw [if_pos hcond]
      exact ⟨a, ⟨hnp, hcond.2.1.1, hcond.2.1.2, b, hcond.2.2.1, hcond.2.2.2,
        (h3 a b).2 ⟨rfl, rfl⟩⟩, hcond.1, rfl⟩
    · right
      rw [if_neg hcond]
      refine ⟨fun t ⟨_, t0, tm, s, s0, s1, hs⟩ => ?_, rfl⟩
      obtain ⟨rfl, rfl⟩ := (h3 t s).1 hs
      by_contra hlt
      push Not at hlt
      exact hcond ⟨hlt, ⟨t0, tm⟩, s0, s1⟩

/-- The fold over the edges: either nothing was closer than the start value, or the result is the
first edge with the smallest parameter. -/
theorem fold_lines {N : Type} (nf : K × K → N) (x v : K × K) (dmax : Option K) (h0 : Hit K N)
    (edges : List (Edge K)) :
    ((∀ e ∈ edges, ∀ t, EdgeHit x v dmax e t → h0.alpha ≤ t) ∧
      edges.foldl (lineStep nf x v dmax) h0 = h0) ∨
    ∃ pre e post t, edges = pre ++ e :: post ∧ EdgeHit x v dmax e t ∧ t < h0.alpha ∧
      (∀ e' ∈ pre, ∀ t', EdgeHit x v dmax e' t' → t < t') ∧
      (∀ e' ∈ post, ∀ t', EdgeHit x v dmax e' t' → t ≤ t') ∧
      edges.foldl (lineStep nf x v dmax) h0 = ⟨t, e.label, nf e.vt⟩ := by
  induction edges using List.reverseRecOn with
  | nil => left; simp
  | append_singleton l e ih =>
    rw [List.foldl_append]
    simp only [List.foldl_cons, List.foldl_nil]
    rcases ih with ⟨h1, h2⟩ | ⟨pre, e1, post, t, h1, h2, h3, h4, h5, h6⟩
    · rw [h2]
      rcases lineStep_eq nf x v dmax h0 e with ⟨t, ht, hlt, hr⟩ | ⟨hn, hr⟩
      · right
        refine ⟨l, e, [], t, rfl, ht, hlt, fun e' he' t' ht' => lt_of_lt_of_le hlt (h1 e' he' t' ht'),
          by simp, hr⟩
      · left
        refine ⟨fun e' he' => ?_, hr⟩
        rcases List.mem_append.1 he' with h | h
        · exact h1 e' h
        · rw [List.mem_singleton.1 h]; exact hn
    · right
      rw [h6]
      rcases lineStep_eq nf x v dmax ⟨t, e1.label, nf e1.vt⟩ e with ⟨s, hs, hlt, hr⟩ | ⟨hn, hr⟩
      · refine ⟨l, e, [], s, rfl, hs, lt_trans hlt h3, fun e' he' t' ht' => ?_, by simp, hr⟩
        rw [h1, List.mem_append, List.mem_cons] at he'
        rcases he' with h | rfl | h
        · exact lt_trans hlt (h4 e' h t' ht')
        · have : t' = t := by
            obtain ⟨k1, k2⟩ := C25_intersection x v e'.p e'.vt
            obtain ⟨_, _, _, s1, _, _, hs1⟩ := h2
            obtain ⟨hnp, _, _, s2, _, _, hs2⟩ := ht'
            cases hc : intersectionTwoLines x v e'.p e'.vt with
            | none => exact absurd (k1.1 hc) hnp
            | some ab =>
              have := k2 ab.1 ab.2 hc
              rw [((this t s1).1 hs1).1, ((this t' s2).1 hs2).1]
          rw [this]; exact hlt
        · exact lt_of_lt_of_le hlt (h5 e' h t' ht')
      · refine ⟨pre, e1, post ++ [e], t, by simp [h1], h2, h3, h4, fun e' he' => ?_, hr⟩
        rcases List.mem_append.1 he' with h | h
        · exact h5 e' h
        · rw [List.mem_singleton.1 h]; exact hn

/-- C26 (edge lists): `distance_lines` with `dmax < 1e16` gives the smallest parameter at which the
ray crosses an edge of the list, with the label and the normal of the first edge of the list crossed
there; `-1`, label `-1` and the zero normal when no edge is crossed.  Edges parallel to the direction
are not looked at. -/
theorem C26_first_edge {N : Type} (nf : K × K → N) (n0 : N) (x v : K × K) (edges : List (Edge K))
    (m : K) (hm : m < 10 ^ 16) :
    ((∀ e ∈ edges, ∀ t, ¬ EdgeHit x v (some m) e t) ∧
      distanceLines nf n0 x v edges (some m) = ⟨-1, -1, n0⟩) ∨
    ∃ pre e post t, edges = pre ++ e :: post ∧ EdgeHit x v (some m) e t ∧
      (∀ e' ∈ pre, ∀ t', EdgeHit x v (some m) e' t' → t < t') ∧
      (∀ e' ∈ post, ∀ t', EdgeHit x v (some m) e' t' → t ≤ t') ∧
      distanceLines nf n0 x v edges (some m) = ⟨t, e.label, nf e.vt⟩ := by
  have hb : ∀ e t, EdgeHit x v (some m) e t → t < (tgv : K) := fun e t h =>
    lt_of_le_of_lt h.2.2.1 hm
  unfold distanceLines
  rcases fold_lines nf x v (some m) ⟨tgv, -1, n0⟩ edges with ⟨h1, h2⟩ |
    ⟨pre, e, post, t, h1, h2, h3, h4, h5, h6⟩
  · left
    refine ⟨fun e he t ht => absurd (hb e t ht) (not_lt.2 (h1 e he t ht)), ?_⟩
    rw [h2]; simp
  · right
    refine ⟨pre, e, post, t, h1, h2, h4, h5, ?_⟩
    rw [h6]
    simp only
    rw [if_neg (ne_of_lt (hb e t h2))]

/-- The three sides of a triangle seen from `(-1, 1/4)` to the right: the second edge is met at 1. -/
example : (distanceLines (fun w => w) (0, 0) ((-1, 1 / 4) : ℚ × ℚ) (1, 0)
    (triangleEdges ⟨(0, 0), (1, 0), (0, 1)⟩ 5 6 7) (some 2)).alpha = 1 ∧
    (distanceLines (fun w => w) (0, 0) ((-1, 1 / 4) : ℚ × ℚ) (1, 0)
    (triangleEdges ⟨(0, 0), (1, 0), (0, 1)⟩ 5 6 7) (some 2)).border = 6 := by decide +kernel

/-- C26 (normals): the normal of an edge which is not parallel to `v` has unit length, is orthogonal
to the edge and points against `v`. -/
theorem C26_normal (v vt : ℝ × ℝ) (h : ¬ Parallel v vt) :
    (edgeNormal v vt).1 ^ 2 + (edgeNormal v vt).2 ^ 2 = 1 ∧
    (edgeNormal v vt).1 * vt.1 + (edgeNormal v vt).2 * vt.2 = 0 ∧
    (edgeNormal v vt).1 * v.1 + (edgeNormal v vt).2 * v.2 < 0 := by
  unfold Parallel at h
  have hpos : 0 < vt.1 ^ 2 + vt.2 ^ 2 := by
    by_contra hn
    have h1 : vt.1 = 0 := by nlinarith [sq_nonneg vt.1, sq_nonneg vt.2]
    have h2 : vt.2 = 0 := by nlinarith [sq_nonneg vt.1, sq_nonneg vt.2]
    exact h (by rw [h1, h2]; ring)
  have hs := Real.sqrt_pos.2 hpos
  have hsq := Real.sq_sqrt hpos.le
  unfold edgeNormal
  simp only
  set r := Real.sqrt (vt.1 ^ 2 + vt.2 ^ 2) with hr
  refine ⟨?_, ?_, ?_⟩
  · split_ifs
    · field_simp; rw [hsq]; ring
    · field_simp; rw [hsq]; ring
  · split_ifs <;> · field_simp; ring
  · split_ifs with hc
    · have : (1 : ℝ) * vt.2 / r * v.1 + -1 * vt.1 / r * v.2 = (v.1 * vt.2 - v.2 * vt.1) / r := by
        field_simp; ring
      rw [this]
      exact div_neg_of_neg_of_pos (by linarith) hs
    · have hlt : v.2 * vt.1 < v.1 * vt.2 := lt_of_le_of_ne (not_lt.1 hc) (fun h' => h h'.symm)
      have : (-1 : ℝ) * vt.2 / r * v.1 + -(-1) * vt.1 / r * v.2 = (v.2 * vt.1 - v.1 * vt.2) / r := by
        field_simp; ring
      rw [this]
      exact div_neg_of_neg_of_pos (by linarith) hs

example : ¬ Parallel ((1, 0) : ℝ × ℝ) (3, 4) := by norm_num [Parallel]

end Pylbm.Geometry
