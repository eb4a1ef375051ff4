import Verif.Geometry.Lines
/-!
# Triangles and parallelograms: properties C24, C26, C28, C29
-/
set_option linter.unusedSectionVars false
namespace Pylbm.Geometry
open GeometrySpec

variable {K : Type} [Field K] [LinearOrder K] [IsStrictOrderedRing K]

/-! ### Affine constraints along a segment -/

/-- Constraints `0 ≤ a i + t b i`: some fails at 0, all hold at 1.  Then there is a parameter at
which all hold and one is tight. -/
theorem affine_enter {n : Nat} (a b : Fin n → K) (h0 : ∃ i, a i < 0) (h1 : ∀ i, 0 ≤ a i + b i) :
    ∃ t i, 0 < t ∧ t ≤ 1 ∧ a i + t * b i = 0 ∧ ∀ j, 0 ≤ a j + t * b j := by
  obtain ⟨i0, hi0⟩ := h0
  obtain ⟨i, hi, hmax⟩ := Finset.exists_max_image (Finset.univ.filter fun i => a i < 0)
    (fun i => -a i / b i) ⟨i0, by simp [hi0]⟩
  have hai : a i < 0 := by simpa using hi
  have hbi : 0 < b i := by have := h1 i; linarith
  have ht0 : 0 < -a i / b i := div_pos (by linarith) hbi
  have ht1 : -a i / b i ≤ 1 := by rw [div_le_one hbi]; have := h1 i; linarith
  refine ⟨-a i / b i, i, ht0, ht1, by field_simp; ring, fun j => ?_⟩
  by_cases hj : a j < 0
  · have hbj : 0 < b j := by have := h1 j; linarith
    have h2 := hmax j (by simp [hj])
    have h3 := mul_le_mul_of_nonneg_right h2 hbj.le
    rw [div_mul_cancel₀ _ hbj.ne'] at h3
    linarith
  · push Not at hj
    have h2 := h1 j
    by_cases hb : 0 ≤ b j
    · have := mul_nonneg ht0.le hb; linarith
    · push Not at hb
      have := mul_le_mul_of_nonpos_right ht1 hb.le
      linarith

/-- All constraints hold strictly at 0, some fails at 1. -/
theorem affine_exit {n : Nat} (a b : Fin n → K) (h0 : ∀ i, 0 < a i) (h1 : ∃ i, a i + b i < 0) :
    ∃ t i, 0 < t ∧ t ≤ 1 ∧ a i + t * b i = 0 ∧ ∀ j, 0 ≤ a j + t * b j := by
  obtain ⟨i0, hi0⟩ := h1
  obtain ⟨i, hi, hmin⟩ := Finset.exists_min_image (Finset.univ.filter fun i => a i + b i < 0)
    (fun i => a i / -b i) ⟨i0, by simp [hi0]⟩
  have hai : a i + b i < 0 := by simpa using hi
  have hbi : 0 < -b i := by have := h0 i; linarith
  have ht0 : 0 < a i / -b i := div_pos (h0 i) hbi
  have ht1 : a i / -b i ≤ 1 := by rw [div_le_one hbi]; linarith
  refine ⟨a i / -b i, i, ht0, ht1, ?_, fun j => ?_⟩
  · have := div_mul_cancel₀ (a i) hbi.ne'
    linarith
  · by_cases hj : a j + b j < 0
    · have hbj : 0 < -b j := by have := h0 j; linarith
      have h3 := mul_le_mul_of_nonneg_right (hmin j (by simp [hj])) hbj.le
      rw [div_mul_cancel₀ _ hbj.ne'] at h3
      linarith
    · push Not at hj
      have h2 := h0 j
      by_cases hb : 0 ≤ b j
      · have := mul_nonneg ht0.le hb; linarith
      · push Not at hb
        have := mul_le_mul_of_nonpos_right ht1 hb.le
        linarith

/-- A moving number outside of `[0, 1]` which is in `[0, 1]` at `t` passes 0 or 1 before. -/
theorem through_end {f d t : K} (h0 : ¬ (0 ≤ f ∧ f ≤ 1)) (ht : 0 < t)
    (h1 : 0 ≤ f + t * d ∧ f + t * d ≤ 1) :
    d ≠ 0 ∧ ∃ s, 0 < s ∧ s ≤ t ∧ (f + s * d = 0 ∨ f + s * d = 1) := by
  by_cases hf : f < 0
  · have hd : 0 < d := by
      by_contra hd
      push Not at hd
      have := mul_nonpos_of_nonneg_of_nonpos ht.le hd
      linarith [h1.1]
    refine ⟨hd.ne', -f / d, div_pos (by linarith) hd, ?_, Or.inl (by field_simp; ring)⟩
    rw [div_le_iff₀ hd]; linarith [h1.1]
  · have hf1 : 1 < f := by
      by_contra h
      exact h0 ⟨not_lt.1 hf, not_lt.1 h⟩
    have hd : d < 0 := by
      by_contra hd
      push Not at hd
      have := mul_nonneg ht.le hd
      linarith [h1.2]
    refine ⟨hd.ne, (f - 1) / -d, div_pos (by linarith) (by linarith), ?_, Or.inr ?_⟩
    · rw [div_le_iff₀ (by linarith)]; linarith [h1.2]
    · have := div_mul_cancel₀ (f - 1) (show -d ≠ 0 by simpa using hd.ne)
      linarith

/-! ### Coordinates in the frame of the polygon -/

/-- Determinant of the two vectors. -/
def Quad.det (q : Quad K) : K := q.v1.1 * q.v2.2 - q.v1.2 * q.v2.1

theorem bary_comb {q : Quad K} (hq : q.det ≠ 0) (y : K × K) (a b : K) :
    q.bary y = (a, b) ↔ y = comb2 q.point q.v1 q.v2 a b := by
  have hq' : q.v1.1 * q.v2.2 - q.v1.2 * q.v2.1 ≠ 0 := hq
  unfold Quad.bary comb2
  simp only [Prod.mk.injEq, one_div]
  constructor
  · rintro ⟨h1, h2⟩
    rw [mul_inv_eq_iff_eq_mul₀ hq'] at h1 h2
    refine Prod.ext ?_ ?_
    · apply mul_right_cancel₀ hq'; simp only; linear_combination q.v1.1 * h1 + q.v2.1 * h2
    · apply mul_right_cancel₀ hq'; simp only; linear_combination q.v1.2 * h1 + q.v2.2 * h2
  · rintro rfl
    rw [mul_inv_eq_iff_eq_mul₀ hq', mul_inv_eq_iff_eq_mul₀ hq']
    constructor <;> ring

/-- The direction `v` in the frame of the polygon. -/
def Quad.dir (q : Quad K) (v : K × K) : K × K :=
  ((v.1 * q.v2.2 - v.2 * q.v2.1) * (q.det)⁻¹, (v.2 * q.v1.1 - v.1 * q.v1.2) * (q.det)⁻¹)

theorem bary_along {q : Quad K} (x v : K × K) (t : K) :
    q.bary (along x v t) = ((q.bary x).1 + t * (q.dir v).1, (q.bary x).2 + t * (q.dir v).2) := by
  unfold Quad.bary along Quad.dir Quad.det
  simp only [one_div, Prod.mk.injEq]
  constructor <;> ring

theorem dir_mul {q : Quad K} (hq : q.det ≠ 0) (v : K × K) :
    (q.dir v).1 * q.det = v.1 * q.v2.2 - v.2 * q.v2.1 ∧
    (q.dir v).2 * q.det = v.2 * q.v1.1 - v.1 * q.v1.2 := by
  unfold Quad.dir
  exact ⟨inv_mul_cancel_right₀ hq _, inv_mul_cancel_right₀ hq _⟩

/-- The parallel test in the frame. -/
theorem parallel_frame {q : Quad K} (hq : q.det ≠ 0) (v : K × K) (da db : K) :
    Parallel v (da * q.v1.1 + db * q.v2.1, da * q.v1.2 + db * q.v2.2) ↔
      (q.dir v).1 * db = (q.dir v).2 * da := by
  obtain ⟨h1, h2⟩ := dir_mul hq v
  unfold Parallel
  constructor
  · intro h
    apply mul_right_cancel₀ hq
    simp only at h
    linear_combination db * h1 - da * h2 + h
  · intro h
    simp only
    have : (q.dir v).1 * db * q.det = (q.dir v).2 * da * q.det := by rw [h]
    linear_combination (-db) * h1 + da * h2 + this

/-- A hit of an edge given by its frame coordinates. -/
theorem edgeHit_frame {q : Quad K} (hq : q.det ≠ 0) (x v : K × K) (m : K) (e : Edge K)
    (a0 b0 da db : K) (hp : e.p = (a0 * q.v1.1 + b0 * q.v2.1, a0 * q.v1.2 + b0 * q.v2.2))
    (hvt : e.vt = (da * q.v1.1 + db * q.v2.1, da * q.v1.2 + db * q.v2.2)) (t : K) :
    EdgeHit (x.1 - q.point.1, x.2 - q.point.2) v (some m) e t ↔
      (q.dir v).1 * db ≠ (q.dir v).2 * da ∧ 0 < t ∧ t ≤ m ∧
        ∃ s, 0 ≤ s ∧ s ≤ 1 ∧ q.bary (along x v t) = (a0 + s * da, b0 + s * db) := by
  unfold EdgeHit
  rw [hvt, parallel_frame hq, hp]
  refine and_congr_right fun _ => and_congr_right fun _ => and_congr Iff.rfl ?_
  unfold GeometrySpec.segment
  simp only [Set.mem_ofPred_eq]
  refine exists_congr fun s => and_congr_right fun _ => and_congr_right fun _ => ?_
  rw [bary_comb hq]
  unfold along comb2
  simp only [Prod.mk.injEq]
  constructor
  · rintro ⟨h1, h2⟩; constructor <;> linarith
  · rintro ⟨h1, h2⟩; constructor <;> linarith

/-! ### C28: the inside tests -/

/-- C28 (triangle): `point_inside` is membership in the triangle, sides included. -/
theorem C28_triangle_inside (q : Quad K) (hq : q.v1.1 * q.v2.2 - q.v1.2 * q.v2.1 ≠ 0) (y : K × K) :
    triangleInside q y = true ↔ y ∈ triangle q.point q.v1 q.v2 := by
  have h := bary_comb (q := q) hq y
  unfold triangleInside triangle
  simp only [Bool.and_eq_true, decide_eq_true_eq, ge_iff_le, Set.mem_ofPred_eq]
  constructor
  · rintro ⟨⟨h1, h2⟩, h3⟩
    exact ⟨_, _, h1, h2, h3, (h _ _).1 rfl⟩
  · rintro ⟨a, b, h1, h2, h3, h4⟩
    rw [(h a b).2 h4]; exact ⟨⟨h1, h2⟩, h3⟩

/-- C28 (parallelogram): `point_inside` is membership in the parallelogram, sides included. -/
theorem C28_parallelogram_inside (q : Quad K) (hq : q.v1.1 * q.v2.2 - q.v1.2 * q.v2.1 ≠ 0)
    (y : K × K) : parallelogramInside q y = true ↔ y ∈ parallelogram q.point q.v1 q.v2 := by
  have h := bary_comb (q := q) hq y
  unfold parallelogramInside parallelogram
  simp only [Bool.and_eq_true, decide_eq_true_eq, ge_iff_le, Set.mem_ofPred_eq]
  constructor
  · rintro ⟨⟨h1, h2⟩, h3, h4⟩
    exact ⟨_, _, ⟨h1, h3⟩, ⟨h2, h4⟩, (h _ _).1 rfl⟩
  · rintro ⟨a, b, h1, h2, h4⟩
    rw [(h a b).2 h4]; exact ⟨⟨h1.1, h2.1⟩, h1.2, h2.2⟩

/-- A slanted pair of vectors. -/
def exampleQuad : Quad ℚ := ⟨(1, 1), (2, 1), (-1, 1)⟩

example : exampleQuad.v1.1 * exampleQuad.v2.2 - exampleQuad.v1.2 * exampleQuad.v2.1 ≠ 0 ∧
    triangleInside exampleQuad (1, 2) = true ∧ triangleInside exampleQuad (2, 3) = false ∧
    parallelogramInside exampleQuad (2, 3) = true ∧
    parallelogramInside exampleQuad (0, 0) = false := by decide +kernel

/-! ### C29: the bounds -/

theorem between_corners (p a b s t : K) (hs : 0 ≤ s ∧ s ≤ 1) (ht : 0 ≤ t ∧ t ≤ 1) :
    min (min (min p (p + a)) (p + a + b)) (p + b) ≤ p + s * a + t * b ∧
    p + s * a + t * b ≤ max (max (max p (p + a)) (p + a + b)) (p + b) := by
  have h1 : (0 ⊓ a : K) ≤ s * a ∧ s * a ≤ 0 ⊔ a := by
    rcases le_total 0 a with h | h
    · rw [inf_eq_left.2 h, sup_eq_right.2 h]
      exact ⟨mul_nonneg hs.1 h, by have := mul_le_mul_of_nonneg_right hs.2 h; linarith⟩
    · rw [inf_eq_right.2 h, sup_eq_left.2 h]
      exact ⟨by have := mul_le_mul_of_nonpos_right hs.2 h; linarith,
        mul_nonpos_of_nonneg_of_nonpos hs.1 h⟩
  have h2 : (0 ⊓ b : K) ≤ t * b ∧ t * b ≤ 0 ⊔ b := by
    rcases le_total 0 b with h | h
    · rw [inf_eq_left.2 h, sup_eq_right.2 h]
      exact ⟨mul_nonneg ht.1 h, by have := mul_le_mul_of_nonneg_right ht.2 h; linarith⟩
    · rw [inf_eq_right.2 h, sup_eq_left.2 h]
      exact ⟨by have := mul_le_mul_of_nonpos_right ht.2 h; linarith,
        mul_nonpos_of_nonneg_of_nonpos ht.1 h⟩
  constructor
  · have e1 : min (min (min p (p + a)) (p + a + b)) (p + b) ≤ p :=
      (min_le_left _ _).trans ((min_le_left _ _).trans (min_le_left _ _))
    have e2 : min (min (min p (p + a)) (p + a + b)) (p + b) ≤ p + a :=
      (min_le_left _ _).trans ((min_le_left _ _).trans (min_le_right _ _))
    have e3 : min (min (min p (p + a)) (p + a + b)) (p + b) ≤ p + a + b :=
      (min_le_left _ _).trans (min_le_right _ _)
    have e4 : min (min (min p (p + a)) (p + a + b)) (p + b) ≤ p + b := min_le_right _ _
    rcases le_total 0 a with ha | ha <;> rcases le_total 0 b with hb | hb <;>
      simp only [inf_eq_left.2, inf_eq_right.2, ha, hb] at h1 h2 <;> linarith [h1.1, h2.1]
  · have e1 : p ≤ max (max (max p (p + a)) (p + a + b)) (p + b) :=
      (le_max_left _ _).trans ((le_max_left _ _).trans (le_max_left _ _))
    have e2 : p + a ≤ max (max (max p (p + a)) (p + a + b)) (p + b) :=
      (le_max_right _ _).trans ((le_max_left _ _).trans (le_max_left _ _))
    have e3 : p + a + b ≤ max (max (max p (p + a)) (p + a + b)) (p + b) :=
      (le_max_right _ _).trans (le_max_left _ _)
    have e4 : p + b ≤ max (max (max p (p + a)) (p + a + b)) (p + b) := le_max_right _ _
    rcases le_total 0 a with ha | ha <;> rcases le_total 0 b with hb | hb <;>
      simp only [sup_eq_left.2, sup_eq_right.2, ha, hb] at h1 h2 <;> linarith [h1.2, h2.2]

theorem parallelogram_bounds (q : Quad K) (y : K × K) (h : y ∈ parallelogram q.point q.v1 q.v2) :
    InBox q.bounds y := by
  obtain ⟨a, b, ha, hb, rfl⟩ := h
  have h1 := between_corners q.point.1 q.v1.1 q.v2.1 a b ha hb
  have h2 := between_corners q.point.2 q.v1.2 q.v2.2 a b ha hb
  exact ⟨h1.1, h1.2, h2.1, h2.2⟩

theorem triangle_sub (p v1 v2 : K × K) : triangle p v1 v2 ⊆ parallelogram p v1 v2 := by
  rintro y ⟨a, b, ha, hb, hab, rfl⟩
  exact ⟨a, b, ⟨ha, by linarith⟩, ⟨hb, by linarith⟩, rfl⟩

/-- C29 (parallelogram). -/
theorem C29_parallelogram_bounds (q : Quad K) (hq : q.v1.1 * q.v2.2 - q.v1.2 * q.v2.1 ≠ 0)
    (y : K × K) (h : parallelogramInside q y = true) : InBox q.bounds y :=
  parallelogram_bounds q y ((C28_parallelogram_inside q hq y).1 h)

/-- C29 (triangle). -/
theorem C29_triangle_bounds (q : Quad K) (hq : q.v1.1 * q.v2.2 - q.v1.2 * q.v2.1 ≠ 0)
    (y : K × K) (h : triangleInside q y = true) : InBox q.bounds y :=
  parallelogram_bounds q y (triangle_sub _ _ _ ((C28_triangle_inside q hq y).1 h))

example : exampleQuad.bounds = ((0, 1), (3, 3)) := by decide +kernel

/-! ### C26: the distance to the sides -/

theorem sides_of_bary {q : Quad K} (hq : q.det ≠ 0) (y : K × K) :
    y ∈ parallelogramSides q.point q.v1 q.v2 ↔
      (0 ≤ (q.bary y).1 ∧ (q.bary y).1 ≤ 1) ∧ (0 ≤ (q.bary y).2 ∧ (q.bary y).2 ≤ 1) ∧
      ((q.bary y).1 = 0 ∨ (q.bary y).1 = 1 ∨ (q.bary y).2 = 0 ∨ (q.bary y).2 = 1) := by
  constructor
  · rintro ⟨a, b, ha, hb, hs, hy⟩
    rw [(bary_comb hq y a b).2 hy]; exact ⟨ha, hb, hs⟩
  · rintro ⟨ha, hb, hs⟩
    exact ⟨_, _, ha, hb, hs, (bary_comb hq y _ _).1 rfl⟩

theorem triangleSides_of_bary {q : Quad K} (hq : q.det ≠ 0) (y : K × K) :
    y ∈ triangleSides q.point q.v1 q.v2 ↔
      0 ≤ (q.bary y).1 ∧ 0 ≤ (q.bary y).2 ∧ (q.bary y).1 + (q.bary y).2 ≤ 1 ∧
      ((q.bary y).1 = 0 ∨ (q.bary y).2 = 0 ∨ (q.bary y).1 + (q.bary y).2 = 1) := by
  constructor
  · rintro ⟨a, b, ha, hb, hab, hs, hy⟩
    rw [(bary_comb hq y a b).2 hy]; exact ⟨ha, hb, hab, hs⟩
  · rintro ⟨ha, hb, hab, hs⟩
    exact ⟨_, _, ha, hb, hab, hs, (bary_comb hq y _ _).1 rfl⟩

/-- When every hit of `S` comes after a transversal hit of an edge, and the edges are in `S`, the
distance to the edges is the distance to `S`. -/
theorem isDistance_of_edges {N : Type} (nf : K × K → N) (n0 : N) (q : Quad K) (edges : List (Edge K))
    (x v : K × K) (m : K) (hm : m < 10 ^ 16) (S : Set (K × K))
    (h1 : ∀ e ∈ edges, ∀ t, EdgeHit (x.1 - q.point.1, x.2 - q.point.2) v (some m) e t →
      along x v t ∈ S)
    (h2 : ∀ t ∈ hits x v m S, ∃ e ∈ edges, ∃ t' ≤ t,
      EdgeHit (x.1 - q.point.1, x.2 - q.point.2) v (some m) e t') :
    IsDistance (q.distance nf n0 edges x v (some m)).alpha (hits x v m S) := by
  unfold Quad.distance
  rcases C26_first_edge nf n0 (x.1 - q.point.1, x.2 - q.point.2) v edges m hm with ⟨h3, h4⟩ |
    ⟨pre, e, post, t, h3, h4, h5, h6, h7⟩
  · right
    refine ⟨?_, by rw [h4]⟩
    ext t
    simp only [Set.mem_empty_iff_false, iff_false]
    intro ht
    obtain ⟨e, he, t', _, ht'⟩ := h2 t ht
    exact h3 e he t' ht'
  · left
    rw [h7]
    have hmem : ∀ e' ∈ edges, ∀ t', EdgeHit (x.1 - q.point.1, x.2 - q.point.2) v (some m) e' t' →
        t ≤ t' := by
      intro e' he' t' ht'
      rw [h3, List.mem_append, List.mem_cons] at he'
      rcases he' with h | rfl | h
      · exact (h5 e' h t' ht').le
      · have : t' = t := by
          obtain ⟨k1, k2⟩ := C25_intersection (x.1 - q.point.1, x.2 - q.point.2) v e'.p e'.vt
          obtain ⟨_, _, _, s1, _, _, hs1⟩ := h4
          obtain ⟨hnp, _, _, s2, _, _, hs2⟩ := ht'
          cases hc : intersectionTwoLines (x.1 - q.point.1, x.2 - q.point.2) v e'.p e'.vt with
          | none => exact absurd (k1.1 hc) hnp
          | some ab =>
            have := k2 ab.1 ab.2 hc
            rw [((this t s1).1 hs1).1, ((this t' s2).1 hs2).1]
        exact this.ge
      · exact h6 e' h t' ht'
    refine ⟨⟨h4.2.1, h4.2.2.1, h1 e (by rw [h3]; simp) t h4⟩, fun t' ht' => ?_⟩
    obtain ⟨e', he', s, hs, hs'⟩ := h2 t' ht'
    exact (hmem e' he' s hs').trans hs

/-- The distance for any list of the four sides. -/
theorem parallelogram_distance {N : Type} (nf : K × K → N) (n0 : N) (q : Quad K)
    (hq : q.v1.1 * q.v2.2 - q.v1.2 * q.v2.1 ≠ 0) (l0 l1 l2 l3 : Int) (edges : List (Edge K))
    (hmem : ∀ e, e ∈ edges ↔ e = ⟨(0, 0), q.v1, l0⟩ ∨ e = ⟨(0, 0), q.v2, l1⟩ ∨
      e = ⟨q.v2, q.v1, l2⟩ ∨ e = ⟨q.v1, q.v2, l3⟩) (x v : K × K) (m : K)
    (hm : m < 10 ^ 16) (hx : x ∉ parallelogramSides q.point q.v1 q.v2) :
    IsDistance (q.distance nf n0 edges x v (some m)).alpha
      (hits x v m (parallelogramSides q.point q.v1 q.v2)) := by
  have hq' : q.det ≠ 0 := hq
  have e0 := edgeHit_frame hq' x v m ⟨(0, 0), q.v1, l0⟩ 0 0 1 0 (by simp) (by simp)
  have e1 := edgeHit_frame hq' x v m ⟨(0, 0), q.v2, l1⟩ 0 0 0 1 (by simp) (by simp)
  have e2 := edgeHit_frame hq' x v m ⟨q.v2, q.v1, l2⟩ 0 1 1 0 (by simp) (by simp)
  have e3 := edgeHit_frame hq' x v m ⟨q.v1, q.v2, l3⟩ 1 0 0 1 (by simp) (by simp)
  simp only [mul_zero, mul_one, zero_add, add_zero] at e0 e1 e2 e3
  apply isDistance_of_edges nf n0 q _ x v m hm
  · intro e he t ht
    rw [sides_of_bary hq']
    rw [hmem] at he
    rcases he with rfl | rfl | rfl | rfl
    · obtain ⟨_, _, _, s, s0, s1, hs⟩ := (e0 t).1 ht
      rw [hs]; simp [s0, s1]
    · obtain ⟨_, _, _, s, s0, s1, hs⟩ := (e1 t).1 ht
      rw [hs]; simp [s0, s1]
    · obtain ⟨_, _, _, s, s0, s1, hs⟩ := (e2 t).1 ht
      rw [hs]; simp [s0, s1]
    · obtain ⟨_, _, _, s, s0, s1, hs⟩ := (e3 t).1 ht
      rw [hs]; simp [s0, s1]
  · rintro t ⟨t0, tm, hS⟩
    rw [sides_of_bary hq', bary_along] at hS
    rw [sides_of_bary hq'] at hx
    simp only at hS
    have E0 : ∀ t', 0 < t' → t' ≤ t → (q.dir v).2 ≠ 0 →
        0 ≤ (q.bary x).1 + t' * (q.dir v).1 → (q.bary x).1 + t' * (q.dir v).1 ≤ 1 →
        (q.bary x).2 + t' * (q.dir v).2 = 0 → ∃ e ∈ edges, ∃ t' ≤ t,
          EdgeHit (x.1 - q.point.1, x.2 - q.point.2) v (some m) e t' := by
      intro t' a b c d f g
      exact ⟨_, (hmem _).2 (by simp), t', b, (e0 t').2 ⟨fun h => c h.symm, a, b.trans tm, _, d, f,
        by rw [bary_along, g]⟩⟩
    have E2 : ∀ t', 0 < t' → t' ≤ t → (q.dir v).2 ≠ 0 →
        0 ≤ (q.bary x).1 + t' * (q.dir v).1 → (q.bary x).1 + t' * (q.dir v).1 ≤ 1 →
        (q.bary x).2 + t' * (q.dir v).2 = 1 → ∃ e ∈ edges, ∃ t' ≤ t,
          EdgeHit (x.1 - q.point.1, x.2 - q.point.2) v (some m) e t' := by
      intro t' a b c d f g
      exact ⟨_, (hmem _).2 (by simp), t', b, (e2 t').2 ⟨fun h => c h.symm, a, b.trans tm, _, d, f,
        by rw [bary_along, g]⟩⟩
    have E1 : ∀ t', 0 < t' → t' ≤ t → (q.dir v).1 ≠ 0 →
        0 ≤ (q.bary x).2 + t' * (q.dir v).2 → (q.bary x).2 + t' * (q.dir v).2 ≤ 1 →
        (q.bary x).1 + t' * (q.dir v).1 = 0 → ∃ e ∈ edges, ∃ t' ≤ t,
          EdgeHit (x.1 - q.point.1, x.2 - q.point.2) v (some m) e t' := by
      intro t' a b c d f g
      exact ⟨_, (hmem _).2 (by simp), t', b, (e1 t').2 ⟨c, a, b.trans tm, _, d, f,
        by rw [bary_along, g]⟩⟩
    have E3 : ∀ t', 0 < t' → t' ≤ t → (q.dir v).1 ≠ 0 →
        0 ≤ (q.bary x).2 + t' * (q.dir v).2 → (q.bary x).2 + t' * (q.dir v).2 ≤ 1 →
        (q.bary x).1 + t' * (q.dir v).1 = 1 → ∃ e ∈ edges, ∃ t' ≤ t,
          EdgeHit (x.1 - q.point.1, x.2 - q.point.2) v (some m) e t' := by
      intro t' a b c d f g
      exact ⟨_, (hmem _).2 (by simp), t', b, (e3 t').2 ⟨c, a, b.trans tm, _, d, f,
        by rw [bary_along, g]⟩⟩
    obtain ⟨hu, hw, hS⟩ := hS
    rcases hS with h | h | h | h
    · by_cases hd : (q.dir v).1 = 0
      · rw [hd, mul_zero, add_zero] at h
        have hn : ¬ (0 ≤ (q.bary x).2 ∧ (q.bary x).2 ≤ 1) := by
          intro hn; apply hx; rw [h]; simp [hn]
        obtain ⟨hne, s, s0, s1, h3 | h3⟩ := through_end hn t0 hw
        · exact E0 s s0 s1 hne (by rw [hd, h]; simp) (by rw [hd, h]; simp) h3
        · exact E2 s s0 s1 hne (by rw [hd, h]; simp) (by rw [hd, h]; simp) h3
      · exact E1 t t0 le_rfl hd hw.1 hw.2 h
    · by_cases hd : (q.dir v).1 = 0
      · rw [hd, mul_zero, add_zero] at h
        have hn : ¬ (0 ≤ (q.bary x).2 ∧ (q.bary x).2 ≤ 1) := by
          intro hn; apply hx; rw [h]; simp [hn]
        obtain ⟨hne, s, s0, s1, h3 | h3⟩ := through_end hn t0 hw
        · exact E0 s s0 s1 hne (by rw [hd, h]; simp) (by rw [hd, h]; simp) h3
        · exact E2 s s0 s1 hne (by rw [hd, h]; simp) (by rw [hd, h]; simp) h3
      · exact E3 t t0 le_rfl hd hw.1 hw.2 h
    · by_cases hd : (q.dir v).2 = 0
      · rw [hd, mul_zero, add_zero] at h
        have hn : ¬ (0 ≤ (q.bary x).1 ∧ (q.bary x).1 ≤ 1) := by
          intro hn; apply hx; rw [h]; simp [hn]
        obtain ⟨hne, s, s0, s1, h3 | h3⟩ := through_end hn t0 hu
        · exact E1 s s0 s1 hne (by rw [hd, h]; simp) (by rw [hd, h]; simp) h3
        · exact E3 s s0 s1 hne (by rw [hd, h]; simp) (by rw [hd, h]; simp) h3
      · exact E0 t t0 le_rfl hd hu.1 hu.2 h
    · by_cases hd : (q.dir v).2 = 0
      · rw [hd, mul_zero, add_zero] at h
        have hn : ¬ (0 ≤ (q.bary x).1 ∧ (q.bary x).1 ≤ 1) := by
          intro hn; apply hx; rw [h]; simp [hn]
        obtain ⟨hne, s, s0, s1, h3 | h3⟩ := through_end hn t0 hu
        · exact E1 s s0 s1 hne (by rw [hd, h]; simp) (by rw [hd, h]; simp) h3
        · exact E3 s s0 s1 hne (by rw [hd, h]; simp) (by rw [hd, h]; simp) h3
      · exact E2 t t0 le_rfl hd hu.1 hu.2 h

/-- C26 (parallelogram): from a point which is not on the sides, `distance` is the smallest
parameter in `(0, dmax]` at which the ray is on a side, `-1` when there is none. -/
theorem C26_parallelogram_distance {N : Type} (nf : K × K → N) (n0 : N) (q : Quad K)
    (hq : q.v1.1 * q.v2.2 - q.v1.2 * q.v2.1 ≠ 0) (l0 l1 l2 l3 : Int) (x v : K × K) (m : K)
    (hm : m < 10 ^ 16) (hx : x ∉ parallelogramSides q.point q.v1 q.v2) :
    IsDistance (q.distance nf n0 (parallelogramEdges q l0 l1 l2 l3) x v (some m)).alpha
      (hits x v m (parallelogramSides q.point q.v1 q.v2)) :=
  parallelogram_distance nf n0 q hq l0 l1 l2 l3 _ (by simp [parallelogramEdges]) x v m hm hx

/-- C26 (triangle): from a point which is not on the sides, `distance` is the smallest
parameter in `(0, dmax]` at which the ray is on a side, `-1` when there is none. -/
theorem C26_triangle_distance {N : Type} (nf : K × K → N) (n0 : N) (q : Quad K)
    (hq : q.v1.1 * q.v2.2 - q.v1.2 * q.v2.1 ≠ 0) (l0 l1 l2 : Int) (x v : K × K) (m : K)
    (hm : m < 10 ^ 16) (hx : x ∉ triangleSides q.point q.v1 q.v2) :
    IsDistance (q.distance nf n0 (triangleEdges q l0 l1 l2) x v (some m)).alpha
      (hits x v m (triangleSides q.point q.v1 q.v2)) := by
  have hq' : q.det ≠ 0 := hq
  have e0 := edgeHit_frame hq' x v m ⟨(0, 0), q.v1, l0⟩ 0 0 1 0 (by simp) (by simp)
  have e1 := edgeHit_frame hq' x v m ⟨(0, 0), q.v2, l1⟩ 0 0 0 1 (by simp) (by simp)
  have e2 := edgeHit_frame hq' x v m ⟨q.v1, (q.v2.1 - q.v1.1, q.v2.2 - q.v1.2), l2⟩ 1 0 (-1) 1
    (by simp) (by simp only [Prod.mk.injEq]; constructor <;> ring)
  simp only [mul_zero, mul_one, zero_add, add_zero] at e0 e1 e2
  apply isDistance_of_edges nf n0 q _ x v m hm
  · intro e he t ht
    rw [triangleSides_of_bary hq']
    simp only [triangleEdges, List.mem_cons, List.not_mem_nil, or_false] at he
    rcases he with rfl | rfl | rfl
    · obtain ⟨_, _, _, s, s0, s1, hs⟩ := (e0 t).1 ht
      rw [hs]; simp [s0, s1]
    · obtain ⟨_, _, _, s, s0, s1, hs⟩ := (e1 t).1 ht
      rw [hs]; simp [s0, s1]
    · obtain ⟨_, _, _, s, s0, s1, hs⟩ := (e2 t).1 ht
      rw [hs]; simp [s0, s1]
  · rintro t ⟨t0, tm, hS⟩
    rw [triangleSides_of_bary hq', bary_along] at hS
    rw [triangleSides_of_bary hq'] at hx
    simp only at hS
    have E0 : ∀ t', 0 < t' → t' ≤ t → (q.dir v).2 ≠ 0 →
        0 ≤ (q.bary x).1 + t' * (q.dir v).1 → (q.bary x).1 + t' * (q.dir v).1 ≤ 1 →
        (q.bary x).2 + t' * (q.dir v).2 = 0 → ∃ e ∈ triangleEdges q l0 l1 l2, ∃ t' ≤ t,
          EdgeHit (x.1 - q.point.1, x.2 - q.point.2) v (some m) e t' := by
      intro t' a b c d f g
      exact ⟨_, by simp [triangleEdges], t', b, (e0 t').2 ⟨fun h => c h.symm, a, b.trans tm, _, d, f,
        by rw [bary_along, g]⟩⟩
    have E1 : ∀ t', 0 < t' → t' ≤ t → (q.dir v).1 ≠ 0 →
        0 ≤ (q.bary x).2 + t' * (q.dir v).2 → (q.bary x).2 + t' * (q.dir v).2 ≤ 1 →
        (q.bary x).1 + t' * (q.dir v).1 = 0 → ∃ e ∈ triangleEdges q l0 l1 l2, ∃ t' ≤ t,
          EdgeHit (x.1 - q.point.1, x.2 - q.point.2) v (some m) e t' := by
      intro t' a b c d f g
      exact ⟨_, by simp [triangleEdges], t', b, (e1 t').2 ⟨c, a, b.trans tm, _, d, f,
        by rw [bary_along, g]⟩⟩
    have E2 : ∀ t', 0 < t' → t' ≤ t → (q.dir v).1 + (q.dir v).2 ≠ 0 →
        0 ≤ (q.bary x).2 + t' * (q.dir v).2 → (q.bary x).2 + t' * (q.dir v).2 ≤ 1 →
        (q.bary x).1 + t' * (q.dir v).1 + ((q.bary x).2 + t' * (q.dir v).2) = 1 →
        ∃ e ∈ triangleEdges q l0 l1 l2, ∃ t' ≤ t,
          EdgeHit (x.1 - q.point.1, x.2 - q.point.2) v (some m) e t' := by
      intro t' a b c d f g
      refine ⟨_, by simp [triangleEdges], t', b, (e2 t').2 ⟨fun h => c (by linarith), a,
        b.trans tm, _, d, f, ?_⟩⟩
      rw [bary_along]
      exact Prod.ext (by simp only; linarith) rfl
    obtain ⟨hu, hw, huw, hS⟩ := hS
    rcases hS with h | h | h
    · by_cases hd : (q.dir v).1 = 0
      · have h' := h
        rw [hd, mul_zero, add_zero] at h
        have hn : ¬ (0 ≤ (q.bary x).2 ∧ (q.bary x).2 ≤ 1) := by
          intro hn; apply hx; rw [h]; simp [hn]
        obtain ⟨hne, s, s0, s1, h3 | h3⟩ := through_end hn t0 ⟨hw, by linarith⟩
        · exact E0 s s0 s1 hne (by rw [hd, h]; simp) (by rw [hd, h]; simp) h3
        · exact E2 s s0 s1 (by rw [hd, zero_add]; exact hne) (by rw [h3]; simp) (by rw [h3])
            (by rw [h3, hd, h]; simp)
      · exact E1 t t0 le_rfl hd hw (by linarith) h
    · by_cases hd : (q.dir v).2 = 0
      · rw [hd, mul_zero, add_zero] at h
        have hn : ¬ (0 ≤ (q.bary x).1 ∧ (q.bary x).1 ≤ 1) := by
          intro hn; apply hx; rw [h]; simp [hn]
        obtain ⟨hne, s, s0, s1, h3 | h3⟩ := through_end hn t0 ⟨hu, by linarith⟩
        · exact E1 s s0 s1 hne (by rw [hd, h]; simp) (by rw [hd, h]; simp) h3
        · exact E2 s s0 s1 (by rw [hd, add_zero]; exact hne) (by rw [hd, h]; simp)
            (by rw [hd, h]; simp) (by rw [h3, hd, h]; simp)
      · exact E0 t t0 le_rfl hd hu (by linarith) h
    · by_cases hd : (q.dir v).1 + (q.dir v).2 = 0
      · have hsum : (q.bary x).1 + (q.bary x).2 = 1 := by
          have : t * ((q.dir v).1 + (q.dir v).2) = 0 := by rw [hd, mul_zero]
          linarith
        have hn : ¬ (0 ≤ (q.bary x).2 ∧ (q.bary x).2 ≤ 1) := by
          intro hn; apply hx
          exact ⟨by linarith, hn.1, by linarith, Or.inr (Or.inr hsum)⟩
        have hsum' : ∀ s, (q.bary x).1 + s * (q.dir v).1 + ((q.bary x).2 + s * (q.dir v).2) = 1 := by
          intro s
          have : s * ((q.dir v).1 + (q.dir v).2) = 0 := by rw [hd, mul_zero]
          linarith
        obtain ⟨hne, s, s0, s1, h3 | h3⟩ := through_end hn t0 ⟨hw, by linarith⟩
        · exact E0 s s0 s1 hne (by have := hsum' s; linarith) (by have := hsum' s; linarith) h3
        · exact E1 s s0 s1 (by intro h0; exact hne (by linarith)) (by rw [h3]; simp) (by rw [h3])
            (by have := hsum' s; linarith)
      · exact E2 t t0 le_rfl hd hw (by linarith) h

example : ((-1, 1) : ℚ × ℚ) ∉ parallelogramSides exampleQuad.point exampleQuad.v1 exampleQuad.v2 ∧
    (exampleQuad.distance (fun w => w) (0, 0) (parallelogramEdges exampleQuad 1 2 3 4) (-1, 1) (1, 1 / 3)
      (some 2)).alpha = 3 / 2 := by
  refine ⟨?_, by decide +kernel⟩
  rw [sides_of_bary (by decide +kernel)]
  decide +kernel

/-! ### C24: links through the sides are seen -/

theorem seen_of_hit {a m : K} {x v : K × K} {S : Set (K × K)} (h : IsDistance a (hits x v m S))
    (hne : (hits x v m S).Nonempty) : 0 < a ∧ a ≤ m ∧ along x v a ∈ S := by
  rcases h with h | ⟨h, _⟩
  · exact h.1
  · rw [h] at hne; exact absurd hne Set.not_nonempty_empty

/-- C24 (parallelogram): a link which enters the parallelogram is seen, at a point of its sides. -/
theorem C24_parallelogram_enter {N : Type} (nf : K × K → N) (n0 : N) (q : Quad K)
    (hq : q.v1.1 * q.v2.2 - q.v1.2 * q.v2.1 ≠ 0) (l0 l1 l2 l3 : Int) (x v : K × K)
    (hout : parallelogramInside q x = false)
    (hin : parallelogramInside q (x.1 + v.1, x.2 + v.2) = true) :
    let a := (q.distance nf n0 (parallelogramEdges q l0 l1 l2 l3) x v (some 1)).alpha
    0 < a ∧ a ≤ 1 ∧ along x v a ∈ parallelogramSides q.point q.v1 q.v2 := by
  have hq' : q.det ≠ 0 := hq
  have hx : x ∉ parallelogramSides q.point q.v1 q.v2 := by
    rintro ⟨a, b, ha, hb, _, hy⟩
    have := (C28_parallelogram_inside q hq x).2 ⟨a, b, ha, hb, hy⟩
    rw [hout] at this; exact absurd this (by simp)
  refine seen_of_hit (C26_parallelogram_distance nf n0 q hq l0 l1 l2 l3 x v 1 (by norm_num) hx) ?_
  have e1 : ((x.1 + v.1, x.2 + v.2) : K × K) = along x v 1 := by simp [along]
  rw [e1] at hin
  unfold parallelogramInside at hin hout
  rw [bary_along] at hin
  simp only [Bool.and_eq_true, decide_eq_true_eq, ge_iff_le, one_mul, Bool.and_eq_false_iff,
    decide_eq_false_iff_not, not_le] at hin hout
  obtain ⟨t, i, t0, t1, hi, hall⟩ := affine_enter
    ![(q.bary x).1, (q.bary x).2, 1 - (q.bary x).1, 1 - (q.bary x).2]
    ![(q.dir v).1, (q.dir v).2, -(q.dir v).1, -(q.dir v).2]
    (by
      rcases hout with (h | h) | (h | h)
      · exact ⟨0, by simpa using h⟩
      · exact ⟨1, by simpa using h⟩
      · exact ⟨2, by simpa using h⟩
      · exact ⟨3, by simpa using h⟩)
    (by
      intro i
      fin_cases i <;> simp <;> linarith [hin.1.1, hin.1.2, hin.2.1, hin.2.2])
  have c0 := hall 0
  have c1 := hall 1
  have c2 := hall 2
  have c3 := hall 3
  simp at c0 c1 c2 c3
  refine ⟨t, t0, t1, ?_⟩
  rw [sides_of_bary hq', bary_along]
  refine ⟨⟨c0, by simp only; linarith⟩, ⟨c1, by simp only; linarith⟩, ?_⟩
  fin_cases i <;> simp at hi
  · exact Or.inl hi
  · exact Or.inr (Or.inr (Or.inl hi))
  · exact Or.inr (Or.inl (by simp only; linarith))
  · exact Or.inr (Or.inr (Or.inr (by simp only; linarith)))

/-- C24 (parallelogram): a link which leaves the parallelogram from a point which is not on its
sides is seen, at a point of its sides. -/
theorem C24_parallelogram_leave {N : Type} (nf : K × K → N) (n0 : N) (q : Quad K)
    (hq : q.v1.1 * q.v2.2 - q.v1.2 * q.v2.1 ≠ 0) (l0 l1 l2 l3 : Int) (x v : K × K)
    (hin : parallelogramInside q x = true) (hx : x ∉ parallelogramSides q.point q.v1 q.v2)
    (hout : parallelogramInside q (x.1 + v.1, x.2 + v.2) = false) :
    let a := (q.distance nf n0 (parallelogramEdges q l0 l1 l2 l3) x v (some 1)).alpha
    0 < a ∧ a ≤ 1 ∧ along x v a ∈ parallelogramSides q.point q.v1 q.v2 := by
  have hq' : q.det ≠ 0 := hq
  refine seen_of_hit (C26_parallelogram_distance nf n0 q hq l0 l1 l2 l3 x v 1 (by norm_num) hx) ?_
  have e1 : ((x.1 + v.1, x.2 + v.2) : K × K) = along x v 1 := by simp [along]
  rw [e1] at hout
  unfold parallelogramInside at hin hout
  rw [bary_along] at hout
  rw [sides_of_bary hq'] at hx
  simp only [Bool.and_eq_true, decide_eq_true_eq, ge_iff_le, one_mul, Bool.and_eq_false_iff,
    decide_eq_false_iff_not, not_le] at hin hout
  obtain ⟨⟨i0, i1⟩, i2, i3⟩ := hin
  have hx' : (q.bary x).1 ≠ 0 ∧ (q.bary x).1 ≠ 1 ∧ (q.bary x).2 ≠ 0 ∧ (q.bary x).2 ≠ 1 := by
    refine ⟨fun h => ?_, fun h => ?_, fun h => ?_, fun h => ?_⟩ <;>
      exact hx ⟨⟨i0, i2⟩, ⟨i1, i3⟩, by simp [h]⟩
  obtain ⟨n0', n1, n2, n3⟩ := hx'
  obtain ⟨t, i, t0, t1, hi, hall⟩ := affine_exit
    ![(q.bary x).1, (q.bary x).2, 1 - (q.bary x).1, 1 - (q.bary x).2]
    ![(q.dir v).1, (q.dir v).2, -(q.dir v).1, -(q.dir v).2]
    (by
      intro i
      fin_cases i <;> simp
      · exact lt_of_le_of_ne i0 (Ne.symm n0')
      · exact lt_of_le_of_ne i1 (Ne.symm n2)
      · exact lt_of_le_of_ne i2 n1
      · exact lt_of_le_of_ne i3 n3)
    (by
      rcases hout with (h | h) | (h | h)
      · exact ⟨0, by simpa using h⟩
      · exact ⟨1, by simpa using h⟩
      · exact ⟨2, by simp; linarith⟩
      · exact ⟨3, by simp; linarith⟩)
  have c0 := hall 0
  have c1 := hall 1
  have c2 := hall 2
  have c3 := hall 3
  simp at c0 c1 c2 c3
  refine ⟨t, t0, t1, ?_⟩
  rw [sides_of_bary hq', bary_along]
  refine ⟨⟨c0, by simp only; linarith⟩, ⟨c1, by simp only; linarith⟩, ?_⟩
  fin_cases i <;> simp at hi
  · exact Or.inl hi
  · exact Or.inr (Or.inr (Or.inl hi))
  · exact Or.inr (Or.inl (by simp only; linarith))
  · exact Or.inr (Or.inr (Or.inr (by simp only; linarith)))

/-- C24 (triangle): a link which enters the triangle is seen, at a point of its sides. -/
theorem C24_triangle_enter {N : Type} (nf : K × K → N) (n0 : N) (q : Quad K)
    (hq : q.v1.1 * q.v2.2 - q.v1.2 * q.v2.1 ≠ 0) (l0 l1 l2 : Int) (x v : K × K)
    (hout : triangleInside q x = false)
    (hin : triangleInside q (x.1 + v.1, x.2 + v.2) = true) :
    let a := (q.distance nf n0 (triangleEdges q l0 l1 l2) x v (some 1)).alpha
    0 < a ∧ a ≤ 1 ∧ along x v a ∈ triangleSides q.point q.v1 q.v2 := by
  have hq' : q.det ≠ 0 := hq
  have hx : x ∉ triangleSides q.point q.v1 q.v2 := by
    rintro ⟨a, b, ha, hb, hab, _, hy⟩
    have := (C28_triangle_inside q hq x).2 ⟨a, b, ha, hb, hab, hy⟩
    rw [hout] at this; exact absurd this (by simp)
  refine seen_of_hit (C26_triangle_distance nf n0 q hq l0 l1 l2 x v 1 (by norm_num) hx) ?_
  have e1 : ((x.1 + v.1, x.2 + v.2) : K × K) = along x v 1 := by simp [along]
  rw [e1] at hin
  unfold triangleInside at hin hout
  rw [bary_along] at hin
  simp only [Bool.and_eq_true, decide_eq_true_eq, ge_iff_le, one_mul, Bool.and_eq_false_iff,
    decide_eq_false_iff_not, not_le] at hin hout
  obtain ⟨t, i, t0, t1, hi, hall⟩ := affine_enter
    ![(q.bary x).1, (q.bary x).2, 1 - (q.bary x).1 - (q.bary x).2]
    ![(q.dir v).1, (q.dir v).2, -(q.dir v).1 - (q.dir v).2]
    (by
      rcases hout with (h | h) | h
      · exact ⟨0, by simpa using h⟩
      · exact ⟨1, by simpa using h⟩
      · exact ⟨2, by simp; linarith⟩)
    (by
      intro i
      fin_cases i <;> simp <;> linarith [hin.1.1, hin.1.2, hin.2])
  have c0 := hall 0
  have c1 := hall 1
  have c2 := hall 2
  simp at c0 c1 c2
  refine ⟨t, t0, t1, ?_⟩
  rw [triangleSides_of_bary hq', bary_along]
  refine ⟨c0, c1, by simp only; linarith, ?_⟩
  fin_cases i <;> simp at hi
  · exact Or.inl hi
  · exact Or.inr (Or.inl hi)
  · exact Or.inr (Or.inr (by simp only; linarith))

/-- C24 (triangle): a link which leaves the triangle from a point which is not on its sides is
seen, at a point of its sides. -/
theorem C24_triangle_leave {N : Type} (nf : K × K → N) (n0 : N) (q : Quad K)
    (hq : q.v1.1 * q.v2.2 - q.v1.2 * q.v2.1 ≠ 0) (l0 l1 l2 : Int) (x v : K × K)
    (hin : triangleInside q x = true) (hx : x ∉ triangleSides q.point q.v1 q.v2)
    (hout : triangleInside q (x.1 + v.1, x.2 + v.2) = false) :
    let a := (q.distance nf n0 (triangleEdges q l0 l1 l2) x v (some 1)).alpha
    0 < a ∧ a ≤ 1 ∧ along x v a ∈ triangleSides q.point q.v1 q.v2 := by
  have hq' : q.det ≠ 0 := hq
  refine seen_of_hit (C26_triangle_distance nf n0 q hq l0 l1 l2 x v 1 (by norm_num) hx) ?_
  have e1 : ((x.1 + v.1, x.2 + v.2) : K × K) = along x v 1 := by simp [along]
  rw [e1] at hout
  unfold triangleInside at hin hout
  rw [bary_along] at hout
  rw [triangleSides_of_bary hq'] at hx
  simp only [Bool.and_eq_true, decide_eq_true_eq, ge_iff_le, one_mul, Bool.and_eq_false_iff,
    decide_eq_false_iff_not, not_le] at hin hout
  obtain ⟨⟨i0, i1⟩, i2⟩ := hin
  have hx' : (q.bary x).1 ≠ 0 ∧ (q.bary x).2 ≠ 0 ∧ (q.bary x).1 + (q.bary x).2 ≠ 1 := by
    refine ⟨fun h => ?_, fun h => ?_, fun h => ?_⟩ <;>
      exact hx ⟨i0, i1, i2, by simp [h]⟩
  obtain ⟨n0', n1, n2⟩ := hx'
  obtain ⟨t, i, t0, t1, hi, hall⟩ := affine_exit
    ![(q.bary x).1, (q.bary x).2, 1 - (q.bary x).1 - (q.bary x).2]
    ![(q.dir v).1, (q.dir v).2, -(q.dir v).1 - (q.dir v).2]
    (by
      intro i
      have := lt_of_le_of_ne i2 n2
      fin_cases i <;> simp
      · exact lt_of_le_of_ne i0 (Ne.symm n0')
      · exact lt_of_le_of_ne i1 (Ne.symm n1)
      · linarith)
    (by
      rcases hout with (h | h) | h
      · exact ⟨0, by simpa using h⟩
      · exact ⟨1, by simpa using h⟩
      · exact ⟨2, by simp; linarith⟩)
  have c0 := hall 0
  have c1 := hall 1
  have c2 := hall 2
  simp at c0 c1 c2
  refine ⟨t, t0, t1, ?_⟩
  rw [triangleSides_of_bary hq', bary_along]
  refine ⟨c0, c1, by simp only; linarith, ?_⟩
  fin_cases i <;> simp at hi
  · exact Or.inl hi
  · exact Or.inr (Or.inl hi)
  · exact Or.inr (Or.inr (by simp only; linarith))

example : parallelogramInside exampleQuad (0, 1) = false ∧
    parallelogramInside exampleQuad (0 + 1, 1 + 1) = true ∧
    parallelogramInside exampleQuad (1 + 2, 2 - 3) = false ∧
    triangleInside exampleQuad (-1, 1) = false ∧ triangleInside exampleQuad (-1 + 2, 1 + 1 / 2) = true := by
  decide +kernel

/-- From a point on a side, a link which leaves the parallelogram through this side is not seen. -/
theorem on_side_unseen : ∃ (q : Quad ℚ) (x v : ℚ × ℚ),
    parallelogramInside q x = true ∧ parallelogramInside q (x.1 + v.1, x.2 + v.2) = false ∧
    (q.distance (fun w => w) (0, 0) (parallelogramEdges q 0 0 0 0) x v (some 1)).alpha = -1 :=
  ⟨⟨(0, 0), (1, 0), (0, 1)⟩, (1 / 2, 0), (0, -1), by decide +kernel⟩

end Pylbm.Geometry
