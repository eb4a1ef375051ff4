import Verif.Geometry.Cylinder
/-!
# The labels of the sides: property C64

The label which `distance` reports is the one which `visualize` writes on the side, for the
elements of the plane; for the cylinders the order of the labels is the one of the code (sides,
bottom, top), which is neither the one of the documentation nor the one of the colours of
`visualize`.
-/
set_option linter.unusedSectionVars false
namespace Pylbm.GeometrySpec
variable {K : Type} [Field K] [LinearOrder K]

/-- The points between `A` and `B`. -/
def between (A B : K × K) : Set (K × K) :=
  {y | ∃ s, 0 ≤ s ∧ s ≤ 1 ∧ y = ((1 - s) * A.1 + s * B.1, (1 - s) * A.2 + s * B.2)}

end Pylbm.GeometrySpec

namespace Pylbm.Geometry
open GeometrySpec

variable {K : Type} [Field K] [LinearOrder K] [IsStrictOrderedRing K]

/-! ### The view -/

/-- The labels written by `Triangle.visualize`, triangle.py 159-167: label, and the two corners
between which it is put. -/
def triangleShown (q : Quad K) (l0 l1 l2 : Int) : List (Int × V2 K × V2 K) :=
  let A := q.point
  let B : V2 K := (A.1 + q.v1.1, A.2 + q.v1.2)
  let D : V2 K := (A.1 + q.v2.1, A.2 + q.v2.2)
  [(l0, A, B), (l1, A, D), (l2, B, D)]

/-- The labels written by `Parallelogram.visualize`, parallelogram.py 185-195. -/
def parallelogramShown (q : Quad K) (l0 l1 l2 l3 : Int) : List (Int × V2 K × V2 K) :=
  let A := q.point
  let B : V2 K := (A.1 + q.v1.1, A.2 + q.v1.2)
  let C : V2 K := (B.1 + q.v2.1, B.2 + q.v2.2)
  let D : V2 K := (A.1 + q.v2.1, A.2 + q.v2.2)
  [(l0, A, B), (l1, A, D), (l2, C, D), (l3, B, C)]

/-- The sides of a triangular cylinder drawn by `Cylinder.visualize`, base.py 467-478 and
cylinder.py 237-258: the side `k` (its base goes from `p[k]` to `p[k+1]`) takes `color[k]`, which
is the colour of `label[k]` (geometry.py 310-312). -/
def triangleDrawn (l0 l1 l2 : Int) : List (Int × V2 K × V2 K) :=
  [(l0, (0, 0), (1, 0)), (l1, (1, 0), (0, 1)), (l2, (0, 1), (0, 0))]

/-- The same for a parallelogram, base.py 591-602. -/
def parallelogramDrawn (l0 l1 l2 l3 : Int) : List (Int × V2 K × V2 K) :=
  [(l0, (0, 0), (1, 0)), (l1, (1, 0), (1, 1)), (l2, (1, 1), (0, 1)), (l3, (0, 1), (0, 0))]

/-! ### The elements of the plane -/

/-- C64 (`Triangle`): a hit is on a side of the triangle which `visualize` shows with the label
that is reported. -/
theorem C64_triangle_label {N : Type} (nf : V2 K → N) (n0 : N) (q : Quad K) (l0 l1 l2 : Int)
    (x v : V2 K) (m : K) (hm : m < 10 ^ 16)
    (h : 0 < (q.distance nf n0 (triangleEdges q l0 l1 l2) x v (some m)).alpha) :
    ∃ s ∈ triangleShown q l0 l1 l2,
      (q.distance nf n0 (triangleEdges q l0 l1 l2) x v (some m)).border = s.1 ∧
      along x v (q.distance nf n0 (triangleEdges q l0 l1 l2) x v (some m)).alpha ∈
        between s.2.1 s.2.2 := by
  unfold Quad.distance at *
  rcases C26_first_edge nf n0 (x.1 - q.point.1, x.2 - q.point.2) v (triangleEdges q l0 l1 l2) m hm
    with ⟨_, h4⟩ | ⟨pre, e, post, t, h3, h4, _, _, h7⟩
  · rw [h4] at h; exact absurd h (by norm_num)
  · rw [h7]
    obtain ⟨_, _, _, s, s0, s1, hs⟩ := h4
    have he : e ∈ triangleEdges q l0 l1 l2 := by rw [h3]; simp
    simp only [along, Prod.mk.injEq] at hs
    unfold triangleEdges at he
    simp only [List.mem_cons, List.not_mem_nil, or_false] at he
    rcases he with rfl | rfl | rfl
    · refine ⟨(l0, q.point, (q.point.1 + q.v1.1, q.point.2 + q.v1.2)), by simp [triangleShown], rfl,
        s, s0, s1, ?_⟩
      refine Prod.ext ?_ ?_ <;> simp only [along] at *
      · linear_combination hs.1
      · linear_combination hs.2
    · refine ⟨(l1, q.point, (q.point.1 + q.v2.1, q.point.2 + q.v2.2)), by simp [triangleShown], rfl,
        s, s0, s1, ?_⟩
      refine Prod.ext ?_ ?_ <;> simp only [along] at *
      · linear_combination hs.1
      · linear_combination hs.2
    · refine ⟨(l2, (q.point.1 + q.v1.1, q.point.2 + q.v1.2), (q.point.1 + q.v2.1, q.point.2 + q.v2.2)),
        by simp [triangleShown], rfl, s, s0, s1, ?_⟩
      refine Prod.ext ?_ ?_ <;> simp only [along] at *
      · linear_combination hs.1
      · linear_combination hs.2

/-- C64 (`Parallelogram`). -/
theorem C64_parallelogram_label {N : Type} (nf : V2 K → N) (n0 : N) (q : Quad K)
    (l0 l1 l2 l3 : Int) (x v : V2 K) (m : K) (hm : m < 10 ^ 16)
    (h : 0 < (q.distance nf n0 (parallelogramEdges q l0 l1 l2 l3) x v (some m)).alpha) :
    ∃ s ∈ parallelogramShown q l0 l1 l2 l3,
      (q.distance nf n0 (parallelogramEdges q l0 l1 l2 l3) x v (some m)).border = s.1 ∧
      along x v (q.distance nf n0 (parallelogramEdges q l0 l1 l2 l3) x v (some m)).alpha ∈
        between s.2.1 s.2.2 := by
  unfold Quad.distance at *
  rcases C26_first_edge nf n0 (x.1 - q.point.1, x.2 - q.point.2) v
    (parallelogramEdges q l0 l1 l2 l3) m hm with ⟨_, h4⟩ | ⟨pre, e, post, t, h3, h4, _, _, h7⟩
  · rw [h4] at h; exact absurd h (by norm_num)
  · rw [h7]
    obtain ⟨_, _, _, s, s0, s1, hs⟩ := h4
    have he : e ∈ parallelogramEdges q l0 l1 l2 l3 := by rw [h3]; simp
    simp only [along, Prod.mk.injEq] at hs
    unfold parallelogramEdges at he
    simp only [List.mem_cons, List.not_mem_nil, or_false] at he
    rcases he with rfl | rfl | rfl | rfl
    · refine ⟨(l0, q.point, (q.point.1 + q.v1.1, q.point.2 + q.v1.2)),
        by simp [parallelogramShown], rfl, s, s0, s1, ?_⟩
      refine Prod.ext ?_ ?_ <;> simp only [along] at *
      · linear_combination hs.1
      · linear_combination hs.2
    · refine ⟨(l1, q.point, (q.point.1 + q.v2.1, q.point.2 + q.v2.2)),
        by simp [parallelogramShown], rfl, s, s0, s1, ?_⟩
      refine Prod.ext ?_ ?_ <;> simp only [along] at *
      · linear_combination hs.1
      · linear_combination hs.2
    · refine ⟨(l2, (q.point.1 + q.v1.1 + q.v2.1, q.point.2 + q.v1.2 + q.v2.2),
        (q.point.1 + q.v2.1, q.point.2 + q.v2.2)),
        by simp [parallelogramShown], rfl, 1 - s, by linarith, by linarith, ?_⟩
      refine Prod.ext ?_ ?_ <;> simp only [along] at *
      · linear_combination hs.1
      · linear_combination hs.2
    · refine ⟨(l3, (q.point.1 + q.v1.1, q.point.2 + q.v1.2),
        (q.point.1 + q.v1.1 + q.v2.1, q.point.2 + q.v1.2 + q.v2.2)),
        by simp [parallelogramShown], rfl, s, s0, s1, ?_⟩
      refine Prod.ext ?_ ?_ <;> simp only [along] at *
      · linear_combination hs.1
      · linear_combination hs.2

/-- The unit square seen from the right: the side `x = 1` carries the fourth label. -/
example : (Quad.distance (fun _ => ()) () (⟨(0, 0), (1, 0), (0, 1)⟩ : Quad ℚ)
    (parallelogramEdges ⟨(0, 0), (1, 0), (0, 1)⟩ 10 11 12 13) (2, 1 / 2) (-2, 0) (some 1)).border
    = 13 := by decide +kernel

/-! ### The cylinders -/

/-- The labels of the sides of the base of a cylinder: a hit on the base has the label of a part of
the curve that contains it. -/
def Base.Labelled (b : Base K) (sides : List (Int × Set (K × K))) : Prop :=
  ∀ x v m, m < 10 ^ 16 → 0 < (b.dist x v (some m)).alpha →
    ∃ s ∈ sides, (b.dist x v (some m)).border = s.1 ∧
      along x v (b.dist x v (some m)).alpha ∈ s.2

theorem lines_labelled (nf : V2 K → V2 K) (edges : List (Edge K)) (x v : K × K) (m : K)
    (hm : m < 10 ^ 16) (h : 0 < (distanceLines nf (0, 0) x v edges (some m)).alpha) :
    ∃ e ∈ edges, (distanceLines nf (0, 0) x v edges (some m)).border = e.label ∧
      along x v (distanceLines nf (0, 0) x v edges (some m)).alpha ∈ segment e.p e.vt := by
  rcases C26_first_edge nf (0, 0) x v edges m hm with ⟨_, h4⟩ | ⟨pre, e, post, t, h3, h4, _, _, h7⟩
  · rw [h4] at h; exact absurd h (by norm_num)
  · refine ⟨e, by rw [h3]; simp, ?_⟩
    rw [h7]
    exact ⟨rfl, h4.2.2.2⟩

theorem baseParallelogram_labelled (nf : V2 K → V2 K → V2 K) (l0 l1 l2 l3 : Int) :
    (baseParallelogram nf l0 l1 l2 l3).Labelled
      [(l0, {y | y.2 = 0}), (l1, {y | y.1 = 0}), (l2, {y | y.1 = 1}), (l3, {y | y.2 = 1})] := by
  intro x v m hm h
  obtain ⟨e, he, hb, s, _, _, hs⟩ := lines_labelled (nf v) _ x v m hm h
  simp only [List.mem_cons, List.not_mem_nil, or_false] at he
  rcases he with rfl | rfl | rfl | rfl
  · exact ⟨_, List.mem_cons_self, hb, by
      change (along x v _).2 = 0
      unfold baseParallelogram; simp only; rw [hs]; simp [along]⟩
  · exact ⟨_, List.mem_cons_of_mem _ List.mem_cons_self, hb, by
      change (along x v _).1 = 0
      unfold baseParallelogram; simp only; rw [hs]; simp [along]⟩
  · exact ⟨_, List.mem_cons_of_mem _ (List.mem_cons_of_mem _ List.mem_cons_self), hb, by
      change (along x v _).1 = 1
      unfold baseParallelogram; simp only; rw [hs]; simp [along]⟩
  · exact ⟨(l3, {y | y.2 = 1}), by simp, hb, by
      change (along x v _).2 = 1
      unfold baseParallelogram; simp only; rw [hs]; simp [along]⟩

theorem baseTriangle_labelled (nf : V2 K → V2 K → V2 K) (l0 l1 l2 : Int) :
    (baseTriangle nf l0 l1 l2).Labelled
      [(l0, {y | y.2 = 0}), (l1, {y | y.1 = 0}), (l2, {y | y.1 + y.2 = 1})] := by
  intro x v m hm h
  obtain ⟨e, he, hb, s, _, _, hs⟩ := lines_labelled (nf v) _ x v m hm h
  simp only [List.mem_cons, List.not_mem_nil, or_false] at he
  rcases he with rfl | rfl | rfl
  · exact ⟨_, List.mem_cons_self, hb, by
      change (along x v _).2 = 0
      unfold baseTriangle; simp only; rw [hs]; simp [along]⟩
  · exact ⟨_, List.mem_cons_of_mem _ List.mem_cons_self, hb, by
      change (along x v _).1 = 0
      unfold baseTriangle; simp only; rw [hs]; simp [along]⟩
  · exact ⟨(l2, {y | y.1 + y.2 = 1}), by simp, hb, by
      change (along x v _).1 + (along x v _).2 = 1
      unfold baseTriangle; simp only; rw [hs]; simp [along]⟩

theorem baseDisc_labelled (l0 : Int) :
    (baseDisc l0).Labelled [(l0, circle (0, 0) 1)] := by
  intro x v m hm h
  refine ⟨_, List.mem_cons_self, ?_, ((baseDisc_ok l0).sound x v m hm h).2⟩
  have hval : (baseDisc l0).dist x v (some m) =
      if (⟨(0, 0), (1, 0), (0, 1)⟩ : Ellipse).alpha x v (some m) > 0 then
        ⟨(⟨(0, 0), (1, 0), (0, 1)⟩ : Ellipse).alpha x v (some m), l0,
          (⟨(0, 0), (1, 0), (0, 1)⟩ : Ellipse).normal x v
            ((⟨(0, 0), (1, 0), (0, 1)⟩ : Ellipse).alpha x v (some m))⟩
      else ⟨(⟨(0, 0), (1, 0), (0, 1)⟩ : Ellipse).alpha x v (some m), -1, (0, 0)⟩ := rfl
  rw [hval] at h ⊢
  by_cases hp : (⟨(0, 0), (1, 0), (0, 1)⟩ : Ellipse).alpha x v (some m) > 0
  · rw [if_pos hp]
  · rw [if_neg hp] at h
    exact absurd h hp

/-- C64 (cylinders): a link from outside `x = center + a v1 + b v2 + d w` in the direction
`v = a' v1 + b' v2 + d' w` which meets the cylinder is reported with the label of the bottom on the
bottom, of the top on the top, and elsewhere with the label of the side of the base.  The case
excluded, a link parallel to the base less than `1e-16 m` below the top, comes from the `decal` of
cylinder.py 166-169; no two floating point numbers are that close to 1. -/
theorem C64_cylinder_label (c : Cyl K) (hc : inner3 c.v1 (cross c.v2 c.w) ≠ 0) (B C : Set (K × K))
    (hB : c.base.OK B C) (sides : List (Int × Set (K × K))) (hL : c.base.Labelled sides)
    (a b d a' b' d' m : K) (x v : K × K × K) (hm : m < 10 ^ 16)
    (hx : x = comb3 c.center c.v1 c.v2 c.w a b d) (hv : v = comb3 (0, 0, 0) c.v1 c.v2 c.w a' b' d')
    (hflat : d' = 0 → m < (1 - d) * 10 ^ 16 ∨ 1 ≤ d) (hout : c.inside x = false)
    (h : (hits3 x v m (cylinder c.center c.v1 c.v2 c.w B)).Nonempty) :
    let r := c.distance x v m
    (r.border = c.lbot ∧ d + r.alpha * d' = -1) ∨ (r.border = c.ltop ∧ d + r.alpha * d' = 1) ∨
      ∃ s ∈ sides, r.border = s.1 ∧ (a + r.alpha * a', b + r.alpha * b') ∈ s.2 := by
  intro r
  obtain ⟨s, h0, h1, h2⟩ := h
  have hy : c.coords x = (a, b, d) := (Cyl.coords_comb c hc x a b d).2 hx
  have hvc : c.frame v = (a', b', d') := (Cyl.frame_comb c hc v a' b' d').2 hv
  have key := Cyl.enter_core c B C hB x v m s hm h0 h1 hout ((C28_cylinder_inside c hc B C hB _).2 h2)
  simp only [hy, hvc, along3] at key
  have hr : c.distance x v m = r := rfl
  rw [hr] at key
  obtain ⟨g1, g2, g3⟩ := key
  have hlt : r.alpha < tgv := lt_of_le_of_lt (g2.trans h1) hm
  rcases g3 with ⟨g4, g5, ⟨_, g6⟩ | ⟨g6, g7⟩⟩ | ⟨g4, g5, ⟨_, g6⟩ | ⟨g6, g7⟩⟩ | ⟨g4, g5, g6⟩
  · exact Or.inl ⟨g5, g6⟩
  · exfalso
    rcases Cyl.plane_cases c (a, b, d) (a', b', d') (-(1 + d)) m with k | ⟨_, _, _, k⟩
    · rw [g4, k] at hlt; exact lt_irrefl _ hlt
    · rw [← g4] at k
      simp only [g6, if_true, zero_add] at k
      have := (abs_le.1 g7.2).1
      rw [g6, mul_zero, add_zero] at this
      have k2 : r.alpha ≤ 0 := by
        rw [k]
        exact div_nonpos_of_nonpos_of_nonneg (by linarith) (by positivity)
      linarith
  · exact Or.inr (Or.inl ⟨g5, g6⟩)
  · exfalso
    rcases Cyl.plane_cases c (a, b, d) (a', b', d') (1 - d) m with k | ⟨_, _, _, k⟩
    · rw [g4, k] at hlt; exact lt_irrefl _ hlt
    · rw [← g4] at k
      simp only [g6, if_true, zero_add] at k
      have k2 : r.alpha = (1 - d) * 10 ^ 16 := by rw [k]; field_simp
      rcases hflat g6 with q | q
      · linarith [g2.trans h1]
      · have : (1 - d) * 10 ^ 16 ≤ (0 : K) :=
          mul_nonpos_of_nonpos_of_nonneg (by linarith) (by positivity)
        linarith
  · right; right
    obtain ⟨s', k1, k2, k3⟩ := hL (a, b) (a', b') m hm (by rw [← g4]; exact g1)
    refine ⟨s', k1, by rw [g5, k2], ?_⟩
    rw [← g4] at k3
    exact k3

/-- C64 (`Parallelepiped`): of the six labels, the first four are those of the sides `b = 0`,
`a = 0`, `a = 1`, `b = 1` of `point + a v0 + b v1 + e v2`, the two last those of `e = 0` and
`e = 1`. -/
theorem C64_parallelepiped_label (nf : V2 K → V2 K → V2 K) (p v0 v1 v2 : K × K × K)
    (l0 l1 l2 l3 lb lt : Int) (hc : inner3 v0 (cross v1 v2) ≠ 0) (a b e a' b' e' m : K)
    (hm : m < 10 ^ 16) (hflat : e' = 0 → m < (1 - e) * 10 ^ 16 ∨ 1 ≤ e)
    (hout : ¬ ((0 ≤ a ∧ a ≤ 1) ∧ (0 ≤ b ∧ b ≤ 1) ∧ (0 ≤ e ∧ e ≤ 1)))
    (h : ∃ t, 0 < t ∧ t ≤ m ∧ (0 ≤ a + t * a' ∧ a + t * a' ≤ 1) ∧
      (0 ≤ b + t * b' ∧ b + t * b' ≤ 1) ∧ (0 ≤ e + t * e' ∧ e + t * e' ≤ 1)) :
    let r := (parallelepiped nf p v0 v1 v2 l0 l1 l2 l3 lb lt).distance
      (comb3 p v0 v1 v2 a b e) (comb3 (0, 0, 0) v0 v1 v2 a' b' e') m
    (r.border = lb ∧ e + r.alpha * e' = 0) ∨ (r.border = lt ∧ e + r.alpha * e' = 1) ∨
    (r.border = l0 ∧ b + r.alpha * b' = 0) ∨ (r.border = l1 ∧ a + r.alpha * a' = 0) ∨
    (r.border = l2 ∧ a + r.alpha * a' = 1) ∨ (r.border = l3 ∧ b + r.alpha * b' = 1) := by
  intro r
  set c := parallelepiped nf p v0 v1 v2 l0 l1 l2 l3 lb lt with hcdef
  have hdet : inner3 c.v1 (cross c.v2 c.w) ≠ 0 := by
    rw [hcdef]
    unfold parallelepiped inner3 cross at *
    simp only at *
    intro h1
    apply hc
    linear_combination 2 * h1
  have hcen : ∀ a b e : K, comb3 p v0 v1 v2 a b e = comb3 c.center c.v1 c.v2 c.w a b (2 * e - 1) := by
    intro a b e
    rw [hcdef]
    unfold parallelepiped comb3
    refine Prod.ext ?_ (Prod.ext ?_ ?_) <;> (simp only; ring)
  have hvel : comb3 (0, 0, 0) v0 v1 v2 a' b' e' = comb3 (0, 0, 0) c.v1 c.v2 c.w a' b' (2 * e') := by
    rw [hcdef]
    unfold parallelepiped comb3
    refine Prod.ext ?_ (Prod.ext ?_ ?_) <;> (simp only; ring)
  have hOK := baseParallelogram_ok nf l0 l1 l2 l3 (K := K)
  have hbase : c.base = baseParallelogram nf l0 l1 l2 l3 := rfl
  rw [← hbase] at hOK
  have hin : ∀ a b e : K, c.inside (comb3 p v0 v1 v2 a b e) = true ↔
      ((0 ≤ a ∧ a ≤ 1) ∧ (0 ≤ b ∧ b ≤ 1) ∧ (0 ≤ e ∧ e ≤ 1)) := by
    intro a b e
    unfold Cyl.inside
    rw [(Cyl.coords_comb c hdet _ a b (2 * e - 1)).2 (hcen a b e)]
    simp only [Bool.and_eq_true, hOK.mem, decide_eq_true_eq, abs_le]
    constructor
    · rintro ⟨⟨k1, k2⟩, k3, k4⟩
      exact ⟨k1, k2, by linarith, by linarith⟩
    · rintro ⟨k1, k2, k3, k4⟩
      exact ⟨⟨k1, k2⟩, by linarith, by linarith⟩
  have hal : ∀ t : K, along3 (comb3 p v0 v1 v2 a b e) (comb3 (0, 0, 0) v0 v1 v2 a' b' e') t =
      comb3 p v0 v1 v2 (a + t * a') (b + t * b') (e + t * e') := by
    intro t
    unfold along3 comb3
    refine Prod.ext ?_ (Prod.ext ?_ ?_) <;> (simp only; ring)
  have key := C64_cylinder_label c hdet unitSquare unitSquareSides hOK _
    (by rw [hbase]; exact baseParallelogram_labelled nf l0 l1 l2 l3) a b (2 * e - 1) a' b' (2 * e') m
    (comb3 p v0 v1 v2 a b e) (comb3 (0, 0, 0) v0 v1 v2 a' b' e') hm (hcen a b e) hvel
    (by
      intro h0
      rcases hflat (by linarith) with k | k
      · by_cases hpos : (1 - e) * 10 ^ 16 < 0
        · right
          have : 1 - e < 0 := by
            by_contra hne
            push Not at hne
            have : (0 : K) ≤ (1 - e) * 10 ^ 16 := by positivity
            linarith
          linarith
        · left
          push Not at hpos
          calc m < (1 - e) * 10 ^ 16 := k
            _ ≤ (1 - (2 * e - 1)) * 10 ^ 16 := by linarith
      · right; linarith)
    (by
      rw [← Bool.not_eq_true, hin]; exact hout)
    (by
      obtain ⟨t, t0, t1, k⟩ := h
      refine ⟨t, t0, t1, ?_⟩
      rw [← C28_cylinder_inside c hdet unitSquare unitSquareSides hOK, hal, hin]
      exact k)
  rcases key with ⟨k1, k2⟩ | ⟨k1, k2⟩ | ⟨s, k0, k1, k2⟩
  · exact Or.inl ⟨k1, by linarith⟩
  · exact Or.inr (Or.inl ⟨k1, by linarith⟩)
  · right; right
    simp only [List.mem_cons, List.not_mem_nil, or_false] at k0
    rcases k0 with rfl | rfl | rfl | rfl
    · exact Or.inl ⟨k1, k2⟩
    · exact Or.inr (Or.inl ⟨k1, k2⟩)
    · exact Or.inr (Or.inr (Or.inl ⟨k1, k2⟩))
    · exact Or.inr (Or.inr (Or.inr ⟨k1, k2⟩))

/-- The unit cube seen from the right, from above and from below. -/
example : ((parallelepiped (fun _ _ => (0, 0)) (0, 0, 0) (1, 0, 0) (0, 1, 0) (0, 0, 1)
    10 11 12 13 14 15 : Cyl ℚ).distance (2, 1 / 2, 1 / 2) (-2, 0, 0) 1).border = 12 := by
  decide +kernel

example : ((parallelepiped (fun _ _ => (0, 0)) (0, 0, 0) (1, 0, 0) (0, 1, 0) (0, 0, 1)
    10 11 12 13 14 15 : Cyl ℚ).distance (1 / 2, 1 / 2, 2) (0, 0, -2) 1).border = 15 := by
  decide +kernel

example : ((parallelepiped (fun _ _ => (0, 0)) (0, 0, 0) (1, 0, 0) (0, 1, 0) (0, 0, 1)
    10 11 12 13 14 15 : Cyl ℚ).distance (1 / 2, 1 / 2, -1) (0, 0, 2) 1).border = 14 := by
  decide +kernel

/-- `CylinderCircle.__init__`, cylinder.py 336-345, with the label list `[k0, k1, k2]`:
`label[:-2]` goes to the base, `label[-2]` to the bottom and `label[-1]` to the top
(cylinder.py 149-151, 196, 202). -/
noncomputable def cylinderCircle (center v1 v2 w : V3) (k0 k1 k2 : Int) : Cyl ℝ :=
  ⟨center, v1, v2, w, baseDisc k0, k1, k2⟩

/-- C64 is false for the order of the labels given in the documentation of the circular cylinders
(cylinder.py 286-287: "three integers ... for the bottom, the top and the side"): whatever the
labels, the bottom of the canonical cylinder is reported with the second one. -/
theorem C64_documented_order_negation (k0 k1 k2 : Int) :
    let c := cylinderCircle (0, 0, 0) (1, 0, 0) (0, 1, 0) (0, 0, 1) k0 k1 k2
    let r := c.distance (0, 0, -2) (0, 0, 2) 1
    along3 (0, 0, -2) (0, 0, 2) r.alpha = (0, 0, -1) ∧ r.border = k1 := by
  intro c r
  have hdet : inner3 c.v1 (cross c.v2 c.w) ≠ 0 := by
    simp [c, cylinderCircle, inner3, cross]
  have hOK : c.base.OK (disc (0, 0) 1) (circle (0, 0) 1) := baseDisc_ok k0
  have hcyl : ∀ z : ℝ, (0, 0, z) ∈ cylinder c.center c.v1 c.v2 c.w (disc (0, 0) 1) ↔ |z| ≤ 1 := by
    intro z
    constructor
    · rintro ⟨a, b, d, _, h1, h2⟩
      simp only [c, cylinderCircle, comb3, Prod.mk.injEq] at h2
      rw [abs_le, show z = d by linarith [h2.2.2]]; exact h1
    · intro h
      refine ⟨0, 0, z, by simp [disc], abs_le.1 h, ?_⟩
      simp [c, cylinderCircle, comb3]
  have hal : ∀ t : ℝ, along3 ((0, 0, -2) : ℝ × ℝ × ℝ) (0, 0, 2) t = (0, 0, -2 + t * 2) := by
    intro t; simp [along3]
  have hout : c.inside (0, 0, -2) = false := by
    rw [← Bool.not_eq_true, C28_cylinder_inside c hdet _ _ hOK, hcyl]
    norm_num [abs_le]
  have hne : (hits3 (0, 0, -2) (0, 0, 2) 1
      (cylinder c.center c.v1 c.v2 c.w (disc (0, 0) 1))).Nonempty :=
    ⟨1, one_pos, le_rfl, by rw [hal, hcyl]; norm_num⟩
  obtain ⟨⟨h1, h2⟩, _⟩ := C24_cylinder_first c hdet _ _ hOK (0, 0, -2) (0, 0, 2) 1 (by norm_num)
    hout hne
  have h3 : r.alpha ≤ 1 / 2 := h2 ⟨by norm_num, by norm_num, by rw [hal, hcyl]; norm_num⟩
  have h4 := h1.2.2
  rw [hal, hcyl, abs_le] at h4
  have h5 : r.alpha = 1 / 2 := le_antisymm h3 (by linarith [h4.1])
  refine ⟨by rw [h5, hal]; norm_num, ?_⟩
  rcases C64_cylinder_label c hdet _ _ hOK _ (baseDisc_labelled k0) 0 0 (-2) 0 0 2 1 (0, 0, -2)
    (0, 0, 2) (by norm_num) (by simp [c, cylinderCircle, comb3])
    (by simp [c, cylinderCircle, comb3]) (by norm_num) hout hne with k | k | ⟨s, k0, k1, k2⟩
  · exact k.1
  · have := k.2
    change (-2 : ℝ) + r.alpha * 2 = 1 at this
    rw [h5] at this; norm_num at this
  · simp only [List.mem_cons, List.not_mem_nil, or_false] at k0
    subst k0
    simp [circle] at k2

/-- C64 is false for the colours of the sides of a parallelepiped: the second side drawn (with the
colour of the second label) is hit here in its middle, and the label reported is the third one. -/
theorem C64_drawn_parallelepiped_negation (nf : V2 ℚ → V2 ℚ → V2 ℚ) (l0 l1 l2 l3 lb lt : Int) :
    let c := parallelepiped nf (0, 0, 0) (1, 0, 0) (0, 1, 0) (0, 0, 1) l0 l1 l2 l3 lb lt
    let r := c.distance (2, 1 / 2, 1 / 2) (-2, 0, 0) 1
    (∃ A B : V2 ℚ, (parallelogramDrawn l0 l1 l2 l3)[1]? = some (l1, A, B) ∧
      ∃ z ∈ between A B, along3 (2, 1 / 2, 1 / 2) (-2, 0, 0) r.alpha = (z.1, z.2, 1 / 2)) ∧
    r.border = l2 := by
  intro c r
  have hdet : inner3 ((1, 0, 0) : ℚ × ℚ × ℚ) (cross (0, 1, 0) (0, 0, 1)) ≠ 0 := by
    norm_num [inner3, cross]
  have hx : ((2, 1 / 2, 1 / 2) : ℚ × ℚ × ℚ) =
      comb3 (0, 0, 0) (1, 0, 0) (0, 1, 0) (0, 0, 1) 2 (1 / 2) (1 / 2) := by norm_num [comb3]
  have hv : ((-2, 0, 0) : ℚ × ℚ × ℚ) =
      comb3 (0, 0, 0) (1, 0, 0) (0, 1, 0) (0, 0, 1) (-2) 0 0 := by norm_num [comb3]
  have hal : r.alpha = 1 / 2 := by
    have hout : c.inside (2, 1 / 2, 1 / 2) = false := by
      rw [← Bool.not_eq_true, C28_parallelepiped_inside _ _ _ _ _ _ _ _ _ _ _ hdet]
      rintro ⟨a, b, d, h1, _, _, h2⟩
      simp only [comb3, Prod.mk.injEq] at h2
      linarith [h2.1, h1.2]
    have hOK : c.base.OK unitSquare unitSquareSides := baseParallelogram_ok nf l0 l1 l2 l3
    have hdet' : inner3 c.v1 (cross c.v2 c.w) ≠ 0 := by
      norm_num [c, parallelepiped, inner3, cross]
    have hin : ∀ t : ℚ, along3 (2, 1 / 2, 1 / 2) (-2, 0, 0) t ∈
        cylinder c.center c.v1 c.v2 c.w unitSquare ↔ 1 / 2 ≤ t ∧ t ≤ 1 := by
      intro t
      rw [← C28_cylinder_inside c hdet' _ _ hOK,
        C28_parallelepiped_inside _ _ _ _ _ _ _ _ _ _ _ hdet]
      constructor
      · rintro ⟨a, b, d, h1, _, _, h2⟩
        simp only [along3, comb3, Prod.mk.injEq] at h2
        constructor <;> linarith [h2.1, h1.1, h1.2]
      · rintro ⟨h1, h2⟩
        refine ⟨2 - 2 * t, 1 / 2, 1 / 2, ⟨by linarith, by linarith⟩, by norm_num, by norm_num, ?_⟩
        simp only [along3, comb3, Prod.mk.injEq]
        refine ⟨?_, ?_, ?_⟩ <;> ring
    obtain ⟨⟨h1, h2⟩, _⟩ := C24_cylinder_first c hdet' _ _ hOK (2, 1 / 2, 1 / 2) (-2, 0, 0) 1
      (by norm_num) hout ⟨1, one_pos, le_rfl, by rw [hin]; norm_num⟩
    exact le_antisymm (h2 ⟨by norm_num, by norm_num, by rw [hin]; norm_num⟩) ((hin _).1 h1.2.2).1
  refine ⟨⟨(1, 0), (1, 1), rfl, (1, 1 / 2), ⟨1 / 2, by norm_num, by norm_num, by norm_num⟩, ?_⟩, ?_⟩
  · rw [hal]; norm_num [along3]
  · have key := C64_parallelepiped_label nf ((0, 0, 0) : ℚ × ℚ × ℚ) (1, 0, 0) (0, 1, 0) (0, 0, 1)
      l0 l1 l2 l3 lb lt hdet 2 (1 / 2) (1 / 2) (-2) 0 0 1 (by norm_num) (by norm_num) (by norm_num)
      ⟨1, by norm_num⟩
    simp only at key
    rw [← hx, ← hv] at key
    have hr : (parallelepiped nf ((0, 0, 0) : ℚ × ℚ × ℚ) (1, 0, 0) (0, 1, 0) (0, 0, 1)
      l0 l1 l2 l3 lb lt).distance (2, 1 / 2, 1 / 2) (-2, 0, 0) 1 = r := rfl
    rw [hr, hal] at key
    norm_num at key
    exact key

/-- C64 is false for the colours of the sides of a triangular cylinder: the second side drawn is
hit in its middle, and the label reported there is the third one. -/
theorem C64_drawn_triangle_negation (nf : V2 ℚ → V2 ℚ → V2 ℚ) (l0 l1 l2 : Int) :
    let r := (baseTriangle nf l0 l1 l2).dist (1, 1) (-1, -1) (some 1)
    (∃ A B : V2 ℚ, (triangleDrawn l0 l1 l2)[1]? = some (l1, A, B) ∧
      along (1, 1) (-1, -1) r.alpha ∈ between A B) ∧ r.border = l2 := by
  intro r
  have hr : r = ⟨1 / 2, l2, nf (-1, -1) (-1, 1)⟩ := by
    simp only [r, baseTriangle, distanceLines, List.foldl]
    norm_num [lineStep, intersectionTwoLines, tgv, leDmax]
  rw [hr]
  refine ⟨⟨(1, 0), (0, 1), rfl, 1 / 2, by norm_num, by norm_num, by norm_num [along]⟩, rfl⟩

end Pylbm.Geometry
