import Verif.Geometry.Cylinder
/-!
# Normal vectors of the curved elements: property C60
-/
namespace Pylbm.Geometry
open GeometrySpec

/-- Orientation and normalisation of a vector of the plane. -/
theorem orient2 {nx ny vx vy : ℝ} (h : nx ≠ 0 ∨ ny ≠ 0) :
    let mx := if nx * vx + ny * vy > 0 then -nx else nx
    let my := if nx * vx + ny * vy > 0 then -ny else ny
    let nn := Real.sqrt (mx ^ 2 + my ^ 2)
    (mx / nn) ^ 2 + (my / nn) ^ 2 = 1 ∧ (mx / nn) * vx + (my / nn) * vy ≤ 0 ∧
      ∃ k : ℝ, k ≠ 0 ∧ mx / nn = k * nx ∧ my / nn = k * ny := by
  have hpos : 0 < nx ^ 2 + ny ^ 2 := by
    rcases h with h | h
    · have := sq_pos_of_ne_zero h; nlinarith [sq_nonneg ny]
    · have := sq_pos_of_ne_zero h; nlinarith [sq_nonneg nx]
  by_cases hs : nx * vx + ny * vy > 0
  · simp only [hs, if_true, neg_sq]
    have hq := Real.sqrt_pos.2 hpos
    have hsq := Real.sq_sqrt hpos.le
    set r := Real.sqrt (nx ^ 2 + ny ^ 2)
    refine ⟨?_, ?_, -(1 / r), by simpa using hq.ne', by ring, by ring⟩
    · rw [div_pow, div_pow, ← add_div, hsq, neg_sq, neg_sq, div_self hpos.ne']
    · have : -nx / r * vx + -ny / r * vy = -((nx * vx + ny * vy) / r) := by ring
      rw [this]
      exact neg_nonpos.2 (div_nonneg hs.le hq.le)
  · simp only [hs, if_false]
    have hq := Real.sqrt_pos.2 hpos
    have hsq := Real.sq_sqrt hpos.le
    set r := Real.sqrt (nx ^ 2 + ny ^ 2)
    refine ⟨?_, ?_, 1 / r, by simpa using hq.ne', by ring, by ring⟩
    · rw [div_pow, div_pow, ← add_div, hsq, div_self hpos.ne']
    · have : nx / r * vx + ny / r * vy = (nx * vx + ny * vy) / r := by ring
      rw [this]
      exact div_nonpos_of_nonpos_of_nonneg (not_lt.1 hs) hq.le

/-- C60 (ellipse, circle): when the hit point is the point of parameters `(a, b)` of the curve, the
normal has unit length, is orthogonal to the tangent `-b v1 + a v2` and does not point along `v`. -/
theorem C60_ellipse_normal (e : Ellipse) (he : e.v1.1 * e.v2.2 - e.v1.2 * e.v2.1 ≠ 0)
    (x v : ℝ × ℝ) (alpha a b : ℝ) (hab : a ^ 2 + b ^ 2 = 1)
    (hp : along x v alpha = comb2 e.center e.v1 e.v2 a b) :
    (e.normal x v alpha).1 ^ 2 + (e.normal x v alpha).2 ^ 2 = 1 ∧
    (e.normal x v alpha).1 * (-b * e.v1.1 + a * e.v2.1) +
      (e.normal x v alpha).2 * (-b * e.v1.2 + a * e.v2.2) = 0 ∧
    (e.normal x v alpha).1 * v.1 + (e.normal x v alpha).2 * v.2 ≤ 0 := by
  have hX : x.1 - e.center.1 + alpha * v.1 = a * e.v1.1 + b * e.v2.1 := by
    have := congrArg Prod.fst hp
    simp only [along, comb2] at this; linarith
  have hY : x.2 - e.center.2 + alpha * v.2 = a * e.v1.2 + b * e.v2.2 := by
    have := congrArg Prod.snd hp
    simp only [along, comb2] at this; linarith
  unfold Ellipse.normal
  simp only [hX, hY]
  set nx := 2 * (a * e.v1.1 + b * e.v2.1) * (e.v1.2 ^ 2 + e.v2.2 ^ 2) -
    (a * e.v1.2 + b * e.v2.2) * (2 * (e.v1.1 * e.v1.2 + e.v2.1 * e.v2.2)) with hnx
  set ny := 2 * (a * e.v1.2 + b * e.v2.2) * (e.v1.1 ^ 2 + e.v2.1 ^ 2) -
    (a * e.v1.1 + b * e.v2.1) * (2 * (e.v1.1 * e.v1.2 + e.v2.1 * e.v2.2)) with hny
  have h1 : nx * e.v1.1 + ny * e.v1.2 = 2 * (e.v1.1 * e.v2.2 - e.v1.2 * e.v2.1) ^ 2 * a := by
    rw [hnx, hny]; ring
  have h2 : nx * e.v2.1 + ny * e.v2.2 = 2 * (e.v1.1 * e.v2.2 - e.v1.2 * e.v2.1) ^ 2 * b := by
    rw [hnx, hny]; ring
  clear_value nx ny
  have hne : nx ≠ 0 ∨ ny ≠ 0 := by
    by_contra hn
    push Not at hn
    rw [hn.1, hn.2] at h1 h2
    have hd : 2 * (e.v1.1 * e.v2.2 - e.v1.2 * e.v2.1) ^ 2 ≠ 0 := by positivity
    have ha : a = 0 := by
      rcases mul_eq_zero.1 (h1.symm.trans (by ring : _ = (0 : ℝ))) with h | h
      · exact absurd h hd
      · exact h
    have hb : b = 0 := by
      rcases mul_eq_zero.1 (h2.symm.trans (by ring : _ = (0 : ℝ))) with h | h
      · exact absurd h hd
      · exact h
    rw [ha, hb] at hab; norm_num at hab
  obtain ⟨k1, k2, k, _, k3, k4⟩ := orient2 (vx := v.1) (vy := v.2) hne
  refine ⟨k1, ?_, k2⟩
  rw [k3, k4]
  linear_combination (-b * k) * h1 + (a * k) * h2

/-- Orientation and normalisation of a vector of space. -/
theorem orient3 {nx ny nz vx vy vz : ℝ} (h : 0 < nx ^ 2 + ny ^ 2 + nz ^ 2) :
    let s : ℝ := if nx * vx + ny * vy + nz * vz > 0 then -1 else 1
    let nn := Real.sqrt ((s * nx) ^ 2 + (s * ny) ^ 2 + (s * nz) ^ 2)
    (s * nx / nn) ^ 2 + (s * ny / nn) ^ 2 + (s * nz / nn) ^ 2 = 1 ∧
      (s * nx / nn) * vx + (s * ny / nn) * vy + (s * nz / nn) * vz ≤ 0 ∧
      ∃ k : ℝ, s * nx / nn = k * nx ∧ s * ny / nn = k * ny ∧ s * nz / nn = k * nz := by
  intro s nn
  have hs : s = -1 ∨ s = 1 := by
    simp only [s]; split_ifs <;> simp
  have hs2 : s ^ 2 = 1 := by rcases hs with h | h <;> rw [h] <;> norm_num
  have hin : (s * nx) ^ 2 + (s * ny) ^ 2 + (s * nz) ^ 2 = nx ^ 2 + ny ^ 2 + nz ^ 2 := by
    linear_combination (nx ^ 2 + ny ^ 2 + nz ^ 2) * hs2
  have hq : 0 < nn := Real.sqrt_pos.2 (by rw [hin]; exact h)
  have hsq : nn ^ 2 = (s * nx) ^ 2 + (s * ny) ^ 2 + (s * nz) ^ 2 :=
    Real.sq_sqrt (by rw [hin]; exact h.le)
  refine ⟨?_, ?_, s / nn, by ring, by ring, by ring⟩
  · rw [div_pow, div_pow, div_pow, ← add_div, ← add_div, ← hsq, div_self (by positivity)]
  · have e : s * nx / nn * vx + s * ny / nn * vy + s * nz / nn * vz =
        s * (nx * vx + ny * vy + nz * vz) / nn := by ring
    rw [e]
    apply div_nonpos_of_nonpos_of_nonneg _ hq.le
    by_cases hp : nx * vx + ny * vy + nz * vz > 0
    · have : s = -1 := by simp only [s]; rw [if_pos hp]
      rw [this]; linarith
    · have : s = 1 := by simp only [s]; rw [if_neg hp]
      rw [this]; linarith

/-- The gradient of the equation of an ellipsoid at the point of parameters `(a, b, d)`. -/
theorem ellipsoid_gradient (v1 v2 v3 : V3) (a b d a' b' d' : ℝ) :
    let k := (Ellipsoid.mk (0, 0, 0) v1 v2 v3).coeffs
    let X := a * v1.1 + b * v2.1 + d * v3.1
    let Y := a * v1.2.1 + b * v2.2.1 + d * v3.2.1
    let Z := a * v1.2.2 + b * v2.2.2 + d * v3.2.2
    (2 * k.cxx * X + k.cxy * Y + k.czx * Z) * (a' * v1.1 + b' * v2.1 + d' * v3.1) +
      (2 * k.cyy * Y + k.cxy * X + k.cyz * Z) * (a' * v1.2.1 + b' * v2.2.1 + d' * v3.2.1) +
      (2 * k.czz * Z + k.czx * X + k.cyz * Y) * (a' * v1.2.2 + b' * v2.2.2 + d' * v3.2.2) =
      2 * inner3 v1 (cross v2 v3) ^ 2 * (a * a' + b * b' + d * d') := by
  obtain ⟨x1, y1, z1⟩ := v1
  obtain ⟨x2, y2, z2⟩ := v2
  obtain ⟨x3, y3, z3⟩ := v3
  simp only [Ellipsoid.coeffs, inner3, cross]
  ring

theorem sum_sq_pos {x y z : ℝ} (h : x ≠ 0 ∨ y ≠ 0 ∨ z ≠ 0) : 0 < x ^ 2 + y ^ 2 + z ^ 2 := by
  rcases h with h | h | h <;> positivity

/-- C60 (ellipsoid, sphere): when the hit point is the point of parameters `(a, b, d)` of the
surface, the normal has unit length, is orthogonal to every tangent `a' v1 + b' v2 + d' v3` (that is
`a a' + b b' + d d' = 0`) and does not point along `v`. -/
theorem C60_ellipsoid_normal (e : Ellipsoid) (he : inner3 e.v1 (cross e.v2 e.v3) ≠ 0)
    (x v : ℝ × ℝ × ℝ) (alpha a b d : ℝ) (hab : a ^ 2 + b ^ 2 + d ^ 2 = 1)
    (hp : along3 x v alpha = comb3 e.center e.v1 e.v2 e.v3 a b d) :
    inner3 (e.normal x v alpha) (e.normal x v alpha) = 1 ∧
    (∀ a' b' d', a * a' + b * b' + d * d' = 0 →
      inner3 (e.normal x v alpha) (comb3 (0, 0, 0) e.v1 e.v2 e.v3 a' b' d') = 0) ∧
    inner3 (e.normal x v alpha) v ≤ 0 := by
  have hX : x.1 - e.center.1 + alpha * v.1 = a * e.v1.1 + b * e.v2.1 + d * e.v3.1 := by
    have := congrArg Prod.fst hp
    simp only [along3, comb3] at this; linarith
  have hY : x.2.1 - e.center.2.1 + alpha * v.2.1 = a * e.v1.2.1 + b * e.v2.2.1 + d * e.v3.2.1 := by
    have := congrArg (fun p => p.2.1) hp
    simp only [along3, comb3] at this; linarith
  have hZ : x.2.2 - e.center.2.2 + alpha * v.2.2 = a * e.v1.2.2 + b * e.v2.2.2 + d * e.v3.2.2 := by
    have := congrArg (fun p => p.2.2) hp
    simp only [along3, comb3] at this; linarith
  unfold Ellipsoid.normal
  simp only [hX, hY, hZ]
  set X := a * e.v1.1 + b * e.v2.1 + d * e.v3.1 with hX'
  set Y := a * e.v1.2.1 + b * e.v2.2.1 + d * e.v3.2.1 with hY'
  set Z := a * e.v1.2.2 + b * e.v2.2.2 + d * e.v3.2.2 with hZ'
  set k := e.coeffs with hk
  set D := inner3 e.v1 (cross e.v2 e.v3) with hD
  set nx := 2 * k.cxx * X + k.cxy * Y + k.czx * Z with hnx
  set ny := 2 * k.cyy * Y + k.cxy * X + k.cyz * Z with hny
  set nz := 2 * k.czz * Z + k.czx * X + k.cyz * Y with hnz
  have key : ∀ a' b' d', nx * (a' * e.v1.1 + b' * e.v2.1 + d' * e.v3.1) +
      ny * (a' * e.v1.2.1 + b' * e.v2.2.1 + d' * e.v3.2.1) +
      nz * (a' * e.v1.2.2 + b' * e.v2.2.2 + d' * e.v3.2.2) =
      2 * D ^ 2 * (a * a' + b * b' + d * d') :=
    fun a' b' d' => ellipsoid_gradient e.v1 e.v2 e.v3 a b d a' b' d'
  clear_value nx ny nz D
  have hpos : 0 < nx ^ 2 + ny ^ 2 + nz ^ 2 := by
    apply sum_sq_pos
    by_contra hn
    push Not at hn
    obtain ⟨e1, e2, e3⟩ := hn
    have := key a b d
    rw [e1, e2, e3, show a * a + b * b + d * d = 1 by linarith] at this
    have hd : 0 < D ^ 2 := by positivity
    linarith
  obtain ⟨k1, k2, s, k3, k4, k5⟩ := orient3 (vx := v.1) (vy := v.2.1) (vz := v.2.2) hpos
  refine ⟨?_, ?_, ?_⟩
  · unfold inner3; simp only; linear_combination k1
  · intro a' b' d' h
    unfold inner3 comb3
    simp only at *
    rw [k3, k4, k5]
    linear_combination s * key a' b' d' + 2 * s * D ^ 2 * h
  · exact k2

/-- A slanted ellipse: hit from the right at the end of its first axis. -/
example : along ((5, 2) : ℝ × ℝ) (-3, 0) 1 = comb2 (0, 0) (2, 2) (-1, 1) 1 0 := by
  norm_num [along, comb2]

/-- A cylinder of unit square base, over the rationals, with horizontal base. -/
def exampleBox (w : ℚ × ℚ × ℚ) : Cyl ℚ :=
  { center := (0, 0, 0), v1 := (1, 0, 0), v2 := (0, 1, 0), w := w,
    base := baseParallelogram (fun _ w => w) 0 1 2 3, lbot := 4, ltop := 5 }

/-- C60 is false for cylinders: the normal at the top is the third column of the matrix of the
cylinder.  It is not of unit length (height not 2), not orthogonal to the top (slanted cylinder) and
does not point against the velocity (link leaving a cylinder). -/
theorem C60_cylinder_negation :
    (∃ (c : Cyl ℚ) (x v : ℚ × ℚ × ℚ), inner3 c.v1 (cross c.v2 c.w) ≠ 0 ∧
      c.inside x = false ∧ c.inside (x.1 + v.1, x.2.1 + v.2.1, x.2.2 + v.2.2) = true ∧
      inner3 (c.distance x v 1).normal (c.distance x v 1).normal ≠ 1) ∧
    (∃ (c : Cyl ℚ) (x v : ℚ × ℚ × ℚ), inner3 c.v1 (cross c.v2 c.w) ≠ 0 ∧
      c.inside x = false ∧ c.inside (x.1 + v.1, x.2.1 + v.2.1, x.2.2 + v.2.2) = true ∧
      (c.distance x v 1).border = c.ltop ∧ inner3 (c.distance x v 1).normal c.v1 ≠ 0) ∧
    (∃ (c : Cyl ℚ) (x v : ℚ × ℚ × ℚ), inner3 c.v1 (cross c.v2 c.w) ≠ 0 ∧
      c.inside x = true ∧ c.inside (x.1 + v.1, x.2.1 + v.2.1, x.2.2 + v.2.2) = false ∧
      inner3 (c.distance x v 1).normal v > 0) := by
  refine ⟨⟨exampleBox (0, 0, 2), (1 / 2, 1 / 2, 3), (0, 0, -2), by decide +kernel⟩,
    ⟨exampleBox (1, 0, 1), (3 / 2, 1 / 2, 2), (0, 0, -3 / 2), by decide +kernel⟩,
    ⟨exampleBox (0, 0, 1), (1 / 2, 1 / 2, 0), (0, 0, 2), by decide +kernel⟩⟩

/-- Where the normal of a cylinder comes from. -/
theorem Cyl.normal_cases {K : Type} [Field K] [LinearOrder K] [IsStrictOrderedRing K] (c : Cyl K) (x v : K × K × K)
    (m : K) (hpos : 0 < (c.distance x v m).alpha) :
    let r := c.distance x v m
    let y := c.coords x
    let vc := c.frame v
    let h := c.base.dist (y.1, y.2.1) (vc.1, vc.2.1) (some m)
    r.alpha ≠ tgv ∧
    ((r.alpha = c.plane y vc (-(1 + y.2.2)) m ∧ r.normal = comb3 (0, 0, 0) c.v1 c.v2 c.w 0 0 (-1)) ∨
     (r.alpha = c.plane y vc (1 - y.2.2) m ∧ r.normal = comb3 (0, 0, 0) c.v1 c.v2 c.w 0 0 1) ∨
     (r.alpha = h.alpha ∧ |y.2.2 + h.alpha * vc.2.2| ≤ 1 ∧
       r.normal = comb3 (0, 0, 0) c.v1 c.v2 c.w h.normal.1 h.normal.2 0)) := by
  intro r y vc h
  have hr : r = c.distance x v m := rfl
  rw [← hr] at hpos
  unfold Cyl.distance at hr
  simp only at hr
  set atop := c.plane (c.coords x) (c.frame v) (1 - (c.coords x).2.2) m with htop
  set abot := c.plane (c.coords x) (c.frame v) (-(1 + (c.coords x).2.2)) m with hbot
  set h' := c.base.dist ((c.coords x).1, (c.coords x).2.1) ((c.frame v).1, (c.frame v).2.1) (some m) with hh
  set a0 : K := if h'.alpha < 0 then tgv else h'.alpha with ha0
  set a1 : K := if a0 > 0 ∧ |(c.coords x).2.2 + a0 * (c.frame v).2.2| > 1 then tgv else a0 with ha1
  set a := min (min a1 atop) abot with ha
  have hne : a ≠ tgv := by
    intro he
    rw [hr] at hpos
    simp only [he, if_true] at hpos
    linarith
  have hra : r.alpha = a := by rw [hr]; simp only [if_neg hne]
  have hrn := congrArg Hit.normal hr
  simp only at hrn
  rw [hra]
  refine ⟨hne, ?_⟩
  by_cases hb : a = abot
  · left
    refine ⟨hb, ?_⟩
    rw [hrn, if_pos hb]
    simp [comb3]
  right
  by_cases ht : a = atop
  · left
    refine ⟨ht, ?_⟩
    rw [hrn, if_neg hb, if_pos ht]
    simp [comb3]
  right
  have h1 : a = a1 := by
    rcases min_choice (min a1 atop) abot with h1 | h1
    · rcases min_choice a1 atop with h2 | h2
      · rw [ha, h1, h2]
      · exact absurd (by rw [ha, h1, h2]) ht
    · exact absurd (by rw [ha, h1]) hb
  have hind : ¬ (a0 > 0 ∧ |(c.coords x).2.2 + a0 * (c.frame v).2.2| > 1) := by
    intro hi
    rw [ha1, if_pos hi] at h1
    exact hne h1
  have h2 : a = a0 := by rw [h1, ha1, if_neg hind]
  have h3 : ¬ h'.alpha < 0 := by
    intro hn
    rw [ha0, if_pos hn] at h2
    exact hne h2
  have h4 : a0 = h'.alpha := by rw [ha0, if_neg h3]
  refine ⟨h2.trans h4, ?_, ?_⟩
  · have hp : a0 > 0 := by rw [← h2, ← hra]; exact hpos
    push Not at hind
    have := hind hp
    rw [h4] at this
    exact this
  · rw [hrn, if_neg hb, if_neg ht, if_neg hind]
    simp only [comb3, Prod.mk.injEq]
    refine ⟨?_, ?_, ?_⟩ <;> ring

/-- C60 (right circular cylinders; partial: the length is that of the columns of the matrix of the cylinder, and
slanted cylinders, other bases and links which leave the cylinder are excluded, `C60_cylinder_negation`). For a link
`x = center + a v1 + b v2 + d w`, `v = a' v1 + b' v2 + d' w` from outside to an interior point, the normal is
orthogonal to the bottom, the top or the side at the hit point, and does not point along `v`; it has the length of
`w` on the bottom and on the top, and the length of `v1` on the side. -/
theorem C60_cylinder_partial (c : Cyl ℝ) (l0 : Int) (hb : c.base = baseDisc l0)
    (hc : inner3 c.v1 (cross c.v2 c.w) ≠ 0) (h12 : inner3 c.v1 c.v2 = 0) (h1w : inner3 c.v1 c.w = 0)
    (h2w : inner3 c.v2 c.w = 0) (hlen : inner3 c.v2 c.v2 = inner3 c.v1 c.v1)
    (a b d a' b' d' m : ℝ) (x v : ℝ × ℝ × ℝ) (hm0 : 0 < m) (hm : m < 10 ^ 16)
    (hx : x = comb3 c.center c.v1 c.v2 c.w a b d) (hv : v = comb3 (0, 0, 0) c.v1 c.v2 c.w a' b' d')
    (hflat : d' = 0 → m < (1 - d) * 10 ^ 16) (hout : c.inside x = false)
    (hin : (a + m * a') ^ 2 + (b + m * b') ^ 2 < 1 ∧ |d + m * d'| < 1) :
    let r := c.distance x v m
    ((|d + r.alpha * d'| = 1 ∧ inner3 r.normal c.v1 = 0 ∧ inner3 r.normal c.v2 = 0 ∧
        inner3 r.normal r.normal = inner3 c.w c.w) ∨
      ((a + r.alpha * a') ^ 2 + (b + r.alpha * b') ^ 2 = 1 ∧ inner3 r.normal c.w = 0 ∧
        inner3 r.normal (comb3 (0, 0, 0) c.v1 c.v2 c.w (-(b + r.alpha * b')) (a + r.alpha * a') 0) = 0 ∧
        inner3 r.normal r.normal = inner3 c.v1 c.v1)) ∧
    inner3 r.normal v ≤ 0 := by
  intro r
  have hy : c.coords x = (a, b, d) := (Cyl.coords_comb c hc x a b d).2 hx
  have hvc : c.frame v = (a', b', d') := (Cyl.frame_comb c hc v a' b' d').2 hv
  have hB : c.base.OK (disc (0, 0) 1) (circle (0, 0) 1) := hb ▸ baseDisc_ok l0
  have hins : c.inside (along3 x v m) = true := by
    unfold Cyl.inside
    rw [Cyl.coords_along, hy, hvc, hb]
    simp only [along3, baseDisc, Bool.and_eq_true, decide_eq_true_eq]
    exact ⟨hin.1.le, decide_eq_true hin.2.le⟩
  obtain ⟨g1, g2, -⟩ := Cyl.enter_core c _ _ hB x v m m hm hm0 le_rfl hout hins
  obtain ⟨g3, g4⟩ := Cyl.normal_cases c x v m g1
  simp only [hy, hvc] at g4
  have hw : 0 < inner3 c.w c.w := by
    by_contra hn
    have h0 : inner3 c.w c.w = 0 := le_antisymm (not_lt.1 hn) (by unfold inner3; nlinarith [sq_nonneg c.w.1, sq_nonneg c.w.2.1, sq_nonneg c.w.2.2])
    unfold inner3 at h0
    have q1 : c.w.1 = 0 := by nlinarith [sq_nonneg c.w.1, sq_nonneg c.w.2.1, sq_nonneg c.w.2.2]
    have q2 : c.w.2.1 = 0 := by nlinarith [sq_nonneg c.w.1, sq_nonneg c.w.2.1, sq_nonneg c.w.2.2]
    have q3 : c.w.2.2 = 0 := by nlinarith [sq_nonneg c.w.1, sq_nonneg c.w.2.1, sq_nonneg c.w.2.2]
    apply hc
    simp only [inner3, cross, q1, q2, q3]
    ring
  have hin2 := abs_lt.1 hin.2
  have hprod : ∀ p q e p' q' e' : ℝ, inner3 (comb3 (0, 0, 0) c.v1 c.v2 c.w p q e) (comb3 (0, 0, 0) c.v1 c.v2 c.w p' q' e') =
      (p * p' + q * q') * inner3 c.v1 c.v1 + e * e' * inner3 c.w c.w := by
    intro p q e p' q' e'
    have : inner3 (comb3 (0, 0, 0) c.v1 c.v2 c.w p q e) (comb3 (0, 0, 0) c.v1 c.v2 c.w p' q' e') =
        p * p' * inner3 c.v1 c.v1 + q * q' * inner3 c.v2 c.v2 + e * e' * inner3 c.w c.w +
          (p * q' + q * p') * inner3 c.v1 c.v2 + (p * e' + e * p') * inner3 c.v1 c.w +
          (q * e' + e * q') * inner3 c.v2 c.w := by
      simp only [inner3, comb3]
      ring
    rw [this, h12, h1w, h2w, hlen]
    ring
  have e1 : c.v1 = comb3 (0, 0, 0) c.v1 c.v2 c.w 1 0 0 := by simp [comb3]
  have e2 : c.v2 = comb3 (0, 0, 0) c.v1 c.v2 c.w 0 1 0 := by simp [comb3]
  have e3 : c.w = comb3 (0, 0, 0) c.v1 c.v2 c.w 0 0 1 := by simp [comb3]
  have k1 : ∀ p q e, inner3 (comb3 (0, 0, 0) c.v1 c.v2 c.w p q e) c.v1 = p * inner3 c.v1 c.v1 := by
    intro p q e
    have := hprod p q e 1 0 0
    rw [← e1] at this
    rw [this]; ring
  have k2 : ∀ p q e, inner3 (comb3 (0, 0, 0) c.v1 c.v2 c.w p q e) c.v2 = q * inner3 c.v1 c.v1 := by
    intro p q e
    have := hprod p q e 0 1 0
    rw [← e2] at this
    rw [this]; ring
  have k3 : ∀ p q e, inner3 (comb3 (0, 0, 0) c.v1 c.v2 c.w p q e) c.w = e * inner3 c.w c.w := by
    intro p q e
    have := hprod p q e 0 0 1
    rw [← e3] at this
    rw [this]; ring
  have hr : c.distance x v m = r := rfl
  rw [hr] at g1 g2 g3 g4
  have hplane : ∀ num, r.alpha = c.plane (a, b, d) (a', b', d') num m →
      r.alpha * (d' + if d' = 0 then 1 / 10 ^ 16 else 0) = num := by
    intro num hq
    rcases Cyl.plane_cases c (a, b, d) (a', b', d') num m with k | ⟨_, _, _, k⟩
    · exact absurd (hq.trans k) g3
    · rw [← hq] at k
      rw [k]
      refine div_mul_cancel₀ _ ?_
      simp only
      split_ifs with h0
      · rw [h0]; norm_num
      · rw [add_zero]; exact h0
  rcases g4 with ⟨hq, hn⟩ | ⟨hq, hn⟩ | ⟨hq, hz, hn⟩
  · have hp := hplane _ hq
    have hd : d' ≠ 0 := by
      intro h0
      rw [h0, if_pos rfl, zero_add] at hp
      rw [h0, mul_zero, add_zero] at hin2
      have : 0 < r.alpha * (1 / 10 ^ 16) := by positivity
      linarith
    rw [if_neg hd, add_zero] at hp
    refine ⟨Or.inl ⟨?_, ?_, ?_, ?_⟩, ?_⟩
    · rw [show d + r.alpha * d' = -1 by linarith, abs_neg, abs_one]
    · rw [hn, k1, zero_mul]
    · rw [hn, k2, zero_mul]
    · rw [hn, hprod]; ring
    · rw [hn, hv, hprod]
      have : 0 ≤ d' := by
        by_contra hneg
        push Not at hneg
        nlinarith [hin2.1]
      have h6 := mul_nonneg this hw.le
      linarith
  · have hp := hplane _ hq
    have hd : d' ≠ 0 := by
      intro h0
      rw [h0, if_pos rfl, zero_add] at hp
      have h5 := hflat h0
      have : r.alpha = (1 - d) * 10 ^ 16 := by rw [← hp]; ring
      linarith
    rw [if_neg hd, add_zero] at hp
    refine ⟨Or.inl ⟨?_, ?_, ?_, ?_⟩, ?_⟩
    · rw [show d + r.alpha * d' = 1 by linarith, abs_one]
    · rw [hn, k1, zero_mul]
    · rw [hn, k2, zero_mul]
    · rw [hn, hprod]; ring
    · rw [hn, hv, hprod]
      have : d' ≤ 0 := by
        by_contra hneg
        push Not at hneg
        nlinarith [hin2.2]
      have h6 := mul_nonpos_of_nonpos_of_nonneg this hw.le
      linarith
  · have hs := hB.sound (a, b) (a', b') m hm (by rw [← hq]; exact g1)
    rw [← hq] at hs
    have hcirc : (a + r.alpha * a') ^ 2 + (b + r.alpha * b') ^ 2 = 1 := by
      have := hs.2
      simp only [circle, along, Set.mem_ofPred_eq] at this
      linarith
    have hnorm : (c.base.dist (a, b) (a', b') (some m)).normal =
        (⟨(0, 0), (1, 0), (0, 1)⟩ : Ellipse).normal (a, b) (a', b') r.alpha := by
      rw [hq]
      rw [hq, hb] at g1
      rw [hb]
      unfold baseDisc at g1 ⊢
      simp only at g1 ⊢
      split_ifs with h
      · rfl
      · rw [if_neg h] at g1
        exact absurd g1 h
    obtain ⟨q1, q2, q3⟩ := C60_ellipse_normal ⟨(0, 0), (1, 0), (0, 1)⟩ (by simp) (a, b) (a', b') r.alpha
      (a + r.alpha * a') (b + r.alpha * b') hcirc (by simp [along, comb2])
    rw [← hnorm] at q1 q2 q3
    set n := (c.base.dist (a, b) (a', b') (some m)).normal with hnn
    simp only [mul_one, mul_zero, add_zero, zero_add] at q2
    have hv1 : 0 ≤ inner3 c.v1 c.v1 := by
      unfold inner3; nlinarith [sq_nonneg c.v1.1, sq_nonneg c.v1.2.1, sq_nonneg c.v1.2.2]
    refine ⟨Or.inr ⟨hcirc, ?_, ?_, ?_⟩, ?_⟩
    · rw [hn, k3, zero_mul]
    · rw [hn, hprod]
      rw [show n.1 * -(b + r.alpha * b') + n.2 * (a + r.alpha * a') = 0 by linarith]
      ring
    · rw [hn, hprod]
      rw [show n.1 * n.1 + n.2 * n.2 = 1 by linarith]
      ring
    · rw [hn, hv, hprod, zero_mul, zero_mul, add_zero]
      exact mul_nonpos_of_nonpos_of_nonneg q3 hv1

/-- A horizontal link which enters a cylinder of radius 2 and height 6. -/
example : let c : Cyl ℝ := ⟨(0, 0, 0), (2, 0, 0), (0, 2, 0), (0, 0, 3), baseDisc 0, 1, 2⟩
    inner3 c.v1 (cross c.v2 c.w) ≠ 0 ∧ inner3 c.v1 c.v2 = 0 ∧ inner3 c.v1 c.w = 0 ∧ inner3 c.v2 c.w = 0 ∧
    inner3 c.v2 c.v2 = inner3 c.v1 c.v1 ∧ ((3, 0, 0) : ℝ × ℝ × ℝ) = comb3 c.center c.v1 c.v2 c.w (3 / 2) 0 0 ∧
    ((-3, 0, 0) : ℝ × ℝ × ℝ) = comb3 (0, 0, 0) c.v1 c.v2 c.w (-(3 / 2)) 0 0 ∧
    ((0 : ℝ) = 0 → (1 : ℝ) < (1 - 0) * 10 ^ 16) ∧ c.inside (3, 0, 0) = false ∧
    ((3 / 2 : ℝ) + 1 * -(3 / 2)) ^ 2 + (0 + 1 * 0) ^ 2 < 1 ∧ |(0 : ℝ) + 1 * 0| < 1 := by
  refine ⟨?_, ?_, ?_, ?_, ?_, ?_, ?_, ?_, ?_, ?_, ?_⟩ <;>
    norm_num [inner3, cross, comb3, Cyl.inside, Cyl.coords, Cyl.frame, Cyl.det, baseDisc]

end Pylbm.Geometry
