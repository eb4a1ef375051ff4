import Verif.Domain.Provenance
import Verif.Domain.Space
import Verif.Domain.Witness
import Verif.Geometry.Labels
import Verif.Geometry.Normals
/-!
# The walls of the library as the links of a domain see them: property C65

In a domain built from shapes of the plane, or from solids, every distance which is set leads to a point of the box
or of the surface of one of the shapes, and the label and the normal of the link are those of the surface there.
-/
set_option linter.unusedSectionVars false
namespace Pylbm.Domain
open Round Storage DomainSpec Geometry GeometrySpec

/-! ## Specification -/

/-- The point `y` is on the part of the boundary which has the label `l`, and `τ` is a tangent there: the labels of a
triangle are those of the sides along `v1`, along `v2` and opposite to the point; those of a parallelogram those of
the sides along `v1` and `v2` from the point, then of the opposite sides. -/
def Shape.WallAt : Shape → ℝ × ℝ → Int → ℝ × ℝ → Prop
  | .triangle q l0 l1 l2, y, l, τ => ∃ s, 0 ≤ s ∧ s ≤ 1 ∧
      ((l = l0 ∧ y = comb2 q.point q.v1 q.v2 s 0 ∧ τ = q.v1) ∨
       (l = l1 ∧ y = comb2 q.point q.v1 q.v2 0 s ∧ τ = q.v2) ∨
       (l = l2 ∧ y = comb2 q.point q.v1 q.v2 (1 - s) s ∧ τ = (q.v2.1 - q.v1.1, q.v2.2 - q.v1.2)))
  | .parallelogram q l0 l1 l2 l3, y, l, τ => ∃ s, 0 ≤ s ∧ s ≤ 1 ∧
      ((l = l0 ∧ y = comb2 q.point q.v1 q.v2 s 0 ∧ τ = q.v1) ∨
       (l = l1 ∧ y = comb2 q.point q.v1 q.v2 0 s ∧ τ = q.v2) ∨
       (l = l2 ∧ y = comb2 q.point q.v1 q.v2 s 1 ∧ τ = q.v1) ∨
       (l = l3 ∧ y = comb2 q.point q.v1 q.v2 1 s ∧ τ = q.v2))
  | .circle c l', y, l, τ => l = l' ∧ y ∈ GeometrySpec.circle c.center c.radius ∧
      τ = (-(y.2 - c.center.2), y.1 - c.center.1)
  | .ellipse e l', y, l, τ => l = l' ∧ ∃ a b, a ^ 2 + b ^ 2 = 1 ∧ y = comb2 e.center e.v1 e.v2 a b ∧
      τ = (-b * e.v1.1 + a * e.v2.1, -b * e.v1.2 + a * e.v2.2)

/-- The same in the space: `T` is the plane tangent to the sphere or to the ellipsoid. A hit of a cylinder is given up
to `1e-16` of its height (cylinder.py 166-169): on the side, on the bottom or on the top, with the label of this part;
the normals of the cylinders are not normal (C60). -/
def Solid.WallAt : Solid → V3 → Int → (V3 → Prop) → Prop
  | .sphere s l', y, l, T => l = l' ∧ y ∈ GeometrySpec.sphere s.center s.radius ∧
      T = fun τ => inner3 τ (y.1 - s.center.1, y.2.1 - s.center.2.1, y.2.2 - s.center.2.2) = 0
  | .ellipsoid e l', y, l, T => l = l' ∧ ∃ a b d, a ^ 2 + b ^ 2 + d ^ 2 = 1 ∧
      y = comb3 e.center e.v1 e.v2 e.v3 a b d ∧
      T = fun τ => ∃ a' b' d', a * a' + b * b' + d * d' = 0 ∧ τ = comb3 (0, 0, 0) e.v1 e.v2 e.v3 a' b' d'
  | .round c v1 v2 w l0 lb lt, y, l, _ => ∃ a b d, y = comb3 c v1 v2 w a b d ∧ (a, b) ∈ disc (0, 0) 1 ∧
      ((l = l0 ∧ (a, b) ∈ GeometrySpec.circle (0, 0) 1 ∧ |d| ≤ 1) ∨ (l = lb ∧ |d + 1| ≤ 1 / 10 ^ 16) ∨
       (l = lt ∧ |d - 1| ≤ 1 / 10 ^ 16))

/-- Spheres and ellipsoids. -/
def Solid.Smooth : Solid → Prop
  | .round _ _ _ _ _ _ _ => False
  | _ => True

/-! ## Proofs -/

theorem edges_wall (x v : V2 ℝ) (q : Quad ℝ) (edges : List (Edge ℝ))
    (h : 0 < (q.distance (edgeNormal v) (0, 0) edges x v (some 1)).alpha) :
    ∃ e ∈ edges, ∃ s, 0 ≤ s ∧ s ≤ 1 ∧
      (q.distance (edgeNormal v) (0, 0) edges x v (some 1)).alpha ≤ 1 ∧
      (q.distance (edgeNormal v) (0, 0) edges x v (some 1)).border = e.label ∧
      along x v (q.distance (edgeNormal v) (0, 0) edges x v (some 1)).alpha =
        (q.point.1 + e.p.1 + s * e.vt.1, q.point.2 + e.p.2 + s * e.vt.2) ∧
      (q.distance (edgeNormal v) (0, 0) edges x v (some 1)).normal = edgeNormal v e.vt ∧
      ¬ Parallel v e.vt := by
  unfold Quad.distance at *
  rcases C26_first_edge (edgeNormal v) (0, 0) (x.1 - q.point.1, x.2 - q.point.2) v edges 1 (by norm_num)
    with ⟨_, h4⟩ | ⟨pre, e, post, t, h3, h4, _, _, h7⟩
  · rw [h4] at h; exact absurd h (by norm_num)
  · rw [h7]
    obtain ⟨hp, _, ht, s, s0, s1, hs⟩ := h4
    refine ⟨e, by rw [h3]; simp, s, s0, s1, ht, rfl, ?_, rfl, hp⟩
    simp only [along, Prod.mk.injEq] at hs
    refine Prod.ext ?_ ?_ <;> simp only [along] at *
    · linear_combination hs.1
    · linear_combination hs.2

theorem ellipseHit_wall (e : Ellipse) (he : e.v1.1 * e.v2.2 - e.v1.2 * e.v2.1 ≠ 0) (l : Int) (x v : V2 ℝ)
    (h : 0 < (ellipseHit e l x v).alpha) :
    (ellipseHit e l x v).alpha ≤ 1 ∧ (ellipseHit e l x v).border = l ∧
    ∃ a b, a ^ 2 + b ^ 2 = 1 ∧ along x v (ellipseHit e l x v).alpha = comb2 e.center e.v1 e.v2 a b ∧
      (ellipseHit e l x v).normal.1 ^ 2 + (ellipseHit e l x v).normal.2 ^ 2 = 1 ∧
      (ellipseHit e l x v).normal.1 * (-b * e.v1.1 + a * e.v2.1) +
        (ellipseHit e l x v).normal.2 * (-b * e.v1.2 + a * e.v2.2) = 0 ∧
      (ellipseHit e l x v).normal.1 * v.1 + (ellipseHit e l x v).normal.2 * v.2 ≤ 0 := by
  have ha := h
  rw [ellipseHit_alpha] at ha
  have hh : ellipseHit e l x v = ⟨e.alpha x v (some 1), l, e.normal x v (e.alpha x v (some 1))⟩ := by
    unfold ellipseHit; simp only; rw [if_pos ha]
  rw [hh]
  obtain ⟨h1, a, b, hab, hp⟩ := Ellipse.alpha_sound e he x v ha
  exact ⟨h1, rfl, a, b, hab, hp, C60_ellipse_normal e he x v _ a b hab hp⟩

/-- What a shape of the plane says of a link which meets it. -/
theorem Shape.elem_wall (s : Shape) (hs : s.Valid) (fluid : Bool) (x v : Fin 2 → ℝ)
    (h : 0 < (s.elem fluid).alpha x v) :
    (s.elem fluid).alpha x v ≤ 1 ∧ ∃ τ, s.WallAt (x 0 + (s.elem fluid).alpha x v * v 0,
      x 1 + (s.elem fluid).alpha x v * v 1) ((s.elem fluid).border x v) τ ∧
      (s.elem fluid).normvect x v 0 ^ 2 + (s.elem fluid).normvect x v 1 ^ 2 = 1 ∧
      (s.elem fluid).normvect x v 0 * τ.1 + (s.elem fluid).normvect x v 1 * τ.2 = 0 ∧
      (s.elem fluid).normvect x v 0 * v 0 + (s.elem fluid).normvect x v 1 * v 1 ≤ 0 := by
  cases s with
  | triangle q l0 l1 l2 =>
    obtain ⟨e, he, s, s0, s1, h1, h2, h3, h4, h5⟩ := edges_wall (x 0, x 1) (v 0, v 1) q _ h
    obtain ⟨n1, n2, n3⟩ := C26_normal (v 0, v 1) e.vt h5
    rw [← h4] at n1 n2 n3
    refine ⟨h1, e.vt, ?_, n1, n2, n3.le⟩
    refine ⟨s, s0, s1, ?_⟩
    simp only [triangleEdges, List.mem_cons, List.not_mem_nil, or_false] at he
    rcases he with rfl | rfl | rfl
    · refine Or.inl ⟨h2, h3.trans ?_, rfl⟩
      simp [comb2]
    · refine Or.inr (Or.inl ⟨h2, h3.trans ?_, rfl⟩)
      simp [comb2]
    · refine Or.inr (Or.inr ⟨h2, h3.trans ?_, rfl⟩)
      simp only [comb2, Prod.mk.injEq]; constructor <;> ring
  | parallelogram q l0 l1 l2 l3 =>
    obtain ⟨e, he, s, s0, s1, h1, h2, h3, h4, h5⟩ := edges_wall (x 0, x 1) (v 0, v 1) q _ h
    obtain ⟨n1, n2, n3⟩ := C26_normal (v 0, v 1) e.vt h5
    rw [← h4] at n1 n2 n3
    refine ⟨h1, e.vt, ?_, n1, n2, n3.le⟩
    refine ⟨s, s0, s1, ?_⟩
    simp only [parallelogramEdges, List.mem_cons, List.not_mem_nil, or_false] at he
    rcases he with rfl | rfl | rfl | rfl
    · refine Or.inl ⟨h2, h3.trans ?_, rfl⟩
      simp [comb2]
    · refine Or.inr (Or.inl ⟨h2, h3.trans ?_, rfl⟩)
      simp [comb2]
    · refine Or.inr (Or.inr (Or.inl ⟨h2, h3.trans ?_, rfl⟩))
      simp only [comb2, Prod.mk.injEq]; constructor <;> ring
    · refine Or.inr (Or.inr (Or.inr ⟨h2, h3.trans ?_, rfl⟩))
      simp only [comb2, Prod.mk.injEq]; constructor <;> ring
  | circle c l =>
    have hr : c.radius ≠ 0 := ne_of_gt hs
    have he : c.ellipse.v1.1 * c.ellipse.v2.2 - c.ellipse.v1.2 * c.ellipse.v2.1 ≠ 0 := by
      unfold Circle.ellipse; simpa using hr
    obtain ⟨h1, h2, a, b, hab, hp, n1, n2, n3⟩ := ellipseHit_wall c.ellipse he l (x 0, x 1) (v 0, v 1) h
    refine ⟨h1, _, ⟨h2, ?_, rfl⟩, n1, ?_, n3⟩
    · rw [← Circle.curve_eq hr]; exact ⟨a, b, hab, hp⟩
    · have p1 := congrArg Prod.fst hp
      have p2 := congrArg Prod.snd hp
      simp only [comb2] at p1 p2
      have v1 : c.ellipse.v1 = (c.radius, 0) := by unfold Circle.ellipse; simp
      have v2 : c.ellipse.v2 = (0, c.radius) := by unfold Circle.ellipse; simp
      have cc : c.ellipse.center = c.center := rfl
      rw [v1, v2, cc] at p1 p2
      rw [v1, v2] at n2
      simp only [along] at p1 p2
      change (ellipseHit c.ellipse l (x 0, x 1) (v 0, v 1)).normal.1 * -(x 1 +
        (ellipseHit c.ellipse l (x 0, x 1) (v 0, v 1)).alpha * v 1 - c.center.2) +
        (ellipseHit c.ellipse l (x 0, x 1) (v 0, v 1)).normal.2 * (x 0 +
        (ellipseHit c.ellipse l (x 0, x 1) (v 0, v 1)).alpha * v 0 - c.center.1) = 0
      rw [p1, p2]
      simp only at n2
      linear_combination n2
  | ellipse e l =>
    obtain ⟨h1, h2, a, b, hab, hp, n1, n2, n3⟩ := ellipseHit_wall e hs.1 l (x 0, x 1) (v 0, v 1) h
    exact ⟨h1, _, ⟨h2, a, b, hab, hp, rfl⟩, n1, n2, n3⟩

/-- C65 (2D geometries of the library): in a domain built from any list of valid shapes, a link which carries a distance
leads to the first face of the box which it crosses, with the label and the outward normal of this face, or to a point of
the boundary of one of the shapes, at most one link away, with the label of this part of the boundary and its unit normal
on the side of the link. -/
theorem C65_plane {nv : Nat} (g : Grid ℝ 2 nv) (hg : g.WF) (shapes : List (Shape × Bool))
    (hs : ∀ s ∈ shapes, s.1.Valid) (st : State ℝ 2 nv)
    (h : build g (shapes.map fun s => s.1.elem s.2) = some st)
    (c : Cell 2) (k : Fin nv) (hd : (st.link k c).dist ≠ 999) :
    let x := g.cellCentre c
    let v : Fin 2 → ℝ := fun j => g.dx * (g.vel k j : ℝ)
    let L := st.link k c
    (∃ f, FirstFace g.n g.Active (g.inner c) (g.vel k) f L.dist ∧ L.flag = g.label f.ax f.upper ∧
      L.normal = outward f) ∨
    ∃ s ∈ shapes, 0 < L.dist ∧ L.dist ≤ 1 ∧
      ∃ τ, s.1.WallAt (x 0 + L.dist * v 0, x 1 + L.dist * v 1) L.flag τ ∧
        L.normal 0 ^ 2 + L.normal 1 ^ 2 = 1 ∧ L.normal 0 * τ.1 + L.normal 1 * τ.2 = 0 ∧
        0 ≤ L.normal 0 * v 0 + L.normal 1 * v 1 := by
  intro x v L
  rcases C65_same_wall g hg _ (by
    intro e he
    obtain ⟨s, hs', rfl⟩ := List.mem_map.1 he
    exact Shape.elem_sound s.1 (hs s hs') s.2) st h c k hd with hf | ⟨e, he, h1, h2, h3, h4⟩
  · exact Or.inl hf
  · obtain ⟨s, hs', rfl⟩ := List.mem_map.1 he
    obtain ⟨k1, τ, k2, k3, k4, k5⟩ := Shape.elem_wall s.1 (hs s hs') s.2 _ _ h1
    right
    refine ⟨s, hs', by rw [h2]; exact h1, by rw [h2]; exact k1, τ, ?_, ?_, ?_, ?_⟩
    · rw [h2, h3]; exact k2
    · rw [h4, neg_sq, neg_sq]; exact k3
    · rw [h4]; linear_combination -k4
    · rw [h4]; linarith [k5]

/-! ### The solids -/

theorem ellipsoidHit_wall (e : Ellipsoid) (he : triple e.v1 e.v2 e.v3 ≠ 0) (l : Int) (x v : V3)
    (h : 0 < (ellipsoidHit e l x v).alpha) :
    (ellipsoidHit e l x v).alpha ≤ 1 ∧ (ellipsoidHit e l x v).border = l ∧
    ∃ a b d, a ^ 2 + b ^ 2 + d ^ 2 = 1 ∧
      along3 x v (ellipsoidHit e l x v).alpha = comb3 e.center e.v1 e.v2 e.v3 a b d ∧
      inner3 (ellipsoidHit e l x v).normal (ellipsoidHit e l x v).normal = 1 ∧
      (∀ a' b' d', a * a' + b * b' + d * d' = 0 →
        inner3 (ellipsoidHit e l x v).normal (comb3 (0, 0, 0) e.v1 e.v2 e.v3 a' b' d') = 0) ∧
      inner3 (ellipsoidHit e l x v).normal v ≤ 0 := by
  have ha := h
  rw [ellipsoidHit_alpha] at ha
  have hh : ellipsoidHit e l x v = ⟨e.alpha x v (some 1), l, e.normal x v (e.alpha x v (some 1))⟩ := by
    unfold ellipsoidHit; simp only; rw [if_pos ha]
  rw [hh]
  obtain ⟨h1, a, b, d, hab, hp⟩ := Ellipsoid.alpha_sound e he x v ha
  exact ⟨h1, rfl, a, b, d, hab, hp, C60_ellipsoid_normal e he x v _ a b d hab hp⟩

theorem Cyl.plane_height {K : Type} [Field K] [LinearOrder K] [IsStrictOrderedRing K] (c : Cyl K)
    (y vc : K × K × K) (num m : K) (h : c.plane y vc num m ≠ tgv) :
    c.plane y vc num m ≤ m ∧
    c.base.inside (y.1 + c.plane y vc num m * vc.1, y.2.1 + c.plane y vc num m * vc.2.1) = true ∧
    |y.2.2 + c.plane y vc num m * vc.2.2 - (y.2.2 + num)| ≤ m / 10 ^ 16 := by
  rcases Cyl.plane_cases c y vc num m with h1 | ⟨h1, h2, h3, h4⟩
  · exact absurd h1 h
  · refine ⟨h2, h3, ?_⟩
    have hm0 : 0 ≤ m := h1.trans h2
    by_cases hv : vc.2.2 = 0
    · rw [if_pos hv, hv, zero_add, div_div_eq_mul_div, div_one] at h4
      have h5 : 0 ≤ num := by
        rw [h4] at h1
        exact nonneg_of_mul_nonneg_left h1 (by norm_num)
      rw [hv, mul_zero, add_zero, sub_add_cancel_left, abs_neg, abs_of_nonneg h5,
        le_div_iff₀ (by norm_num), ← h4]
      exact h2
    · rw [if_neg hv, add_zero] at h4
      have h5 : c.plane y vc num m * vc.2.2 = num := by rw [h4, div_mul_cancel₀ _ hv]
      rw [h5, sub_self, abs_zero]
      positivity

/-- The part of a cylinder which a link meets, in the frame of the cylinder. -/
theorem Cyl.hit_label {K : Type} [Field K] [LinearOrder K] [IsStrictOrderedRing K] (c : Cyl K) (B C : Set (K × K))
    (hB : c.base.OK B C) (sides : List (Int × Set (K × K))) (hL : c.base.Labelled sides)
    (x v : K × K × K) (m : K) (hm : m < 10 ^ 16) (h : 0 < (c.distance x v m).alpha) :
    let p := c.coords (along3 x v (c.distance x v m).alpha)
    (c.distance x v m).alpha ≤ m ∧ (p.1, p.2.1) ∈ B ∧
    (((c.distance x v m).border = c.lbot ∧ |p.2.2 + 1| ≤ m / 10 ^ 16) ∨
     ((c.distance x v m).border = c.ltop ∧ |p.2.2 - 1| ≤ m / 10 ^ 16) ∨
     ∃ s ∈ sides, (c.distance x v m).border = s.1 ∧ (p.1, p.2.1) ∈ s.2 ∧ |p.2.2| ≤ 1) := by
  intro p
  refine ⟨(Cyl.hit_mem c B C hB x v m hm h).1, (Cyl.hit_mem c B C hB x v m hm h).2.1, ?_⟩
  have hp : p = along3 (c.coords x) (c.frame v) (c.distance x v m).alpha := Cyl.coords_along c x v _
  rw [hp]
  clear hp p
  have htop := Cyl.plane_height c (c.coords x) (c.frame v) (1 - (c.coords x).2.2) m
  have hbot := Cyl.plane_height c (c.coords x) (c.frame v) (-(1 + (c.coords x).2.2)) m
  set y := c.coords x with hy
  set vc := c.frame v with hvc
  set h' := c.base.dist (y.1, y.2.1) (vc.1, vc.2.1) (some m) with hh
  have hsound := hB.sound (y.1, y.2.1) (vc.1, vc.2.1) m hm
  have hlab := hL (y.1, y.2.1) (vc.1, vc.2.1) m hm
  rw [← hh] at hsound hlab
  set atop := c.plane y vc (1 - y.2.2) m with hatop
  set abot := c.plane y vc (-(1 + y.2.2)) m with habot
  set a0 := if h'.alpha < 0 then tgv else h'.alpha with ha0
  set a1 := if a0 > 0 ∧ |y.2.2 + a0 * vc.2.2| > 1 then tgv else a0 with ha1
  have hres : (c.distance x v m).alpha =
      if min (min a1 atop) abot = tgv then -1 else min (min a1 atop) abot := rfl
  have hbor : (c.distance x v m).border =
      if min (min a1 atop) abot = abot then c.lbot else
        if min (min a1 atop) abot = atop then c.ltop else
          if a0 > 0 ∧ |y.2.2 + a0 * vc.2.2| > 1 then -1 else h'.border := rfl
  have hne : min (min a1 atop) abot ≠ tgv := by
    intro h1
    rw [hres, if_pos h1] at h
    exact absurd h (by norm_num)
  rw [if_neg hne] at hres
  rw [hres] at h ⊢
  rw [hbor]
  clear hbor hres
  clear_value h' atop abot
  by_cases e1 : min (min a1 atop) abot = abot
  · rw [if_pos e1]
    rw [e1] at hne ⊢
    left
    refine ⟨rfl, ?_⟩
    have := (hbot hne).2.2
    simp only [along3]
    rwa [show y.2.2 + abot * vc.2.2 - (y.2.2 + -(1 + y.2.2)) = y.2.2 + abot * vc.2.2 + 1 by ring] at this
  · rw [if_neg e1]
    by_cases e2 : min (min a1 atop) abot = atop
    · rw [if_pos e2]
      rw [e2] at hne ⊢
      right; left
      refine ⟨rfl, ?_⟩
      have := (htop hne).2.2
      simp only [along3]
      rwa [show y.2.2 + atop * vc.2.2 - (y.2.2 + (1 - y.2.2)) = y.2.2 + atop * vc.2.2 - 1 by ring] at this
    · rw [if_neg e2]
      have e3 : min (min a1 atop) abot = a1 := by
        rcases min_choice (min a1 atop) abot with k | k
        · rcases min_choice a1 atop with k' | k'
          · rw [k, k']
          · exact absurd (k.trans k') e2
        · exact absurd k e1
      rw [e3] at hne h ⊢
      by_cases hz : a0 > 0 ∧ |y.2.2 + a0 * vc.2.2| > 1
      · rw [ha1, if_pos hz] at hne; exact absurd rfl hne
      · rw [if_neg hz]
        have e4 : a1 = a0 := by rw [ha1, if_neg hz]
        have e5 : a0 = h'.alpha := by
          by_cases hn : h'.alpha < 0
          · rw [e4, ha0, if_pos hn] at hne; exact absurd rfl hne
          · rw [ha0, if_neg hn]
        push Not at hz
        rw [e4] at h ⊢
        obtain ⟨s, hs, k1, k2⟩ := hlab (by rw [← e5]; exact h)
        rw [← e5] at k2
        exact Or.inr (Or.inr ⟨s, hs, k1, k2, hz h⟩)

/-- What a solid says of a link which meets it. -/
theorem Solid.elem_wall (s : Solid) (hs : s.Valid) (fluid : Bool) (x v : Fin 3 → ℝ)
    (h : 0 < (s.elem fluid).alpha x v) :
    let a := (s.elem fluid).alpha x v
    let n := ((s.elem fluid).normvect x v 0, (s.elem fluid).normvect x v 1, (s.elem fluid).normvect x v 2)
    a ≤ 1 ∧ ∃ T, s.WallAt (x 0 + a * v 0, x 1 + a * v 1, x 2 + a * v 2) ((s.elem fluid).border x v) T ∧
      (s.Smooth → inner3 n n = 1 ∧ (∀ τ, T τ → inner3 n τ = 0) ∧ inner3 n (v 0, v 1, v 2) ≤ 0) := by
  cases s with
  | sphere s l =>
    have hr : s.radius ≠ 0 := ne_of_gt hs
    obtain ⟨h1, h2, a, b, d, hab, hp, n1, n2, n3⟩ :=
      ellipsoidHit_wall s.ellipsoid (Sphere.det_ne hr) l (x 0, x 1, x 2) (v 0, v 1, v 2) h
    refine ⟨h1, _, ⟨h2, ?_, rfl⟩, fun _ => ⟨n1, ?_, n3⟩⟩
    · rw [← Sphere.surface_eq hr]; exact ⟨a, b, d, hab, hp⟩
    · intro τ hτ
      have p1 := congrArg (fun p => p.1) hp
      have p2 := congrArg (fun p => p.2.1) hp
      have p3 := congrArg (fun p => p.2.2) hp
      have v1 : s.ellipsoid.v1 = (s.radius, 0, 0) := by unfold Sphere.ellipsoid; simp
      have v2 : s.ellipsoid.v2 = (0, s.radius, 0) := by unfold Sphere.ellipsoid; simp
      have v3 : s.ellipsoid.v3 = (0, 0, s.radius) := by unfold Sphere.ellipsoid; simp
      have cc : s.ellipsoid.center = s.center := rfl
      simp only [comb3, along3, v1, v2, v3, cc] at p1 p2 p3
      have q1 : (sphereElem s l fluid).alpha x v =
          (ellipsoidHit s.ellipsoid l (x 0, x 1, x 2) (v 0, v 1, v 2)).alpha := rfl
      have hτ' : inner3 τ (x 0 + (sphereElem s l fluid).alpha x v * v 0 - s.center.1,
        x 1 + (sphereElem s l fluid).alpha x v * v 1 - s.center.2.1,
        x 2 + (sphereElem s l fluid).alpha x v * v 2 - s.center.2.2) = 0 := hτ
      rw [q1, p1, p2, p3] at hτ'
      simp only [inner3] at hτ'
      have h0 : a * τ.1 + b * τ.2.1 + d * τ.2.2 = 0 := by
        have : s.radius * (a * τ.1 + b * τ.2.1 + d * τ.2.2) = 0 := by linear_combination hτ'
        exact (mul_eq_zero.1 this).resolve_left hr
      have := n2 (τ.1 / s.radius) (τ.2.1 / s.radius) (τ.2.2 / s.radius) (by field_simp; rw [mul_zero]; exact h0)
      rw [v1, v2, v3] at this
      simp only [comb3, mul_zero, add_zero, zero_add, div_mul_cancel₀ _ hr] at this
      exact this
  | ellipsoid e l =>
    obtain ⟨h1, h2, a, b, d, hab, hp, n1, n2, n3⟩ :=
      ellipsoidHit_wall e hs.1 l (x 0, x 1, x 2) (v 0, v 1, v 2) h
    refine ⟨h1, _, ⟨h2, a, b, d, hab, hp, rfl⟩, fun _ => ⟨n1, ?_, n3⟩⟩
    rintro τ ⟨a', b', d', h0, rfl⟩
    exact n2 a' b' d' h0
  | round c v1 v2 w l0 lb lt =>
    obtain ⟨h1, h2, h3⟩ := Cyl.hit_label (roundCyl c v1 v2 w l0 lb lt) _ _ (baseDisc_ok l0) _
      (baseDisc_labelled l0) (x 0, x 1, x 2) (v 0, v 1, v 2) 1 (by norm_num) h
    refine ⟨h1, fun _ => True, ⟨_, _, _, (Cyl.coords_comb (roundCyl c v1 v2 w l0 lb lt) hs.1 _ _ _ _).1 rfl, h2, ?_⟩,
      fun h => h.elim⟩
    rcases h3 with h3 | h3 | ⟨s, hs', h3, h4, h5⟩
    · exact Or.inr (Or.inl h3)
    · exact Or.inr (Or.inr h3)
    · rw [List.mem_singleton] at hs'
      subst hs'
      exact Or.inl ⟨h3, h4, h5⟩

/-- C65 (3D geometries of the library which their bounds contain): in a domain built from any list of valid solids, a link
which carries a distance leads to the first face of the box which it crosses, with the label and the outward normal of
this face, or to a point of the surface of one of the solids, at most one link away, with the label of this part of the
surface; on a sphere or an ellipsoid the normal of the link is the unit normal on the side of the link. -/
theorem C65_space {nv : Nat} (g : Grid ℝ 3 nv) (hg : g.WF) (solids : List (Solid × Bool))
    (hs : ∀ s ∈ solids, s.1.Valid) (st : State ℝ 3 nv)
    (h : build g (solids.map fun s => s.1.elem s.2) = some st)
    (c : Cell 3) (k : Fin nv) (hd : (st.link k c).dist ≠ 999) :
    let x := g.cellCentre c
    let v : Fin 3 → ℝ := fun j => g.dx * (g.vel k j : ℝ)
    let L := st.link k c
    let n := (L.normal 0, L.normal 1, L.normal 2)
    (∃ f, FirstFace g.n g.Active (g.inner c) (g.vel k) f L.dist ∧ L.flag = g.label f.ax f.upper ∧
      L.normal = outward f) ∨
    ∃ s ∈ solids, 0 < L.dist ∧ L.dist ≤ 1 ∧
      ∃ T, s.1.WallAt (x 0 + L.dist * v 0, x 1 + L.dist * v 1, x 2 + L.dist * v 2) L.flag T ∧
        (s.1.Smooth → inner3 n n = 1 ∧ (∀ τ, T τ → inner3 n τ = 0) ∧ 0 ≤ inner3 n (v 0, v 1, v 2)) := by
  intro x v L n
  rcases C65_same_wall g hg _ (by
    intro e he
    obtain ⟨s, hs', rfl⟩ := List.mem_map.1 he
    exact Solid.elem_sound s.1 (hs s hs') s.2) st h c k hd with hf | ⟨e, he, h1, h2, h3, h4⟩
  · exact Or.inl hf
  · obtain ⟨s, hs', rfl⟩ := List.mem_map.1 he
    obtain ⟨k1, T, k2, k3⟩ := Solid.elem_wall s.1 (hs s hs') s.2 _ _ h1
    right
    refine ⟨s, hs', by rw [h2]; exact h1, by rw [h2]; exact k1, T, ?_, fun hsm => ?_⟩
    · rw [h2, h3]; exact k2
    · obtain ⟨j1, j2, j3⟩ := k3 hsm
      simp only [inner3] at j1 j2 j3
      simp only [n, inner3]
      rw [h4]
      refine ⟨by linear_combination j1, fun τ hτ => ?_, ?_⟩
      · have := j2 τ hτ
        simp only
        linear_combination -this
      · linarith [j3]

/-! ### Domains which meet the hypotheses -/

/-- The box `[0, 4] × [0, 4] × [0, 4]` with step 1, seven velocities. -/
noncomputable def cubeGrid : Grid ℝ 3 7 where
  lo := fun _ => 0
  dx := 1
  N := fun _ => 4
  r0 := fun _ => 0
  r1 := fun _ => 4
  h := fun _ => 1
  vel := ![![0, 0, 0], ![1, 0, 0], ![0, 1, 0], ![0, 0, 1], ![-1, 0, 0], ![0, -1, 0], ![0, 0, -1]]
  userLabel := fun _ _ => 0

/-- A ball inside the cube: the link of the velocity `(1, 0, 0)` from the cell on its left carries a distance. -/
example : ∃ st, build cubeGrid ([(Solid.sphere ⟨(3 / 2, 3 / 2, 3 / 2), 3 / 4⟩ 3, false)].map fun s => s.1.elem s.2) =
    some st ∧ (st.link 1 ![1, 2, 2]).dist ≠ 999 := by
  have hv : ∀ (k : Fin 7) (j : Fin 3), |cubeGrid.vel k j| ≤ 1 := by
    have : ∀ (k : Fin 7) (j : Fin 3), |(![![0, 0, 0], ![1, 0, 0], ![0, 1, 0], ![0, 0, 1], ![-1, 0, 0], ![0, -1, 0],
      ![0, 0, -1]] : Fin 7 → Fin 3 → Int) k j| ≤ 1 := by decide
    exact this
  have hwf : cubeGrid.WF := ⟨one_pos, fun _ => by simp [cubeGrid], fun k j => by simpa [cubeGrid] using hv k j⟩
  have hval : ∀ s ∈ [(Solid.sphere ⟨(3 / 2, 3 / 2, 3 / 2), 3 / 4⟩ 3, false)], s.1.Valid := by
    intro s hs
    rw [List.mem_singleton] at hs
    subst hs
    show (0 : ℝ) < 3 / 4
    norm_num
  have hint : ∀ c : Cell 3, (∀ j, 1 ≤ c j ∧ c j ≤ 4) → cubeGrid.Interior c := by
    intro c hc j
    have := hc j
    simp only [Grid.n, cubeGrid]
    omega
  have hcen : ∀ c : Cell 3, ∀ j, cubeGrid.cellCentre c j = (c j : ℝ) - 1 / 2 := by
    intro c j
    simp only [Grid.cellCentre, cubeGrid, centre]
    push_cast
    ring
  obtain ⟨st, hst⟩ := C61_build_total_partial cubeGrid hwf (fun k j => (hv k j).trans (by simp [Grid.n, cubeGrid]))
    ([(Solid.sphere ⟨(3 / 2, 3 / 2, 3 / 2), 3 / 4⟩ 3, false)].map fun s => s.1.elem s.2) (by
      intro e he j
      simp only [List.map_cons, List.map_nil, List.mem_singleton] at he
      subst he
      fin_cases j <;> simp [cubeGrid, Solid.elem, sphereElem, spatial, Sphere.bounds] <;> norm_num)
  refine ⟨st, hst, ?_⟩
  have hi1 : cubeGrid.Interior ![1, 2, 2] := hint _ (by decide)
  have htgt : cubeGrid.target 1 ![1, 2, 2] = ![2, 2, 2] := by
    funext j
    fin_cases j <;> rfl
  have hi2 : cubeGrid.Interior (cubeGrid.target 1 ![1, 2, 2]) := by rw [htgt]; exact hint _ (by decide)
  have hsolid : ∀ c, cubeGrid.Interior c → (st.ioo c = -1 ↔
      (cubeGrid.cellCentre c 0, cubeGrid.cellCentre c 1, cubeGrid.cellCentre c 2) ∈
        ball (3 / 2, 3 / 2, 3 / 2) (3 / 4)) := by
    intro c hc
    rw [C21_space cubeGrid hwf _ hval st hst c hc]
    constructor
    · rintro ⟨pre, s, post, h1, h2, _⟩
      have : (s, false) ∈ [(Solid.sphere ⟨(3 / 2, 3 / 2, 3 / 2), 3 / 4⟩ 3, false)] := by rw [h1]; simp
      rw [List.mem_singleton, Prod.mk.injEq] at this
      rw [this.1] at h2
      exact h2
    · intro h
      exact ⟨[], _, [], rfl, h, by simp⟩
  have hfl : st.ioo ![1, 2, 2] = 999 := by
    have h := C21_fluid_map cubeGrid hwf _ (by
      intro e he
      obtain ⟨s, hs', rfl⟩ := List.mem_map.1 he
      exact Solid.elem_sound s.1 (hval s hs') s.2) st hst ![1, 2, 2]
    split_ifs at h
    · exact h
    · exfalso
      have := (hsolid _ hi1).1 h
      rw [hcen, hcen, hcen] at this
      simp only [ball, Set.mem_ofPred_eq, show (![1, 2, 2] : Cell 3) 0 = 1 from rfl,
        show (![1, 2, 2] : Cell 3) 1 = 2 from rfl, show (![1, 2, 2] : Cell 3) 2 = 2 from rfl] at this
      norm_num at this
  have hout : st.ioo (cubeGrid.target 1 ![1, 2, 2]) = -1 := by
    rw [hsolid _ hi2, htgt, hcen, hcen, hcen]
    simp only [ball, Set.mem_ofPred_eq, show (![2, 2, 2] : Cell 3) 0 = 2 from rfl,
      show (![2, 2, 2] : Cell 3) 1 = 2 from rfl, show (![2, 2, 2] : Cell 3) 2 = 2 from rfl]
    norm_num
  have := C59_space_partial cubeGrid hwf _ hval (by
    intro s hs h2
    rw [List.mem_singleton] at hs
    subst hs
    exact absurd h2 (by simp)) st hst _ hi1 1 hfl hi2 hout
  intro h
  rw [h] at this
  norm_num at this

/-- The box `[0, 4] × [0, 4]` with step 1, five velocities. -/
noncomputable def squareGrid : Grid ℝ 2 5 where
  lo := fun _ => 0
  dx := 1
  N := fun _ => 4
  r0 := fun _ => 0
  r1 := fun _ => 4
  h := fun _ => 1
  vel := ![![0, 0], ![1, 0], ![0, 1], ![-1, 0], ![0, -1]]
  userLabel := fun _ _ => 0

/-- A disc inside the square: the link of the velocity `(1, 0)` from the cell on its left carries a distance. -/
theorem squareGrid_link : ∃ st, build squareGrid ([(Shape.circle ⟨(3 / 2, 3 / 2), 3 / 4⟩ 3, false)].map fun s => s.1.elem s.2) =
    some st ∧ (st.link 1 ![1, 2]).dist ≠ 999 := by
  have hv : ∀ (k : Fin 5) (j : Fin 2), |squareGrid.vel k j| ≤ 1 := by
    have : ∀ (k : Fin 5) (j : Fin 2), |(![![0, 0], ![1, 0], ![0, 1], ![-1, 0], ![0, -1]] : Fin 5 → Fin 2 → Int) k j| ≤ 1 := by decide
    exact this
  have hwf : squareGrid.WF := ⟨one_pos, fun _ => by simp [squareGrid], fun k j => by simpa [squareGrid] using hv k j⟩
  have hval : ∀ s ∈ [(Shape.circle ⟨(3 / 2, 3 / 2), 3 / 4⟩ 3, false)], s.1.Valid := by
    intro s hs
    rw [List.mem_singleton] at hs
    subst hs
    show (0 : ℝ) < 3 / 4
    norm_num
  have hint : ∀ c : Cell 2, (∀ j, 1 ≤ c j ∧ c j ≤ 4) → squareGrid.Interior c := by
    intro c hc j
    have := hc j
    simp only [Grid.n, squareGrid]
    omega
  have hcen : ∀ c : Cell 2, ∀ j, squareGrid.cellCentre c j = (c j : ℝ) - 1 / 2 := by
    intro c j
    simp only [Grid.cellCentre, squareGrid, centre]
    push_cast
    ring
  obtain ⟨st, hst⟩ := C61_build_total_partial squareGrid hwf (fun k j => (hv k j).trans (by simp [Grid.n, squareGrid]))
    ([(Shape.circle ⟨(3 / 2, 3 / 2), 3 / 4⟩ 3, false)].map fun s => s.1.elem s.2) (by
      intro e he j
      simp only [List.map_cons, List.map_nil, List.mem_singleton] at he
      subst he
      fin_cases j <;> simp [squareGrid, Shape.elem, circleElem, planar, Circle.bounds] <;> norm_num)
  refine ⟨st, hst, ?_⟩
  have hi1 : squareGrid.Interior ![1, 2] := hint _ (by decide)
  have htgt : squareGrid.target 1 ![1, 2] = ![2, 2] := by
    funext j
    fin_cases j <;> rfl
  have hi2 : squareGrid.Interior (squareGrid.target 1 ![1, 2]) := by rw [htgt]; exact hint _ (by decide)
  have hsolid : ∀ c, squareGrid.Interior c → (st.ioo c = -1 ↔
      (squareGrid.cellCentre c 0, squareGrid.cellCentre c 1) ∈
        disc (3 / 2, 3 / 2) (3 / 4)) := by
    intro c hc
    rw [C21_plane squareGrid hwf _ hval st hst c hc]
    constructor
    · rintro ⟨pre, s, post, h1, h2, _⟩
      have : (s, false) ∈ [(Shape.circle ⟨(3 / 2, 3 / 2), 3 / 4⟩ 3, false)] := by rw [h1]; simp
      rw [List.mem_singleton, Prod.mk.injEq] at this
      rw [this.1] at h2
      exact h2
    · intro h
      exact ⟨[], _, [], rfl, h, by simp⟩
  have hfl : st.ioo ![1, 2] = 999 := by
    have h := C21_fluid_map squareGrid hwf _ (by
      intro e he
      obtain ⟨s, hs', rfl⟩ := List.mem_map.1 he
      exact Shape.elem_sound s.1 (hval s hs') s.2) st hst ![1, 2]
    split_ifs at h
    · exact h
    · exfalso
      have := (hsolid _ hi1).1 h
      rw [hcen, hcen] at this
      simp only [disc, Set.mem_ofPred_eq, show (![1, 2] : Cell 2) 0 = 1 from rfl,
        show (![1, 2] : Cell 2) 1 = 2 from rfl] at this
      norm_num at this
  have hout : st.ioo (squareGrid.target 1 ![1, 2]) = -1 := by
    rw [hsolid _ hi2, htgt, hcen, hcen]
    simp only [disc, Set.mem_ofPred_eq, show (![2, 2] : Cell 2) 0 = 2 from rfl,
      show (![2, 2] : Cell 2) 1 = 2 from rfl]
    norm_num
  have := C59_plane_partial squareGrid hwf _ hval (by
    intro s hs h2
    rw [List.mem_singleton] at hs
    subst hs
    exact absurd h2 (by simp)) st hst _ hi1 1 hfl hi2 hout
  intro h
  rw [h] at this
  norm_num at this

end Pylbm.Domain
