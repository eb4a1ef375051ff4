import Verif.Domain.Props
import Verif.Geometry.Cylinder
/-!
# The elements of the library in a domain: properties C21, C23, C59 for concrete shapes
-/
set_option linter.unusedSectionVars false
namespace Pylbm.Domain
open Round Storage DomainSpec Geometry GeometrySpec

section plane
variable {K : Type} [Field K] [LinearOrder K] [IsStrictOrderedRing K]

/-- An element of the plane as `Domain` uses it. -/
def planar (fluid : Bool) (b : (K × K) × (K × K)) (inside : K × K → Bool)
    (hit : K × K → K × K → Hit K (K × K)) : Elem K 2 where
  isFluid := fluid
  bl := ![b.1.1, b.1.2]
  ur := ![b.2.1, b.2.2]
  inside := fun x => inside (x 0, x 1)
  alpha := fun x v => (hit (x 0, x 1) (v 0, v 1)).alpha
  border := fun x v => (hit (x 0, x 1) (v 0, v 1)).border
  normvect := fun x v => ![(hit (x 0, x 1) (v 0, v 1)).normal.1, (hit (x 0, x 1) (v 0, v 1)).normal.2]

/-- `Parallelogram`, with labels `l0`…`l3`. -/
def parallelogramElem (nf : V2 K → V2 K → V2 K) (q : Quad K) (l0 l1 l2 l3 : Int) (fluid : Bool) :
    Elem K 2 :=
  planar fluid q.bounds (parallelogramInside q) fun x v =>
    q.distance (nf v) (0, 0) (parallelogramEdges q l0 l1 l2 l3) x v (some 1)

/-- `Triangle`, with labels `l0`, `l1`, `l2`. -/
def triangleElem (nf : V2 K → V2 K → V2 K) (q : Quad K) (l0 l1 l2 : Int) (fluid : Bool) :
    Elem K 2 :=
  planar fluid q.bounds (triangleInside q) fun x v =>
    q.distance (nf v) (0, 0) (triangleEdges q l0 l1 l2) x v (some 1)

theorem inBox_iff (b : (K × K) × (K × K)) (x : Fin 2 → K) :
    InBox b (x 0, x 1) ↔ ∀ j, (![b.1.1, b.1.2] : Fin 2 → K) j ≤ x j ∧
      x j ≤ (![b.2.1, b.2.2] : Fin 2 → K) j := by
  unfold InBox
  rw [Fin.forall_fin_two]
  simp only [Matrix.cons_val_zero, Matrix.cons_val_one]
  tauto

theorem planar_sound (fluid : Bool) (b : (K × K) × (K × K)) (inside : K × K → Bool)
    (hit : K × K → K × K → Hit K (K × K)) (S : Set (K × K)) (h1 : ∀ y, inside y = true → InBox b y)
    (h2 : ∀ y ∈ S, inside y = true)
    (h3 : ∀ x v, 0 < (hit x v).alpha → (hit x v).alpha ≤ 1 ∧ along x v (hit x v).alpha ∈ S) :
    (planar fluid b inside hit).Sound where
  inside := fun x hx => (inBox_iff b x).1 (h1 _ hx)
  hit := by
    intro x v ha
    obtain ⟨h4, h5⟩ := h3 _ _ ha
    exact ⟨h4, (inBox_iff b (fun j => x j + (hit (x 0, x 1) (v 0, v 1)).alpha * v j)).1
      (h1 _ (h2 _ h5))⟩

theorem quad_sound {N : Type} (nf : V2 K → N) (n0 : N) (q : Quad K) (edges : List (Edge K))
    (S : Set (K × K)) (h : ∀ e ∈ edges, ∀ s, 0 ≤ s → s ≤ 1 →
      along (e.p.1 + q.point.1, e.p.2 + q.point.2) e.vt s ∈ S) (x v : K × K)
    (ha : 0 < (q.distance nf n0 edges x v (some 1)).alpha) :
    (q.distance nf n0 edges x v (some 1)).alpha ≤ 1 ∧
      along x v (q.distance nf n0 edges x v (some 1)).alpha ∈ S := by
  have := lines_sound nf n0 edges {y | (y.1 + q.point.1, y.2 + q.point.2) ∈ S} (by
    rintro e he y ⟨s, s0, s1, rfl⟩
    have := h e he s s0 s1
    simp only [along, Set.mem_ofPred_eq] at this ⊢
    convert this using 2 <;> ring) (x.1 - q.point.1, x.2 - q.point.2) v 1 (by norm_num)
  unfold Quad.distance at ha ⊢
  rcases this with h1 | h1
  · rw [h1] at ha; exact absurd ha (by norm_num)
  · refine ⟨h1.2.1, ?_⟩
    have := h1.2.2
    simp only [along, Set.mem_ofPred_eq] at this ⊢
    convert this using 2 <;> ring

theorem parallelogram_hit {N : Type} (nf : V2 K → N) (n0 : N) (q : Quad K) (l0 l1 l2 l3 : Int)
    (x v : K × K)
    (ha : 0 < (q.distance nf n0 (parallelogramEdges q l0 l1 l2 l3) x v (some 1)).alpha) :
    (q.distance nf n0 (parallelogramEdges q l0 l1 l2 l3) x v (some 1)).alpha ≤ 1 ∧
      along x v (q.distance nf n0 (parallelogramEdges q l0 l1 l2 l3) x v (some 1)).alpha ∈
        parallelogramSides q.point q.v1 q.v2 := by
  refine quad_sound _ _ q _ _ ?_ x v ha
  intro e he s s0 s1
  simp only [parallelogramEdges, List.mem_cons, List.not_mem_nil, or_false] at he
  rcases he with rfl | rfl | rfl | rfl
  · exact ⟨s, 0, ⟨s0, s1⟩, ⟨le_rfl, zero_le_one⟩, by simp, by simp [along, comb2]⟩
  · exact ⟨0, s, ⟨le_rfl, zero_le_one⟩, ⟨s0, s1⟩, by simp, by simp [along, comb2]⟩
  · refine ⟨s, 1, ⟨s0, s1⟩, ⟨zero_le_one, le_rfl⟩, by simp, ?_⟩
    simp only [along, comb2, Prod.mk.injEq]; constructor <;> ring
  · refine ⟨1, s, ⟨zero_le_one, le_rfl⟩, ⟨s0, s1⟩, by simp, ?_⟩
    simp only [along, comb2, Prod.mk.injEq]; constructor <;> ring

theorem parallelogramElem_sound (nf : V2 K → V2 K → V2 K) (q : Quad K)
    (hq : q.v1.1 * q.v2.2 - q.v1.2 * q.v2.1 ≠ 0) (l0 l1 l2 l3 : Int) (fluid : Bool) :
    (parallelogramElem nf q l0 l1 l2 l3 fluid).Sound := by
  refine planar_sound fluid _ _ _ (parallelogramSides q.point q.v1 q.v2)
    (C29_parallelogram_bounds q hq) ?_ ?_
  · rintro y ⟨a, b, ha, hb, _, hy⟩
    exact (C28_parallelogram_inside q hq y).2 ⟨a, b, ha, hb, hy⟩
  · exact fun x v ha => parallelogram_hit _ _ q l0 l1 l2 l3 x v ha

theorem triangle_hit {N : Type} (nf : V2 K → N) (n0 : N) (q : Quad K) (l0 l1 l2 : Int)
    (x v : K × K) (ha : 0 < (q.distance nf n0 (triangleEdges q l0 l1 l2) x v (some 1)).alpha) :
    (q.distance nf n0 (triangleEdges q l0 l1 l2) x v (some 1)).alpha ≤ 1 ∧
      along x v (q.distance nf n0 (triangleEdges q l0 l1 l2) x v (some 1)).alpha ∈
        triangleSides q.point q.v1 q.v2 := by
  refine quad_sound _ _ q _ _ ?_ x v ha
  intro e he s s0 s1
  simp only [triangleEdges, List.mem_cons, List.not_mem_nil, or_false] at he
  rcases he with rfl | rfl | rfl
  · exact ⟨s, 0, s0, le_rfl, by simpa using s1, by simp, by simp [along, comb2]⟩
  · exact ⟨0, s, le_rfl, s0, by simpa using s1, by simp, by simp [along, comb2]⟩
  · refine ⟨1 - s, s, by linarith, s0, by linarith, by right; right; ring, ?_⟩
    simp only [along, comb2, Prod.mk.injEq]; constructor <;> ring

theorem triangleElem_sound (nf : V2 K → V2 K → V2 K) (q : Quad K)
    (hq : q.v1.1 * q.v2.2 - q.v1.2 * q.v2.1 ≠ 0) (l0 l1 l2 : Int) (fluid : Bool) :
    (triangleElem nf q l0 l1 l2 fluid).Sound := by
  refine planar_sound fluid _ _ _ (triangleSides q.point q.v1 q.v2)
    (C29_triangle_bounds q hq) ?_ ?_
  · rintro y ⟨a, b, ha, hb, hab, _, hy⟩
    exact (C28_triangle_inside q hq y).2 ⟨a, b, ha, hb, hab, hy⟩
  · exact fun x v ha => triangle_hit _ _ q l0 l1 l2 x v ha

theorem planar_sees (fluid : Bool) (b : (K × K) × (K × K)) (inside : K × K → Bool)
    (hit : K × K → K × K → Hit K (K × K)) (C : Set (K × K))
    (enter : ∀ x v : K × K, inside x = false → inside (x.1 + v.1, x.2 + v.2) = true →
      0 < (hit x v).alpha)
    (leave : ∀ x v : K × K, x ∉ C → inside x = true → inside (x.1 + v.1, x.2 + v.2) = false →
      0 < (hit x v).alpha) (x v : Fin 2 → K) (hx : fluid = true → (x 0, x 1) ∉ C) :
    (planar fluid b inside hit).Sees x v := by
  unfold Elem.Sees planar
  simp only
  split_ifs with h
  · exact fun h1 h2 => leave (x 0, x 1) (v 0, v 1) (hx h) h1 h2
  · exact fun h1 h2 => enter (x 0, x 1) (v 0, v 1) h1 h2

theorem parallelogramElem_sees (nf : V2 K → V2 K → V2 K) (q : Quad K)
    (hq : q.v1.1 * q.v2.2 - q.v1.2 * q.v2.1 ≠ 0) (l0 l1 l2 l3 : Int) (fluid : Bool)
    (x v : Fin 2 → K)
    (hx : fluid = true → (x 0, x 1) ∉ parallelogramSides q.point q.v1 q.v2) :
    (parallelogramElem nf q l0 l1 l2 l3 fluid).Sees x v :=
  planar_sees fluid _ _ _ _
    (fun x v h1 h2 => (C24_parallelogram_enter (nf v) (0, 0) q hq l0 l1 l2 l3 x v h1 h2).1)
    (fun x v h0 h1 h2 => (C24_parallelogram_leave (nf v) (0, 0) q hq l0 l1 l2 l3 x v h1 h0 h2).1)
    x v hx

theorem triangleElem_sees (nf : V2 K → V2 K → V2 K) (q : Quad K)
    (hq : q.v1.1 * q.v2.2 - q.v1.2 * q.v2.1 ≠ 0) (l0 l1 l2 : Int) (fluid : Bool) (x v : Fin 2 → K)
    (hx : fluid = true → (x 0, x 1) ∉ triangleSides q.point q.v1 q.v2) :
    (triangleElem nf q l0 l1 l2 fluid).Sees x v :=
  planar_sees fluid _ _ _ _
    (fun x v h1 h2 => (C24_triangle_enter (nf v) (0, 0) q hq l0 l1 l2 x v h1 h2).1)
    (fun x v h0 h1 h2 => (C24_triangle_leave (nf v) (0, 0) q hq l0 l1 l2 x v h1 h0 h2).1)
    x v hx

end plane

section real

/-- `Ellipse`: the label is set where the distance is positive (elements/utils.py 142-143), `-1`
elsewhere. -/
noncomputable def ellipseHit (e : Ellipse) (l : Int) (x v : V2 ℝ) : Hit ℝ (V2 ℝ) :=
  let a := e.alpha x v (some 1)
  if a > 0 then ⟨a, l, e.normal x v a⟩ else ⟨a, -1, (0, 0)⟩

theorem ellipseHit_alpha (e : Ellipse) (l : Int) (x v : V2 ℝ) :
    (ellipseHit e l x v).alpha = e.alpha x v (some 1) := by
  unfold ellipseHit; simp only; split_ifs <;> rfl

noncomputable def ellipseElem (e : Ellipse) (l : Int) (fluid : Bool) : Elem ℝ 2 :=
  planar fluid e.bounds e.inside (ellipseHit e l)

/-- `Circle`. -/
noncomputable def circleElem (c : Circle) (l : Int) (fluid : Bool) : Elem ℝ 2 :=
  planar fluid c.bounds c.inside (ellipseHit c.ellipse l)

theorem Ellipse.alpha_sound (e : Ellipse) (he : e.v1.1 * e.v2.2 - e.v1.2 * e.v2.1 ≠ 0)
    (x v : V2 ℝ) (ha : 0 < e.alpha x v (some 1)) :
    e.alpha x v (some 1) ≤ 1 ∧ along x v (e.alpha x v (some 1)) ∈ ellipseCurve e.center e.v1 e.v2 := by
  by_cases hx : x ∈ ellipseCurve e.center e.v1 e.v2
  · exfalso
    by_cases hv : v = 0
    · obtain ⟨a, b, c, h1, h2, h3⟩ := e.along_form x v 1
      have ha0 : a = 0 := by rw [h2, hv]; simp [Ellipse.form]
      rw [h1, ha0, quadAlpha_zero] at ha; norm_num at ha
    · rw [C27_ellipse_on_curve e he x v hv 1 hx] at ha; norm_num at ha
  · rcases C27_ellipse_partial e he x v 1 (by norm_num) hx with h | h
    · exact h.1.2
    · rw [h.2] at ha; norm_num at ha

theorem ellipseElem_sound (e : Ellipse) (he : e.v1.1 * e.v2.2 - e.v1.2 * e.v2.1 ≠ 0)
    (horth : e.v1.1 * e.v2.1 + e.v1.2 * e.v2.2 = 0) (l : Int) (fluid : Bool) :
    (ellipseElem e l fluid).Sound := by
  refine planar_sound fluid _ _ _ (ellipseCurve e.center e.v1 e.v2)
    (C29_ellipse_bounds_partial e he horth) ?_ ?_
  · rintro y ⟨a, b, hab, hy⟩
    exact (C28_ellipse_inside e he y).2 ⟨a, b, hab.le, hy⟩
  · intro x v ha
    rw [ellipseHit_alpha] at ha ⊢
    exact Ellipse.alpha_sound e he x v ha

theorem circleElem_sound (c : Circle) (hr : 0 < c.radius) (l : Int) (fluid : Bool) :
    (circleElem c l fluid).Sound := by
  refine planar_sound fluid _ _ _ (circle c.center c.radius) (C29_circle_bounds c hr.le) ?_ ?_
  · intro y hy
    exact (C28_circle_inside c y).2 (le_of_eq hy)
  · intro x v ha
    rw [ellipseHit_alpha] at ha ⊢
    rw [← Circle.curve_eq hr.ne']
    exact Ellipse.alpha_sound c.ellipse (by unfold Circle.ellipse; simpa using hr.ne') x v ha

theorem ellipseElem_sees (e : Ellipse) (he : e.v1.1 * e.v2.2 - e.v1.2 * e.v2.1 ≠ 0) (l : Int)
    (fluid : Bool) (x v : Fin 2 → ℝ)
    (hx : fluid = true → (x 0, x 1) ∉ ellipseCurve e.center e.v1 e.v2) :
    (ellipseElem e l fluid).Sees x v :=
  planar_sees fluid _ _ _ _
    (fun x v h1 h2 => by rw [ellipseHit_alpha]; exact (C24_ellipse_enter e he x v h1 h2).1)
    (fun x v h0 h1 h2 => by
      rw [ellipseHit_alpha]
      exact (C24_ellipse_links e he x v h0 (by rw [h1, h2]; simp)).1)
    x v hx

theorem circleElem_sees (c : Circle) (hr : c.radius ≠ 0) (l : Int) (fluid : Bool)
    (x v : Fin 2 → ℝ) (hx : fluid = true → (x 0, x 1) ∉ circle c.center c.radius) :
    (circleElem c l fluid).Sees x v :=
  planar_sees fluid _ _ _ _
    (fun x v h1 h2 => by rw [ellipseHit_alpha]; exact (C24_circle_enter c hr x v h1 h2).1)
    (fun x v h0 h1 h2 => by
      rw [ellipseHit_alpha]
      exact (C24_circle_links c hr x v h0 (by rw [h1, h2]; simp)).1)
    x v hx

/-- The elements of the plane which the library provides. -/
inductive Shape where
  | triangle (q : Quad ℝ) (l0 l1 l2 : Int)
  | parallelogram (q : Quad ℝ) (l0 l1 l2 l3 : Int)
  | circle (c : Circle) (l : Int)
  | ellipse (e : Ellipse) (l : Int)

/-- Non degenerate shapes (`Ellipse` asks for orthogonal axes). -/
def Shape.Valid : Shape → Prop
  | .triangle q _ _ _ => q.v1.1 * q.v2.2 - q.v1.2 * q.v2.1 ≠ 0
  | .parallelogram q _ _ _ _ => q.v1.1 * q.v2.2 - q.v1.2 * q.v2.1 ≠ 0
  | .circle c _ => 0 < c.radius
  | .ellipse e _ => e.v1.1 * e.v2.2 - e.v1.2 * e.v2.1 ≠ 0 ∧ e.v1.1 * e.v2.1 + e.v1.2 * e.v2.2 = 0

/-- The points of a shape. -/
def Shape.points : Shape → Set (ℝ × ℝ)
  | .triangle q _ _ _ => GeometrySpec.triangle q.point q.v1 q.v2
  | .parallelogram q _ _ _ _ => GeometrySpec.parallelogram q.point q.v1 q.v2
  | .circle c _ => disc c.center c.radius
  | .ellipse e _ => GeometrySpec.ellipse e.center e.v1 e.v2

/-- The boundary of a shape. -/
def Shape.boundary : Shape → Set (ℝ × ℝ)
  | .triangle q _ _ _ => triangleSides q.point q.v1 q.v2
  | .parallelogram q _ _ _ _ => parallelogramSides q.point q.v1 q.v2
  | .circle c _ => GeometrySpec.circle c.center c.radius
  | .ellipse e _ => ellipseCurve e.center e.v1 e.v2

/-- The shape as an element of the domain. -/
noncomputable def Shape.elem (s : Shape) (fluid : Bool) : Elem ℝ 2 :=
  match s with
  | .triangle q l0 l1 l2 => triangleElem edgeNormal q l0 l1 l2 fluid
  | .parallelogram q l0 l1 l2 l3 => parallelogramElem edgeNormal q l0 l1 l2 l3 fluid
  | .circle c l => circleElem c l fluid
  | .ellipse e l => ellipseElem e l fluid

theorem Shape.elem_fluid (s : Shape) (fluid : Bool) : (s.elem fluid).isFluid = fluid := by
  cases s <;> rfl

theorem Shape.elem_sound (s : Shape) (hs : s.Valid) (fluid : Bool) : (s.elem fluid).Sound := by
  cases s with
  | triangle q l0 l1 l2 => exact triangleElem_sound edgeNormal q hs l0 l1 l2 fluid
  | parallelogram q l0 l1 l2 l3 => exact parallelogramElem_sound edgeNormal q hs l0 l1 l2 l3 fluid
  | circle c l => exact circleElem_sound c hs l fluid
  | ellipse e l => exact ellipseElem_sound e hs.1 hs.2 l fluid

theorem Shape.elem_sees (s : Shape) (hs : s.Valid) (fluid : Bool) (x v : Fin 2 → ℝ)
    (hx : fluid = true → (x 0, x 1) ∉ s.boundary) : (s.elem fluid).Sees x v := by
  cases s with
  | triangle q l0 l1 l2 => exact triangleElem_sees edgeNormal q hs l0 l1 l2 fluid x v hx
  | parallelogram q l0 l1 l2 l3 =>
    exact parallelogramElem_sees edgeNormal q hs l0 l1 l2 l3 fluid x v hx
  | circle c l => exact circleElem_sees c (ne_of_gt hs) l fluid x v hx
  | ellipse e l => exact ellipseElem_sees e hs.1 l fluid x v hx

/-- A positive distance is a fraction of the step at which the ray meets the boundary. -/
theorem Shape.elem_hit (s : Shape) (hs : s.Valid) (fluid : Bool) (x v : Fin 2 → ℝ)
    (ha : 0 < (s.elem fluid).alpha x v) :
    (x 0 + (s.elem fluid).alpha x v * v 0, x 1 + (s.elem fluid).alpha x v * v 1) ∈ s.boundary := by
  cases s with
  | triangle q l0 l1 l2 => exact (triangle_hit _ _ q l0 l1 l2 (x 0, x 1) (v 0, v 1) ha).2
  | parallelogram q l0 l1 l2 l3 =>
    exact (parallelogram_hit _ _ q l0 l1 l2 l3 (x 0, x 1) (v 0, v 1) ha).2
  | circle c l =>
    simp only [Shape.elem, circleElem, planar, ellipseHit_alpha] at ha ⊢
    simp only [Shape.boundary]
    rw [← Circle.curve_eq (ne_of_gt hs)]
    exact (Ellipse.alpha_sound c.ellipse (by unfold Circle.ellipse; simpa using (ne_of_gt hs))
      (x 0, x 1) (v 0, v 1) ha).2
  | ellipse e l =>
    simp only [Shape.elem, ellipseElem, planar, ellipseHit_alpha] at ha ⊢
    exact (Ellipse.alpha_sound e hs.1 (x 0, x 1) (v 0, v 1) ha).2

theorem Shape.elem_inside (s : Shape) (hs : s.Valid) (fluid : Bool) (x : Fin 2 → ℝ) :
    (s.elem fluid).inside x = true ↔ (x 0, x 1) ∈ s.points := by
  cases s with
  | triangle q l0 l1 l2 => exact C28_triangle_inside q hs _
  | parallelogram q l0 l1 l2 l3 => exact C28_parallelogram_inside q hs _
  | circle c l => exact C28_circle_inside c _
  | ellipse e l => exact C28_ellipse_inside e hs.1 _

/-- C21 (2D geometries of the library): after any list of valid shapes, solid or fluid, an interior
cell is solid exactly when the last shape which contains its centre is solid. -/
theorem C21_plane {nv : Nat} (g : Grid ℝ 2 nv) (hg : g.WF) (shapes : List (Shape × Bool))
    (hs : ∀ s ∈ shapes, s.1.Valid) (st : State ℝ 2 nv)
    (h : build g (shapes.map fun s => s.1.elem s.2) = some st) (c : Cell 2) (hc : g.Interior c) :
    st.ioo c = -1 ↔ ∃ pre s post, shapes = pre ++ (s, false) :: post ∧
      (g.cellCentre c 0, g.cellCentre c 1) ∈ s.points ∧
      ∀ p ∈ post, (g.cellCentre c 0, g.cellCentre c 1) ∉ p.1.points := by
  have hsnd : ∀ e ∈ shapes.map fun s => s.1.elem s.2, e.Sound := by
    intro e he
    obtain ⟨s, hs', rfl⟩ := List.mem_map.1 he
    exact Shape.elem_sound s.1 (hs s hs') s.2
  rw [C21_fluid_map g hg _ hsnd st h c]
  have key : ∀ l : List (Shape × Bool), (∀ s ∈ l, s.1.Valid) →
      (material (regions (l.map fun s => s.1.elem s.2)) (g.cellCentre c) = false ↔
        ∃ pre s post, l = pre ++ (s, false) :: post ∧
          (g.cellCentre c 0, g.cellCentre c 1) ∈ s.points ∧
          ∀ p ∈ post, (g.cellCentre c 0, g.cellCentre c 1) ∉ p.1.points) := by
    intro l hl
    induction l using List.reverseRecOn with
    | nil => simp [regions, material]
    | append_singleton l s ih =>
      have e1 : regions ((l ++ [s]).map fun s => s.1.elem s.2) =
          regions (l.map fun s => s.1.elem s.2) ++ [(s.2, (s.1.elem s.2).inside)] := by
        simp [regions, Shape.elem_fluid]
      rw [e1, material_append]
      have hin := Shape.elem_inside s.1 (hl s (by simp)) s.2 (g.cellCentre c)
      by_cases hi : (g.cellCentre c 0, g.cellCentre c 1) ∈ s.1.points
      · rw [if_pos (hin.2 hi)]
        constructor
        · intro hf
          exact ⟨l, s.1, [], by rw [← hf], hi, by simp⟩
        · rintro ⟨pre, s', post, h1, h2, h3⟩
          rcases List.eq_nil_or_concat post with rfl | ⟨post', p, rfl⟩
          · have := (List.append_inj' h1 rfl).2
            simp only [List.cons.injEq, and_true] at this
            rw [this]
          · exfalso
            have h4 : s = p := by
              have : l ++ [s] = (pre ++ (s', false) :: post') ++ [p] := by
                rw [h1]; simp
              have := (List.append_inj' this rfl).2
              simpa using this
            exact h3 p (by simp) (h4 ▸ hi)
      · rw [if_neg (fun h => hi (hin.1 h)), ih (fun s hs => hl s (by simp [hs]))]
        constructor
        · rintro ⟨pre, s', post, h1, h2, h3⟩
          refine ⟨pre, s', post ++ [s], by rw [h1]; simp, h2, ?_⟩
          intro p hp
          rcases List.mem_append.1 hp with hp | hp
          · exact h3 p hp
          · rw [List.mem_singleton.1 hp]; exact hi
        · rintro ⟨pre, s', post, h1, h2, h3⟩
          rcases List.eq_nil_or_concat post with rfl | ⟨post', p, rfl⟩
          · have := (List.append_inj' h1 rfl).2
            simp only [List.cons.injEq, and_true] at this
            rw [this] at hi
            exact absurd h2 hi
          · have : l ++ [s] = (pre ++ (s', false) :: post') ++ [p] := by
              rw [h1]; simp
            have := (List.append_inj' this rfl).1
            exact ⟨pre, s', post', this, h2, fun p' hp' => h3 p' (by simp [hp'])⟩
  rw [← key shapes hs]
  simp only [hc, true_and]
  cases material (regions (shapes.map fun s => s.1.elem s.2)) (g.cellCentre c) <;> simp

/-- C59 (2D geometries of the library, links between two cells): in a domain built from any list of
valid shapes such that no cell centre is on the boundary of a fluid shape, every link from a fluid
cell to a solid cell carries a distance in `(0, 1]`. -/
theorem C59_plane_partial {nv : Nat} (g : Grid ℝ 2 nv) (hg : g.WF) (shapes : List (Shape × Bool))
    (hs : ∀ s ∈ shapes, s.1.Valid)
    (hb : ∀ s ∈ shapes, s.2 = true → ∀ c, g.Interior c →
      (g.cellCentre c 0, g.cellCentre c 1) ∉ s.1.boundary) (st : State ℝ 2 nv)
    (h : build g (shapes.map fun s => s.1.elem s.2) = some st) (c : Cell 2) (hc : g.Interior c)
    (k : Fin nv) (hf : st.ioo c = 999) (ht : g.Interior (g.target k c))
    (hout : st.ioo (g.target k c) = -1) :
    0 < (st.link k c).dist ∧ (st.link k c).dist ≤ 1 := by
  have := C59_solid_links_flagged_partial g hg _ (by
    intro e he
    obtain ⟨s, hs', rfl⟩ := List.mem_map.1 he
    exact Shape.elem_sound s.1 (hs s hs') s.2) (by
    intro e he c k hc
    obtain ⟨s, hs', rfl⟩ := List.mem_map.1 he
    exact Shape.elem_sees s.1 (hs s hs') s.2 _ _ (fun h2 => hb s hs' h2 c hc)) st h c hc k hf ht hout
  exact ⟨this.1, this.2.1⟩

end real

end Pylbm.Domain
