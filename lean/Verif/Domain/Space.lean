import Verif.Domain.Library
/-!
# The solids of the library in a domain: properties C21, C59 in three dimensions

Spheres, ellipsoids with orthogonal axes, and the round cylinders whose bounds contain them.  The
bounds of every parallelepiped and of every triangular cylinder are too small (C29):
`C29_domain_negation` gives a domain in which cells at the ends of a solid parallelepiped stay
fluid.
-/
set_option linter.unusedSectionVars false
namespace Pylbm.Domain
open Round Storage DomainSpec Geometry GeometrySpec

section space
variable {K : Type} [Field K] [LinearOrder K] [IsStrictOrderedRing K]

/-- An element of the space as `Domain` uses it: `isfluid`, `get_bounds`, `point_inside` and
`distance` with `dmax = 1`, domain.py 523-640. -/
def spatial (fluid : Bool) (b : (K × K × K) × (K × K × K)) (inside : K × K × K → Bool)
    (hit : K × K × K → K × K × K → Hit K (K × K × K)) : Elem K 3 where
  isFluid := fluid
  bl := ![b.1.1, b.1.2.1, b.1.2.2]
  ur := ![b.2.1, b.2.2.1, b.2.2.2]
  inside := fun x => inside (x 0, x 1, x 2)
  alpha := fun x v => (hit (x 0, x 1, x 2) (v 0, v 1, v 2)).alpha
  border := fun x v => (hit (x 0, x 1, x 2) (v 0, v 1, v 2)).border
  normvect := fun x v =>
    let n := (hit (x 0, x 1, x 2) (v 0, v 1, v 2)).normal
    ![n.1, n.2.1, n.2.2]

/-- A cylinder (cylinder.py 27-216), from the bounds `bb` of its base. -/
def cylinderElem (c : Cyl K) (bb : (K × K × K) × (K × K × K)) (fluid : Bool) : Elem K 3 :=
  spatial fluid (c.bounds bb) c.inside fun x v => c.distance x v 1

/-- `Parallelepiped` (cylinder.py 557-566), with its labels. -/
def parallelepipedElem (nf : V2 K → V2 K → V2 K) (p v0 v1 v2 : K × K × K)
    (l0 l1 l2 l3 lb lt : Int) (fluid : Bool) : Elem K 3 :=
  let c := parallelepiped nf p v0 v1 v2 l0 l1 l2 l3 lb lt
  cylinderElem c c.cornerBounds fluid

theorem inBox3_iff (b : (K × K × K) × (K × K × K)) (x : Fin 3 → K) :
    InBox3 b (x 0, x 1, x 2) ↔ ∀ j, (![b.1.1, b.1.2.1, b.1.2.2] : Fin 3 → K) j ≤ x j ∧
      x j ≤ (![b.2.1, b.2.2.1, b.2.2.2] : Fin 3 → K) j := by
  unfold InBox3
  constructor
  · rintro ⟨h1, h2, h3, h4, h5, h6⟩ j
    fin_cases j
    · exact ⟨h1, h2⟩
    · exact ⟨h3, h4⟩
    · exact ⟨h5, h6⟩
  · intro h
    exact ⟨(h 0).1, (h 0).2, (h 1).1, (h 1).2, (h 2).1, (h 2).2⟩

theorem spatial_sound (fluid : Bool) (b : (K × K × K) × (K × K × K)) (inside : K × K × K → Bool)
    (hit : K × K × K → K × K × K → Hit K (K × K × K))
    (h1 : ∀ y, inside y = true → InBox3 b y)
    (h3 : ∀ x v, 0 < (hit x v).alpha → (hit x v).alpha ≤ 1 ∧
      InBox3 b (along3 x v (hit x v).alpha)) :
    (spatial fluid b inside hit).Sound where
  inside := fun x hx => (inBox3_iff b x).1 (h1 _ hx)
  hit := by
    intro x v ha
    obtain ⟨h4, h5⟩ := h3 _ _ ha
    exact ⟨h4, (inBox3_iff b
      (fun j => x j + (hit (x 0, x 1, x 2) (v 0, v 1, v 2)).alpha * v j)).1 h5⟩

theorem spatial_sees (fluid : Bool) (b : (K × K × K) × (K × K × K)) (inside : K × K × K → Bool)
    (hit : K × K × K → K × K × K → Hit K (K × K × K)) (C : Set (K × K × K))
    (enter : ∀ x v : K × K × K, inside x = false →
      inside (x.1 + v.1, x.2.1 + v.2.1, x.2.2 + v.2.2) = true → 0 < (hit x v).alpha)
    (leave : ∀ x v : K × K × K, x ∉ C → inside x = true →
      inside (x.1 + v.1, x.2.1 + v.2.1, x.2.2 + v.2.2) = false → 0 < (hit x v).alpha)
    (x v : Fin 3 → K) (hx : fluid = true → (x 0, x 1, x 2) ∉ C) :
    (spatial fluid b inside hit).Sees x v := by
  unfold Elem.Sees spatial
  simp only
  split_ifs with h
  · exact fun h1 h2 => leave (x 0, x 1, x 2) (v 0, v 1, v 2) (hx h) h1 h2
  · exact fun h1 h2 => enter (x 0, x 1, x 2) (v 0, v 1, v 2) h1 h2

/-- The bounds of the cylinder contain it, with a margin of `1e-16` of its height. -/
def Bounded (c : Cyl K) (bb : (K × K × K) × (K × K × K)) (B : Set (K × K)) : Prop :=
  ∀ a b d, (a, b) ∈ B → |d| ≤ 1 + 1 / 10 ^ 16 →
    InBox3 (c.bounds bb) (comb3 c.center c.v1 c.v2 c.w a b d)

theorem cylinderElem_sound (c : Cyl K) (hc : inner3 c.v1 (cross c.v2 c.w) ≠ 0)
    (B C : Set (K × K)) (hB : c.base.OK B C) (bb : (K × K × K) × (K × K × K))
    (hbb : Bounded c bb B) (fluid : Bool) : (cylinderElem c bb fluid).Sound := by
  refine spatial_sound fluid _ _ _ ?_ ?_
  · intro y hy
    obtain ⟨a, b, d, h1, h2, h3⟩ := (C28_cylinder_inside c hc B C hB y).1 hy
    rw [h3]
    refine hbb a b d h1 ?_
    have := abs_le.2 h2
    have e : (0 : K) ≤ 1 / 10 ^ 16 := by positivity
    linarith
  · intro x v ha
    obtain ⟨h1, h2, h3, _⟩ := Cyl.hit_mem c B C hB x v 1 (by norm_num) ha
    refine ⟨h1, ?_⟩
    rw [(Cyl.coords_comb c hc _ _ _ _).1 (rfl : c.coords (along3 x v (c.distance x v 1).alpha) = _)]
    exact hbb _ _ _ h2 h3

theorem cylinderElem_sees (c : Cyl K) (hc : inner3 c.v1 (cross c.v2 c.w) ≠ 0)
    (B C : Set (K × K)) (hB : c.base.OK B C) (bb : (K × K × K) × (K × K × K)) (fluid : Bool)
    (x v : Fin 3 → K)
    (hx : fluid = true → (x 0, x 1, x 2) ∉ cylinderSurface c.center c.v1 c.v2 c.w B C) :
    (cylinderElem c bb fluid).Sees x v :=
  spatial_sees fluid _ _ _ _
    (fun x v h1 h2 => (C24_cylinder_enter c hc B C hB x v h1 h2).1)
    (fun x v h0 h1 h2 => (C24_cylinder_leave c hc B C hB x v h1 h0 h2).1) x v hx

/-- The last region which contains the point decides. -/
theorem material_false {dim : Nat} (l : List (Bool × ((Fin dim → K) → Bool))) (x : Fin dim → K) :
    material l x = false ↔ ∃ pre r post, l = pre ++ r :: post ∧ r.1 = false ∧ r.2 x = true ∧
      ∀ p ∈ post, p.2 x = false := by
  induction l using List.reverseRecOn with
  | nil => simp [material]
  | append_singleton l s ih =>
    rw [show s = (s.1, s.2) from rfl, material_append]
    by_cases hi : s.2 x = true
    · rw [if_pos hi]
      constructor
      · intro hf
        exact ⟨l, s, [], rfl, hf, hi, by simp⟩
      · rintro ⟨pre, r, post, h1, h2, h3, h4⟩
        rcases List.eq_nil_or_concat post with rfl | ⟨post', p, rfl⟩
        · have := (List.append_inj' h1 rfl).2
          simp only [List.cons.injEq, and_true] at this
          rw [← this] at h2; exact h2
        · exfalso
          have h5 : (s.1, s.2) = p := by
            have : l ++ [(s.1, s.2)] = (pre ++ r :: post') ++ [p] := by rw [h1]; simp
            have := (List.append_inj' this rfl).2
            simpa using this
          have := h4 p (by simp)
          rw [← h5] at this
          simp only at this
          rw [this] at hi; exact absurd hi (by simp)
    · rw [if_neg hi, ih]
      constructor
      · rintro ⟨pre, r, post, h1, h2, h3, h4⟩
        refine ⟨pre, r, post ++ [s], by rw [h1]; simp, h2, h3, ?_⟩
        intro p hp
        rcases List.mem_append.1 hp with hp | hp
        · exact h4 p hp
        · rw [List.mem_singleton.1 hp]; simpa using hi
      · rintro ⟨pre, r, post, h1, h2, h3, h4⟩
        rcases List.eq_nil_or_concat post with rfl | ⟨post', p, rfl⟩
        · have := (List.append_inj' h1 rfl).2
          simp only [List.cons.injEq, and_true] at this
          rw [← this] at h3
          exact absurd h3 hi
        · have : l ++ [(s.1, s.2)] = (pre ++ r :: post') ++ [p] := by rw [h1]; simp
          have := (List.append_inj' this rfl).1
          exact ⟨pre, r, post', this, h2, h3, fun p' hp' => h4 p' (by simp [hp'])⟩

end space

section real

/-- `Ellipsoid`: the label is set where the distance is positive (elements/utils.py 245-246), `-1`
elsewhere. -/
noncomputable def ellipsoidHit (e : Ellipsoid) (l : Int) (x v : V3) : Hit ℝ V3 :=
  let a := e.alpha x v (some 1)
  if a > 0 then ⟨a, l, e.normal x v a⟩ else ⟨a, -1, (0, 0, 0)⟩

theorem ellipsoidHit_alpha (e : Ellipsoid) (l : Int) (x v : V3) :
    (ellipsoidHit e l x v).alpha = e.alpha x v (some 1) := by
  unfold ellipsoidHit; simp only; split_ifs <;> rfl

/-- `Ellipsoid`, ellipsoid.py 102-200. -/
noncomputable def ellipsoidElem (e : Ellipsoid) (l : Int) (fluid : Bool) : Elem ℝ 3 :=
  spatial fluid e.bounds e.inside (ellipsoidHit e l)

/-- `Sphere`, sphere.py 88-155. -/
noncomputable def sphereElem (s : Sphere) (l : Int) (fluid : Bool) : Elem ℝ 3 :=
  spatial fluid s.bounds s.inside (ellipsoidHit s.ellipsoid l)

theorem Ellipsoid.alpha_sound (e : Ellipsoid) (he : triple e.v1 e.v2 e.v3 ≠ 0)
    (x v : V3) (ha : 0 < e.alpha x v (some 1)) :
    e.alpha x v (some 1) ≤ 1 ∧
      along3 x v (e.alpha x v (some 1)) ∈ ellipsoidSurface e.center e.v1 e.v2 e.v3 := by
  by_cases hv : v = 0
  · exfalso
    obtain ⟨a, b, c, h1, h2, h3⟩ := e.along_form x v 1
    have ha0 : a = 0 := by rw [h2, hv]; simp [Ellipsoid.form]
    rw [h1, ha0, quadAlpha_zero] at ha; norm_num at ha
  by_cases hx : x ∈ ellipsoidSurface e.center e.v1 e.v2 e.v3
  · rw [C27_ellipsoid_on_surface e he x v hv 1 hx] at ha; norm_num at ha
  · rcases C27_ellipsoid_partial e he x v hv 1 (by norm_num) hx with h | h
    · exact h.1.2
    · rw [h.2] at ha; norm_num at ha

theorem ellipsoidElem_sound (e : Ellipsoid) (he : triple e.v1 e.v2 e.v3 ≠ 0)
    (h12 : inner3 e.v1 e.v2 = 0) (h23 : inner3 e.v2 e.v3 = 0) (h31 : inner3 e.v3 e.v1 = 0)
    (l : Int) (fluid : Bool) : (ellipsoidElem e l fluid).Sound := by
  have hb := C29_ellipsoid_bounds_partial e he h12 h23 h31
  refine spatial_sound fluid _ _ _ hb ?_
  intro x v ha
  rw [ellipsoidHit_alpha] at ha ⊢
  obtain ⟨h1, a, b, d, h2, h3⟩ := Ellipsoid.alpha_sound e he x v ha
  exact ⟨h1, hb _ ((C28_ellipsoid_inside e he _).2 ⟨a, b, d, h2.le, h3⟩)⟩

theorem sphereElem_sound (s : Sphere) (hr : 0 < s.radius) (l : Int) (fluid : Bool) :
    (sphereElem s l fluid).Sound := by
  have hb := C29_sphere_bounds s hr.le
  refine spatial_sound fluid _ _ _ hb ?_
  intro x v ha
  rw [ellipsoidHit_alpha] at ha ⊢
  obtain ⟨h1, h2⟩ := Ellipsoid.alpha_sound s.ellipsoid (Sphere.det_ne hr.ne') x v ha
  rw [Sphere.surface_eq hr.ne'] at h2
  exact ⟨h1, hb _ ((C28_sphere_inside s _).2 (le_of_eq h2))⟩

theorem ellipsoidElem_sees (e : Ellipsoid) (he : triple e.v1 e.v2 e.v3 ≠ 0) (l : Int)
    (fluid : Bool) (x v : Fin 3 → ℝ)
    (hx : fluid = true → (x 0, x 1, x 2) ∉ ellipsoidSurface e.center e.v1 e.v2 e.v3) :
    (ellipsoidElem e l fluid).Sees x v :=
  spatial_sees fluid _ _ _ _
    (fun x v h1 h2 => by rw [ellipsoidHit_alpha]; exact (C24_ellipsoid_enter e he x v h1 h2).1)
    (fun x v h0 h1 h2 => by
      rw [ellipsoidHit_alpha]
      exact (C24_ellipsoid_links e he x v h0 (by rw [h1, h2]; simp)).1)
    x v hx

theorem sphereElem_sees (s : Sphere) (hr : s.radius ≠ 0) (l : Int) (fluid : Bool)
    (x v : Fin 3 → ℝ) (hx : fluid = true → (x 0, x 1, x 2) ∉ sphere s.center s.radius) :
    (sphereElem s l fluid).Sees x v :=
  spatial_sees fluid _ _ _ _
    (fun x v h1 h2 => by rw [ellipsoidHit_alpha]; exact (C24_sphere_enter s hr x v h1 h2).1)
    (fun x v h0 h1 h2 => by
      rw [ellipsoidHit_alpha]
      exact (C24_sphere_links s hr x v h0 (by rw [h1, h2]; simp)).1)
    x v hx

/-- The solids of the library whose bounds can contain them (not the triangular cylinders and the
parallelepipeds, C29; not the STL meshes, C72).  `round` is `CylinderEllipse`; `CylinderCircle` is
the case of two vectors of the same length. -/
inductive Solid where
  | sphere (s : Sphere) (l : Int)
  | ellipsoid (e : Ellipsoid) (l : Int)
  | round (center v1 v2 w : V3) (l0 lb lt : Int)

/-- `CylinderEllipse`, cylinder.py 412-420. -/
noncomputable def roundCyl (center v1 v2 w : V3) (l0 lb lt : Int) : Cyl ℝ :=
  ⟨center, v1, v2, w, baseDisc l0, lb, lt⟩

/-- Solids which are not degenerate and which their bounds contain.  `Ellipsoid` asks for orthogonal
axes; the last condition fails for tall cylinders (C29). -/
def Solid.Valid : Solid → Prop
  | .sphere s _ => 0 < s.radius
  | .ellipsoid e _ => triple e.v1 e.v2 e.v3 ≠ 0 ∧ inner3 e.v1 e.v2 = 0 ∧ inner3 e.v2 e.v3 = 0 ∧
      inner3 e.v3 e.v1 = 0
  | .round c v1 v2 w l0 lb lt => inner3 v1 (cross v2 w) ≠ 0 ∧
      Bounded (roundCyl c v1 v2 w l0 lb lt) (roundCyl c v1 v2 w l0 lb lt).ellipseBounds
        (disc (0, 0) 1)

/-- The points of a solid. -/
def Solid.points : Solid → Set V3
  | .sphere s _ => ball s.center s.radius
  | .ellipsoid e _ => GeometrySpec.ellipsoid e.center e.v1 e.v2 e.v3
  | .round c v1 v2 w _ _ _ => cylinder c v1 v2 w (disc (0, 0) 1)

/-- The surface of a solid. -/
def Solid.boundary : Solid → Set V3
  | .sphere s _ => GeometrySpec.sphere s.center s.radius
  | .ellipsoid e _ => ellipsoidSurface e.center e.v1 e.v2 e.v3
  | .round c v1 v2 w _ _ _ => cylinderSurface c v1 v2 w (disc (0, 0) 1) (circle (0, 0) 1)

/-- The solid as an element of the domain. -/
noncomputable def Solid.elem (s : Solid) (fluid : Bool) : Elem ℝ 3 :=
  match s with
  | .sphere s l => sphereElem s l fluid
  | .ellipsoid e l => ellipsoidElem e l fluid
  | .round c v1 v2 w l0 lb lt =>
    cylinderElem (roundCyl c v1 v2 w l0 lb lt) (roundCyl c v1 v2 w l0 lb lt).ellipseBounds fluid

theorem Solid.elem_fluid (s : Solid) (fluid : Bool) : (s.elem fluid).isFluid = fluid := by
  cases s <;> rfl

theorem Solid.elem_sound (s : Solid) (hs : s.Valid) (fluid : Bool) : (s.elem fluid).Sound := by
  cases s with
  | sphere s l => exact sphereElem_sound s hs l fluid
  | ellipsoid e l => exact ellipsoidElem_sound e hs.1 hs.2.1 hs.2.2.1 hs.2.2.2 l fluid
  | round c v1 v2 w l0 lb lt =>
    exact cylinderElem_sound _ hs.1 _ _ (baseDisc_ok l0) _ hs.2 fluid

theorem Solid.elem_sees (s : Solid) (hs : s.Valid) (fluid : Bool) (x v : Fin 3 → ℝ)
    (hx : fluid = true → (x 0, x 1, x 2) ∉ s.boundary) : (s.elem fluid).Sees x v := by
  cases s with
  | sphere s l => exact sphereElem_sees s (ne_of_gt hs) l fluid x v hx
  | ellipsoid e l => exact ellipsoidElem_sees e hs.1 l fluid x v hx
  | round c v1 v2 w l0 lb lt =>
    exact cylinderElem_sees _ hs.1 _ _ (baseDisc_ok l0) _ fluid x v hx

theorem Solid.elem_inside (s : Solid) (hs : s.Valid) (fluid : Bool) (x : Fin 3 → ℝ) :
    (s.elem fluid).inside x = true ↔ (x 0, x 1, x 2) ∈ s.points := by
  cases s with
  | sphere s l => exact C28_sphere_inside s _
  | ellipsoid e l => exact C28_ellipsoid_inside e hs.1 _
  | round c v1 v2 w l0 lb lt => exact C28_cylinder_inside _ hs.1 _ _ (baseDisc_ok l0) _

/-- C21 (3D geometries of the library which their bounds contain; for the others see
`C29_domain_negation`): after any list of valid solids, removed or added, an interior cell is solid
exactly when the last one which contains its centre is not fluid. -/
theorem C21_space {nv : Nat} (g : Grid ℝ 3 nv) (hg : g.WF) (solids : List (Solid × Bool))
    (hs : ∀ s ∈ solids, s.1.Valid) (st : State ℝ 3 nv)
    (h : build g (solids.map fun s => s.1.elem s.2) = some st) (c : Cell 3) (hc : g.Interior c) :
    st.ioo c = -1 ↔ ∃ pre s post, solids = pre ++ (s, false) :: post ∧
      (g.cellCentre c 0, g.cellCentre c 1, g.cellCentre c 2) ∈ s.points ∧
      ∀ p ∈ post, (g.cellCentre c 0, g.cellCentre c 1, g.cellCentre c 2) ∉ p.1.points := by
  have hsnd : ∀ e ∈ solids.map fun s => s.1.elem s.2, e.Sound := by
    intro e he
    obtain ⟨s, hs', rfl⟩ := List.mem_map.1 he
    exact Solid.elem_sound s.1 (hs s hs') s.2
  rw [C21_fluid_map g hg _ hsnd st h c]
  have e0 : regions (solids.map fun s => s.1.elem s.2) =
      solids.map fun s => (s.2, (s.1.elem s.2).inside) := by
    simp [regions, Solid.elem_fluid]
  have key : material (regions (solids.map fun s => s.1.elem s.2)) (g.cellCentre c) = false ↔
      ∃ pre s post, solids = pre ++ (s, false) :: post ∧
      (g.cellCentre c 0, g.cellCentre c 1, g.cellCentre c 2) ∈ s.points ∧
      ∀ p ∈ post, (g.cellCentre c 0, g.cellCentre c 1, g.cellCentre c 2) ∉ p.1.points := by
    rw [e0, material_false]
    constructor
    · rintro ⟨pre, r, post, h1, h2, h3, h4⟩
      obtain ⟨pre', tl, rfl, rfl, h5⟩ := List.map_eq_append_iff.1 h1
      obtain ⟨s, post', rfl, rfl, rfl⟩ := List.map_eq_cons_iff.1 h5
      simp only at h2
      refine ⟨pre', s.1, post', by rw [← h2], ?_, ?_⟩
      · exact (Solid.elem_inside s.1 (hs s (by simp)) s.2 _).1 h3
      · intro p hp hpm
        have := h4 _ (List.mem_map_of_mem hp)
        simp only at this
        rw [(Solid.elem_inside p.1 (hs p (by simp [hp])) p.2 _).2 hpm] at this
        exact absurd this (by simp)
    · rintro ⟨pre, s, post, rfl, h2, h3⟩
      refine ⟨pre.map fun s => (s.2, (s.1.elem s.2).inside), (false, (s.elem false).inside),
        post.map fun s => (s.2, (s.1.elem s.2).inside), by simp, rfl, ?_, ?_⟩
      · exact (Solid.elem_inside s (hs (s, false) (by simp)) false _).2 h2
      · intro p hp
        obtain ⟨q, hq, rfl⟩ := List.mem_map.1 hp
        rw [← Bool.not_eq_true]
        exact fun h => h3 q hq ((Solid.elem_inside q.1 (hs q (by simp [hq])) q.2 _).1 h)
  rw [← key]
  simp only [hc, true_and]
  cases material (regions (solids.map fun s => s.1.elem s.2)) (g.cellCentre c) <;> simp

/-- C59 (3D geometries of the library which their bounds contain, links between two cells): in a
domain built from any list of valid solids such that no cell centre is on the surface of a fluid
one, every link from a fluid cell to a solid cell carries a distance in `(0, 1]`. -/
theorem C59_space_partial {nv : Nat} (g : Grid ℝ 3 nv) (hg : g.WF) (solids : List (Solid × Bool))
    (hs : ∀ s ∈ solids, s.1.Valid)
    (hb : ∀ s ∈ solids, s.2 = true → ∀ c, g.Interior c →
      (g.cellCentre c 0, g.cellCentre c 1, g.cellCentre c 2) ∉ s.1.boundary) (st : State ℝ 3 nv)
    (h : build g (solids.map fun s => s.1.elem s.2) = some st) (c : Cell 3) (hc : g.Interior c)
    (k : Fin nv) (hf : st.ioo c = 999) (ht : g.Interior (g.target k c))
    (hout : st.ioo (g.target k c) = -1) :
    0 < (st.link k c).dist ∧ (st.link k c).dist ≤ 1 := by
  have := C59_solid_links_flagged_partial g hg _ (by
    intro e he
    obtain ⟨s, hs', rfl⟩ := List.mem_map.1 he
    exact Solid.elem_sound s.1 (hs s hs') s.2) (by
    intro e he c k hc
    obtain ⟨s, hs', rfl⟩ := List.mem_map.1 he
    exact Solid.elem_sees s.1 (hs s hs') s.2 _ _ (fun h2 => hb s hs' h2 c hc)) st h c hc k hf ht hout
  exact ⟨this.1, this.2.1⟩

/-- A round cylinder which is valid: vertical, of radius `r` and half height at most `3 r / 2`. -/
theorem round_valid (c : V3) (r h : ℝ) (hr : 0 < r) (hh : 0 < h) (hrh : h ≤ 3 / 2 * r)
    (l0 lb lt : Int) : (Solid.round c (r, 0, 0) (0, r, 0) (0, 0, h) l0 lb lt).Valid := by
  refine ⟨?_, ?_⟩
  · simp only [inner3, cross]
    have : r * (r * h) ≠ 0 := by positivity
    simpa using this
  · intro a b d hab hd
    have hab' : a ^ 2 + b ^ 2 ≤ 1 := by simpa [disc] using hab
    have ha := abs_le_of_sq_le_sq' (show a ^ 2 ≤ 1 ^ 2 by nlinarith [sq_nonneg b]) zero_le_one
    have hb := abs_le_of_sq_le_sq' (show b ^ 2 ≤ 1 ^ 2 by nlinarith [sq_nonneg a]) zero_le_one
    have e : Real.sqrt (r * r) = r := Real.sqrt_mul_self hr.le
    have hd' : |d| ≤ 7 / 6 := hd.trans (by norm_num)
    obtain ⟨d1, d2⟩ := abs_le.1 hd'
    simp only [Cyl.bounds, Cyl.ellipseBounds, roundCyl, InBox3, comb3, inner3, mul_zero,
      add_zero, zero_add, e, max_self, abs_zero, sub_zero, abs_of_pos hh]
    refine ⟨?_, ?_, ?_, ?_, ?_, ?_⟩ <;> nlinarith [ha.1, ha.2, hb.1, hb.2]

/-- Solids of each kind which meet the hypotheses: a sphere removed, an ellipsoid and a flat
cylinder. -/
example : ∀ s ∈ [(Solid.sphere ⟨(2, 2, 2), 1⟩ 3, false),
    (Solid.ellipsoid ⟨(2, 2, 2), (1, 1, 0), (-1, 1, 0), (0, 0, 1)⟩ 4, true),
    (Solid.round (1, 1, 1) (1, 0, 0) (0, 1, 0) (0, 0, 1) 1 2 3, false)], s.1.Valid := by
  intro s hs
  simp only [List.mem_cons, List.not_mem_nil, or_false] at hs
  rcases hs with rfl | rfl | rfl
  · simp [Solid.Valid]
  · simp only [Solid.Valid, triple, inner3]; norm_num
  · exact round_valid (1, 1, 1) 1 1 one_pos one_pos (by norm_num) 1 2 3

end real

/-! ### Parallelepipeds -/

/-- The box `[0, 1] × [0, 1] × [0, 12]` with step 1, seven velocities. -/
def shaftGrid : Grid ℚ 3 7 where
  lo := ![0, 0, 0]
  dx := 1
  N := ![1, 1, 12]
  r0 := ![0, 0, 0]
  r1 := ![1, 1, 12]
  h := ![1, 1, 1]
  vel := ![![0, 0, 0], ![1, 0, 0], ![0, 1, 0], ![0, 0, 1], ![-1, 0, 0], ![0, -1, 0], ![0, 0, -1]]
  userLabel := fun _ _ => 0

theorem shaftGrid_wf : shaftGrid.WF :=
  ⟨by decide +kernel, by decide +kernel, by decide +kernel⟩

/-- C29 is false for the parallelepipeds, and the domain shows it: in a domain made of one column of cells, a solid
parallelepiped which fills the whole box leaves the cells of both ends fluid (`get_bounds` returns
half of its height, and only the cells of the view around these bounds are tested). -/
theorem C29_domain_negation : ∃ (p v0 v1 v2 : ℚ × ℚ × ℚ) (st : State ℚ 3 7) (c : Cell 3),
    inner3 v0 (cross v1 v2) ≠ 0 ∧ shaftGrid.WF ∧
    build shaftGrid [parallelepipedElem (fun _ w => w) p v0 v1 v2 0 0 0 0 0 0 false] = some st ∧
    shaftGrid.Interior c ∧
    (shaftGrid.cellCentre c 0, shaftGrid.cellCentre c 1, shaftGrid.cellCentre c 2) ∈
      box p v0 v1 v2 ∧ st.ioo c = 999 ∧ st.ioo ![1, 1, 6] = -1 := by
  refine ⟨(0, 0, 0), (1, 0, 0), (0, 1, 0), (0, 0, 12),
    (build shaftGrid [parallelepipedElem (fun _ w => w) (0, 0, 0) (1, 0, 0) (0, 1, 0) (0, 0, 12)
      0 0 0 0 0 0 false]).get (by decide +kernel), ![1, 1, 1], by decide +kernel, shaftGrid_wf,
    (Option.some_get _).symm, by decide +kernel, ?_, ?_⟩
  · exact ⟨1 / 2, 1 / 2, 1 / 24, by norm_num, by norm_num, by norm_num, by decide +kernel⟩
  · decide +kernel

end Pylbm.Domain
