import Verif.Domain.MirrorLibrary
import Verif.Domain.UnitsLibrary
/-!
# The mirror images of the solids of the library (C86)
-/
set_option linter.unusedSectionVars false
namespace Pylbm.Domain
open Round Storage DomainSpec Geometry GeometrySpec

section
variable {R : Type} [CommRing R]

/-- Mirror image of a vector of the space. -/
def mirV3 (fl : Fin 3 → Bool) (v : R × R × R) : R × R × R :=
  (if fl 0 then -v.1 else v.1, if fl 1 then -v.2.1 else v.2.1, if fl 2 then -v.2.2 else v.2.2)

/-- Mirror image of a point of the space, where the image of 0 is `m`. -/
def mirP3 (fl : Fin 3 → Bool) (m : Fin 3 → R) (x : R × R × R) : R × R × R :=
  (if fl 0 then m 0 - x.1 else x.1, if fl 1 then m 1 - x.2.1 else x.2.1, if fl 2 then m 2 - x.2.2 else x.2.2)

end

/-- The cylinder with mirrored centre and axes (same base, same labels). -/
def Cyl.mirror {K : Type} [Field K] (fl : Fin 3 → Bool) (m : Fin 3 → K) (c : Cyl K) : Cyl K :=
  { c with center := mirP3 fl m c.center, v1 := mirV3 fl c.v1, v2 := mirV3 fl c.v2, w := mirV3 fl c.w }

/-- The solid with mirrored parameters: what a user writes for the mirror image of a solid. -/
def Solid.mirror (fl : Fin 3 → Bool) (m : Fin 3 → ℝ) : Solid → Solid
  | .sphere s l => .sphere ⟨mirP3 fl m s.center, s.radius⟩ l
  | .ellipsoid e l => .ellipsoid ⟨mirP3 fl m e.center, mirV3 fl e.v1, mirV3 fl e.v2, mirV3 fl e.v3⟩ l
  | .round c v1 v2 w l0 lb lt => .round (mirP3 fl m c) (mirV3 fl v1) (mirV3 fl v2) (mirV3 fl w) l0 lb lt

/-! ## Lemmas -/

/-- The sign of a direction. -/
def sgn {R : Type} [One R] [Neg R] (b : Bool) : R := if b then -1 else 1

section
variable {K : Type} [Field K] [LinearOrder K] [IsStrictOrderedRing K]

theorem sgn_sq (b : Bool) : (sgn b : K) * sgn b = 1 := by cases b <;> simp [sgn]

theorem mirV3_eq (fl : Fin 3 → Bool) (v : K × K × K) :
    mirV3 fl v = (sgn (fl 0) * v.1, sgn (fl 1) * v.2.1, sgn (fl 2) * v.2.2) := by
  unfold mirV3 sgn
  refine Prod.ext ?_ (Prod.ext ?_ ?_) <;> simp only <;> split_ifs <;> ring

theorem mirP3_sub (fl : Fin 3 → Bool) (m : Fin 3 → K) (x p : K × K × K) :
    ((mirP3 fl m x).1 - (mirP3 fl m p).1, (mirP3 fl m x).2.1 - (mirP3 fl m p).2.1,
      (mirP3 fl m x).2.2 - (mirP3 fl m p).2.2) = mirV3 fl (x.1 - p.1, x.2.1 - p.2.1, x.2.2 - p.2.2) := by
  unfold mirP3 mirV3
  refine Prod.ext ?_ (Prod.ext ?_ ?_) <;> simp only <;> split_ifs <;> ring

theorem inner3_mirror (fl : Fin 3 → Bool) (u v : K × K × K) : inner3 (mirV3 fl u) (mirV3 fl v) = inner3 u v := by
  have h0 := sgn_sq (K := K) (fl 0)
  have h1 := sgn_sq (K := K) (fl 1)
  have h2 := sgn_sq (K := K) (fl 2)
  rw [mirV3_eq, mirV3_eq]
  unfold inner3
  simp only
  linear_combination u.1 * v.1 * h0 + u.2.1 * v.2.1 * h1 + u.2.2 * v.2.2 * h2

/-- The sign of the determinant of the reflection. -/
def sgnAll {R : Type} [CommRing R] (fl : Fin 3 → Bool) : R := sgn (fl 0) * sgn (fl 1) * sgn (fl 2)

theorem sgnAll_ne (fl : Fin 3 → Bool) : (sgnAll fl : K) ≠ 0 := by
  unfold sgnAll sgn
  split_ifs <;> simp

theorem cross_mirror (fl : Fin 3 → Bool) (u v : K × K × K) :
    cross (mirV3 fl u) (mirV3 fl v) = (sgnAll fl * (mirV3 fl (cross u v)).1, sgnAll fl * (mirV3 fl (cross u v)).2.1,
      sgnAll fl * (mirV3 fl (cross u v)).2.2) := by
  have h0 := sgn_sq (K := K) (fl 0)
  have h1 := sgn_sq (K := K) (fl 1)
  have h2 := sgn_sq (K := K) (fl 2)
  rw [mirV3_eq, mirV3_eq, mirV3_eq]
  unfold cross sgnAll
  refine Prod.ext ?_ (Prod.ext ?_ ?_) <;> simp only
  · linear_combination -(sgn (fl 1) * sgn (fl 2) * (u.2.1 * v.2.2 - u.2.2 * v.2.1)) * h0
  · linear_combination -(sgn (fl 0) * sgn (fl 2) * (u.2.2 * v.1 - u.1 * v.2.2)) * h1
  · linear_combination -(sgn (fl 0) * sgn (fl 1) * (u.1 * v.2.1 - u.2.1 * v.1)) * h2

theorem inner_cross_mirror (fl : Fin 3 → Bool) (u v y : K × K × K) :
    inner3 (cross (mirV3 fl u) (mirV3 fl v)) (mirV3 fl y) = sgnAll fl * inner3 (cross u v) y := by
  rw [← inner3_mirror fl (cross u v) y, cross_mirror]
  unfold inner3
  simp only
  ring

theorem inner3_comm' (u v : K × K × K) : inner3 u v = inner3 v u := by unfold inner3; ring

theorem frame_mirror (fl : Fin 3 → Bool) (m : Fin 3 → K) (c : Cyl K) (y : K × K × K) :
    (Cyl.mirror fl m c).frame (mirV3 fl y) = c.frame y := by
  have hs := sgnAll_ne (K := K) fl
  have hd : (Cyl.mirror fl m c).det = sgnAll fl * c.det := by
    show inner3 (mirV3 fl c.v1) (cross (mirV3 fl c.v2) (mirV3 fl c.w)) = _
    rw [inner3_comm', inner_cross_mirror, inner3_comm']
    rfl
  unfold Cyl.frame
  rw [hd]
  show (inner3 (cross (mirV3 fl c.v2) (mirV3 fl c.w)) (mirV3 fl y) / _,
    inner3 (cross (mirV3 fl c.w) (mirV3 fl c.v1)) (mirV3 fl y) / _,
    inner3 (cross (mirV3 fl c.v1) (mirV3 fl c.v2)) (mirV3 fl y) / _) = _
  simp only [inner_cross_mirror, mul_div_mul_left _ _ hs]

theorem coords_mirror (fl : Fin 3 → Bool) (m : Fin 3 → K) (c : Cyl K) (x : K × K × K) :
    (Cyl.mirror fl m c).coords (mirP3 fl m x) = c.coords x := by
  unfold Cyl.coords
  rw [← frame_mirror fl m c, ← mirP3_sub fl m x c.center]
  rfl

/-- The mirror image of a hit. -/
def mirHit3 (fl : Fin 3 → Bool) (h : Hit K (K × K × K)) : Hit K (K × K × K) := ⟨h.alpha, h.border, mirV3 fl h.normal⟩

theorem cyl_distance_mirror (fl : Fin 3 → Bool) (m : Fin 3 → K) (c : Cyl K) (x v : K × K × K) (d : K) :
    (Cyl.mirror fl m c).distance (mirP3 fl m x) (mirV3 fl v) d = mirHit3 fl (c.distance x v d) := by
  unfold Cyl.distance mirHit3
  rw [coords_mirror, frame_mirror]
  have hp : ∀ y vc num, (Cyl.mirror fl m c).plane y vc num d = c.plane y vc num d := fun _ _ _ => rfl
  have hb : (Cyl.mirror fl m c).base = c.base := rfl
  have ht : (Cyl.mirror fl m c).ltop = c.ltop := rfl
  have hl : (Cyl.mirror fl m c).lbot = c.lbot := rfl
  have h1 : (Cyl.mirror fl m c).v1 = mirV3 fl c.v1 := rfl
  have h2 : (Cyl.mirror fl m c).v2 = mirV3 fl c.v2 := rfl
  have h3 : (Cyl.mirror fl m c).w = mirV3 fl c.w := rfl
  simp only [hp, hb, ht, hl, h1, h2, h3, mirV3_eq]
  congr 1
  refine Prod.ext ?_ (Prod.ext ?_ ?_) <;> simp only <;> ring

/-- A solid whose test and distances follow the mirror. -/
theorem spatial_mirror {nv : Nat} [FloorRing K] (g : Grid K 3 nv) (fl : Fin 3 → Bool) (fluid : Bool)
    (b b' : (K × K × K) × (K × K × K)) (inside inside' : K × K × K → Bool)
    (hit hit' : K × K × K → K × K × K → Hit K (K × K × K))
    (h1 : ∀ x, inside' (mirP3 fl (fun j => 2 * g.lo j + g.dx * g.N j) x) = inside x)
    (h2 : ∀ x v, hit' (mirP3 fl (fun j => 2 * g.lo j + g.dx * g.N j) x) (mirV3 fl v) = mirHit3 fl (hit x v)) :
    (spatial fluid b inside hit).Mirrored g fl (spatial fluid b' inside' hit') where
  isFluid := rfl
  inside := fun x => h1 (x 0, x 1, x 2)
  alpha := fun x v => (congrArg Hit.alpha (h2 (x 0, x 1, x 2) (v 0, v 1, v 2)) :)
  border := fun x v => (congrArg Hit.border (h2 (x 0, x 1, x 2) (v 0, v 1, v 2)) :)
  normvect := fun x v => by
    have := congrArg Hit.normal (h2 (x 0, x 1, x 2) (v 0, v 1, v 2))
    funext j
    fin_cases j
    · exact congrArg (fun n : K × K × K => n.1) this
    · exact congrArg (fun n : K × K × K => n.2.1) this
    · exact congrArg (fun n : K × K × K => n.2.2) this

/-- **C86, cylinders** of any base (round, triangular, parallelepipeds): the cylinder with mirrored centre and axes is the
mirror image, with its normals. -/
theorem C86_cylinders {nv : Nat} [FloorRing K] (g : Grid K 3 nv) (fl : Fin 3 → Bool) (c : Cyl K)
    (b b' : (K × K × K) × (K × K × K)) (fluid : Bool) :
    (cylinderElem c b fluid).Mirrored g fl
      (cylinderElem (Cyl.mirror fl (fun j => 2 * g.lo j + g.dx * g.N j) c) b' fluid) := by
  refine spatial_mirror g fl fluid _ _ _ _ _ _ (fun x => ?_) fun x v => cyl_distance_mirror fl _ c x v 1
  unfold Cyl.inside
  rw [coords_mirror]
  rfl

/-- **C86, parallelepipeds**: mirrored point and edges, same labels. -/
theorem C86_parallelepipeds {nv : Nat} [FloorRing K] (g : Grid K 3 nv) (fl : Fin 3 → Bool) (nf : V2 K → V2 K → V2 K)
    (p v0 v1 v2 : K × K × K) (l0 l1 l2 l3 lb lt : Int) (fluid : Bool) :
    (parallelepipedElem nf p v0 v1 v2 l0 l1 l2 l3 lb lt fluid).Mirrored g fl
      (parallelepipedElem nf (mirP3 fl (fun j => 2 * g.lo j + g.dx * g.N j) p) (mirV3 fl v0) (mirV3 fl v1) (mirV3 fl v2)
        l0 l1 l2 l3 lb lt fluid) := by
  have h : parallelepiped nf (mirP3 fl (fun j => 2 * g.lo j + g.dx * g.N j) p) (mirV3 fl v0) (mirV3 fl v1) (mirV3 fl v2)
      l0 l1 l2 l3 lb lt =
      Cyl.mirror fl (fun j => 2 * g.lo j + g.dx * g.N j) (parallelepiped nf p v0 v1 v2 l0 l1 l2 l3 lb lt) := by
    unfold parallelepiped Cyl.mirror mirP3 mirV3
    simp only [Cyl.mk.injEq, and_true, true_and]
    refine ⟨?_, ?_⟩ <;> refine Prod.ext ?_ (Prod.ext ?_ ?_) <;> simp only <;> split_ifs <;> ring
  unfold parallelepipedElem
  simp only
  rw [h]
  exact C86_cylinders g fl _ _ _ fluid

end

/-! Ellipsoids and spheres -/

/-- The ellipsoid with mirrored centre and axes. -/
def mirEllipsoid (fl : Fin 3 → Bool) (m : Fin 3 → ℝ) (e : Ellipsoid) : Ellipsoid :=
  ⟨mirP3 fl m e.center, mirV3 fl e.v1, mirV3 fl e.v2, mirV3 fl e.v3⟩

theorem coeffs_mirror (fl : Fin 3 → Bool) (m : Fin 3 → ℝ) (e : Ellipsoid) :
    (mirEllipsoid fl m e).coeffs = ⟨e.coeffs.cxx, e.coeffs.cyy, e.coeffs.czz, sgn (fl 0) * sgn (fl 1) * e.coeffs.cxy,
      sgn (fl 1) * sgn (fl 2) * e.coeffs.cyz, sgn (fl 2) * sgn (fl 0) * e.coeffs.czx⟩ := by
  unfold Ellipsoid.coeffs mirEllipsoid mirV3 cross sgn
  cases h0 : fl 0 <;> cases h1 : fl 1 <;> cases h2 : fl 2 <;> simp only [if_true, if_false, Bool.false_eq_true] <;>
    (congr 1 <;> ring)

theorem d_mirror (fl : Fin 3 → Bool) (m : Fin 3 → ℝ) (e : Ellipsoid) : (mirEllipsoid fl m e).d = e.d := by
  unfold Ellipsoid.d mirEllipsoid mirV3 cross inner3
  cases h0 : fl 0 <;> cases h1 : fl 1 <;> cases h2 : fl 2 <;> simp only [if_true, if_false, Bool.false_eq_true] <;> ring

theorem centre_mirror (fl : Fin 3 → Bool) (m : Fin 3 → ℝ) (e : Ellipsoid) (x : V3) :
    (mirP3 fl m x).1 - (mirEllipsoid fl m e).center.1 = sgn (fl 0) * (x.1 - e.center.1) ∧
    (mirP3 fl m x).2.1 - (mirEllipsoid fl m e).center.2.1 = sgn (fl 1) * (x.2.1 - e.center.2.1) ∧
    (mirP3 fl m x).2.2 - (mirEllipsoid fl m e).center.2.2 = sgn (fl 2) * (x.2.2 - e.center.2.2) := by
  have h := mirP3_sub fl m x e.center
  rw [mirV3_eq] at h
  exact ⟨congrArg (fun n : V3 => n.1) h, congrArg (fun n : V3 => n.2.1) h, congrArg (fun n : V3 => n.2.2) h⟩

theorem ellipsoid_inside_mirror (fl : Fin 3 → Bool) (m : Fin 3 → ℝ) (e : Ellipsoid) (x : V3) :
    (mirEllipsoid fl m e).inside (mirP3 fl m x) = e.inside x := by
  obtain ⟨h1, h2, h3⟩ := centre_mirror fl m e x
  unfold Ellipsoid.inside
  simp only [h1, h2, h3, coeffs_mirror, d_mirror]
  congr 2
  unfold sgn
  split_ifs <;> ring

theorem ellipsoid_alpha_mirror (fl : Fin 3 → Bool) (m : Fin 3 → ℝ) (e : Ellipsoid) (x v : V3) (d : Option ℝ) :
    (mirEllipsoid fl m e).alpha (mirP3 fl m x) (mirV3 fl v) d = e.alpha x v d := by
  obtain ⟨h1, h2, h3⟩ := centre_mirror fl m e x
  unfold Ellipsoid.alpha
  simp only [h1, h2, h3, coeffs_mirror, d_mirror, mirV3_eq]
  unfold sgn
  congr 1 <;> split_ifs <;> ring

theorem against3_mirror (fl : Fin 3 → Bool) (n v : V3) : against3 (mirV3 fl n) (mirV3 fl v) = mirV3 fl (against3 n v) := by
  have hi : ∀ u w : V3, (mirV3 fl u).1 * (mirV3 fl w).1 + (mirV3 fl u).2.1 * (mirV3 fl w).2.1 +
      (mirV3 fl u).2.2 * (mirV3 fl w).2.2 = u.1 * w.1 + u.2.1 * w.2.1 + u.2.2 * w.2.2 := fun u w => inner3_mirror fl u w
  have hq : ∀ (s : ℝ) (u : V3), (s * (mirV3 fl u).1) ^ 2 + (s * (mirV3 fl u).2.1) ^ 2 + (s * (mirV3 fl u).2.2) ^ 2 =
      (s * u.1) ^ 2 + (s * u.2.1) ^ 2 + (s * u.2.2) ^ 2 := by
    intro s u
    unfold mirV3
    simp only
    split_ifs <;> ring
  unfold against3
  simp only [hi, hq]
  generalize Real.sqrt _ = r
  unfold mirV3
  refine Prod.ext ?_ (Prod.ext ?_ ?_) <;> simp only <;> split_ifs <;> ring

theorem ellipsoidHit_mirror (fl : Fin 3 → Bool) (m : Fin 3 → ℝ) (e : Ellipsoid) (l : Int) (x v : V3) :
    ellipsoidHit (mirEllipsoid fl m e) l (mirP3 fl m x) (mirV3 fl v) = mirHit3 fl (ellipsoidHit e l x v) := by
  have hn : ∀ t, (mirEllipsoid fl m e).normal (mirP3 fl m x) (mirV3 fl v) t = mirV3 fl (e.normal x v t) := by
    intro t
    have hg : gradS (mirEllipsoid fl m e) (mirP3 fl m x) (mirV3 fl v) t = mirV3 fl (gradS e x v t) := by
      obtain ⟨h1, h2, h3⟩ := centre_mirror fl m e x
      unfold gradS
      simp only [h1, h2, h3, coeffs_mirror, mirV3_eq]
      unfold sgn
      refine Prod.ext ?_ (Prod.ext ?_ ?_) <;> simp only <;> split_ifs <;> ring
    have h1 : (mirEllipsoid fl m e).normal (mirP3 fl m x) (mirV3 fl v) t =
        against3 (gradS (mirEllipsoid fl m e) (mirP3 fl m x) (mirV3 fl v) t) (mirV3 fl v) := rfl
    have h2 : e.normal x v t = against3 (gradS e x v t) v := rfl
    rw [h1, h2, hg, against3_mirror]
  unfold ellipsoidHit
  simp only [ellipsoid_alpha_mirror, hn]
  split
  · rfl
  · unfold mirHit3 mirV3; simp

theorem ellipsoidHit_congr (e e' : Ellipsoid) (hc : e.center = e'.center) (hk : e.coeffs = e'.coeffs) (hd : e.d = e'.d)
    (l : Int) (x v : V3) : ellipsoidHit e l x v = ellipsoidHit e' l x v := by
  unfold ellipsoidHit Ellipsoid.alpha Ellipsoid.normal
  simp only [hc, hk, hd]

/-- **C86, solids.** The mirror image of a sphere, of an ellipsoid or of a round cylinder of the library is the solid with
mirrored centre and axes and the same labels: same test for the points, same distances and labels, mirrored normals. -/
theorem C86_solids {nv : Nat} (g : Grid ℝ 3 nv) (fl : Fin 3 → Bool) (s : Solid) (fluid : Bool) :
    (s.elem fluid).Mirrored g fl ((s.mirror fl fun j => 2 * g.lo j + g.dx * g.N j).elem fluid) := by
  set m : Fin 3 → ℝ := fun j => 2 * g.lo j + g.dx * g.N j with hm
  cases s with
  | sphere s l =>
    refine spatial_mirror g fl fluid _ _ _ _ _ _ (fun x => ?_) fun x v => ?_
    · have hs := mirP3_sub fl m x s.center
      have h1 := congrArg (fun n : V3 => n.1) hs
      have h2 := congrArg (fun n : V3 => n.2.1) hs
      have h3 := congrArg (fun n : V3 => n.2.2) hs
      simp only at h1 h2 h3
      unfold Sphere.inside
      simp only
      rw [← hm, h1, h2, h3]
      unfold mirV3
      congr 2
      simp only
      split_ifs <;> ring
    · rw [← hm, ← ellipsoidHit_mirror fl m s.ellipsoid l x v]
      apply ellipsoidHit_congr
      · rfl
      · rw [coeffs_mirror]
        simp only [Sphere.ellipsoid, Ellipsoid.coeffs, cross]
        congr 1 <;> ring
      · rw [d_mirror]
        simp only [Sphere.ellipsoid, Ellipsoid.d, cross, inner3]
  | ellipsoid e l =>
    exact spatial_mirror g fl fluid _ _ _ _ _ _ (ellipsoid_inside_mirror fl m e) fun x v => ellipsoidHit_mirror fl m e l x v
  | round c v1 v2 w l0 lb lt => exact C86_cylinders g fl (roundCyl c v1 v2 w l0 lb lt) _ _ fluid

/-! ## The domains -/

theorem abs_mirror (b : Bool) (x : ℝ) : |if b then -x else x| = |x| := by cases b <;> simp

theorem Solid.mirror_valid (fl : Fin 3 → Bool) (m : Fin 3 → ℝ) (s : Solid) (hs : s.Valid) : (s.mirror fl m).Valid := by
  have ht : ∀ u v w : V3, inner3 (mirV3 fl u) (cross (mirV3 fl v) (mirV3 fl w)) = sgnAll fl * inner3 u (cross v w) := by
    intro u v w
    rw [inner3_comm', inner_cross_mirror, inner3_comm']
  cases s with
  | sphere s l => exact hs
  | ellipsoid e l =>
    obtain ⟨h0, h1, h2, h3⟩ := hs
    refine ⟨?_, ?_, ?_, ?_⟩
    · have := ht e.v1 e.v2 e.v3
      show inner3 (mirV3 fl e.v1) (cross (mirV3 fl e.v2) (mirV3 fl e.v3)) ≠ 0
      rw [this]
      exact mul_ne_zero (sgnAll_ne fl) h0
    · exact (inner3_mirror fl _ _).trans h1
    · exact (inner3_mirror fl _ _).trans h2
    · exact (inner3_mirror fl _ _).trans h3
  | round c v1 v2 w l0 lb lt =>
    obtain ⟨h0, h1⟩ := hs
    refine ⟨?_, fun a b d hab hd => ?_⟩
    · rw [ht]; exact mul_ne_zero (sgnAll_ne fl) h0
    · have := h1 a b d hab hd
      unfold InBox3 Cyl.bounds Cyl.ellipseBounds roundCyl comb3 at this ⊢
      simp only [inner3_mirror] at this ⊢
      generalize max (Real.sqrt (inner3 v1 v1)) (Real.sqrt (inner3 v2 v2)) = r at this ⊢
      unfold mirV3 mirP3
      simp only [abs_mirror]
      obtain ⟨a1, a2, a3, a4, a5, a6⟩ := this
      refine ⟨?_, ?_, ?_, ?_, ?_, ?_⟩ <;> split_ifs <;> linarith

/-- **C86, domains of the space.** A list of solids, each added or removed: with mirrored parameters and exchanged labels
of the faces, the fluid map, the distances, labels and normals are mirrored. -/
theorem C86_space {nv : Nat} (g : Grid ℝ 3 nv) (hg : g.WF) (h0 : ∀ j, g.r0 j = 0) (h1 : ∀ j, g.r1 j = g.N j)
    (fl : Fin 3 → Bool) (π : Fin nv → Fin nv) (hπ : ∀ k, g.vel (π k) = mirrorVec fl (g.vel k))
    (solids : List (Solid × Bool)) (hs : ∀ s ∈ solids, s.1.Valid) (st st' : State ℝ 3 nv)
    (h : build g (solids.map fun s => s.1.elem s.2) = some st)
    (h' : build (g.mirror fl)
      (solids.map fun s => (s.1.mirror fl fun j => 2 * g.lo j + g.dx * g.N j).elem s.2) = some st')
    (c : Cell 3) (hc : g.Interior c) :
    st'.ioo (g.mirrorCell fl c) = st.ioo c ∧
    ∀ k, st'.link (π k) (g.mirrorCell fl c) = mirrorLink fl (st.link k c) := by
  refine C86_domain g hg h0 h1 fl π hπ _ _ ?_ ?_ ?_ st st' h h' c hc
  · clear h h' hs
    induction solids with
    | nil => exact List.Forall₂.nil
    | cons s l ih => exact List.Forall₂.cons (C86_solids g fl s.1 s.2) ih
  · intro e he
    obtain ⟨s, hm, rfl⟩ := List.mem_map.1 he
    exact s.1.elem_sound (hs s hm) s.2
  · intro e he
    obtain ⟨s, hm, rfl⟩ := List.mem_map.1 he
    exact Solid.elem_sound _ (Solid.mirror_valid fl _ s.1 (hs s hm)) s.2

theorem Shape.mirror_valid (fl : Fin 2 → Bool) (m : Fin 2 → ℝ) (s : Shape) (hs : s.Valid) : (s.mirror fl m).Valid := by
  have hd : ∀ u v : V2 ℝ, u.1 * v.2 - u.2 * v.1 ≠ 0 →
      (mirV fl u).1 * (mirV fl v).2 - (mirV fl u).2 * (mirV fl v).1 ≠ 0 := by
    intro u v h h'
    refine h ?_
    unfold mirV at h'
    simp only at h'
    split_ifs at h' <;> linarith
  cases s with
  | triangle q l0 l1 l2 => exact hd _ _ hs
  | parallelogram q l0 l1 l2 l3 => exact hd _ _ hs
  | circle c l => exact hs
  | ellipse e l =>
    refine ⟨hd _ _ hs.1, ?_⟩
    rw [← hs.2]
    unfold mirV
    simp only
    split_ifs <;> ring

/-- **C86, domains of the plane.** The same for a list of shapes of the plane. -/
theorem C86_plane {nv : Nat} (g : Grid ℝ 2 nv) (hg : g.WF) (h0 : ∀ j, g.r0 j = 0) (h1 : ∀ j, g.r1 j = g.N j)
    (fl : Fin 2 → Bool) (π : Fin nv → Fin nv) (hπ : ∀ k, g.vel (π k) = mirrorVec fl (g.vel k))
    (shapes : List (Shape × Bool)) (hs : ∀ s ∈ shapes, s.1.Valid) (st st' : State ℝ 2 nv)
    (h : build g (shapes.map fun s => s.1.elem s.2) = some st)
    (h' : build (g.mirror fl)
      (shapes.map fun s => (s.1.mirror fl fun j => 2 * g.lo j + g.dx * g.N j).elem s.2) = some st')
    (c : Cell 2) (hc : g.Interior c) :
    st'.ioo (g.mirrorCell fl c) = st.ioo c ∧
    ∀ k, st'.link (π k) (g.mirrorCell fl c) = mirrorLink fl (st.link k c) := by
  refine C86_domain g hg h0 h1 fl π hπ _ _ ?_ ?_ ?_ st st' h h' c hc
  · clear h h' hs
    induction shapes with
    | nil => exact List.Forall₂.nil
    | cons s l ih => exact List.Forall₂.cons (C86_shapes g fl s.1 s.2) ih
  · intro e he
    obtain ⟨s, hm, rfl⟩ := List.mem_map.1 he
    exact s.1.elem_sound (hs s hm) s.2
  · intro e he
    obtain ⟨s, hm, rfl⟩ := List.mem_map.1 he
    exact Shape.elem_sound _ (Shape.mirror_valid fl _ s.1 (hs s hm)) s.2

end Pylbm.Domain
