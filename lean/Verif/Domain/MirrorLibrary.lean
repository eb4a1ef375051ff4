import Verif.Domain.Mirror
import Verif.Domain.Library
/-!
# The mirror images of the shapes of the library (C86)
-/
set_option linter.unusedSectionVars false
namespace Pylbm.Domain
open Round Storage DomainSpec Geometry GeometrySpec

section
variable {R : Type} [CommRing R]

/-- Mirror image of a vector of the plane. -/
def mirV (fl : Fin 2 → Bool) (v : R × R) : R × R := (if fl 0 then -v.1 else v.1, if fl 1 then -v.2 else v.2)

/-- Mirror image of a point of the plane, where the image of 0 is `m`. -/
def mirP (fl : Fin 2 → Bool) (m : Fin 2 → R) (x : R × R) : R × R :=
  (if fl 0 then m 0 - x.1 else x.1, if fl 1 then m 1 - x.2 else x.2)

end

/-- The shape with mirrored parameters: what a user writes for the mirror image of a shape. -/
def Shape.mirror (fl : Fin 2 → Bool) (m : Fin 2 → ℝ) : Shape → Shape
  | .triangle q l0 l1 l2 => .triangle ⟨mirP fl m q.point, mirV fl q.v1, mirV fl q.v2⟩ l0 l1 l2
  | .parallelogram q l0 l1 l2 l3 => .parallelogram ⟨mirP fl m q.point, mirV fl q.v1, mirV fl q.v2⟩ l0 l1 l2 l3
  | .circle c l => .circle ⟨mirP fl m c.center, c.radius⟩ l
  | .ellipse e l => .ellipse ⟨mirP fl m e.center, mirV fl e.v1, mirV fl e.v2⟩ l

section
variable {K : Type} [Field K] [LinearOrder K] [IsStrictOrderedRing K]

theorem intersection_mirror (fl : Fin 2 → Bool) (p1 v1 p2 v2 : V2 K) :
    intersectionTwoLines (mirV fl p1) (mirV fl v1) (mirV fl p2) (mirV fl v2) = intersectionTwoLines p1 v1 p2 v2 := by
  unfold intersectionTwoLines mirV
  have e (d : K) : (1 / -d) = -(1 / d) := by rw [one_div_neg_eq_neg_one_div]
  cases h0 : fl 0 <;> cases h1 : fl 1 <;> simp only [if_true, if_false, Bool.false_eq_true]
  · have hd : -v1.2 * v2.1 - v1.1 * -v2.2 = -(v1.2 * v2.1 - v1.1 * v2.2) := by ring
    rw [hd, e]
    simp only [ne_eq, neg_eq_zero]
    split
    · congr 2 <;> ring
    · rfl
  · have hd : v1.2 * -v2.1 - -v1.1 * v2.2 = -(v1.2 * v2.1 - v1.1 * v2.2) := by ring
    rw [hd, e]
    simp only [ne_eq, neg_eq_zero]
    split
    · congr 2 <;> ring
    · rfl
  · have hd : -v1.2 * -v2.1 - -v1.1 * -v2.2 = (v1.2 * v2.1 - v1.1 * v2.2) := by ring
    rw [hd]
    split
    · congr 2 <;> ring
    · rfl

/-- The mirror image of a hit. -/
def mirHit (fl : Fin 2 → Bool) (h : Hit K (V2 K)) : Hit K (V2 K) := ⟨h.alpha, h.border, mirV fl h.normal⟩

/-- The mirror image of an edge. -/
def mirEdge (fl : Fin 2 → Bool) (e : Edge K) : Edge K := ⟨mirV fl e.p, mirV fl e.vt, e.label⟩

theorem intersection_det (p1 v1 p2 v2 : V2 K) (t : K × K) (h : intersectionTwoLines p1 v1 p2 v2 = some t) :
    v1.2 * v2.1 - v1.1 * v2.2 ≠ 0 := by
  unfold intersectionTwoLines at h
  simp only at h
  split at h
  · assumption
  · cases h

theorem lines_mirror (fl : Fin 2 → Bool) (nf : V2 K → V2 K → V2 K)
    (hnf : ∀ v vt, v.2 * vt.1 - v.1 * vt.2 ≠ 0 → nf (mirV fl v) (mirV fl vt) = mirV fl (nf v vt))
    (x v : V2 K) (edges : List (Edge K)) (dmax : Option K) :
    distanceLines (nf (mirV fl v)) (0, 0) (mirV fl x) (mirV fl v) (edges.map (mirEdge fl)) dmax =
      mirHit fl (distanceLines (nf v) (0, 0) x v edges dmax) := by
  have key : ∀ (edges : List (Edge K)) (h : Hit K (V2 K)),
      (edges.map (mirEdge fl)).foldl (lineStep (nf (mirV fl v)) (mirV fl x) (mirV fl v) dmax) (mirHit fl h) =
        mirHit fl (edges.foldl (lineStep (nf v) x v dmax) h) := by
    intro edges
    induction edges with
    | nil => intro h; rfl
    | cons e l ih =>
      intro h
      rw [List.map_cons, List.foldl_cons, List.foldl_cons, ← ih]
      congr 1
      unfold lineStep
      have : intersectionTwoLines (mirV fl x) (mirV fl v) (mirEdge fl e).p (mirEdge fl e).vt =
          intersectionTwoLines x v e.p e.vt := intersection_mirror fl x v e.p e.vt
      rw [this]
      cases ht : intersectionTwoLines x v e.p e.vt with
      | none => rfl
      | some t =>
        have hd := intersection_det _ _ _ _ _ ht
        simp only
        have hn := hnf v e.vt hd
        have ha : (mirHit fl h).alpha = h.alpha := rfl
        rw [ha]
        by_cases hc : h.alpha > t.1 ∧ (t.1 > 0 ∧ leDmax dmax t.1) ∧ (t.2 ≥ 0 ∧ t.2 ≤ 1)
        · rw [if_pos hc, if_pos hc]
          show (⟨t.1, e.label, nf (mirV fl v) (mirV fl e.vt)⟩ : Hit K (V2 K)) = _
          rw [hn]; rfl
        · rw [if_neg hc, if_neg hc]
  unfold distanceLines
  have h0 : (⟨tgv, -1, (0, 0)⟩ : Hit K (V2 K)) = mirHit fl ⟨tgv, -1, (0, 0)⟩ := by
    unfold mirHit mirV; simp
  simp only
  rw [h0, key, ← h0]
  generalize edges.foldl (lineStep (nf v) x v dmax) ⟨tgv, -1, (0, 0)⟩ = h
  show (if h.alpha = tgv then _ else _) = _
  split <;> rfl

theorem mirP_sub (fl : Fin 2 → Bool) (m : Fin 2 → K) (x p : K × K) :
    ((mirP fl m x).1 - (mirP fl m p).1, (mirP fl m x).2 - (mirP fl m p).2) = mirV fl (x.1 - p.1, x.2 - p.2) := by
  unfold mirP mirV
  simp only
  split <;> split <;> (congr 1 <;> ring)

theorem bary_mirror (fl : Fin 2 → Bool) (m : Fin 2 → K) (q : Quad K) (x : K × K) :
    Quad.bary ⟨mirP fl m q.point, mirV fl q.v1, mirV fl q.v2⟩ (mirP fl m x) = q.bary x := by
  have hs := mirP_sub fl m x q.point
  have hs1 := congrArg Prod.fst hs
  have hs2 := congrArg Prod.snd hs
  simp only at hs1 hs2
  unfold Quad.bary
  simp only
  rw [hs1, hs2]
  unfold mirV
  have e (d : K) : (1 / -d) = -(1 / d) := by rw [one_div_neg_eq_neg_one_div]
  cases h0 : fl 0 <;> cases h1 : fl 1 <;> simp only [if_true, if_false, Bool.false_eq_true]
  · rw [show q.v1.1 * -q.v2.2 - -q.v1.2 * q.v2.1 = -(q.v1.1 * q.v2.2 - q.v1.2 * q.v2.1) by ring, e]
    congr 1 <;> ring
  · rw [show -q.v1.1 * q.v2.2 - q.v1.2 * -q.v2.1 = -(q.v1.1 * q.v2.2 - q.v1.2 * q.v2.1) by ring, e]
    congr 1 <;> ring
  · rw [show -q.v1.1 * -q.v2.2 - -q.v1.2 * -q.v2.1 = (q.v1.1 * q.v2.2 - q.v1.2 * q.v2.1) by ring]
    congr 1 <;> ring

/-- A planar element whose test and distances follow the mirror. -/
theorem planar_mirror {nv : Nat} [FloorRing K] (g : Grid K 2 nv) (fl : Fin 2 → Bool) (fluid : Bool)
    (b b' : (K × K) × (K × K)) (inside inside' : K × K → Bool) (hit hit' : K × K → K × K → Hit K (K × K))
    (h1 : ∀ x, inside' (mirP fl (fun j => 2 * g.lo j + g.dx * g.N j) x) = inside x)
    (h2 : ∀ x v, hit' (mirP fl (fun j => 2 * g.lo j + g.dx * g.N j) x) (mirV fl v) = mirHit fl (hit x v)) :
    (planar fluid b inside hit).Mirrored g fl (planar fluid b' inside' hit') where
  isFluid := rfl
  inside := fun x => h1 (x 0, x 1)
  alpha := fun x v => (congrArg Hit.alpha (h2 (x 0, x 1) (v 0, v 1)) :)
  border := fun x v => (congrArg Hit.border (h2 (x 0, x 1) (v 0, v 1)) :)
  normvect := fun x v => by
    have := congrArg Hit.normal (h2 (x 0, x 1) (v 0, v 1))
    funext j
    fin_cases j
    · exact congrArg Prod.fst this
    · exact congrArg Prod.snd this

end

theorem edgeNormal_mirror (fl : Fin 2 → Bool) (v vt : V2 ℝ) (h : v.2 * vt.1 - v.1 * vt.2 ≠ 0) :
    edgeNormal (mirV fl v) (mirV fl vt) = mirV fl (edgeNormal v vt) := by
  have h' : v.1 * vt.2 < v.2 * vt.1 ∨ v.2 * vt.1 < v.1 * vt.2 := by
    rcases lt_trichotomy (v.1 * vt.2) (v.2 * vt.1) with a | a | a
    · exact Or.inl a
    · exact absurd (by rw [a]; ring) h
    · exact Or.inr a
  unfold edgeNormal mirV
  cases h0 : fl 0 <;> cases h1 : fl 1 <;> simp only [if_true, if_false, Bool.false_eq_true, neg_mul, mul_neg, neg_lt_neg_iff, neg_neg, even_two, Even.neg_pow]
  all_goals
    rcases h' with a | a
    · simp only [a, a.not_gt, if_true, if_false]
      congr 1 <;> ring
    · simp only [a, a.not_gt, if_true, if_false]
      congr 1 <;> ring

/-- The ellipse with mirrored centre and axes. -/
def mirEllipse (fl : Fin 2 → Bool) (m : Fin 2 → ℝ) (e : Ellipse) : Ellipse :=
  ⟨mirP fl m e.center, mirV fl e.v1, mirV fl e.v2⟩

theorem ellipse_alpha_mirror (fl : Fin 2 → Bool) (m : Fin 2 → ℝ) (e : Ellipse) (x v : V2 ℝ) :
    (mirEllipse fl m e).inside (mirP fl m x) = e.inside x ∧
    (mirEllipse fl m e).alpha (mirP fl m x) (mirV fl v) (some 1) = e.alpha x v (some 1) := by
  have hs := mirP_sub fl m x e.center
  have hs1 := congrArg Prod.fst hs
  have hs2 := congrArg Prod.snd hs
  simp only at hs1 hs2
  constructor
  · unfold Ellipse.inside Ellipse.form Ellipse.tv mirEllipse
    simp only
    rw [hs1, hs2]
    unfold mirV
    congr 1
    simp only [eq_iff_iff]
    cases h0 : fl 0 <;> cases h1 : fl 1 <;> simp only [if_true, if_false, Bool.false_eq_true] <;>
      constructor <;> intro h <;> linarith
  · unfold Ellipse.alpha mirEllipse
    simp only
    rw [hs1, hs2]
    unfold mirV
    cases h0 : fl 0 <;> cases h1 : fl 1 <;> simp only [if_true, if_false, Bool.false_eq_true] <;>
      (congr 1 <;> ring)

/-- The gradient at the point of the ellipse. -/
def gradE (e : Ellipse) (x v : V2 ℝ) (a : ℝ) : V2 ℝ :=
  let vx2 := e.v1.1 ^ 2 + e.v2.1 ^ 2
  let vy2 := e.v1.2 ^ 2 + e.v2.2 ^ 2
  let vxy := 2 * (e.v1.1 * e.v1.2 + e.v2.1 * e.v2.2)
  let Xe := x.1 - e.center.1 + a * v.1
  let Ye := x.2 - e.center.2 + a * v.2
  (2 * Xe * vy2 - Ye * vxy, 2 * Ye * vx2 - Xe * vxy)

/-- The unit vector of the direction of `n` against `v`. -/
noncomputable def against (n v : V2 ℝ) : V2 ℝ :=
  let nx' := if n.1 * v.1 + n.2 * v.2 > 0 then -n.1 else n.1
  let ny' := if n.1 * v.1 + n.2 * v.2 > 0 then -n.2 else n.2
  let nn := Real.sqrt (nx' ^ 2 + ny' ^ 2)
  (nx' / nn, ny' / nn)

theorem against_mirror (fl : Fin 2 → Bool) (n v : V2 ℝ) : against (mirV fl n) (mirV fl v) = mirV fl (against n v) := by
  unfold against mirV
  cases h0 : fl 0 <;> cases h1 : fl 1 <;> simp only [if_true, if_false, Bool.false_eq_true, neg_mul_neg]
  all_goals
    split_ifs <;> simp only [neg_neg, even_two, Even.neg_pow, neg_div]

theorem ellipse_normal_mirror (fl : Fin 2 → Bool) (m : Fin 2 → ℝ) (e : Ellipse) (x v : V2 ℝ) (a : ℝ) :
    (mirEllipse fl m e).normal (mirP fl m x) (mirV fl v) a = mirV fl (e.normal x v a) := by
  have hg : gradE (mirEllipse fl m e) (mirP fl m x) (mirV fl v) a = mirV fl (gradE e x v a) := by
    have hs := mirP_sub fl m x e.center
    have hs1 := congrArg Prod.fst hs
    have hs2 := congrArg Prod.snd hs
    simp only at hs1 hs2
    unfold gradE mirEllipse
    simp only
    rw [hs1, hs2]
    unfold mirV
    cases h0 : fl 0 <;> cases h1 : fl 1 <;> simp only [if_true, if_false, Bool.false_eq_true] <;>
      (congr 1 <;> ring)
  have h1 : (mirEllipse fl m e).normal (mirP fl m x) (mirV fl v) a =
      against (gradE (mirEllipse fl m e) (mirP fl m x) (mirV fl v) a) (mirV fl v) := rfl
  have h2 : e.normal x v a = against (gradE e x v a) v := rfl
  rw [h1, h2, hg, against_mirror]

theorem ellipseHit_mirror (fl : Fin 2 → Bool) (m : Fin 2 → ℝ) (e : Ellipse) (l : Int) (x v : V2 ℝ) :
    ellipseHit (mirEllipse fl m e) l (mirP fl m x) (mirV fl v) = mirHit fl (ellipseHit e l x v) := by
  unfold ellipseHit
  simp only [(ellipse_alpha_mirror fl m e x v).2, ellipse_normal_mirror]
  split
  · rfl
  · unfold mirHit mirV; simp

theorem ellipseHit_congr (e e' : Ellipse) (hc : e.center = e'.center)
    (h1 : e.v1.1 ^ 2 + e.v2.1 ^ 2 = e'.v1.1 ^ 2 + e'.v2.1 ^ 2) (h2 : e.v1.2 ^ 2 + e.v2.2 ^ 2 = e'.v1.2 ^ 2 + e'.v2.2 ^ 2)
    (h3 : 2 * (e.v1.1 * e.v1.2 + e.v2.1 * e.v2.2) = 2 * (e'.v1.1 * e'.v1.2 + e'.v2.1 * e'.v2.2))
    (h4 : (e.v1.1 * e.v2.2 - e.v1.2 * e.v2.1) ^ 2 = (e'.v1.1 * e'.v2.2 - e'.v1.2 * e'.v2.1) ^ 2) (l : Int) (x v : V2 ℝ) :
    ellipseHit e l x v = ellipseHit e' l x v := by
  unfold ellipseHit Ellipse.alpha Ellipse.normal
  simp only [hc, h1, h2, h3, h4]

theorem circle_mirror (fl : Fin 2 → Bool) (m : Fin 2 → ℝ) (c : Circle) (l : Int) (x v : V2 ℝ) :
    ellipseHit (Circle.ellipse ⟨mirP fl m c.center, c.radius⟩) l x v = ellipseHit (mirEllipse fl m c.ellipse) l x v := by
  apply ellipseHit_congr
  · rfl
  all_goals
    simp only [Circle.ellipse, mirEllipse, mirV]
    split_ifs <;> ring

/-- **C86, shapes of the plane.** The mirror image of a triangle, parallelogram, circle or ellipse of the library is
the shape with mirrored centre (or point) and axes and the same labels: same test for the points, same distances and
labels, mirrored normals. -/
theorem C86_shapes {nv : Nat} (g : Grid ℝ 2 nv) (fl : Fin 2 → Bool) (s : Shape) (fluid : Bool) :
    (s.elem fluid).Mirrored g fl ((s.mirror fl fun j => 2 * g.lo j + g.dx * g.N j).elem fluid) := by
  set m : Fin 2 → ℝ := fun j => 2 * g.lo j + g.dx * g.N j with hm
  have hquad : ∀ (q : Quad ℝ) (edges : List (Edge ℝ)) (x v : V2 ℝ),
      Quad.distance (edgeNormal (mirV fl v)) (0, 0) ⟨mirP fl m q.point, mirV fl q.v1, mirV fl q.v2⟩
        (edges.map (mirEdge fl)) (mirP fl m x) (mirV fl v) (some 1) =
      mirHit fl (q.distance (edgeNormal v) (0, 0) edges x v (some 1)) := by
    intro q edges x v
    unfold Quad.distance
    simp only
    rw [mirP_sub]
    exact lines_mirror fl edgeNormal (edgeNormal_mirror fl) _ v edges (some 1)
  have z : mirV fl ((0 : ℝ), (0 : ℝ)) = (0, 0) := by unfold mirV; simp
  cases s with
  | triangle q l0 l1 l2 =>
    simp only [Shape.elem, Shape.mirror, triangleElem]
    refine planar_mirror g fl fluid _ _ _ _ _ _ (fun x => ?_) fun x v => ?_
    · unfold triangleInside
      rw [bary_mirror]
    · have := hquad q (triangleEdges q l0 l1 l2) x v
      have hE : (triangleEdges q l0 l1 l2).map (mirEdge fl) =
          triangleEdges ⟨mirP fl m q.point, mirV fl q.v1, mirV fl q.v2⟩ l0 l1 l2 := by
        have hs : mirV fl (q.v2.1 - q.v1.1, q.v2.2 - q.v1.2) =
            ((mirV fl q.v2).1 - (mirV fl q.v1).1, (mirV fl q.v2).2 - (mirV fl q.v1).2) := by
          unfold mirV
          simp only
          split <;> split <;> (congr 1 <;> ring)
        simp only [triangleEdges, mirEdge, List.map_cons, List.map_nil, z, hs]
      rw [hE] at this
      exact this
  | parallelogram q l0 l1 l2 l3 =>
    simp only [Shape.elem, Shape.mirror, parallelogramElem]
    refine planar_mirror g fl fluid _ _ _ _ _ _ (fun x => ?_) fun x v => ?_
    · unfold parallelogramInside
      rw [bary_mirror]
    · have := hquad q (parallelogramEdges q l0 l1 l2 l3) x v
      have hE : (parallelogramEdges q l0 l1 l2 l3).map (mirEdge fl) =
          parallelogramEdges ⟨mirP fl m q.point, mirV fl q.v1, mirV fl q.v2⟩ l0 l1 l2 l3 := by
        simp only [parallelogramEdges, mirEdge, List.map_cons, List.map_nil, z]
      rw [hE] at this
      exact this
  | circle c l =>
    simp only [Shape.elem, Shape.mirror, circleElem]
    refine planar_mirror g fl fluid _ _ _ _ _ _ (fun x => ?_) fun x v => ?_
    · have hs := mirP_sub fl m x c.center
      have hs1 := congrArg Prod.fst hs
      have hs2 := congrArg Prod.snd hs
      simp only at hs1 hs2
      unfold Circle.inside
      simp only
      rw [← hm, hs1, hs2]
      unfold mirV
      congr 2
      simp only
      split <;> split <;> ring
    · have h := ellipseHit_mirror fl m c.ellipse l x v
      rw [← hm, ← h]
      exact circle_mirror fl m c l _ _
  | ellipse e l =>
    simp only [Shape.elem, Shape.mirror, ellipseElem]
    exact planar_mirror g fl fluid _ _ _ _ _ _ (fun x => (ellipse_alpha_mirror fl m e x x).1)
      fun x v => ellipseHit_mirror fl m e l x v

end Pylbm.Domain
