import Mathlib.Algebra.Order.Field.Basic
import Mathlib.Data.Fin.VecNotation
import Mathlib.Data.Rat.Floor
import Mathlib.Data.Finset.Max
import Mathlib.Order.WithBot
import Mathlib.Tactic.Linarith
import Mathlib.Tactic.FieldSimp
import Mathlib.Tactic.Ring
import Mathlib.Tactic.LinearCombination
import Mathlib.Tactic.NormNum
import Mathlib.Tactic.FinCases
import Mathlib.Data.Fintype.Basic
/-!
# Elements read from STL files: `elements/stl_element.py`, properties C71 and C72

The mesh is a list of triangles with their normals; the reading of the file by `numpy-stl` is not modelled.
Arithmetic is exact; `np.inf` is `⊤` of `WithTop K`.
-/

set_option linter.unusedSectionVars false

namespace Pylbm.Stl

variable {K : Type} [Field K] [LinearOrder K] [IsStrictOrderedRing K]

/-- A point of the space. -/
abbrev Pt (K : Type) := Fin 3 → K

/-- A row of `mesh.points`: `tri[0:3]`, `tri[3:6]`, `tri[6:9]`. -/
structure Tri (K : Type) where
  a : Pt K
  b : Pt K
  c : Pt K

/-! ## Specification -/

/-- The point `p` is in the triangle. -/
def InTri (t : Tri K) (p : Pt K) : Prop :=
  ∃ α β γ : K, 0 ≤ α ∧ 0 ≤ β ∧ 0 ≤ γ ∧ α + β + γ = 1 ∧ ∀ i, p i = α * t.a i + β * t.b i + γ * t.c i

/-- The point `p` is in the triangle, not on its sides. -/
def InsideTri (t : Tri K) (p : Pt K) : Prop :=
  ∃ α β γ : K, 0 < α ∧ 0 < β ∧ 0 < γ ∧ α + β + γ = 1 ∧ ∀ i, p i = α * t.a i + β * t.b i + γ * t.c i

/-- The point reached from `x` after the time `s` with the velocity `v`. -/
def along (x v : Pt K) (s : K) : Pt K := fun i => x i + s * v i

/-- Determinant of three columns. -/
def det3 (u v w : Pt K) : K :=
  u 0 * (v 1 * w 2 - v 2 * w 1) - v 0 * (u 1 * w 2 - u 2 * w 1) + w 0 * (u 1 * v 2 - u 2 * v 1)

/-- Scalar product. -/
def dot (u v : Pt K) : K := u 0 * v 0 + u 1 * v 1 + u 2 * v 2

/-! ## Model -/

/-- The determinant of the matrix `A`, stl_element.py 42-48: columns `tri[6:9] - tri[0:3]`,
`tri[3:6] - tri[0:3]`, `-v`. -/
def detA (v : Pt K) (t : Tri K) : K :=
  det3 (fun i => t.c i - t.a i) (fun i => t.b i - t.a i) (fun i => -v i)

/-- `intersection(grid, v, tri)` at one point, stl_element.py 24-80: `none` for a singular matrix, otherwise
the time of the intersection or `⊤`.  `invA.dot(P)` is written with the formulas of Cramer. -/
def intersection (x v : Pt K) (t : Tri K) : Option (WithTop K) :=
  let d := detA v t
  if d = 0 then none
  else
    let P : Pt K := fun i => x i - t.a i
    let u : Pt K := fun i => t.c i - t.a i
    let w : Pt K := fun i => t.b i - t.a i
    let nv : Pt K := fun i => -v i
    let s0 := det3 P w nv / d
    let s1 := det3 u P nv / d
    let s2 := det3 u w P / d
    if (0 ≤ s0 ∧ 0 ≤ s1) ∧ (s0 + s1 ≤ 1 ∧ 0 ≤ s2) then some (s2 : WithTop K) else some ⊤

/-- The rows of `mesh.points` with `mesh.normals`. -/
abbrev Mesh (K : Type) := List (Tri K × Pt K)

/-- One pass of the loop of `point_inside`, stl_element.py 142-151, at one point: `(smin, in_or_out)`. -/
def insideStep (x v : Pt K) (st : WithTop K × Bool) (t : Tri K × Pt K) : WithTop K × Bool :=
  match intersection x v t.1 with
  | none => st
  | some s => if s < st.1 then (s, decide (0 ≤ dot v t.2)) else st

/-- The unit vector of a direction, stl_element.py 140-141. -/
def unit (d : Fin 3) : Pt K := fun i => if i = d then 1 else 0

/-- `point_inside`, stl_element.py 129-152, at one point. -/
def pointInside (m : Mesh K) (x : Pt K) : Bool :=
  (List.finRange 3).foldl (fun io d => (m.foldl (insideStep x (unit d)) (⊤, io)).2) false

/-- One pass of the loop of `distance`, stl_element.py 163-176, at one point: `(alpha, border, normal)`. -/
def distanceStep (label : Int) (dmax : Option K) (x v : Pt K) (st : WithTop K × Int × Pt K)
    (t : Tri K × Pt K) : WithTop K × Int × Pt K :=
  match intersection x v t.1 with
  | none => st
  | some s =>
    if s < st.1 ∧ (∀ d ∈ dmax, s ≤ (d : WithTop K)) then (s, label, t.2) else st

/-- `distance(grid, v, dmax, normal=True)`, stl_element.py 154-182, at one point. -/
def distance (m : Mesh K) (label : Int) (dmax : Option K) (x v : Pt K) : WithTop K × Int × Pt K :=
  m.foldl (distanceStep label dmax x v) (⊤, -1, fun _ => 0)

/-! ## The intersection -/

theorem cramer (x v : Pt K) (t : Tri K) (α β s : K)
    (h : ∀ i, x i + s * v i = α * t.c i + β * t.b i + (1 - α - β) * t.a i) :
    det3 (fun i => x i - t.a i) (fun i => t.b i - t.a i) (fun i => -v i) = α * detA v t ∧
    det3 (fun i => t.c i - t.a i) (fun i => x i - t.a i) (fun i => -v i) = β * detA v t ∧
    det3 (fun i => t.c i - t.a i) (fun i => t.b i - t.a i) (fun i => x i - t.a i) = s * detA v t := by
  have e : ∀ i, x i - t.a i = α * (t.c i - t.a i) + β * (t.b i - t.a i) + s * -v i := fun i => by
    linear_combination h i
  unfold detA det3
  simp only [e]
  refine ⟨by ring, by ring, by ring⟩

theorem cramer_solves (x v : Pt K) (t : Tri K) (hd : detA v t ≠ 0) (i : Fin 3) :
    x i - t.a i =
      det3 (fun i => x i - t.a i) (fun i => t.b i - t.a i) (fun i => -v i) / detA v t * (t.c i - t.a i) +
      det3 (fun i => t.c i - t.a i) (fun i => x i - t.a i) (fun i => -v i) / detA v t * (t.b i - t.a i) +
      det3 (fun i => t.c i - t.a i) (fun i => t.b i - t.a i) (fun i => x i - t.a i) / detA v t * -v i := by
  field_simp
  unfold detA det3
  fin_cases i <;> simp <;> ring

/-- A triangle which is not parallel to `v`: the ray from `x` meets it at the time `s ≥ 0` exactly when
`intersection` gives `s`. -/
theorem C71_intersection (x v : Pt K) (t : Tri K) :
    (intersection x v t = none ↔ detA v t = 0) ∧
    (detA v t ≠ 0 → ∀ s : K, intersection x v t = some (s : WithTop K) ↔ 0 ≤ s ∧ InTri t (along x v s)) := by
  constructor
  · unfold intersection
    simp only
    split_ifs <;> simp_all
  · intro hd s
    have hsol := cramer_solves x v t hd
    set d := detA v t with hdd
    unfold intersection
    simp only [← hdd, if_neg hd]
    constructor
    · intro h
      split_ifs at h with hc
      · simp only [Option.some.injEq, WithTop.coe_inj] at h
        obtain ⟨⟨h0, h1⟩, h2, h3⟩ := hc
        rw [h] at h3 hsol
        refine ⟨h3, 1 - det3 (fun i => x i - t.a i) (fun i => t.b i - t.a i) (fun i => -v i) / d -
            det3 (fun i => t.c i - t.a i) (fun i => x i - t.a i) (fun i => -v i) / d, _, _, ?_, h1, h0, ?_,
            fun i => ?_⟩
        · linarith
        · ring
        · have := hsol i
          unfold along
          linear_combination this
      · simp at h
    · rintro ⟨hs, α, β, γ, h1, h2, h3, h4, h5⟩
      obtain ⟨c1, c2, c3⟩ := cramer x v t γ β s (fun i => by
        have := h5 i
        unfold along at this
        rw [this, ← h4]; ring)
      rw [c1, c2, c3, ← hdd, mul_div_cancel_right₀ _ hd, mul_div_cancel_right₀ _ hd,
        mul_div_cancel_right₀ _ hd, if_pos ⟨⟨h3, h2⟩, by linarith, hs⟩]

/-! ## The loops over the triangles -/

/-- The ray from `x` with the velocity `v` meets a triangle of the mesh at the time `s`. -/
def Hits (m : Mesh K) (x v : Pt K) (t : Tri K × Pt K) (s : K) : Prop :=
  t ∈ m ∧ detA v t.1 ≠ 0 ∧ 0 ≤ s ∧ InTri t.1 (along x v s)

theorem inter_none {x v : Pt K} {t : Tri K} (h : intersection x v t = none) : detA v t = 0 :=
  (C71_intersection x v t).1.1 h

theorem inter_ne {x v : Pt K} {t : Tri K} {s : WithTop K} (h : intersection x v t = some s) : detA v t ≠ 0 := by
  intro h0
  rw [(C71_intersection x v t).1.2 h0] at h
  simp at h

/-- The invariant of both loops: `seen` is the list of triangles already visited. -/
def Best (dmax : Option K) (seen : Mesh K) (x v : Pt K) (s : WithTop K) (who : Option (Tri K × Pt K)) : Prop :=
  (∀ t s', Hits seen x v t s' → (∀ d ∈ dmax, s' ≤ d) → s ≤ (s' : WithTop K)) ∧
  match who with
  | none => s = ⊤
  | some t => ∃ s0 : K, s = s0 ∧ Hits seen x v t s0 ∧ ∀ d ∈ dmax, s0 ≤ d

theorem Best.step {dmax : Option K} {seen : Mesh K} {x v : Pt K} {s : WithTop K} {who : Option (Tri K × Pt K)}
    (h : Best dmax seen x v s who) (t : Tri K × Pt K) :
    (intersection x v t.1 = none → Best dmax (seen ++ [t]) x v s who) ∧
    (∀ r, intersection x v t.1 = some r → (r < s ∧ (∀ d ∈ dmax, r ≤ (d : WithTop K))) →
      Best dmax (seen ++ [t]) x v r (some t)) ∧
    (∀ r, intersection x v t.1 = some r → ¬ (r < s ∧ (∀ d ∈ dmax, r ≤ (d : WithTop K))) →
      Best dmax (seen ++ [t]) x v s who) := by
  have grow : ∀ {u s'}, Hits seen x v u s' → Hits (seen ++ [t]) x v u s' :=
    fun h => ⟨List.mem_append_left _ h.1, h.2⟩
  have cases' : ∀ {u s'}, Hits (seen ++ [t]) x v u s' → Hits seen x v u s' ∨ u = t := by
    rintro u s' ⟨h1, h2⟩
    rcases List.mem_append.1 h1 with h1 | h1
    · exact Or.inl ⟨h1, h2⟩
    · exact Or.inr (by simpa using h1)
  have keep : (∀ s', Hits (seen ++ [t]) x v t s' → (∀ d ∈ dmax, s' ≤ d) → s ≤ (s' : WithTop K)) →
      Best dmax (seen ++ [t]) x v s who := by
    intro hn
    refine ⟨fun u s' hu hd => ?_, ?_⟩
    · rcases cases' hu with h' | rfl
      · exact h.1 _ _ h' hd
      · exact hn _ hu hd
    · rcases who with _ | u
      · exact h.2
      · obtain ⟨s0, h1, h2, h3⟩ := h.2
        exact ⟨s0, h1, grow h2, h3⟩
  refine ⟨fun hi => keep fun s' hu _ => absurd (inter_none hi) hu.2.1, fun r hi hr => ?_, fun r hi hr => ?_⟩
  · obtain ⟨r0, rfl⟩ : ∃ r0 : K, r = r0 := by
      rcases r with _ | r0
      · exact absurd hr.1 (by simp [WithTop.none_eq_top])
      · exact ⟨r0, rfl⟩
    have hit := ((C71_intersection x v t.1).2 (inter_ne hi) r0).1 hi
    refine ⟨fun u s' hu hd => ?_, r0, rfl, ⟨by simp, inter_ne hi, hit⟩, fun d hd => WithTop.coe_le_coe.1 (hr.2 d hd)⟩
    rcases cases' hu with h' | rfl
    · exact le_trans hr.1.le (h.1 _ _ h' hd)
    · have e := ((C71_intersection x v u.1).2 (inter_ne hi) s').2 hu.2.2
      rw [hi] at e
      simp only [Option.some.injEq] at e
      exact e.le
  · refine keep fun s' hu hd => ?_
    have e := ((C71_intersection x v t.1).2 (inter_ne hi) s').2 hu.2.2
    rw [hi] at e
    simp only [Option.some.injEq] at e
    subst e
    by_contra hlt
    exact hr ⟨not_le.1 hlt, fun d hd' => WithTop.coe_le_coe.2 (hd d hd')⟩

theorem distance_inv (label : Int) (dmax : Option K) (x v : Pt K) (m seen : Mesh K) (s : WithTop K)
    (who : Option (Tri K × Pt K)) (b : Int) (n : Pt K) (h : Best dmax seen x v s who)
    (hb : b = if who.isSome then label else -1) (hn : n = (who.map Prod.snd).getD (fun _ => 0)) :
    ∃ s' who', m.foldl (distanceStep label dmax x v) (s, b, n) =
        (s', if who'.isSome then label else -1, (who'.map Prod.snd).getD (fun _ => 0)) ∧
      Best dmax (seen ++ m) x v s' who' := by
  induction m generalizing seen s who b n with
  | nil => exact ⟨s, who, by simp [hb, hn], by simpa using h⟩
  | cons t m ih =>
    obtain ⟨h1, h2, h3⟩ := h.step t
    simp only [List.foldl_cons]
    have key : ∃ s1 who1, distanceStep label dmax x v (s, b, n) t =
        (s1, if who1.isSome then label else -1, (who1.map Prod.snd).getD (fun _ => 0)) ∧
        Best dmax (seen ++ [t]) x v s1 who1 := by
      unfold distanceStep
      rcases hi : intersection x v t.1 with _ | r
      · exact ⟨s, who, by simp [hb, hn], h1 hi⟩
      · simp only
        split_ifs with hc
        · exact ⟨r, some t, by simp, h2 r hi hc⟩
        · exact ⟨s, who, by simp [hb, hn], h3 r hi hc⟩
    obtain ⟨s1, who1, e, hB⟩ := key
    rw [e]
    obtain ⟨s', who', e', hB'⟩ := ih (seen ++ [t]) s1 who1 _ _ hB rfl rfl
    exact ⟨s', who', e', by simpa using hB'⟩

/-- **C71.** `distance` gives the first time in `[0, dmax]` at which the link meets a triangle which is not
parallel to it, with the label of the element and the normal of a triangle met at that time; when no such
triangle is met, the distance is infinite and the label is `-1`. -/
theorem C71_first_hit (m : Mesh K) (label : Int) (dmax : Option K) (x v : Pt K) :
    let out := distance m label dmax x v
    (∀ s : K, out.1 = (s : WithTop K) ↔
      ((∃ t, Hits m x v t s) ∧ ∀ d ∈ dmax, s ≤ d) ∧ ∀ t s', Hits m x v t s' → s ≤ s') ∧
    (∀ s : K, out.1 = (s : WithTop K) → out.2.1 = label ∧ ∃ t, Hits m x v t s ∧ out.2.2 = t.2) ∧
    (out.1 = ⊤ → out.2 = (-1, fun _ => 0) ∧ ∀ t s, Hits m x v t s → ∃ d ∈ dmax, d < s) := by
  intro out
  have h0 : Best dmax ([] : Mesh K) x v ⊤ none := ⟨fun t s' h => by simp [Hits] at h, rfl⟩
  obtain ⟨s', who, e, hB⟩ := distance_inv label dmax x v m [] ⊤ none (-1) (fun _ => 0) h0 (by simp) (by simp)
  have eo : out = (s', if who.isSome then label else -1, (who.map Prod.snd).getD (fun _ => 0)) := e
  rw [eo]
  simp only [List.nil_append] at hB
  obtain ⟨hmin, hw⟩ := hB
  rcases who with _ | t
  · simp only at hw
    subst hw
    have none_hit : ∀ t s, Hits m x v t s → ∃ d ∈ dmax, d < s := by
      intro t s ht
      by_contra hc
      push Not at hc
      have := hmin t s ht hc
      simp at this
    refine ⟨fun s => ⟨fun h => by simp at h, ?_⟩, fun s h => by simp at h, fun _ => ⟨by simp, none_hit⟩⟩
    rintro ⟨⟨⟨t, ht⟩, hd⟩, _⟩
    obtain ⟨d, hd1, hd2⟩ := none_hit t s ht
    exact absurd (hd d hd1) (not_le.2 hd2)
  · obtain ⟨s0, rfl, ht, hd⟩ := hw
    have hmin' : ∀ u s', Hits m x v u s' → s0 ≤ s' := by
      intro u s' hu
      by_contra hc
      push Not at hc
      have := hmin u s' hu (fun d hd' => le_trans hc.le (hd d hd'))
      exact absurd (WithTop.coe_le_coe.1 this) (not_le.2 hc)
    refine ⟨fun s => ⟨fun h => ?_, ?_⟩, fun s h => ?_, fun h => by simp at h⟩
    · obtain rfl := WithTop.coe_inj.1 h
      exact ⟨⟨⟨t, ht⟩, hd⟩, hmin'⟩
    · rintro ⟨⟨⟨u, hu⟩, _⟩, hm⟩
      exact WithTop.coe_inj.2 (le_antisymm (hmin' u s hu) (hm t s0 ht))
    · obtain rfl := WithTop.coe_inj.1 h
      exact ⟨by simp, t, ht, by simp⟩

/-! ## Regions bounded by a mesh -/

/-- The mesh is the boundary of the region `R`, with normals pointing to the outside. -/
structure Bounds (R : Pt K → Prop) (m : Mesh K) : Prop where
  /-- a segment which meets no triangle stays on one side -/
  apart : ∀ x v : Pt K, (∀ t ∈ m, ∀ s : K, 0 ≤ s → s ≤ 1 → ¬ InTri t.1 (along x v s)) → (R x ↔ R (along x v 1))
  /-- just before a point inside a triangle, one is in the region exactly when one moves along the normal -/
  side : ∀ t ∈ m, ∀ p v : Pt K, InsideTri t.1 p → detA v t.1 ≠ 0 →
    dot v t.2 ≠ 0 ∧ ∃ ε > 0, ∀ δ : K, 0 < δ → δ ≤ ε → (R (along p v (-δ)) ↔ 0 < dot v t.2)
  /-- no half line along an axis stays in the region -/
  bounded : ∀ (x : Pt K) (d : Fin 3), ∃ s0 : K, 0 ≤ s0 ∧ ¬ R (along x (unit d) s0)

theorem along_along (x v : Pt K) (s r : K) : along x (fun i => s * v i) r = along x v (r * s) := by
  funext i
  simp only [along]
  ring

theorem along_zero (x v : Pt K) : along x v 0 = x := by
  funext i
  simp [along]

/-- Before the first triangle met, the points are on the side of the start. -/
theorem Bounds.before {R : Pt K → Prop} {m : Mesh K} (hB : Bounds R m) (x v : Pt K) (r : K) (hr : 0 ≤ r)
    (h : ∀ t ∈ m, ∀ s : K, 0 ≤ s → s ≤ r → ¬ InTri t.1 (along x v s)) : R x ↔ R (along x v r) := by
  have := hB.apart x (fun i => r * v i) (fun t ht s h0 h1 => by
    rw [along_along]
    exact h t ht _ (mul_nonneg h0 hr) (by nlinarith))
  rwa [along_along, one_mul] at this

/-- **C71.** A link which goes from a point outside the region to a point of the region, and which meets no
triangle parallel to it: `distance` with `dmax = 1` gives a distance in `[0, 1]` with the label of the element,
and the link is outside the region before that distance. -/
theorem C71_seen (R : Pt K → Prop) (m : Mesh K) (hB : Bounds R m) (label : Int) (x v : Pt K)
    (hx : ¬ R x) (hy : R (along x v 1))
    (hpar : ∀ t ∈ m, detA v t.1 = 0 → ∀ s : K, 0 ≤ s → s ≤ 1 → ¬ InTri t.1 (along x v s)) :
    ∃ s : K, (distance m label (some 1) x v).1 = (s : WithTop K) ∧ 0 ≤ s ∧ s ≤ 1 ∧
      (distance m label (some 1) x v).2.1 = label ∧ ∀ r, 0 ≤ r → r < s → ¬ R (along x v r) := by
  obtain ⟨h1, h2, h3⟩ := C71_first_hit m label (some 1) x v
  rcases hd : (distance m label (some 1) x v).1 with _ | s
  · exfalso
    obtain ⟨_, hn⟩ := h3 hd
    refine hx ((hB.apart x v fun t ht s h0 h1 hin => ?_).2 hy)
    by_cases hdet : detA v t.1 = 0
    · exact hpar t ht hdet s h0 h1 hin
    · obtain ⟨d, hd, hlt⟩ := hn t s ⟨ht, hdet, h0, hin⟩
      simp only [Option.mem_def, Option.some.injEq] at hd
      subst hd
      exact absurd h1 (not_le.2 hlt)
  · have hs := (h1 s).1 hd
    obtain ⟨⟨⟨t, ht⟩, hle⟩, hmin⟩ := hs
    have hle1 : s ≤ 1 := hle 1 rfl
    refine ⟨s, rfl, ht.2.2.1, hle1, (h2 s hd).1, fun r hr0 hrs hR => hx ?_⟩
    refine (hB.before x v r hr0 fun u hu s' h0 h1 hin => ?_).2 hR
    by_cases hdet : detA v u.1 = 0
    · exact hpar u hu hdet s' h0 (by linarith) hin
    · exact absurd (hmin u s' ⟨hu, hdet, h0, hin⟩) (not_le.2 (by linarith))

/-! ## `point_inside` -/

theorem inside_inv (x v : Pt K) (m seen : Mesh K) (s : WithTop K) (who : Option (Tri K × Pt K)) (io b : Bool)
    (h : Best none seen x v s who) (hb : b = (who.map fun t => decide (0 ≤ dot v t.2)).getD io) :
    ∃ s' who', m.foldl (insideStep x v) (s, b) = (s', (who'.map fun t => decide (0 ≤ dot v t.2)).getD io) ∧
      Best none (seen ++ m) x v s' who' := by
  induction m generalizing seen s who b with
  | nil => exact ⟨s, who, by simp [hb], by simpa using h⟩
  | cons t m ih =>
    obtain ⟨h1, h2, h3⟩ := h.step t
    simp only [List.foldl_cons]
    have key : ∃ s1 who1, insideStep x v (s, b) t = (s1, (who1.map fun t => decide (0 ≤ dot v t.2)).getD io) ∧
        Best none (seen ++ [t]) x v s1 who1 := by
      unfold insideStep
      rcases hi : intersection x v t.1 with _ | r
      · exact ⟨s, who, by simp [hb], h1 hi⟩
      · simp only
        split_ifs with hc
        · exact ⟨r, some t, by simp, h2 r hi ⟨hc, by simp⟩⟩
        · exact ⟨s, who, by simp [hb], h3 r hi (fun h => hc h.1)⟩
    obtain ⟨s1, who1, e, hB⟩ := key
    rw [e]
    obtain ⟨s', who', e', hB'⟩ := ih (seen ++ [t]) s1 who1 _ hB rfl
    exact ⟨s', who', e', by simpa using hB'⟩

/-- The half line from `x` along the axis `d` meets the mesh only inside triangles which are not parallel to it,
and not at `x`. -/
def Clear (m : Mesh K) (x : Pt K) (d : Fin 3) : Prop :=
  ∀ t ∈ m, ∀ s : K, 0 ≤ s → InTri t.1 (along x (unit d) s) →
    0 < s ∧ InsideTri t.1 (along x (unit d) s) ∧ detA (unit d) t.1 ≠ 0

/-- The half line from `x` along the axis `d` meets a triangle of the mesh. -/
def Meets (m : Mesh K) (x : Pt K) (d : Fin 3) : Prop :=
  ∃ t ∈ m, ∃ s : K, 0 ≤ s ∧ InTri t.1 (along x (unit d) s)

theorem not_meets_out {R : Pt K → Prop} {m : Mesh K} (hB : Bounds R m) (x : Pt K) (d : Fin 3)
    (h : ¬ Meets m x d) : ¬ R x := by
  obtain ⟨s0, h0, hout⟩ := hB.bounded x d
  exact fun hx => hout ((hB.before x (unit d) s0 h0 fun t ht s hs _ hin => h ⟨t, ht, s, hs, hin⟩).1 hx)

/-- The loop over the triangles in one direction. -/
theorem direction {R : Pt K → Prop} {m : Mesh K} (hB : Bounds R m) (x : Pt K) (d : Fin 3) (io : Bool) :
    (¬ Meets m x d → (m.foldl (insideStep x (unit d)) (⊤, io)).2 = io) ∧
    (Clear m x d → Meets m x d → ((m.foldl (insideStep x (unit d)) (⊤, io)).2 = true ↔ R x)) := by
  have h0 : Best none ([] : Mesh K) x (unit d) ⊤ none := ⟨fun t s' h => by simp [Hits] at h, rfl⟩
  obtain ⟨s', who, e, hmin, hw⟩ := inside_inv x (unit d) m [] ⊤ none io io h0 (by simp)
  rw [e]
  simp only [List.nil_append] at hmin hw
  constructor
  · intro hn
    rcases who with _ | t
    · simp
    · obtain ⟨s0, -, ht, -⟩ := hw
      exact absurd ⟨t, ht.1, s0, ht.2.2⟩ hn
  · intro hc hm
    rcases who with _ | t
    · obtain ⟨t, ht, s, hs, hin⟩ := hm
      simp only at hw
      have := hmin t s ⟨ht, (hc t ht s hs hin).2.2, hs, hin⟩ (by simp)
      rw [hw] at this
      simp at this
    · obtain ⟨s0, rfl, ht, -⟩ := hw
      obtain ⟨hpos, hin, hdet⟩ := hc t ht.1 s0 ht.2.2.1 ht.2.2.2
      obtain ⟨hne, ε, hε, hside⟩ := hB.side t ht.1 _ (unit d) hin hdet
      simp only [Option.map_some, Option.getD_some, decide_eq_true_eq]
      set δ := min ε s0 with hδ
      have hδ0 : 0 < δ := lt_min hε hpos
      have h1 := hside δ hδ0 (min_le_left _ _)
      have h2 : along (along x (unit d) s0) (unit d) (-δ) = along x (unit d) (s0 - δ) := by
        funext i
        simp only [along]
        ring
      rw [h2] at h1
      have hle : δ ≤ s0 := min_le_right _ _
      have h3 := hB.before x (unit d) (s0 - δ) (by linarith) (fun u hu s hs hsr hinu => by
        have := hmin u s ⟨hu, (hc u hu s hs hinu).2.2, hs, hinu⟩ (by simp)
        have := WithTop.coe_le_coe.1 this
        linarith)
      rw [h3, h1]
      exact ⟨fun h => lt_of_le_of_ne h (Ne.symm hne), le_of_lt⟩

/-- **C72.** A mesh which bounds a region, with normals to the outside; `d` is the last axis along which the half
line from `x` meets the mesh, and it meets it only inside triangles not parallel to it (no edge, no vertex, not
at `x`).  Then `point_inside` says whether `x` is in the region; it also does when no half line meets the mesh.
Missing: half lines through edges and vertices, see `C72_negation`. -/
theorem C72_point_inside_partial (R : Pt K → Prop) (m : Mesh K) (hB : Bounds R m) (x : Pt K)
    (h : (∀ d, ¬ Meets m x d) ∨ ∃ d, Meets m x d ∧ Clear m x d ∧ ∀ d', d < d' → ¬ Meets m x d') :
    pointInside m x = true ↔ R x := by
  have e : pointInside m x = (m.foldl (insideStep x (unit 2)) (⊤, (m.foldl (insideStep x (unit 1))
      (⊤, (m.foldl (insideStep x (unit 0)) (⊤, false)).2)).2)).2 := by
    simp [pointInside, List.finRange]
  rw [e]
  rcases h with h | ⟨d, hm, hc, hlast⟩
  · rw [(direction hB x 2 _).1 (h 2), (direction hB x 1 _).1 (h 1), (direction hB x 0 _).1 (h 0)]
    simpa using not_meets_out hB x 0 (h 0)
  · have hd : d = 0 ∨ d = 1 ∨ d = 2 := by omega
    rcases hd with rfl | rfl | rfl
    · rw [(direction hB x 2 _).1 (hlast 2 (by decide)), (direction hB x 1 _).1 (hlast 1 (by decide))]
      exact (direction hB x 0 _).2 hc hm
    · rw [(direction hB x 2 _).1 (hlast 2 (by decide))]
      exact (direction hB x 1 _).2 hc hm
    · exact (direction hB x 2 _).2 hc hm

/-! ## Convex regions -/

/-- The region on the inner side of every face. -/
def inner (m : Mesh K) (p : Pt K) : Prop := ∀ t ∈ m, dot t.2 p ≤ dot t.2 t.1.a

theorem dot_along (n x v : Pt K) (s : K) : dot n (along x v s) = dot n x + s * dot n v := by
  simp only [dot, along]
  ring

/-- The last point of a convex region on a segment. -/
theorem last_inside (m : Mesh K) (x v : Pt K) (hx : inner m x) :
    inner m (along x v 1) ∨ ∃ s : K, 0 ≤ s ∧ s ≤ 1 ∧ inner m (along x v s) ∧
      ∃ t ∈ m, dot t.2 (along x v s) = dot t.2 t.1.a := by
  induction m with
  | nil => exact Or.inl fun t ht => by simp at ht
  | cons f m ih =>
    have hxm : inner m x := fun t ht => hx t (List.mem_cons_of_mem _ ht)
    have hf := hx f (List.mem_cons_self ..)
    by_cases h1 : dot f.2 (along x v 1) ≤ dot f.2 f.1.a
    · rcases ih hxm with h | ⟨s, hs0, hs1, hin, t, ht, he⟩
      · exact Or.inl fun t ht => by
          rcases List.mem_cons.1 ht with rfl | ht
          · exact h1
          · exact h t ht
      · refine Or.inr ⟨s, hs0, hs1, fun u hu => ?_, t, List.mem_cons_of_mem _ ht, he⟩
        rcases List.mem_cons.1 hu with rfl | hu
        · rw [dot_along] at h1 ⊢
          nlinarith
        · exact hin u hu
    · push Not at h1
      rw [dot_along, one_mul] at h1
      have hpos : 0 < dot f.2 v := by linarith
      set r := (dot f.2 f.1.a - dot f.2 x) / dot f.2 v with hr
      have hrv : r * dot f.2 v = dot f.2 f.1.a - dot f.2 x := div_mul_cancel₀ _ hpos.ne'
      have hr0 : 0 ≤ r := div_nonneg (by linarith) hpos.le
      have hr1 : r ≤ 1 := (div_le_one hpos).2 (by linarith)
      have hfr : dot f.2 (along x v r) = dot f.2 f.1.a := by rw [dot_along]; linarith
      have conv : ∀ q s : K, 0 ≤ s → s ≤ q → inner m (along x v q) → inner m (along x v s) := by
        intro q s h0 hq hin t ht
        have ha := hin t ht
        have hb := hxm t ht
        rw [dot_along] at ha ⊢
        rcases le_or_gt 0 (dot t.2 v) with hv | hv <;> nlinarith
      rcases ih hxm with h | ⟨s, hs0, hs1, hin, t, ht, he⟩
      · refine Or.inr ⟨r, hr0, hr1, fun u hu => ?_, f, List.mem_cons_self .., hfr⟩
        rcases List.mem_cons.1 hu with rfl | hu
        · exact hfr.le
        · exact conv 1 r hr0 hr1 h u hu
      · rcases le_total r s with hrs | hsr
        · refine Or.inr ⟨r, hr0, hr1, fun u hu => ?_, f, List.mem_cons_self .., hfr⟩
          rcases List.mem_cons.1 hu with rfl | hu
          · exact hfr.le
          · exact conv s r hr0 hrs hin u hu
        · refine Or.inr ⟨s, hs0, hs1, fun u hu => ?_, t, List.mem_cons_of_mem _ ht, he⟩
          rcases List.mem_cons.1 hu with rfl | hu
          · rw [dot_along]; nlinarith
          · exact hin u hu

/-- The distance to the planes of finitely many faces. -/
theorem margin (m : Mesh K) (p v : Pt K) (h : ∀ t ∈ m, dot t.2 p < dot t.2 t.1.a) :
    ∃ ε : K, 0 < ε ∧ ∀ δ, 0 < δ → δ ≤ ε → ∀ t ∈ m, dot t.2 (along p v (-δ)) ≤ dot t.2 t.1.a := by
  induction m with
  | nil => exact ⟨1, one_pos, fun _ _ _ t ht => by simp at ht⟩
  | cons f m ih =>
    obtain ⟨ε, hε, he⟩ := ih fun t ht => h t (List.mem_cons_of_mem _ ht)
    have hf := h f (List.mem_cons_self ..)
    have hq : 0 < 1 + |dot f.2 v| := by positivity
    refine ⟨min ε ((dot f.2 f.1.a - dot f.2 p) / (1 + |dot f.2 v|)),
      lt_min hε (div_pos (by linarith) hq), fun δ h0 h1 t ht => ?_⟩
    rcases List.mem_cons.1 ht with rfl | ht
    · have h2 := (le_div_iff₀ hq).1 (le_trans h1 (min_le_right _ _))
      have h3 := neg_abs_le (dot t.2 v)
      rw [dot_along]
      nlinarith
    · exact he δ h0 (le_trans h1 (min_le_left _ _)) t ht

/-- A convex polyhedron is bounded by its faces. -/
theorem Bounds.of_convex (m : Mesh K)
    (flat : ∀ t ∈ m, ∀ p, InTri t.1 p → dot t.2 p = dot t.2 t.1.a ∧ inner m p)
    (face : ∀ p, inner m p → ∀ t ∈ m, dot t.2 p = dot t.2 t.1.a → InTri t.1 p)
    (normal : ∀ t ∈ m, ∀ v : Pt K, detA v t.1 ≠ 0 → dot v t.2 ≠ 0)
    (strict : ∀ t ∈ m, ∀ p, InsideTri t.1 p → ∀ u ∈ m, u ≠ t → dot u.2 p < dot u.2 u.1.a)
    (bounded : ∀ (x : Pt K) (d : Fin 3), ∃ s0 : K, 0 ≤ s0 ∧ ¬ inner m (along x (unit d) s0)) :
    Bounds (inner m) m := by
  have one : ∀ x v : Pt K, (∀ t ∈ m, ∀ s : K, 0 ≤ s → s ≤ 1 → ¬ InTri t.1 (along x v s)) → inner m x →
      inner m (along x v 1) := by
    intro x v h hx
    rcases last_inside m x v hx with h1 | ⟨s, h0, h1, hin, t, ht, he⟩
    · exact h1
    · exact absurd (face _ hin t ht he) (h t ht s h0 h1)
  have comm : ∀ u w : Pt K, dot u w = dot w u := fun u w => by simp only [dot]; ring
  refine ⟨fun x v h => ⟨one x v h, fun hy => ?_⟩, fun t ht p v hp hdet => ?_, bounded⟩
  · have e : ∀ s, along (along x v 1) (fun i => -v i) s = along x v (1 - s) := fun s => by
      funext i
      simp only [along]
      ring
    have := one (along x v 1) (fun i => -v i) (fun t ht s h0 h1 => by
      rw [e]
      exact h t ht _ (by linarith) (by linarith)) hy
    rwa [e, sub_self, along_zero] at this
  · have hpin : InTri t.1 p := by
      obtain ⟨α, β, γ, h1, h2, h3, h4⟩ := hp
      exact ⟨α, β, γ, h1.le, h2.le, h3.le, h4⟩
    have hflat := (flat t ht p hpin).1
    have hne := normal t ht v hdet
    classical
    obtain ⟨ε, hε, he⟩ := margin (m.filter fun u => u ≠ t) p v (fun u hu => by
      simp only [List.mem_filter, decide_eq_true_eq] at hu
      exact strict t ht p hp u hu.1 hu.2)
    refine ⟨hne, ε, hε, fun δ h0 h1 => ⟨fun hin => ?_, fun hv u hu => ?_⟩⟩
    · have := hin t ht
      rw [dot_along, hflat, comm t.2 v] at this
      refine lt_of_le_of_ne ?_ (Ne.symm hne)
      by_contra hc
      push Not at hc
      nlinarith
    · by_cases hut : u = t
      · subst hut
        rw [dot_along, hflat, comm u.2 v]
        nlinarith
      · exact he δ h0 h1 u (by simp [hu, hut])

/-! ## The tetrahedron -/

/-- The faces of the tetrahedron with the vertices `0`, `e_x`, `e_y`, `e_z`; the normals are those of
`numpy-stl`, `(b - a) × (c - a)`. -/
def tetra : Mesh ℚ :=
  [(⟨![1, 0, 0], ![0, 1, 0], ![0, 0, 1]⟩, ![1, 1, 1]),
   (⟨![0, 0, 0], ![0, 1, 0], ![1, 0, 0]⟩, ![0, 0, -1]),
   (⟨![0, 0, 0], ![1, 0, 0], ![0, 0, 1]⟩, ![0, -1, 0]),
   (⟨![0, 0, 0], ![0, 0, 1], ![0, 1, 0]⟩, ![-1, 0, 0])]

theorem inner_tetra (p : Pt ℚ) : inner tetra p ↔ 0 ≤ p 0 ∧ 0 ≤ p 1 ∧ 0 ≤ p 2 ∧ p 0 + p 1 + p 2 ≤ 1 := by
  simp only [inner, tetra, List.forall_mem_cons, dot]
  simp
  constructor
  · rintro ⟨h1, h2, h3, h4⟩
    exact ⟨h4, h3, h2, h1⟩
  · rintro ⟨h1, h2, h3, h4⟩
    exact ⟨h4, h3, h2, h1⟩

theorem tetra_bounds : Bounds (inner tetra) tetra := by
  apply Bounds.of_convex
  · intro t ht p hp
    simp only [tetra, List.mem_cons, List.not_mem_nil, or_false] at ht
    obtain ⟨α, β, γ, h1, h2, h3, h4, h5⟩ := hp
    have e0 := h5 0
    have e1 := h5 1
    have e2 := h5 2
    rw [inner_tetra]
    rcases ht with rfl | rfl | rfl | rfl <;> simp at e0 e1 e2 <;> simp [dot, e0, e1, e2] <;>
      (try constructor) <;> (try refine ⟨?_, ?_, ?_, ?_⟩) <;> (try constructor) <;> linarith
  · intro p hp t ht he
    rw [inner_tetra] at hp
    obtain ⟨h0, h1, h2, h3⟩ := hp
    simp only [tetra, List.mem_cons, List.not_mem_nil, or_false] at ht
    rcases ht with rfl | rfl | rfl | rfl <;> simp [dot] at he
    · exact ⟨p 0, p 1, p 2, h0, h1, h2, he, fun i => by fin_cases i <;> simp⟩
    · exact ⟨1 - p 0 - p 1, p 1, p 0, by linarith, h1, h0, by ring, fun i => by fin_cases i <;> simp [he]⟩
    · exact ⟨1 - p 0 - p 2, p 0, p 2, by linarith, h0, h2, by ring, fun i => by fin_cases i <;> simp [he]⟩
    · exact ⟨1 - p 2 - p 1, p 2, p 1, by linarith, h2, h1, by ring, fun i => by fin_cases i <;> simp [he]⟩
  · intro t ht v hd hn
    apply hd
    simp only [tetra, List.mem_cons, List.not_mem_nil, or_false] at ht
    rcases ht with rfl | rfl | rfl | rfl <;> simp [dot] at hn <;> simp [detA, det3] <;> linarith
  · intro t ht p hp u hu hut
    simp only [tetra, List.mem_cons, List.not_mem_nil, or_false] at ht hu
    obtain ⟨α, β, γ, h1, h2, h3, h4, h5⟩ := hp
    have e0 := h5 0
    have e1 := h5 1
    have e2 := h5 2
    rcases ht with rfl | rfl | rfl | rfl <;> rcases hu with rfl | rfl | rfl | rfl <;>
      first
      | exact absurd rfl hut
      | (simp at e0 e1 e2; simp [dot, e0, e1, e2]; try linarith)
  · intro x d
    refine ⟨|x d| + 2, by positivity, fun h => ?_⟩
    rw [inner_tetra] at h
    have := neg_abs_le (x d)
    fin_cases d <;> simp [along, unit] at h this <;> linarith [h.1, h.2.1, h.2.2.1, h.2.2.2]

/-- A link which enters the tetrahedron: hypotheses of `C71_seen`. -/
example : ∃ s : ℚ, (distance tetra 3 (some 1) ![1/4, 1/4, -1/2] ![0, 0, 1]).1 = (s : WithTop ℚ) ∧ 0 ≤ s ∧ s ≤ 1 ∧
    (distance tetra 3 (some 1) ![1/4, 1/4, -1/2] ![0, 0, 1]).2.1 = 3 ∧
    ∀ r, 0 ≤ r → r < s → ¬ inner tetra (along ![1/4, 1/4, -1/2] ![0, 0, 1] r) := by
  refine C71_seen _ tetra tetra_bounds 3 _ _ ?_ ?_ ?_
  · rw [inner_tetra]; simp; norm_num
  · rw [inner_tetra]; simp [along]; norm_num
  · intro t ht hd s _ _ hin
    obtain ⟨α, β, γ, h1, h2, h3, h4, h5⟩ := hin
    have e0 := h5 0
    have e1 := h5 1
    simp only [tetra, List.mem_cons, List.not_mem_nil, or_false] at ht
    rcases ht with rfl | rfl | rfl | rfl <;> simp [detA, det3] at hd <;> simp [along] at e0 e1

/-- The values computed on that link: half of it is outside, the face met is the bottom one. -/
example : distance tetra 3 (some 1) ![1/4, 1/4, -1/2] ![0, 0, 1] =
    (((1/2 : ℚ) : WithTop ℚ), 3, ![0, 0, -1]) := by
  decide +kernel

/-- A point of the tetrahedron: hypotheses of `C72_point_inside_partial`. -/
example : pointInside tetra ![1/4, 1/4, 1/8] = true := by
  refine (C72_point_inside_partial _ tetra tetra_bounds _ (Or.inr ⟨2, ?_, ?_, ?_⟩)).2 ?_
  · refine ⟨_, List.mem_cons_self .., 3/8, by norm_num, 1/4, 1/4, 1/2, by norm_num, by norm_num, by norm_num,
      by norm_num, fun i => ?_⟩
    fin_cases i <;> simp [along, unit] <;> norm_num
  · intro t ht s hs hin
    obtain ⟨α, β, γ, h1, h2, h3, h4, h5⟩ := hin
    have e0 := h5 0
    have e1 := h5 1
    have e2 := h5 2
    simp only [tetra, List.mem_cons, List.not_mem_nil, or_false] at ht
    rcases ht with rfl | rfl | rfl | rfl <;> simp [along, unit] at e0 e1 e2
    · refine ⟨by linarith, ⟨α, β, γ, by linarith, by linarith, by linarith, h4, h5⟩, ?_⟩
      simp [detA, det3, unit]
    · exfalso; linarith
  · intro d' h
    exact absurd h (by fin_cases d' <;> decide)
  · rw [inner_tetra]; simp; norm_num

/-- **C72 fails** on half lines through an edge: the tetrahedron is bounded by its faces and the point
`(1/2, 1/2, -1)` is outside; the vertical half line meets the oblique face and the bottom face at the same time, on
their common edge, the first one of the file wins and the point is declared inside.  With the bottom face first in
the file the same point is declared outside. -/
theorem C72_negation :
    (∃ (m : Mesh ℚ) (R : Pt ℚ → Prop) (x : Pt ℚ), Bounds R m ∧ ¬ R x ∧ pointInside m x = true) ∧
    ∃ (m m' : Mesh ℚ) (x : Pt ℚ), m.Perm m' ∧ pointInside m x ≠ pointInside m' x := by
  have hx : pointInside tetra ![1/2, 1/2, -1] = true := by decide +kernel
  refine ⟨⟨tetra, inner tetra, ![1/2, 1/2, -1], tetra_bounds, ?_, hx⟩, tetra, tetra.reverse, ![1/2, 1/2, -1],
    (List.reverse_perm _).symm, ?_⟩
  · rw [inner_tetra]
    simp
  · rw [hx]
    decide +kernel

end Pylbm.Stl
