import Verif.Domain.Elements
import Mathlib.Tactic.FieldSimp
/-!
# C89: other coordinates for the same domain

The same domain described with another origin and another unit of length.  The construction of the domain (`build`) is
the model of domain.py 284-301 in `Verif/Domain/Model.lean`.
-/
set_option linter.unusedSectionVars false
namespace Pylbm.Domain
open Round Storage DomainSpec

section
variable {K : Type} [Field K] [LinearOrder K] [IsStrictOrderedRing K] [FloorRing K] {dim nv : Nat}

/-! ## Specification -/

/-- The coordinates of a point with the unit of length divided by `a` and the origin moved. -/
def newCoords (a : K) (b : Fin dim → K) (x : Fin dim → K) : Fin dim → K := fun j => a * x j + b j

/-- The box and the space step written in the new coordinates; the labels, the velocities and the decomposition are the
same. -/
def Grid.inCoords (g : Grid K dim nv) (a : K) (b : Fin dim → K) : Grid K dim nv :=
  { g with lo := newCoords a b g.lo, dx := a * g.dx }

/-- The same element written in the new coordinates: same points, same distances (fractions of the link) and same
labels. -/
structure Elem.InCoords (a : K) (b : Fin dim → K) (e e' : Elem K dim) : Prop where
  isFluid : e'.isFluid = e.isFluid
  bl : e'.bl = newCoords a b e.bl
  ur : e'.ur = newCoords a b e.ur
  inside : ∀ x, e'.inside (newCoords a b x) = e.inside x
  alpha : ∀ x v, e'.alpha (newCoords a b x) (fun j => a * v j) = e.alpha x v
  border : ∀ x v, e'.border (newCoords a b x) (fun j => a * v j) = e.border x v

/-- The normals are the same, too. -/
structure Elem.SameNormals (a : K) (b : Fin dim → K) (e e' : Elem K dim) : Prop extends Elem.InCoords a b e e' where
  normvect : ∀ x v, e'.normvect (newCoords a b x) (fun j => a * v j) = e.normvect x v

/-! ## Lemmas -/

variable {g : Grid K dim nv} {a : K} {b : Fin dim → K}

theorem Grid.WF.inCoords (hg : g.WF) (ha : 0 < a) : (g.inCoords a b).WF :=
  ⟨mul_pos ha hg.dx, hg.region, hg.halo⟩

theorem coord_inCoords (hg : g.WF) (ha : 0 < a) (j : Fin dim) {i : Int} (h0 : 0 ≤ i) (h1 : i < g.total j) :
    (g.inCoords a b).coord j i = a * g.coord j i + b j := by
  rw [coord_eq (hg.inCoords ha) j h0 h1, coord_eq hg j h0 h1]
  simp only [centre, Grid.inCoords, newCoords]
  ring

theorem quot_inCoords (ha : 0 < a) (x y d b : K) : (a * x + b - (a * y + b)) / (a * d) = (x - y) / d := by
  rw [show a * x + b - (a * y + b) = a * (x - y) by ring, mul_div_mul_left _ _ ha.ne']

variable {e e' : Elem K dim}

theorem nmin_inCoords (hg : g.WF) (ht : ∀ j, 0 < g.total j) (ha : 0 < a) (he : e.InCoords a b e') (j : Fin dim) :
    nmin (g.inCoords a b) e' j = nmin g e j := by
  unfold nmin
  rw [coord_inCoords hg ha j le_rfl (by exact_mod_cast ht j), he.bl]
  show max _ (trunc ((a * e.bl j + b j - _) / (a * g.dx)) - _) = _
  rw [quot_inCoords ha]; rfl

theorem nmax_inCoords (hg : g.WF) (ht : ∀ j, 0 < g.total j) (ha : 0 < a) (he : e.InCoords a b e') (j : Fin dim) :
    nmax (g.inCoords a b) e' j = nmax g e j := by
  unfold nmax
  rw [coord_inCoords hg ha j le_rfl (by exact_mod_cast ht j), he.ur]
  show min _ (trunc ((a * e.ur j + b j - _) / (a * g.dx)) + _ + 1) = _
  rw [quot_inCoords ha]; rfl

theorem sliceBound_le (n : Nat) (i : Int) : sliceBound n i ≤ n := by
  unfold sliceBound; split <;> omega

theorem inView_inCoords (hg : g.WF) (ht : ∀ j, 0 < g.total j) (ha : 0 < a) (he : e.InCoords a b e') (c : Cell dim) :
    InView (g.inCoords a b) e' c ↔ InView g e c := by
  unfold InView
  simp only [nmin_inCoords hg ht ha he, nmax_inCoords hg ht ha he]
  rfl

theorem point_inCoords (hg : g.WF) (ha : 0 < a) {c : Cell dim} (hc : InView g e c) :
    (g.inCoords a b).point c = newCoords a b (g.point c) := by
  funext j
  have h := hc j
  have := sliceBound_le (g.total j) (nmax g e j)
  exact coord_inCoords hg ha j (by omega) (by omega)

theorem viewSize_inCoords (hg : g.WF) (ht : ∀ j, 0 < g.total j) (ha : 0 < a) (he : e.InCoords a b e') (j : Fin dim)
    (i : Int) : viewSize (g.inCoords a b) e' j i = viewSize g e j i := by
  unfold viewSize
  rw [nmin_inCoords hg ht ha he, nmax_inCoords hg ht ha he]
  rfl

theorem shifted_inCoords (hg : g.WF) (ht : ∀ j, 0 < g.total j) (ha : 0 < a) (he : e.InCoords a b e')
    (v : Fin dim → Int) (c : Cell dim) : shifted (g.inCoords a b) e' v c = shifted g e v c := by
  unfold shifted
  funext j
  rw [nmin_inCoords hg ht ha he]
  rfl

theorem elemIoo_inCoords (hg : g.WF) (ht : ∀ j, 0 < g.total j) (ha : 0 < a) (he : e.InCoords a b e')
    (st : State K dim nv) : elemIoo (g.inCoords a b) e' st = elemIoo g e st := by
  unfold elemIoo
  congr 1
  funext c
  simp only [inView_inCoords hg ht ha he, he.isFluid]
  by_cases hc : InView g e c
  · simp only [hc, true_and, point_inCoords hg ha hc, he.inside]
  · simp only [hc, false_and]

theorem elemLink_inCoords (he : e.SameNormals a b e') (i : Int) (out : Bool) (x v : Fin dim → K) (L : Link K dim) :
    elemLink e' i out (newCoords a b x) (fun j => a * v j) L = elemLink e i out x v L := by
  unfold elemLink
  simp only [he.isFluid, he.inside, he.alpha, he.border, he.normvect]

theorem elemLinks_inCoords (hg : g.WF) (ht : ∀ j, 0 < g.total j) (ha : 0 < a) (he : e.SameNormals a b e')
    (k : Fin nv) (masked : Bool) (st : State K dim nv) :
    elemLinks (g.inCoords a b) e' k masked st = elemLinks g e k masked st := by
  unfold elemLinks
  congr 1
  funext k' c
  simp only [inView_inCoords hg ht ha he.toInCoords, shifted_inCoords hg ht ha he.toInCoords]
  by_cases hc : k' = k ∧ InView g e c
  · rw [if_pos hc, if_pos hc, point_inCoords hg ha hc.2]
    have : (fun j => (g.inCoords a b).dx * ((g.inCoords a b).vel k j : K)) = fun j => a * (g.dx * (g.vel k j : K)) := by
      funext j; simp only [Grid.inCoords]; ring
    rw [this, elemLink_inCoords he]
    rfl
  · rw [if_neg hc, if_neg hc]

theorem elemVel_inCoords (hg : g.WF) (ht : ∀ j, 0 < g.total j) (ha : 0 < a) (he : e.SameNormals a b e')
    (k : Fin nv) (st : State K dim nv) : elemVel (g.inCoords a b) e' k st = elemVel g e k st := by
  unfold elemVel
  simp only [viewSize_inCoords hg ht ha he.toInCoords, elemLinks_inCoords hg ht ha he, he.isFluid]
  rfl

theorem addElem_inCoords (hg : g.WF) (ht : ∀ j, 0 < g.total j) (ha : 0 < a) (he : e.SameNormals a b e')
    (st : State K dim nv) : addElem (g.inCoords a b) st e' = addElem g st e := by
  unfold addElem
  simp only [elemVel_inCoords hg ht ha he, elemIoo_inCoords hg ht ha he.toInCoords]

/-- The element without its normals. -/
def Elem.noNormals (e : Elem K dim) : Elem K dim := { e with normvect := fun _ _ _ => 0 }

/-- The entries of a link without the normal. -/
def Link.noNormal (L : Link K dim) : Link K dim := ⟨L.dist, L.flag, fun _ => 0⟩

/-- The arrays without the normals. -/
def State.noNormals (st : State K dim nv) : State K dim nv :=
  ⟨st.ioo, fun k c => (st.link k c).noNormal⟩

theorem elemLink_noNormals (e : Elem K dim) (i : Int) (out : Bool) (x v : Fin dim → K) (L : Link K dim) :
    elemLink e.noNormals i out x v L.noNormal = (elemLink e i out x v L).noNormal := by
  unfold elemLink Elem.noNormals Link.noNormal
  simp only [neg_zero]
  split_ifs <;> rfl

theorem elemVel_noNormals (g : Grid K dim nv) (e : Elem K dim) (k : Fin nv) (st : State K dim nv) :
    elemVel g e.noNormals k st.noNormals = (elemVel g e k st).map State.noNormals := by
  have h1 : ∀ m, elemLinks g e.noNormals k m st.noNormals = (elemLinks g e k m st).noNormals := by
    intro m
    show State.mk _ _ = State.mk _ _
    congr 1
    funext k' c
    have hv : InView g e.noNormals c ↔ InView g e c := Iff.rfl
    simp only [elemLinks]
    by_cases hc : k' = k ∧ InView g e c
    · rw [if_pos hc, if_pos (⟨hc.1, hv.2 hc.2⟩ : k' = k ∧ InView g e.noNormals c)]
      exact elemLink_noNormals e _ _ _ _ _
    · rw [if_neg hc, if_neg fun h => hc ⟨h.1, hv.1 h.2⟩]
      rfl
  unfold elemVel
  have h2 : ∀ j i, viewSize g e.noNormals j i = viewSize g e j i := fun _ _ => rfl
  have h3 : e.noNormals.isFluid = e.isFluid := rfl
  simp only [h1, h2, h3]
  split_ifs <;> rfl

theorem foldlM_map {σ α : Type} (f : σ → σ) (p q : σ → α → Option σ) (h : ∀ s x, q (f s) x = (p s x).map f) (l : List α)
    (s : σ) : l.foldlM q (f s) = (l.foldlM p s).map f := by
  induction l generalizing s with
  | nil => rfl
  | cons x l ih =>
    rw [List.foldlM_cons, List.foldlM_cons, h]
    cases p s x with
    | none => rfl
    | some s' => exact ih s'

theorem addElem_noNormals (g : Grid K dim nv) (e : Elem K dim) (st : State K dim nv) :
    addElem g st.noNormals e.noNormals = (addElem g st e).map State.noNormals := by
  unfold addElem
  have : elemIoo g e.noNormals st.noNormals = (elemIoo g e st).noNormals := rfl
  rw [this]
  exact foldlM_map _ _ _ (fun s k => elemVel_noNormals g e k s) _ _

theorem elems_noNormals (g : Grid K dim nv) (l : List (Elem K dim)) (st : State K dim nv) :
    (l.map Elem.noNormals).foldlM (addElem g) st.noNormals = (l.foldlM (addElem g) st).map State.noNormals := by
  rw [List.foldlM_map]
  exact foldlM_map _ _ _ (fun s e => addElem_noNormals g e s) _ _

theorem clean_noNormals (st : State K dim nv) : clean st.noNormals = (clean st).noNormals := by
  show State.mk _ _ = State.mk _ _
  congr 1
  funext k c
  simp only [clean]
  by_cases h : 0 < (st.link k c).dist ∧ st.ioo c = valout
  · rw [if_pos h]; exact if_pos h
  · rw [if_neg h]; exact if_neg h

/-- The construction after the box. -/
theorem elems_sameNormals (hg : g.WF) (ht : ∀ j, 0 < g.total j) (ha : 0 < a) {elems elems' : List (Elem K dim)}
    (he : List.Forall₂ (Elem.SameNormals a b) elems elems') (st : State K dim nv) :
    elems'.foldlM (addElem (g.inCoords a b)) st = elems.foldlM (addElem g) st := by
  induction he generalizing st with
  | nil => rfl
  | cons h _ ih =>
    rw [List.foldlM_cons, List.foldlM_cons, addElem_inCoords hg ht ha h]
    congr 1
    funext st'
    exact ih st'

/-! ## Properties -/

/-- **C89, domain.** The same box, step and elements written with another unit of length and another origin: on every
process, the construction fails in both coordinates or in none, and gives the same fluid map, distances and labels. -/
theorem C89_domain (g : Grid K dim nv) (hg : g.WF) (ht : ∀ j, 0 < g.total j) (a : K) (ha : 0 < a) (b : Fin dim → K)
    (elems elems' : List (Elem K dim)) (he : List.Forall₂ (Elem.InCoords a b) elems elems') :
    (build (g.inCoords a b) elems').isSome = (build g elems).isSome ∧
    ∀ st st', build g elems = some st → build (g.inCoords a b) elems' = some st' →
      ∀ c, st'.ioo c = st.ioo c ∧
        ∀ k, (st'.link k c).dist = (st.link k c).dist ∧ (st'.link k c).flag = (st.link k c).flag := by
  have h0 : addInit (g.inCoords a b) = addInit g := rfl
  have he' : List.Forall₂ (Elem.SameNormals a b) (elems.map Elem.noNormals) (elems'.map Elem.noNormals) := by
    rw [List.forall₂_map_left_iff, List.forall₂_map_right_iff]
    exact he.imp fun e e' h => ⟨⟨h.isFluid, h.bl, h.ur, h.inside, h.alpha, h.border⟩, fun _ _ => rfl⟩
  have key : (build (g.inCoords a b) elems').map State.noNormals = (build g elems).map State.noNormals := by
    unfold build
    rw [h0]
    cases addInit g with
    | none => rfl
    | some st =>
      have h1 := elems_noNormals g elems st
      have h2 := elems_noNormals (g.inCoords a b) elems' st
      rw [elems_sameNormals hg ht ha he', h1] at h2
      simp only [Option.bind_eq_bind, Option.bind_some]
      cases h3 : elems.foldlM (addElem g) st <;> cases h4 : elems'.foldlM (addElem (g.inCoords a b)) st <;>
        rw [h3, h4] at h2
      · cases h2
      · cases h2
      · simp only [Option.map_some, Option.some.injEq] at h2
        simp only [Option.bind_some, Option.pure_def, Option.map_some, ← clean_noNormals, h2]
  constructor
  · have := congrArg Option.isSome key
    simpa using this
  · intro st st' h h' c
    rw [h, h'] at key
    simp only [Option.map_some, Option.some.injEq] at key
    refine ⟨(congrFun (congrArg State.ioo key) c :), fun k => ?_⟩
    have := congrFun (congrFun (congrArg State.link key) k) c
    exact ⟨(congrArg Link.dist this :), (congrArg Link.flag this :)⟩

/-- **C89, normals.** If the elements give the same normals in the two coordinates, so does the domain. -/
theorem C89_normals (g : Grid K dim nv) (hg : g.WF) (ht : ∀ j, 0 < g.total j) (a : K) (ha : 0 < a) (b : Fin dim → K)
    (elems elems' : List (Elem K dim)) (he : List.Forall₂ (Elem.SameNormals a b) elems elems') :
    build (g.inCoords a b) elems' = build g elems := by
  unfold build
  have h0 : addInit (g.inCoords a b) = addInit g := rfl
  rw [h0]
  congr 1
  funext st
  rw [elems_sameNormals hg ht ha he]

/-- **C89, coordinates.** The coordinates of all the cells of the arrays are those of the same points. -/
theorem C89_coordinates (g : Grid K dim nv) (hg : g.WF) (a : K) (ha : 0 < a) (b : Fin dim → K) (c : Cell dim)
    (hc : ∀ j, 0 ≤ c j ∧ c j < g.total j) : (g.inCoords a b).point c = newCoords a b (g.point c) := by
  funext j
  exact coord_inCoords hg ha j (hc j).1 (hc j).2

/-- **C89, number of cells (sides which are multiples of the step).** -/
theorem C89_cells_partial (L dx a : K) (ha : 0 < a) (n : Int) (hn : L / dx = n) :
    globalSize (a * L) (a * dx) = some n ∧ globalSize L dx = some n := by
  unfold globalSize
  rw [mul_div_mul_left _ _ ha.ne', hn]
  simp

example : globalSize (1000 * (3 / 2) : ℚ) (1000 * (1 / 8)) = some 12 ∧ globalSize (3 / 2 : ℚ) (1 / 8) = some 12 :=
  C89_cells_partial (3 / 2) (1 / 8) 1000 (by norm_num) 12 (by norm_num)

/-- **C89 is false for the test of the sides of the box**, whatever the box: a side which is not a multiple of the step
is refused in some unit of length and accepted (with the nearest number of cells) in another one, because the number of
cells is compared with the integers up to the step itself (domain.py 399-414). -/
theorem C89_cells_negation (L dx : K) (hdx : 0 < dx) (hL : ∀ n : Int, L / dx ≠ n) :
    (∃ a, 0 < a ∧ globalSize (a * L) (a * dx) = none) ∧
    ∃ a, 0 < a ∧ globalSize (a * L) (a * dx) = some (pyRound (L / dx)) := by
  have hd : 0 < |(pyRound (L / dx) : K) - L / dx| := abs_pos.2 (sub_ne_zero.2 fun h => hL _ h.symm)
  have key : ∀ a, 0 < a → globalSize (a * L) (a * dx) =
      if |(pyRound (L / dx) : K) - L / dx| < a * dx then some (pyRound (L / dx)) else none := by
    intro a ha
    unfold globalSize
    simp only
    rw [mul_div_mul_left _ _ ha.ne', if_neg fun h => hL _ h.symm]
  refine ⟨⟨|(pyRound (L / dx) : K) - L / dx| / dx, div_pos hd hdx, ?_⟩,
    ⟨(|(pyRound (L / dx) : K) - L / dx| + 1) / dx, by positivity, ?_⟩⟩
  · rw [key _ (div_pos hd hdx), div_mul_cancel₀ _ hdx.ne', if_neg (lt_irrefl _)]
  · rw [key _ (by positivity), div_mul_cancel₀ _ hdx.ne', if_pos (by linarith)]

/-- A side of 1.3 with a step of 0.25 (in decimetres) is accepted with 5 cells; the same side in metres is refused. -/
example : globalSize (13 / 10 : ℚ) (1 / 4) = some 5 ∧ globalSize (13 / 100 : ℚ) (1 / 40) = none := by
  decide +kernel

end

end Pylbm.Domain
