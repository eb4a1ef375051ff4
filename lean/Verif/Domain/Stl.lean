import Verif.Domain.Provenance
import Verif.Geometry.Stl
/-!
# STL elements in a domain (C87)

`STLElement.distance` gives the distance `np.inf` where the surface is not met, the other elements give -1.
-/
set_option linter.unusedSectionVars false
namespace Pylbm.Domain
open Round Storage DomainSpec Stl

variable {K : Type} [Field K] [LinearOrder K] [IsStrictOrderedRing K] [FloorRing K] {nv : Nat}

/-! ## Model -/

/-- The rows of `mesh.vectors`. -/
def vertices (m : Mesh K) : List (Pt K) := m.flatMap fun t => [t.1.a, t.1.b, t.1.c]

/-- `mesh.min_`, stl_element.py 123-124 (0 for a mesh without triangles, which `numpy` refuses). -/
def meshMin (m : Mesh K) (j : Fin 3) : K := ((vertices m).map (· j)).min?.getD 0

/-- `mesh.max_`. -/
def meshMax (m : Mesh K) (j : Fin 3) : K := ((vertices m).map (· j)).max?.getD 0

/-- An element read from a file, stl_element.py 83-182, as `Domain` uses it; `top` stands for `np.inf`: the theorems
are for all the values larger than 999 (`valin`), which the comparisons of domain.py 580-613 do not distinguish. -/
def stlElem (m : Mesh K) (label : Int) (fluid : Bool) (top : K) : Elem K 3 where
  isFluid := fluid
  bl := meshMin m
  ur := meshMax m
  inside := pointInside m
  alpha := fun x v => (Stl.distance m label (some 1) x v).1.untopD top
  border := fun x v => (Stl.distance m label (some 1) x v).2.1
  normvect := fun x v => (Stl.distance m label (some 1) x v).2.2

/-! ## Specification -/

open Classical in
/-- The region bounded by the mesh, as an element which gives -1 where the surface is not met. -/
noncomputable def regionElem (R : Pt K → Prop) (m : Mesh K) (label : Int) (fluid : Bool) : Elem K 3 where
  isFluid := fluid
  bl := meshMin m
  ur := meshMax m
  inside := fun x => decide (R x)
  alpha := fun x v => (Stl.distance m label (some 1) x v).1.untopD (-1)
  border := fun x v => (Stl.distance m label (some 1) x v).2.1
  normvect := fun x v => (Stl.distance m label (some 1) x v).2.2

/-- The geometry: elements of the library, and solid parts read from files with the regions they bound. -/
inductive Item (K : Type)
  | plain (e : Elem K 3)
  | mesh (R : Pt K → Prop) (m : Mesh K) (label : Int)

/-- What the code adds to the domain. -/
def Item.code (top : K) : Item K → Elem K 3
  | .plain e => e
  | .mesh _ m label => stlElem m label false top

/-- What the user means. -/
noncomputable def Item.ideal : Item K → Elem K 3
  | .plain e => e
  | .mesh R m label => regionElem R m label false

/-- A point whose half lines meet the mesh well (the hypothesis of C72). -/
def GoodPoint (m : Mesh K) (x : Pt K) : Prop :=
  (∀ d, ¬ Meets m x d) ∨ ∃ d, Meets m x d ∧ Stl.Clear m x d ∧ ∀ d', d < d' → ¬ Meets m x d'

/-- The meshes bound their regions, and the half lines along the axes from the points of the grid do not meet edges or
vertices. -/
def Item.Ok (g : Grid K 3 nv) : Item K → Prop
  | .plain e => e.Sound
  | .mesh R m _ => Bounds R m ∧ ∀ c : Cell 3, (∀ j, 0 ≤ c j ∧ c j < g.total j) → GoodPoint m (g.point c)

/-! ## Lemmas -/

theorem mem_vertices {m : Mesh K} {t : Tri K × Pt K} (h : t ∈ m) :
    t.1.a ∈ vertices m ∧ t.1.b ∈ vertices m ∧ t.1.c ∈ vertices m := by
  unfold vertices
  refine ⟨?_, ?_, ?_⟩ <;> exact List.mem_flatMap.2 ⟨t, h, by simp⟩

theorem vertex_bounds {m : Mesh K} {p : Pt K} (h : p ∈ vertices m) (j : Fin 3) :
    meshMin m j ≤ p j ∧ p j ≤ meshMax m j := by
  have hp : p j ∈ (vertices m).map (· j) := List.mem_map.2 ⟨p, h, rfl⟩
  unfold meshMin meshMax
  constructor
  · cases hm : ((vertices m).map (· j)).min? with
    | none => rw [List.min?_eq_none_iff] at hm; rw [hm] at hp; simp at hp
    | some a => exact (List.min?_eq_some_iff.1 hm).2 _ hp
  · cases hm : ((vertices m).map (· j)).max? with
    | none => rw [List.max?_eq_none_iff] at hm; rw [hm] at hp; simp at hp
    | some a => exact (List.max?_eq_some_iff.1 hm).2 _ hp

/-- The points of a triangle are in the bounds. -/
theorem inTri_bounds {m : Mesh K} {t : Tri K × Pt K} (h : t ∈ m) {p : Pt K} (hp : InTri t.1 p) (j : Fin 3) :
    meshMin m j ≤ p j ∧ p j ≤ meshMax m j := by
  obtain ⟨α, β, γ, h1, h2, h3, h4, h5⟩ := hp
  obtain ⟨ha, hb, hc⟩ := mem_vertices h
  have a := vertex_bounds ha j
  have b := vertex_bounds hb j
  have c := vertex_bounds hc j
  rw [h5 j]
  have hs : ∀ x : K, x = α * x + β * x + γ * x := fun x => by rw [← add_mul, ← add_mul, h4, one_mul]
  constructor
  · rw [hs (meshMin m j)]
    exact add_le_add (add_le_add (mul_le_mul_of_nonneg_left a.1 h1) (mul_le_mul_of_nonneg_left b.1 h2))
      (mul_le_mul_of_nonneg_left c.1 h3)
  · rw [hs (meshMax m j)]
    exact add_le_add (add_le_add (mul_le_mul_of_nonneg_left a.2 h1) (mul_le_mul_of_nonneg_left b.2 h2))
      (mul_le_mul_of_nonneg_left c.2 h3)

/-- A region bounded by a mesh is in the bounds of the mesh. -/
theorem region_bounds {R : Pt K → Prop} {m : Mesh K} (hB : Bounds R m) {x : Pt K} (hx : R x) (j : Fin 3) :
    meshMin m j ≤ x j ∧ x j ≤ meshMax m j := by
  obtain ⟨d, hd⟩ : ∃ d : Fin 3, d ≠ j := by fin_cases j <;> [exact ⟨1, by decide⟩; exact ⟨0, by decide⟩; exact ⟨0, by decide⟩]
  by_contra hout
  obtain ⟨s0, h0, hs⟩ := hB.bounded x d
  apply hs
  have hv : along x (unit d) s0 = along x (fun i => s0 * unit d i) 1 := by
    funext i; simp [along]
  rw [hv, ← hB.apart x (fun i => s0 * unit d i)]
  · exact hx
  · intro t ht s _ _ hin
    apply hout
    have := inTri_bounds ht hin j
    simpa [along, unit, hd.symm] using this

theorem regionElem_sound {R : Pt K → Prop} {m : Mesh K} (hB : Bounds R m) (label : Int) (fluid : Bool) :
    (regionElem R m label fluid).Sound where
  inside := fun x hx j => region_bounds hB (by simpa [regionElem] using hx) j
  hit := by
    intro x v hpos
    have hpos' : 0 < (Stl.distance m label (some 1) x v).1.untopD (-1) := hpos
    show (Stl.distance m label (some 1) x v).1.untopD (-1) ≤ 1 ∧ ∀ j, meshMin m j ≤ x j +
      (Stl.distance m label (some 1) x v).1.untopD (-1) * v j ∧ x j +
      (Stl.distance m label (some 1) x v).1.untopD (-1) * v j ≤ meshMax m j
    obtain ⟨h1, -, -⟩ := C71_first_hit m label (some 1) x v
    cases hd : (Stl.distance m label (some 1) x v).1 with
    | top => rw [hd] at hpos'; simp at hpos'; linarith
    | coe s =>
      obtain ⟨⟨⟨t, ht⟩, hs⟩, -⟩ := (h1 s).1 hd
      refine ⟨by simpa using hs 1 rfl, fun j => ?_⟩
      have := inTri_bounds ht.1 ht.2.2.2 j
      simpa [along] using this

theorem Item.ideal_sound {g : Grid K 3 nv} {it : Item K} (h : it.Ok g) : it.ideal.Sound := by
  cases it with
  | plain e => exact h
  | mesh R m label => exact regionElem_sound h.1 label false

/-- `dist` never exceeds `valin`. -/
def Small (st : State K 3 nv) : Prop := ∀ k c, (st.link k c).dist ≤ 999

theorem elemLink_small {e : Elem K 3} (he : e.Sound) (ioo : Int) (out : Bool) (x v : Fin 3 → K) (L : Link K 3)
    (hL : L.dist ≤ 999) : (elemLink e ioo out x v L).dist ≤ 999 := by
  have hv : ((valin : Int) : K) = 999 := by simp [valin]
  have ha : e.alpha x v ≤ 999 := by
    by_cases h : 0 < e.alpha x v
    · have := (he.hit x v h).1
      linarith
    · push Not at h; linarith
  unfold elemLink
  simp only [hv]
  split_ifs <;> first | exact ha | exact hL | exact le_rfl

theorem elemVel_small {g : Grid K 3 nv} {e : Elem K 3} (he : e.Sound) (k : Fin nv) (st st' : State K 3 nv)
    (hs : Small st) (h : elemVel g e k st = some st') : Small st' := by
  have hl : ∀ b, Small (elemLinks g e k b st) := by
    intro b k' c
    unfold elemLinks
    simp only
    split_ifs <;> first | exact elemLink_small he _ _ _ _ _ (hs _ _) | exact hs _ _
  unfold elemVel at h
  split_ifs at h <;> simp only [Option.some.injEq] at h <;> subst h <;> first | exact hs | exact hl _

theorem item_link {g : Grid K 3 nv} {it : Item K} (hit : it.Ok g) {top : K} (ht : 999 < top) (ioo : Int) (out : Bool)
    {c : Cell 3} (hc : ∀ j, 0 ≤ c j ∧ c j < g.total j) (v : Fin 3 → K) (L : Link K 3) (hL : L.dist ≤ 999) :
    (it.code top).inside (g.point c) = it.ideal.inside (g.point c) ∧
    elemLink (it.code top) ioo out (g.point c) v L = elemLink it.ideal ioo out (g.point c) v L := by
  cases it with
  | plain e => exact ⟨rfl, rfl⟩
  | mesh R m label =>
    have hin : pointInside m (g.point c) = (regionElem R m label false).inside (g.point c) := by
      have := C72_point_inside_partial R m hit.1 (g.point c) (hit.2 c hc)
      rw [Bool.eq_iff_iff, this]
      simp [regionElem]
    refine ⟨hin, ?_⟩
    have hv : ((valin : Int) : K) = 999 := by simp [valin]
    show elemLink (stlElem m label false top) ioo out (g.point c) v L =
      elemLink (regionElem R m label false) ioo out (g.point c) v L
    unfold elemLink
    have e1 : (stlElem m label false top).inside (g.point c) = (regionElem R m label false).inside (g.point c) := hin
    rw [e1]
    have f1 : (stlElem m label false top).isFluid = false := rfl
    have f2 : (regionElem R m label false).isFluid = false := rfl
    simp only [f1, f2, hv, Bool.false_eq_true, if_false]
    have b1 : (stlElem m label false top).border = (regionElem R m label false).border := rfl
    have n1 : (stlElem m label false top).normvect = (regionElem R m label false).normvect := rfl
    rw [b1, n1]
    cases hd : (Stl.distance m label (some 1) (g.point c) v).1 with
    | coe s =>
      have a1 : (stlElem m label false top).alpha (g.point c) v = s := by simp [stlElem, hd]
      have a2 : (regionElem R m label false).alpha (g.point c) v = s := by simp [regionElem, hd]
      rw [a1, a2]
    | top =>
      have a1 : (stlElem m label false top).alpha (g.point c) v = top := by simp [stlElem, hd]
      have a2 : (regionElem R m label false).alpha (g.point c) v = -1 := by simp [regionElem, hd]
      rw [a1, a2]
      have c1 : ¬ (0 : K) < -1 := by norm_num
      have c2 : ∀ L' : Link K 3, L'.dist ≤ 999 → ¬ top < L'.dist := fun L' h h' => by linarith
      have hL' : (if (regionElem R m label false).inside (g.point c) = true then
        { L with dist := (999 : K), flag := valin } else L).dist ≤ 999 := by split_ifs <;> first | exact le_rfl | exact hL
      simp [c1, c2 _ hL']

theorem item_bounds (it : Item K) (top : K) : (it.code top).bl = it.ideal.bl ∧ (it.code top).ur = it.ideal.ur ∧
    (it.code top).isFluid = it.ideal.isFluid := by
  cases it <;> exact ⟨rfl, rfl, rfl⟩

theorem item_view {g : Grid K 3 nv} (it : Item K) (top : K) : nmin g (it.code top) = nmin g it.ideal ∧
    nmax g (it.code top) = nmax g it.ideal := by
  unfold nmin nmax
  rw [(item_bounds it top).1, (item_bounds it top).2.1]
  exact ⟨rfl, rfl⟩

theorem item_vel {g : Grid K 3 nv} {it : Item K} (hit : it.Ok g) {top : K} (ht : 999 < top) (k : Fin nv)
    (st : State K 3 nv) (hs : Small st) : elemVel g (it.code top) k st = elemVel g it.ideal k st := by
  have hv := item_view (g := g) it top
  have hV : ∀ c, InView g (it.code top) c ↔ InView g it.ideal c := fun c => by unfold InView; rw [hv.1, hv.2]
  have hS : ∀ j s, viewSize g (it.code top) j s = viewSize g it.ideal j s := fun j s => by
    unfold viewSize; rw [hv.1, hv.2]
  have hsh : ∀ v c, shifted g (it.code top) v c = shifted g it.ideal v c := fun v c => by unfold shifted; rw [hv.1]
  have hl : ∀ b, elemLinks g (it.code top) k b st = elemLinks g it.ideal k b st := by
    intro b
    unfold elemLinks
    congr 1
    funext k' c
    by_cases hc : k' = k ∧ InView g it.ideal c
    · rw [if_pos ⟨hc.1, (hV c).2 hc.2⟩, if_pos hc, hsh]
      exact (item_link hit ht _ _ (fun j => ⟨by have := (view_range hc.2 j).2.1; omega, (view_range hc.2 j).2.2.1⟩) _ _
        (hs _ _)).2
    · rw [if_neg (fun h => hc ⟨h.1, (hV c).1 h.2⟩), if_neg hc]
  unfold elemVel
  simp only [hS, hl, (item_bounds it top).2.2]

theorem item_add {g : Grid K 3 nv} {it : Item K} (hit : it.Ok g) {top : K} (ht : 999 < top)
    (st : State K 3 nv) (hs : Small st) : addElem g st (it.code top) = addElem g st it.ideal ∧
      ∀ st', addElem g st it.ideal = some st' → Small st' := by
  have hv := item_view (g := g) it top
  have hV : ∀ c, InView g (it.code top) c ↔ InView g it.ideal c := fun c => by unfold InView; rw [hv.1, hv.2]
  have hio : elemIoo g (it.code top) st = elemIoo g it.ideal st := by
    unfold elemIoo
    congr 1
    funext c
    by_cases hc : InView g it.ideal c
    · have := (item_link hit ht 0 true (fun j => ⟨by have := (view_range hc j).2.1; omega, (view_range hc j).2.2.1⟩)
        (fun _ => 0) ⟨999, 0, fun _ => 0⟩ le_rfl).1
      simp only [hV, hc, true_and, this, (item_bounds it top).2.2]
    · simp [hV, hc]
  have hs' : Small (elemIoo g it.ideal st) := hs
  unfold addElem
  rw [hio]
  generalize elemIoo g it.ideal st = s at hs'
  generalize List.finRange nv = l
  induction l generalizing s with
  | nil =>
    refine ⟨rfl, fun st' h => ?_⟩
    simp only [List.foldlM_nil, Option.pure_def, Option.some.injEq] at h
    exact h ▸ hs'
  | cons k l ih =>
    simp only [List.foldlM_cons]
    rw [item_vel hit ht k s hs']
    cases h1 : elemVel g it.ideal k s with
    | none => simp
    | some s1 =>
      simp only [Option.bind_eq_bind, Option.bind_some]
      exact ih s1 (elemVel_small (Item.ideal_sound hit) k s s1 hs' h1)

theorem init_small {g : Grid K 3 nv} {st : State K 3 nv} (h : addInit g = some st) : Small st := by
  have hv : ((valin : Int) : K) = 999 := by simp [valin]
  have hlayer : ∀ ax k pos d lab sgn (s : State K 3 nv), Small s → Small (layer g ax k pos d lab sgn s) := by
    intro ax k pos d lab sgn s hs k' c
    unfold layer
    simp only
    split_ifs with hc
    · exact hc.2.2.2.le.trans (hs _ _)
    · exact hs _ _
  have hfold : ∀ (f : State K 3 nv → Nat → Option (State K 3 nv)) (_ : ∀ s i s', Small s → f s i = some s' → Small s')
      (l : List Nat) (s s' : State K 3 nv), Small s → l.foldlM f s = some s' → Small s' := by
    intro f hf l
    induction l with
    | nil => intro s s' hs h; simp only [List.foldlM_nil, Option.pure_def, Option.some.injEq] at h; exact h ▸ hs
    | cons i l ih =>
      intro s s' hs h
      simp only [List.foldlM_cons, Option.bind_eq_bind, Option.bind_eq_some_iff] at h
      obtain ⟨s1, h1, h2⟩ := h
      exact ih s1 s' (hf s i s1 hs h1) h2
  have hlayers : ∀ ax k (s s' : State K 3 nv), Small s → layers g ax k s = some s' → Small s' := by
    intro ax k s s' hs h
    unfold layers at h
    simp only at h
    split_ifs at h
    · refine hfold _ (fun s i s' hs h => ?_) _ s s' hs h
      split_ifs at h
      simp only [Option.some.injEq] at h
      exact h ▸ hlayer _ _ _ _ _ _ s hs
    · refine hfold _ (fun s i s' hs h => ?_) _ s s' hs h
      split_ifs at h
      simp only [Option.some.injEq] at h
      exact h ▸ hlayer _ _ _ _ _ _ s hs
    · simp only [Option.some.injEq] at h
      exact h ▸ hs
  have hk : ∀ ax (l : List (Fin nv)) (s s' : State K 3 nv), Small s →
      l.foldlM (fun st k => layers g ax k st) s = some s' → Small s' := by
    intro ax l
    induction l with
    | nil => intro s s' hs h; simp only [List.foldlM_nil, Option.pure_def, Option.some.injEq] at h; exact h ▸ hs
    | cons k l ih =>
      intro s s' hs h
      simp only [List.foldlM_cons, Option.bind_eq_bind, Option.bind_eq_some_iff] at h
      obtain ⟨s1, h1, h2⟩ := h
      exact ih s1 s' (hlayers ax k s s1 hs h1) h2
  have hax : ∀ (l : List (Fin 3)) (s s' : State K 3 nv), Small s → l.foldlM (fun st ax =>
      (List.finRange nv).foldlM (fun st k => layers g ax k st) st) s = some s' → Small s' := by
    intro l
    induction l with
    | nil => intro s s' hs h; simp only [List.foldlM_nil, Option.pure_def, Option.some.injEq] at h; exact h ▸ hs
    | cons ax l ih =>
      intro s s' hs h
      simp only [List.foldlM_cons, Option.bind_eq_bind, Option.bind_eq_some_iff] at h
      obtain ⟨s1, h1, h2⟩ := h
      exact ih s1 s' (hk ax _ s s1 hs h1) h2
  refine hax _ (initState g) st (fun k c => ?_) h
  simp [initState, hv]

/-! ## Properties -/

/-- **C87, solid parts.** With solid parts read from STL files, in any order with other elements, the domain is the one
of the regions they bound: the infinite distances play no role. -/
theorem C87_solid (g : Grid K 3 nv) (items : List (Item K)) (hit : ∀ it ∈ items, it.Ok g) (top : K) (ht : 999 < top) :
    build g (items.map (Item.code top)) = build g (items.map Item.ideal) := by
  unfold build
  cases h0 : addInit g with
  | none => rfl
  | some s0 =>
    simp only [Option.bind_eq_bind, Option.bind_some]
    have key : ∀ (l : List (Item K)) (s : State K 3 nv), (∀ it ∈ l, it.Ok g) → Small s →
        (l.map (Item.code top)).foldlM (addElem g) s = (l.map Item.ideal).foldlM (addElem g) s := by
      intro l
      induction l with
      | nil => intro s _ _; rfl
      | cons it l ih =>
        intro s hl hs
        obtain ⟨h1, h2⟩ := item_add (hl it (by simp)) ht s hs
        simp only [List.map_cons, List.foldlM_cons]
        rw [h1]
        cases h3 : addElem g s it.ideal with
        | none => rfl
        | some s1 =>
          simp only [Option.bind_eq_bind, Option.bind_some]
          exact ih s1 (fun it' h => hl it' (by simp [h])) (h2 s1 h3)
    rw [key items s0 hit (init_small h0)]

/-- **C87, fluid map.** The cells of the box are fluid or solid according to the last region containing their centre. -/
theorem C87_fluid_map (g : Grid K 3 nv) (hg : g.WF) (items : List (Item K)) (hit : ∀ it ∈ items, it.Ok g) (top : K)
    (ht : 999 < top) (st : State K 3 nv) (h : build g (items.map (Item.code top)) = some st) (c : Cell 3) :
    st.ioo c = if g.Interior c ∧ material (regions (items.map Item.ideal)) (g.cellCentre c) = true then 999 else -1 := by
  rw [C87_solid g items hit top ht] at h
  refine C21_fluid_map g hg _ (fun e he => ?_) st h c
  obtain ⟨it, h1, rfl⟩ := List.mem_map.1 he
  exact Item.ideal_sound (hit it h1)

/-- A link which is not along the triangles it meets, and does not start on the surface. -/
def Item.Transverse : Item K → Pt K → Pt K → Prop
  | .plain e, x, v => e.Sees x v
  | .mesh _ m _, x, v => (∀ t ∈ m, ¬ InTri t.1 x) ∧
      ∀ t ∈ m, detA v t.1 = 0 → ∀ s : K, 0 ≤ s → s ≤ 1 → ¬ InTri t.1 (along x v s)

/-- **C87, links.** Every link from a fluid cell to a solid cell of the box has a distance in `(0, 1]` and the label of
a face of the box or of an element, when the links do not start on the surfaces and are not along the triangles they
meet. -/
theorem C87_links_partial (g : Grid K 3 nv) (hg : g.WF) (items : List (Item K)) (hit : ∀ it ∈ items, it.Ok g)
    (htr : ∀ it ∈ items, ∀ c k, g.Interior c → it.Transverse (g.cellCentre c) (fun j => g.dx * (g.vel k j : K)))
    (top : K) (ht : 999 < top) (st : State K 3 nv) (h : build g (items.map (Item.code top)) = some st) (c : Cell 3)
    (hc : g.Interior c) (k : Fin nv) (hf : st.ioo c = 999) (hi : g.Interior (g.target k c))
    (hout : st.ioo (g.target k c) = -1) :
    0 < (st.link k c).dist ∧ (st.link k c).dist ≤ 1 ∧ LabelOf g (items.map Item.ideal) (st.link k c).flag := by
  rw [C87_solid g items hit top ht] at h
  refine C59_solid_links_flagged_partial g hg _ (fun e he => ?_) (fun e he c k hc => ?_) st h c hc k hf hi hout
  · obtain ⟨it, h1, rfl⟩ := List.mem_map.1 he
    exact Item.ideal_sound (hit it h1)
  · obtain ⟨it, h1, rfl⟩ := List.mem_map.1 he
    have htr' := htr it h1 c k hc
    have hok := hit it h1
    cases it with
    | plain e => exact htr'
    | mesh R m label =>
      obtain ⟨hx, hp⟩ := htr'
      have hfl : (regionElem R m label false).isFluid = false := rfl
      show (regionElem R m label false).Sees _ _
      unfold Elem.Sees
      rw [hfl, if_neg Bool.false_ne_true]
      intro h0 h1
      have h0' : ¬ R (g.cellCentre c) := by simpa [regionElem] using h0
      have h1' : R (along (g.cellCentre c) (fun j => g.dx * (g.vel k j : K)) 1) := by
        have e1 : along (g.cellCentre c) (fun j => g.dx * (g.vel k j : K)) 1 =
          fun j => g.cellCentre c j + g.dx * (g.vel k j : K) := by funext j; simp [along]
        rw [e1]
        simpa [regionElem] using h1
      obtain ⟨s, hs, hs0, -⟩ := C71_seen R m hok.1 label _ _ h0' h1' hp
      show 0 < (Stl.distance m label (some 1) _ _).1.untopD (-1)
      rw [hs, WithTop.untopD_coe]
      refine lt_of_le_of_ne hs0 fun h00 => ?_
      obtain ⟨⟨⟨t, ht⟩, -⟩, -⟩ := ((C71_first_hit m label (some 1) _ _).1 s).1 hs
      apply hx t ht.1
      have := ht.2.2.2
      have e0 : along (g.cellCentre c) (fun j => g.dx * (g.vel k j : K)) s = g.cellCentre c := by
        funext j; simp [along, ← h00]
      rwa [e0] at this

/-- One velocity of a fluid element; no hypothesis on its functions. -/
theorem elemVel_fluid {g : Grid K 3 nv} (hg : g.WF) {e : Elem K 3} (hf : e.isFluid = true) (k : Fin nv)
    (st st' : State K 3 nv) (h : elemVel g e k st = some st') :
    st'.ioo = st.ioo ∧ ∀ k' c, st'.link k' c =
      if k' = k then
        (if (∃ j, g.vel k j ≠ 0) ∧ InView g e c then
          elemLink e (st.ioo c) (decide (st.ioo (fun j => c j + g.vel k j) = valout))
            (g.point c) (fun j => g.dx * (g.vel k j : K)) (st.link k' c)
        else st.link k' c)
      else st.link k' c := by
  unfold elemVel at h
  by_cases hz : ∀ j, g.vel k j = 0
  · rw [if_pos hz] at h
    simp only [Option.some.injEq] at h
    subst h
    refine ⟨rfl, fun k' c => ?_⟩
    have : ¬ ∃ j, g.vel k j ≠ 0 := by push Not; exact hz
    simp [this]
  rw [if_neg hz] at h
  have hz' : ∃ j, g.vel k j ≠ 0 := by push Not at hz; exact hz
  simp only [hz', true_and]
  by_cases hsz : ∀ j, viewSize g e j (g.vel k j) = viewSize g e j 0
  · rw [if_pos hsz] at h
    simp only [Option.some.injEq] at h
    subst h
    refine ⟨rfl, fun k' c => ?_⟩
    unfold elemLinks
    simp only [if_true]
    by_cases hk : k' = k
    · subst hk
      by_cases hv : InView g e c
      · simp only [hv, and_true, if_true]
        have : shifted g e (g.vel k') c = fun j => c j + g.vel k' j := by
          funext j
          unfold shifted
          obtain ⟨h0, ⟨_, h2⟩ | ⟨h1, _⟩⟩ := viewSize_cases hv j (hg.halo k' j)
          · rw [h2]; ring
          · have := hsz j; omega
        rw [this]
      · simp [hv]
    · simp [hk]
  rw [if_neg hsz] at h
  have hno : (∃ j, viewSize g e j 0 = 0) → ∀ c, ¬ InView g e c := by
    rintro ⟨j, hj⟩ c hv
    have := (viewSize_cases hv j (hg.halo k j)).1
    omega
  rw [if_pos hf] at h
  split_ifs at h with hb
  simp only [Option.some.injEq] at h
  subst h
  refine ⟨rfl, fun k' c => ?_⟩
  simp [hno hb.2 c]

/-- One fluid element, on every cell. -/
theorem addElem_fluid {g : Grid K 3 nv} (hg : g.WF) {e : Elem K 3} (hf : e.isFluid = true)
    (st st' : State K 3 nv) (h : addElem g st e = some st') : st'.ioo = (elemIoo g e st).ioo ∧
    ∀ k c, st'.link k c =
      if (∃ j, g.vel k j ≠ 0) ∧ InView g e c then
        elemLink e (st'.ioo c) (decide (st'.ioo (fun j => c j + g.vel k j) = valout))
          (g.point c) (fun j => g.dx * (g.vel k j : K)) (st.link k c)
      else st.link k c := by
  unfold addElem at h
  obtain ⟨hi, hl⟩ := foldVel (fun st k => elemVel g e k st) State.ioo State.link
    (fun k c L => if (∃ j, g.vel k j ≠ 0) ∧ InView g e c then
        elemLink e ((elemIoo g e st).ioo c)
          (decide ((elemIoo g e st).ioo (fun j => c j + g.vel k j) = valout))
          (g.point c) (fun j => g.dx * (g.vel k j : K)) L
      else L) (elemIoo g e st).ioo
    (by
      intro s k s' hio hs
      obtain ⟨a, b⟩ := elemVel_fluid hg hf k s s' hs
      refine ⟨a.trans hio, fun k' c => ?_⟩
      rw [b k' c, hio]
      by_cases hk : k' = k
      · subst hk; simp
      · simp [hk])
    _ (List.nodup_finRange nv) _ st' rfl h
  refine ⟨hi, fun k c => ?_⟩
  rw [hl k c, if_pos (List.mem_finRange k), hi]
  rfl

theorem fold_small {g : Grid K 3 nv} (l : List (Elem K 3)) (hl : ∀ e ∈ l, e.Sound) (s s' : State K 3 nv) (hs : Small s)
    (h : l.foldlM (addElem g) s = some s') : Small s' := by
  induction l generalizing s with
  | nil => simp only [List.foldlM_nil, Option.pure_def, Option.some.injEq] at h; exact h ▸ hs
  | cons e l ih =>
    simp only [List.foldlM_cons, Option.bind_eq_bind, Option.bind_eq_some_iff] at h
    obtain ⟨s1, h1, h2⟩ := h
    exact ih (fun e' h' => hl e' (by simp [h'])) s1
      ((item_add (it := .plain e) (g := g) (hl e (by simp)) (lt_add_one (999 : K)) s hs).2 s1 h1) h2

/-- **C87 fails for fluid parts.** Any geometry whose last element is a fluid part read from an STL file: take a cell of
the box inside this part and a link to a cell out of the box.  When the surface does not cut the link, the link is given
an infinite distance and the label -1, whatever the label of the face of the box. -/
theorem C87_box_label_negation (g : Grid K 3 nv) (hg : g.WF) (pre : List (Elem K 3)) (hpre : ∀ e ∈ pre, e.Sound)
    (m : Mesh K) (label : Int) (top : K) (ht : 999 < top) (st : State K 3 nv)
    (h : build g (pre ++ [stlElem m label true top]) = some st) (c : Cell 3) (hc : g.Interior c) (k : Fin nv)
    (hb : ∀ j, meshMin m j ≤ g.cellCentre c j ∧ g.cellCentre c j ≤ meshMax m j)
    (hin : pointInside m (g.cellCentre c) = true) (hout : ¬ g.Interior (g.target k c))
    (hno : ∀ t s, Hits m (g.cellCentre c) (fun j => g.dx * (g.vel k j : K)) t s → 1 < s) :
    (st.link k c).dist = top ∧ (st.link k c).flag = -1 ∧ st.ioo c = 999 := by
  obtain ⟨s0, s2, h0, h1, rfl⟩ := build_some h
  rw [List.foldlM_append] at h1
  simp only [Option.bind_eq_bind, Option.bind_eq_some_iff, List.foldlM_cons, List.foldlM_nil, Option.pure_def,
    Option.some.injEq] at h1
  obtain ⟨s1, h1, s2', h2, rfl⟩ := h1
  have hsm := fold_small pre hpre s0 s1 (init_small h0) h1
  set e := stlElem m label true top with he
  obtain ⟨hio, hl⟩ := addElem_fluid hg (e := e) rfl s1 s2' h2
  rw [← point_eq hg hc] at hb hin hno
  have hV : InView g e c := by
    refine inView_of_bounds (t := c) hg hc (fun j => ?_) (fun j => ?_) hb
    · have := hc j
      unfold Grid.total
      omega
    · simp
  have hVt : ¬ InView g e (g.target k c) := by
    intro hv
    apply hout
    intro j
    have hcj := hc j
    have hp : 0 < nmax g e j := nmax_pos hg (e := e) j (by unfold Grid.total; omega) (g.point c j) (hb j).2 (by
      unfold Grid.point
      rw [coord_sub hg j (i := c j) (by omega) (by unfold Grid.total; omega)]
      have h1 : (0 : K) ≤ (c j : K) := by exact_mod_cast (by omega : (0 : Int) ≤ c j)
      have h2 := mul_nonneg hg.dx.le h1
      have h3 : (0 : K) ≤ g.dx * (g.h j : K) := mul_nonneg hg.dx.le (Nat.cast_nonneg _)
      linarith)
    exact ⟨(view_range hv j).2.1, (view_pos hv j hp).2⟩
  have hz : ∃ j, g.vel k j ≠ 0 := by
    by_contra hz
    push Not at hz
    apply hout
    have : g.target k c = c := by funext j; simp [Grid.target, hz j]
    rwa [this]
  have hi0 : s1.ioo (g.target k c) = valout := by
    have := fold_ioo hg pre hpre s0 s1 (addInit_spec g s0 h0).1 h1 (g.target k c)
    rw [this, if_neg (fun h => hout h.1)]
  have hi1 : s2'.ioo (g.target k c) = valout := by
    rw [hio]
    unfold elemIoo
    simp only
    rw [if_neg (fun h => hVt h.1), hi0]
  have hi2 : s2'.ioo c = valin := by
    rw [hio]
    unfold elemIoo
    simp only
    rw [if_pos ⟨hV, hin⟩]
    rfl
  have hd : Stl.distance m label (some 1) (g.point c) (fun j => g.dx * (g.vel k j : K)) = (⊤, -1, fun _ => 0) := by
    obtain ⟨c1, -, c3⟩ := C71_first_hit m label (some 1) (g.point c) (fun j => g.dx * (g.vel k j : K))
    cases hd : (Stl.distance m label (some 1) (g.point c) (fun j => g.dx * (g.vel k j : K))).1 with
    | top => exact Prod.ext hd (c3 hd).1
    | coe s =>
      obtain ⟨⟨⟨t, h1⟩, h2⟩, -⟩ := (c1 s).1 hd
      exact absurd (h2 1 rfl) (not_le.2 (hno t s h1))
  have hlink : s2'.link k c = ⟨top, -1, fun _ => -0⟩ := by
    rw [hl k c, if_pos ⟨hz, hV⟩, hi2]
    have hi1' : s2'.ioo (fun j => c j + g.vel k j) = valout := hi1
    rw [hi1']
    have a1 : e.alpha (g.point c) (fun j => g.dx * (g.vel k j : K)) = top := by rw [he]; simp [stlElem, hd]
    have a2 : e.border (g.point c) (fun j => g.dx * (g.vel k j : K)) = -1 := by rw [he]; simp [stlElem, hd]
    have a3 : e.normvect (g.point c) (fun j => g.dx * (g.vel k j : K)) = fun _ => 0 := by rw [he]; simp [stlElem, hd]
    have a4 : e.inside (g.point c) = true := hin
    have a5 : e.isFluid = true := rfl
    unfold elemLink
    have hlt : (s1.link k c).dist < top := lt_of_le_of_lt (hsm k c) ht
    have h0t : 0 < top := by linarith
    simp [a1, a2, a3, a4, a5, hlt, h0t]
  unfold clean
  simp only [hi2, hlink]
  have : ¬ (0 < top ∧ valin = valout) := by simp [valin, valout]
  rw [if_neg this]
  exact ⟨rfl, rfl, rfl⟩

end Pylbm.Domain
