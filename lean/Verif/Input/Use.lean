import Verif.Input.Accept
/-!
# C91: what the constructors find in an accepted dictionary

The validation is not enough for the constructors: `Usable` is what is missing, and for an accepted dictionary the reads of
`Simulation` succeed exactly when it is `Usable`.
-/
namespace Pylbm.Input

/-! ## Specification -/

/-- The number of axes of the box that are counted: `x`, then `y`, then `z` if there is a `y`. -/
def axes (b : Dict) : Nat := if has b "y" then (if has b "z" then 3 else 2) else 1

/-- A function with a tuple of arguments in a tuple. -/
def FuncArgs (v : Val) : Prop := ∃ f a, v = .tuple [f, .tuple a]

/-- What an accepted dictionary must satisfy in addition. -/
structure Usable (d : Dict) (labels : List Int) (points : Int → Key → Bool) : Prop where
  /-- the box has an interval `x` -/
  x : ∀ b, get d "box" = some (.dict b) → has b "x" = true
  /-- its label is an integer or a list, not a tuple -/
  label : ∀ b v, get d "box" = some (.dict b) → get b "label" = some v → (∃ z, v = .int z) ∨ ∃ l, v = .list l
  /-- the elements have its dimension -/
  elements : ∀ b v l n, get d "box" = some (.dict b) → get d "elements" = some v → seq? v = some l → .element n ∈ l →
    n = axes b
  /-- the space step is not 0 -/
  step : ∀ v, get d "space_step" = some v → isZero v = false
  /-- there is at least one velocity -/
  velocity : ∃ v l s w z, get d "schemes" = some v ∧ seq? v = some l ∧ .dict s ∈ l ∧ get s "velocities" = some w ∧
    seq? w = some z ∧ z ≠ []
  /-- `M` is for one scheme -/
  moments : ∀ v l s, get d "schemes" = some v → seq? v = some l → .dict s ∈ l → has s "M" = true → l.length = 1
  /-- the options of the generated code have the directory -/
  directory : ∀ o, get d "codegen_option" = some (.dict o) → o = [] ∨ has o "directory" = true
  /-- each label has an entry with its methods, for schemes which exist, and its value is a function or a tuple -/
  boundary : ∀ z ∈ labels, z ≠ -1 → z ≠ -2 → ∃ b e m, get d "boundary_conditions" = some (.dict b) ∧
    getInt b z = some (.dict e) ∧ get e "method" = some (.dict m) ∧
    (∀ k : Int, (∃ v, (Key.int k, v) ∈ m) → ∀ v l, get d "schemes" = some v → seq? v = some l →
      -(l.length : Int) ≤ k ∧ k < l.length) ∧
    ((∃ k v, (k, v) ∈ m ∧ points z k = true) → ∀ v, get e "value" = some v → v = .func ∨ FuncArgs v)
  /-- the initial values are numbers, functions or tuples -/
  init : ∀ l k v, get d "init" = some (.dict l) → (k, v) ∈ l → isNumber v = true ∨ v = .func ∨ FuncArgs v

/-! ## Lemmas -/

theorem mem_of_get {d : Dict} {k : String} {v : Val} (h : get d k = some v) : (.str k, v) ∈ d := by
  rw [get, Option.map_eq_some_iff] at h
  obtain ⟨p, hp, rfl⟩ := h
  have h1 := List.find?_some hp
  have h2 := List.mem_of_find?_eq_some hp
  rw [decide_eq_true_eq] at h1
  rw [← h1]
  exact h2

theorem has_eq_get (d : Dict) (k : String) : has d k = (get d k).isSome := by
  rw [has, get, Option.isSome_map, Bool.eq_iff_iff, List.find?_isSome, List.any_eq_true]

theorem get_of_has {d : Dict} {k : String} (h : has d k = true) : ∃ v, get d k = some v := by
  rw [has_eq_get] at h
  exact Option.isSome_iff_exists.1 h

theorem get_none {d : Dict} {k : String} (h : has d k = false) : get d k = none := by
  rw [has_eq_get] at h
  simpa using h

theorem get_typed {F : List Field} {d : Dict} (ht : Typed F d) {k : String} {v : Val} (h : get d k = some v) :
    ∃ f ∈ F, f.name = k ∧ f.check v = true := by
  obtain ⟨f, hf, hn, hc⟩ := ht _ (mem_of_get h)
  exact ⟨f, hf, (Key.str.inj hn).symm, hc⟩

theorem bind_ok {α β : Type} (x : Res α) (f : α → Res β) (b : β) :
    x >>= f = .ok b ↔ ∃ a, x = .ok a ∧ f a = .ok b := by
  cases x with
  | error e =>
    constructor
    · intro h
      cases h
    · rintro ⟨a, h, _⟩
      cases h
  | ok a =>
    constructor
    · intro h
      exact ⟨a, rfl, h⟩
    · rintro ⟨a', h, h'⟩
      cases h
      exact h'

/-- A computation which ends without an exception. -/
def Ok {α : Type} (x : Res α) : Prop := ∃ a, x = .ok a

theorem ok_bind {α β : Type} (x : Res α) (f : α → Res β) : Ok (x >>= f) ↔ ∃ a, x = .ok a ∧ Ok (f a) := by
  constructor
  · rintro ⟨b, hb⟩
    obtain ⟨a, ha, hf⟩ := (bind_ok x f b).1 hb
    exact ⟨a, ha, b, hf⟩
  · rintro ⟨a, ha, b, hb⟩
    exact ⟨b, (bind_ok x f b).2 ⟨a, ha, hb⟩⟩

theorem ok_ok {α : Type} (a : α) : Ok (Except.ok a : Res α) := ⟨a, rfl⟩

theorem ok_pure {α : Type} (a : α) : Ok (pure a : Res α) := ⟨a, rfl⟩

theorem not_ok {α : Type} (e : Exc) : ¬ Ok (Except.error e : Res α) := by
  rintro ⟨a, h⟩
  cases h

theorem ok_mapM {α β : Type} (f : α → Res β) (l : List α) : Ok (l.mapM f) ↔ ∀ a ∈ l, Ok (f a) := by
  induction l with
  | nil => simp [ok_pure]
  | cons a l ih =>
    rw [List.mapM_cons, ok_bind]
    constructor
    · rintro ⟨b, hb, h⟩
      obtain ⟨c, hc, _⟩ := (ok_bind _ _).1 h
      intro x hx
      rcases List.mem_cons.1 hx with rfl | hx
      · exact ⟨b, hb⟩
      · exact ih.1 ⟨c, hc⟩ x hx
    · intro h
      obtain ⟨b, hb⟩ := h a (by simp)
      obtain ⟨c, hc⟩ := ih.2 fun x hx => h x (by simp [hx])
      exact ⟨b, hb, (ok_bind _ _).2 ⟨c, hc, ok_pure _⟩⟩

/-- The values of a `mapM` without exceptions. -/
theorem mapM_ok {α β : Type} {f : α → Res β} {l : List α} {r : List β} (h : l.mapM f = .ok r) :
    r.length = l.length ∧ (∀ a ∈ l, ∃ b ∈ r, f a = .ok b) ∧ ∀ b ∈ r, ∃ a ∈ l, f a = .ok b := by
  induction l generalizing r with
  | nil =>
    rw [List.mapM_nil] at h
    cases h
    simp
  | cons a l ih =>
    rw [List.mapM_cons, bind_ok] at h
    obtain ⟨b, hb, h⟩ := h
    obtain ⟨c, hc, h⟩ := (bind_ok _ _ _).1 h
    cases h
    obtain ⟨h1, h2, h3⟩ := ih hc
    refine ⟨by simp [h1], ?_, ?_⟩
    · intro x hx
      rcases List.mem_cons.1 hx with rfl | hx
      · exact ⟨b, by simp, hb⟩
      · obtain ⟨y, hy, h⟩ := h2 x hx
        exact ⟨y, by simp [hy], h⟩
    · intro y hy
      rcases List.mem_cons.1 hy with rfl | hy
      · exact ⟨a, by simp, hb⟩
      · obtain ⟨x, hx, h⟩ := h3 y hy
        exact ⟨x, by simp [hx], h⟩

theorem ok_item (d : Dict) (k : String) : Ok (item d k) ↔ has d k = true := by
  rw [has_eq_get, item]
  cases get d k with
  | none => simp [not_ok]
  | some v => simp [ok_ok]

theorem item_ok {d : Dict} {k : String} {v : Val} (h : get d k = some v) : item d k = .ok v := by
  rw [item, h]

theorem asSeq_ok {v : Val} {l : List Val} (h : seq? v = some l) : asSeq v = .ok l := by
  rw [asSeq, h]

/-! ## The values of an accepted dictionary -/

section values

variable {c : Cls} {d : Dict} (ht : Typed (mainFields c) d) {v : Val}
include ht

theorem typed_box (h : get d "box" = some v) : ∃ b, v = .dict b ∧ fields boxFields b = true := by
  have h := get_typed ht h
  simp [mainFields] at h
  cases v with
  | dict b => exact ⟨b, rfl, h⟩
  | _ => simp [mapping] at h

theorem typed_elements (h : get d "elements" = some v) : seqOf isElement v = true := by
  have h := get_typed ht h
  simpa [mainFields] using h

theorem typed_schemes (h : get d "schemes" = some v) : seqOf (mapping (schemeFields c)) v = true := by
  have h := get_typed ht h
  simpa [mainFields] using h

theorem typed_parameters (h : get d "parameters" = some v) : dictOf isSymbol numOrExpr v = true := by
  have h := get_typed ht h
  simpa [mainFields] using h

theorem typed_init (h : get d "init" = some v) : dictOf (fun k => isSymbol k || isNumber k)
    (fun v => isNumber v || isFunc v || pairOf isFunc isSeq v) v = true := by
  have h := get_typed ht h
  simpa [mainFields] using h

theorem typed_boundary (h : get d "boundary_conditions" = some v) : dictOf isInt boundaryEntry v = true := by
  have h := get_typed ht h
  simpa [mainFields] using h

theorem typed_codegen (h : get d "codegen_option" = some v) : ∃ o, v = .dict o := by
  have h := get_typed ht h
  simp [mainFields] at h
  cases v with
  | dict b => exact ⟨b, rfl⟩
  | _ => simp [mapping] at h

end values

theorem seqOf_some {f : Val → Bool} {v : Val} (h : seqOf f v = true) : ∃ l, seq? v = some l ∧ ∀ a ∈ l, f a = true := by
  rw [seqOf] at h
  split at h
  · rename_i l hl
    exact ⟨l, hl, List.all_eq_true.1 h⟩
  · cases h

theorem dictOf_some {f g : Val → Bool} {v : Val} (h : dictOf f g v = true) :
    ∃ l, v = .dict l ∧ ∀ p ∈ l, f p.1.toVal = true ∧ g p.2 = true := by
  cases v with
  | dict l => exact ⟨l, rfl, by simpa [dictOf] using h⟩
  | _ => simp [dictOf] at h

/-! ## The reads one by one -/

theorem getBox_eq {d b : Dict} (hb : get d "box" = some (.dict b)) : getBox d = boxBounds b := by
  rw [getBox, hb]
  rfl

theorem getBox_of_x {d b : Dict} (hb : get d "box" = some (.dict b)) (hx : has b "x" = true) :
    ∃ q, getBox d = .ok (axes b, q) := by
  obtain ⟨x, hx⟩ := get_of_has hx
  simp only [getBox_eq hb, boxBounds, hx, axes, has_eq_get]
  cases get b "y" <;> cases get b "z" <;> exact ⟨_, rfl⟩

theorem getBox_no_x {d b : Dict} (hb : get d "box" = some (.dict b)) (hx : has b "x" = false) :
    getBox d = .error .unbound := by
  rw [getBox_eq hb, boxBounds, get_none hx]

theorem ok_boxLabel {d b : Dict} (hb : get d "box" = some (.dict b)) (n : Nat) :
    Ok (boxLabel d n) ↔ ∀ v, get b "label" = some v → (∃ z, v = .int z) ∨ ∃ l, v = .list l := by
  have h : boxLabel d n = match get b "label" with
    | none => .ok (List.replicate (2 * n) (.int (-1)))
    | some (.int z) => .ok (List.replicate (2 * n) (.int z))
    | some (.list l) => .ok l
    | some _ => .error .attributeError := by
    simp only [boxLabel, item, hb]
    rfl
  rw [h]
  cases get b "label" with
  | none => simp [ok_ok]
  | some v => cases v <;> simp [ok_ok, not_ok]

theorem ok_elements {c : Cls} {d : Dict} (ht : Typed (mainFields c) d) (n : Nat) :
    Ok (elements d n) ↔ ∀ v l m, get d "elements" = some v → seq? v = some l → .element m ∈ l → m = n := by
  rw [elements]
  cases hg : get d "elements" with
  | none => simp [ok_pure]
  | some v =>
    obtain ⟨l, hl, hl'⟩ := seqOf_some (typed_elements ht hg)
    simp only [ok_bind, asSeq_ok hl, Except.ok.injEq, exists_eq_left']
    split
    · rename_i h
      refine ⟨fun _ => ?_, fun _ => ok_pure _⟩
      rintro v' l' m h1 h2 h3
      cases h1
      rw [hl] at h2
      cases h2
      simpa using List.all_eq_true.1 h _ h3
    · rename_i h
      refine ⟨fun h' => absurd h' (not_ok _), fun h' => absurd ?_ h⟩
      rw [List.all_eq_true]
      intro e he
      have := hl' e he
      cases e <;> simp [isElement] at this ⊢
      exact h' v l _ rfl hl he

theorem ok_geometry {c : Cls} {d b : Dict} (ht : Typed (mainFields c) d) (hb : get d "box" = some (.dict b)) :
    Ok (geometry d) ↔ has b "x" = true ∧
      (∀ v, get b "label" = some v → (∃ z, v = .int z) ∨ ∃ l, v = .list l) ∧
      ∀ v l m, get d "elements" = some v → seq? v = some l → .element m ∈ l → m = axes b := by
  rw [geometry, ok_bind]
  constructor
  · rintro ⟨r, hr, h⟩
    obtain ⟨a, ha, h⟩ := (ok_bind _ _).1 h
    obtain ⟨e, he, _⟩ := (ok_bind _ _).1 h
    have hx : has b "x" = true := by
      by_contra hx
      rw [getBox_no_x hb (by simpa using hx)] at hr
      cases hr
    obtain ⟨q, hq⟩ := getBox_of_x hb hx
    rw [hq] at hr
    cases hr
    exact ⟨hx, (ok_boxLabel hb _).1 ⟨a, ha⟩, (ok_elements ht _).1 ⟨e, he⟩⟩
  · rintro ⟨hx, hl, he⟩
    obtain ⟨q, hq⟩ := getBox_of_x hb hx
    obtain ⟨a, ha⟩ := (ok_boxLabel hb (axes b)).2 hl
    obtain ⟨e, he⟩ := (ok_elements ht (axes b)).2 he
    exact ⟨_, hq, (ok_bind _ _).2 ⟨a, ha, (ok_bind _ _).2 ⟨e, he, ok_pure _⟩⟩⟩

theorem geometry_dim {d b : Dict} (hb : get d "box" = some (.dict b)) {g : Geom} (h : geometry d = .ok g) :
    g.dim = axes b := by
  rw [geometry, bind_ok] at h
  obtain ⟨r, hr, h⟩ := h
  obtain ⟨a, _, h⟩ := (bind_ok _ _ _).1 h
  obtain ⟨e, _, h⟩ := (bind_ok _ _ _).1 h
  cases h
  by_cases hx : has b "x" = true
  · obtain ⟨q, hq⟩ := getBox_of_x hb hx
    rw [hq] at hr
    cases hr
    rfl
  · rw [getBox_no_x hb (by simpa using hx)] at hr
    cases hr

/-- The velocities of the schemes. -/
def velocities (s : Val) : Res (List Val) := do asSeq (← item (← asDict s) "velocities")

theorem scheme_velocities {c : Cls} (hc : c = .scheme ∨ c = .simulation) {s : Val}
    (h : mapping (schemeFields c) s = true) : ∃ t w z, s = .dict t ∧ get t "velocities" = some w ∧ seq? w = some z ∧
      velocities s = .ok z := by
  cases s with
  | dict t =>
    obtain ⟨ht, hv, _⟩ := (C91_one_scheme c hc t).1 h
    obtain ⟨w, hw⟩ := get_of_has hv
    have h1 := get_typed ht hw
    simp [schemeFields] at h1
    obtain ⟨z, hz, _⟩ := seqOf_some h1
    refine ⟨t, w, z, rfl, hw, hz, ?_⟩
    simp only [velocities, asDict]
    exact (bind_ok _ _ _).2 ⟨t, rfl, (bind_ok _ _ _).2 ⟨w, item_ok hw, asSeq_ok hz⟩⟩
  | _ => simp [mapping] at h

theorem extractDim_box {d : Dict} (hd : has d "dim" = false) : extractDim d = (do let b ← getBox d; return b.1) := by
  rw [extractDim, get_none hd]

theorem stencil_eq (d : Dict) : stencil d = (do
    let dim ← extractDim d
    let schemes ← asSeq (← item d "schemes")
    let v ← schemes.mapM velocities
    if v.all List.isEmpty then .error .valueError else return (dim, v)) := rfl

theorem ok_stencil {c : Cls} (hc : c = .scheme ∨ c = .simulation) {d b : Dict} (ht : Typed (mainFields c) d)
    (hd : has d "dim" = false) (hb : get d "box" = some (.dict b)) {v : Val} {l : List Val}
    (hs : get d "schemes" = some v) (hl : seq? v = some l) :
    (Ok (stencil d) ↔ has b "x" = true ∧ ∃ s w z, .dict s ∈ l ∧ get s "velocities" = some w ∧ seq? w = some z ∧ z ≠ []) ∧
    ∀ r, stencil d = .ok r → r.1 = axes b ∧ r.2.length = l.length := by
  obtain ⟨l', hl', hm⟩ := seqOf_some (typed_schemes ht hs)
  rw [hl] at hl'
  cases hl'
  have hv : Ok (l.mapM velocities) := (ok_mapM _ _).2 fun s hs => by
    obtain ⟨t, w, z, _, _, _, h⟩ := scheme_velocities hc (hm s hs)
    exact ⟨z, h⟩
  obtain ⟨vs, hvs⟩ := hv
  have h2 := mapM_ok hvs
  rw [stencil_eq, extractDim_box hd]
  by_cases hx : has b "x" = true
  swap
  · have hx' : has b "x" = false := by simpa using hx
    rw [getBox_no_x hb hx']
    refine ⟨⟨fun h => ?_, fun h => absurd h.1 hx⟩, fun r h => ?_⟩
    · obtain ⟨a, h⟩ := h
      cases h
    · cases h
  obtain ⟨q, hq⟩ := getBox_of_x hb hx
  have he : (do
      let dim ← (do let b ← getBox d; return b.1)
      let schemes ← asSeq (← item d "schemes")
      let v ← schemes.mapM velocities
      if v.all List.isEmpty then .error .valueError else return (dim, v) : Res (Nat × List (List Val))) =
      if vs.all List.isEmpty then .error .valueError else .ok (axes b, vs) := by
    rw [hq, item_ok hs]
    change (asSeq v >>= fun schemes => schemes.mapM velocities >>= fun w => _) = _
    rw [asSeq_ok hl]
    change (l.mapM velocities >>= fun w => _) = _
    rw [hvs]
    rfl
  rw [he]
  constructor
  · split
    · rename_i hall
      refine ⟨fun h => absurd h (not_ok _), ?_⟩
      rintro ⟨_, s, w, z, hs', hw, hz, hne⟩
      exfalso
      have : velocities (.dict s) = .ok z := by
        simp only [velocities, asDict]
        exact (bind_ok _ _ _).2 ⟨s, rfl, (bind_ok _ _ _).2 ⟨w, item_ok hw, asSeq_ok hz⟩⟩
      obtain ⟨z', hz', hzz⟩ := h2.2.1 _ hs'
      rw [this] at hzz
      cases hzz
      have := List.all_eq_true.1 hall _ hz'
      exact hne (by simpa using this)
    · rename_i hall
      refine ⟨fun _ => ⟨hx, ?_⟩, fun _ => ok_ok _⟩
      simp only [List.all_eq_true, not_forall] at hall
      obtain ⟨z, hz, hne⟩ := hall
      obtain ⟨s, hs', hsz⟩ := h2.2.2 z hz
      obtain ⟨t, w, z', rfl, hw, hz', h⟩ := scheme_velocities hc (hm s hs')
      rw [hsz] at h
      cases h
      exact ⟨t, w, z, hs', hw, hz', by simpa using hne⟩
  · intro r hr
    split at hr
    · cases hr
    · cases hr
      exact ⟨rfl, h2.1⟩

theorem ok_domain {d : Dict} {dx : Val} (hdx : get d "space_step" = some dx) :
    Ok (domain d) ↔ Ok (geometry d) ∧ Ok (stencil d) ∧ isZero dx = false := by
  rw [domain, ok_bind]
  constructor
  · rintro ⟨g, hg, h⟩
    obtain ⟨r, hr, h⟩ := (ok_bind _ _).1 h
    rw [item_ok hdx, ok_bind] at h
    obtain ⟨_, h', h⟩ := h
    cases h'
    refine ⟨⟨g, hg⟩, ⟨r, hr⟩, ?_⟩
    by_contra hz
    rw [if_pos (by simpa using hz)] at h
    exact not_ok _ h
  · rintro ⟨⟨g, hg⟩, ⟨r, hr⟩, hz⟩
    refine ⟨g, hg, (ok_bind _ _).2 ⟨r, hr, (ok_bind _ _).2 ⟨dx, item_ok hdx, ?_⟩⟩⟩
    rw [if_neg (by simp [hz])]
    exact ok_pure _

theorem timeAndSpace_eq {c : Cls} {d : Dict} (ht : Typed (mainFields c) d) :
    timeAndSpace d = .ok [.symbol "t", .symbol "X", .symbol "Y", .symbol "Z"] := by
  rw [timeAndSpace]
  cases hp : get d "parameters" with
  | none => rfl
  | some v =>
    obtain ⟨p, rfl, h⟩ := dictOf_some (typed_parameters ht hp)
    have hg : ∀ k, get p k = none := by
      intro k
      cases hk : get p k with
      | none => rfl
      | some w =>
        have := (h _ (mem_of_get hk)).1
        simp [Key.toVal, isSymbol] at this
    change Except.ok [(get p "time").getD (.symbol "t"), (get p "space_x").getD (.symbol "X"),
      (get p "space_y").getD (.symbol "Y"), (get p "space_z").getD (.symbol "Z")] = _
    simp only [hg, Option.getD_none]

/-- The polynomials or the relaxation parameters of one scheme. -/
def entry (k : String) (s : Dict) : Res (List Val) := do asSeq (← item s k)

theorem entry_ok {k : String} {s : Dict} {w : Val} {z : List Val} (hw : get s k = some w) (hz : seq? w = some z) :
    entry k s = .ok z := by
  rw [entry]
  exact (bind_ok _ _ _).2 ⟨w, item_ok hw, asSeq_ok hz⟩

theorem scheme_entry {s : Dict} (h : mapping (schemeFields .simulation) (.dict s) = true) {k : String}
    (hk : k = "polynomials" ∨ k = "relaxation_parameters") (hs : has s k = true) : Ok (entry k s) := by
  obtain ⟨ht, _⟩ := (C91_one_scheme .simulation (Or.inr rfl) s).1 h
  obtain ⟨w, hw⟩ := get_of_has hs
  have h1 := get_typed ht hw
  rcases hk with rfl | rfl
  · simp [schemeFields] at h1
    obtain ⟨z, hz, _⟩ := seqOf_some h1
    exact ⟨z, entry_ok hw hz⟩
  · simp [schemeFields] at h1
    obtain ⟨z, hz, _⟩ := seqOf_some h1
    exact ⟨z, entry_ok hw hz⟩

theorem ok_scheme {d : Dict} (ht : Typed (mainFields .simulation) d)
    (hla : has d "scheme_velocity" = true) {v : Val} {l : List Val}
    (hs : get d "schemes" = some v) (hl : seq? v = some l) :
    (Ok (scheme d) ↔ Ok (stencil d) ∧ ∀ s, .dict s ∈ l → has s "M" = true → l.length = 1) ∧
    ∀ r s, scheme d = .ok r → stencil d = .ok s → r.1 = s.1 := by
  obtain ⟨l', hl', hm⟩ := seqOf_some (typed_schemes ht hs)
  rw [hl] at hl'
  cases hl'
  obtain ⟨la, hla⟩ := (ok_item _ _).2 hla
  obtain ⟨ds, hds⟩ : Ok (l.mapM asDict) := (ok_mapM _ _).2 fun s hs => by
    have := hm s hs
    cases s with
    | dict t => exact ⟨t, rfl⟩
    | _ => simp [mapping] at this
  obtain ⟨hlen, hd1, hd2⟩ := mapM_ok hds
  have hds' : ∀ t ∈ ds, .dict t ∈ l := by
    intro t ht'
    obtain ⟨s, hs, h⟩ := hd2 t ht'
    cases s <;> cases h
    exact hs
  have hds'' : ∀ t, .dict t ∈ l → t ∈ ds := by
    intro t ht'
    obtain ⟨s, hs, h⟩ := hd1 _ ht'
    cases h
    exact hs
  obtain ⟨re, hre⟩ : Ok (ds.mapM (entry "relaxation_parameters")) := (ok_mapM _ _).2 fun t ht' =>
    scheme_entry (hm _ (hds' t ht')) (Or.inr rfl)
      ((C91_one_scheme .simulation (Or.inr rfl) t).1 (hm _ (hds' t ht'))).2.2.2.2.1
  have he : scheme d = (stencil d >>= fun w =>
      if ds.length = 1 ∧ ds.all (has · "M") then .ok (w.1, .matrix)
      else ds.mapM (entry "polynomials") >>= fun p => .ok (w.1, .polynomials p)) := by
    rw [scheme, hla, timeAndSpace_eq ht, item_ok hs]
    congr 1
    funext w
    change (asSeq v >>= fun schemes => schemes.mapM asDict >>= fun ds =>
      ds.mapM (entry "relaxation_parameters") >>= fun _ => _) = _
    rw [asSeq_ok hl]
    change (l.mapM asDict >>= fun ds =>
      ds.mapM (entry "relaxation_parameters") >>= fun _ => _) = _
    rw [hds]
    change (ds.mapM (entry "relaxation_parameters") >>= fun _ => _) = _
    rw [hre]
    rfl
  rw [he]
  constructor
  · rw [ok_bind]
    constructor
    · rintro ⟨w, hw, h⟩
      refine ⟨⟨w, hw⟩, ?_⟩
      intro s hsl hM
      by_contra hlen'
      rw [if_neg (by rw [hlen]; exact fun h => hlen' h.1), ok_bind] at h
      obtain ⟨p, hp, _⟩ := h
      obtain ⟨q, _, hq⟩ := (mapM_ok hp).2.1 s (hds'' s hsl)
      rw [entry] at hq
      obtain ⟨w', hw', _⟩ := (bind_ok _ _ _).1 hq
      have := (ok_item _ _).1 ⟨w', hw'⟩
      rw [((C91_one_scheme .simulation (Or.inr rfl) s).1 (hm _ hsl)).2.2.1.1 hM] at this
      cases this
    · rintro ⟨⟨w, hw⟩, h⟩
      refine ⟨w, hw, ?_⟩
      split
      · exact ok_ok _
      · rename_i hn
        have hp : Ok (ds.mapM (entry "polynomials")) := (ok_mapM _ _).2 fun t ht' => by
          refine scheme_entry (hm _ (hds' t ht')) (Or.inl rfl) ?_
          by_contra hpoly
          have hpoly : has t "polynomials" = false := by simpa using hpoly
          have hM := ((C91_one_scheme .simulation (Or.inr rfl) t).1 (hm _ (hds' t ht'))).2.2.1.2 hpoly
          have hlen' := h t (hds' t ht') hM
          apply hn
          rw [hlen]
          refine ⟨hlen', ?_⟩
          rw [List.all_eq_true]
          intro x hx
          obtain ⟨y, hy⟩ := List.length_eq_one_iff.1 (hlen.trans hlen')
          rw [hy] at hx ht'
          rw [List.mem_singleton.1 hx, ← List.mem_singleton.1 ht']
          exact hM
        obtain ⟨p, hp⟩ := hp
        rw [hp]
        exact ok_ok _
  · intro r w hr hw
    rw [hw] at hr
    change (if ds.length = 1 ∧ ds.all (has · "M") then .ok (w.1, Moments.matrix)
      else ds.mapM (entry "polynomials") >>= fun p => .ok (w.1, Moments.polynomials p)) = _ at hr
    split at hr
    · cases hr
      rfl
    · obtain ⟨p, _, h⟩ := (bind_ok _ _ _).1 hr
      cases h
      rfl

theorem ok_codegen {c : Cls} {d : Dict} (ht : Typed (mainFields c) d) :
    Ok (codegen d) ↔ ∀ o, get d "codegen_option" = some (.dict o) → o = [] ∨ has o "directory" = true := by
  rw [codegen]
  cases hg : get d "codegen_option" with
  | none => simp [ok_pure]
  | some v =>
    obtain ⟨o, rfl⟩ := typed_codegen ht hg
    have : (do
      let o ← asDict (.dict o)
      if o.isEmpty then return none else return some (← item o "directory") : Res (Option Val)) =
      if o.isEmpty then .ok none else item o "directory" >>= fun v => .ok (some v) := rfl
    simp only [] at this ⊢
    rw [this]
    split
    · rename_i he
      refine ⟨?_, fun _ => ok_ok _⟩
      rintro _ o' h
      cases h
      exact Or.inl (by simpa using he)
    · rename_i he
      rw [ok_bind]
      constructor
      · rintro ⟨w, hw, _⟩ o' h
        cases h
        exact Or.inr ((ok_item _ _).1 ⟨w, hw⟩)
      · intro h
        rcases h o rfl with rfl | h
        · exact absurd rfl he
        · obtain ⟨w, hw⟩ := (ok_item _ _).2 h
          exact ⟨w, hw, ok_ok _⟩

theorem ok_initValue {v : Val} (h : (isNumber v || isFunc v || pairOf isFunc isSeq v) = true) :
    Ok (initValue v) ↔ isNumber v = true ∨ v = .func ∨ FuncArgs v := by
  cases v with
  | int z => simp [isNumber, initValue, ok_pure]
  | float z => simp [isNumber, initValue, ok_pure]
  | func => simp [initValue, ok_pure]
  | tuple l =>
    simp only [isNumber, isFunc, pairOf, seq?] at h
    split at h
    · rename_i a b hl
      cases hl
      cases b <;> simp [isNumber, initValue, ok_pure, not_ok, FuncArgs]
    · simp at h
  | list l => simp [isNumber, initValue, not_ok, FuncArgs]
  | _ => simp [isNumber, isFunc, pairOf, seq?] at h

theorem ok_initialization {c : Cls} {d : Dict} (ht : Typed (mainFields c) d) :
    Ok (initialization d) ↔
      ∀ l k v, get d "init" = some (.dict l) → (k, v) ∈ l → isNumber v = true ∨ v = .func ∨ FuncArgs v := by
  rw [initialization]
  cases hg : get d "init" with
  | none => simp [ok_pure]
  | some v =>
    obtain ⟨l, rfl, hl⟩ := dictOf_some (typed_init ht hg)
    change Ok (l.mapM fun p => initValue p.2) ↔ _
    rw [ok_mapM]
    constructor
    · rintro h l' k v h' hkv
      cases h'
      exact (ok_initValue (hl _ hkv).2).1 (h _ hkv)
    · intro h p hp
      exact (ok_initValue (hl _ hp).2).2 (h l p.1 p.2 rfl hp)

/-! ## The boundary conditions -/

theorem pyIndex_isSome {α : Type} (l : List α) (k : Int) :
    (pyIndex l k).isSome = true ↔ -(l.length : Int) ≤ k ∧ k < l.length := by
  rw [pyIndex]
  split
  · rw [isSome_getElem?]
    omega
  · split
    · simp
      omega
    · rw [isSome_getElem?]
      omega

theorem ok_methodVelocities (nv : List Nat) (k : Int) :
    Ok (methodVelocities nv (.int k)) ↔ -(nv.length : Int) ≤ k ∧ k < nv.length := by
  rw [← pyIndex_isSome, methodVelocities]
  cases h : pyIndex nv k with
  | none => simp [not_ok]
  | some n =>
    have h1 := (pyIndex_isSome nv k).1 (by rw [h]; rfl)
    have h2 := (pyIndex_isSome (nv.scanl (· + ·) 0) k).2 (by rw [List.length_scanl]; omega)
    obtain ⟨p, hp⟩ := Option.isSome_iff_exists.1 h2
    simp [hp, ok_ok]

theorem ok_boundaryValue {v : Val} (h : (isFunc v || pairOf isFunc nullOrSeq v) = true) :
    Ok (boundaryValue (some v)) ↔ v = .func ∨ FuncArgs v := by
  cases v with
  | func => simp [boundaryValue, ok_pure]
  | tuple l =>
    simp only [isFunc, pairOf, seq?] at h
    split at h
    · rename_i a b hl
      cases hl
      cases b <;> simp [boundaryValue, ok_pure, not_ok, FuncArgs]
    · simp at h
  | list l => simp [boundaryValue, not_ok, FuncArgs]
  | _ => simp [isFunc, pairOf, seq?] at h

theorem getInt_mem {b : Dict} {z : Int} {v : Val} (h : getInt b z = some v) : (.int z, v) ∈ b := by
  rw [getInt, Option.map_eq_some_iff] at h
  obtain ⟨p, hp, rfl⟩ := h
  have h1 := List.find?_some hp
  have h2 := List.mem_of_find?_eq_some hp
  rw [decide_eq_true_eq] at h1
  rw [← h1]
  exact h2

theorem ok_boundaryLabel (nv : List Nat) (points : Int → Key → Bool) {b : Dict}
    (hb : ∀ p ∈ b, boundaryEntry p.2 = true) (z : Int) :
    Ok (boundaryLabel nv points b z) ↔ ∃ e m, getInt b z = some (.dict e) ∧ get e "method" = some (.dict m) ∧
      (∀ k : Int, (∃ v, (Key.int k, v) ∈ m) → -(nv.length : Int) ≤ k ∧ k < nv.length) ∧
      ((∃ k v, (k, v) ∈ m ∧ points z k = true) → ∀ v, get e "value" = some v → v = .func ∨ FuncArgs v) := by
  rw [boundaryLabel]
  cases hg : getInt b z with
  | none => simp [not_ok]
  | some v =>
    cases v with
    | dict e =>
      have hf : fields boundaryFields e = true := hb _ (getInt_mem hg)
      have ht := ((fields_iff _ _).1 hf).1
      cases hm : get e "method" with
      | none =>
        simp only [item, hm]
        constructor
        · rintro ⟨a, h⟩
          cases h
        · rintro ⟨e', m, h1, h2, _⟩
          cases h1
          rw [hm] at h2
          cases h2
      | some w =>
        have hc := get_typed ht hm
        simp [boundaryFields] at hc
        obtain ⟨m, rfl, hm'⟩ := dictOf_some hc
        have hk : ∀ p ∈ m, ∃ k, p.1 = .int k := by
          intro p hp
          have := (hm' p hp).1
          cases hp1 : p.1 <;> rw [hp1] at this <;> simp [Key.toVal, isInt] at this
          exact ⟨_, rfl⟩
        have he : (do
            let m ← asDict (← item e "method")
            let _ ← m.mapM fun p => methodVelocities nv p.1
            if m.any fun p => points z p.1 then
              let _ ← boundaryValue (get e "value")
              return ()
            else return () : Res Unit) = (m.mapM (fun p => methodVelocities nv p.1) >>= fun _ =>
              if m.any fun p => points z p.1 then boundaryValue (get e "value") >>= fun _ => .ok () else .ok ()) := by
          rw [item_ok hm]
          rfl
        simp only [] at he ⊢
        rw [he, ok_bind]
        have h1 : Ok (m.mapM fun p => methodVelocities nv p.1) ↔
            ∀ k : Int, (∃ v, (Key.int k, v) ∈ m) → -(nv.length : Int) ≤ k ∧ k < nv.length := by
          rw [ok_mapM]
          constructor
          · rintro h k ⟨v, hv⟩
            exact (ok_methodVelocities nv k).1 (h _ hv)
          · intro h p hp
            obtain ⟨k, hk⟩ := hk p hp
            rw [hk]
            exact (ok_methodVelocities nv k).2 (h k ⟨p.2, by rw [← hk]; exact hp⟩)
        have h2 : (m.any fun p => points z p.1) = true ↔ ∃ k v, (k, v) ∈ m ∧ points z k = true := by
          rw [List.any_eq_true]
          exact ⟨fun ⟨p, hp, h⟩ => ⟨p.1, p.2, hp, h⟩, fun ⟨k, v, hp, h⟩ => ⟨(k, v), hp, h⟩⟩
        have h3 : Ok (boundaryValue (get e "value")) ↔ ∀ v, get e "value" = some v → v = .func ∨ FuncArgs v := by
          cases hv : get e "value" with
          | none => simp [boundaryValue, ok_pure]
          | some v =>
            have hc := get_typed ht hv
            simp only [boundaryFields, List.mem_cons, List.not_mem_nil, or_false, exists_eq_or_imp,
              exists_eq_left] at hc
            simp at hc
            rw [ok_boundaryValue (by simpa using hc)]
            simp
        constructor
        · rintro ⟨_, ha, h⟩
          refine ⟨e, m, rfl, hm, h1.1 ⟨_, ha⟩, ?_⟩
          intro hp
          rw [if_pos (h2.2 hp)] at h
          obtain ⟨q, hq, _⟩ := (ok_bind _ _).1 h
          exact h3.1 ⟨q, hq⟩
        · rintro ⟨e', m', h1', h2', h3', h4'⟩
          cases h1'
          rw [hm] at h2'
          cases h2'
          obtain ⟨a, ha⟩ := h1.2 h3'
          refine ⟨a, ha, ?_⟩
          split
          · rename_i hp
            obtain ⟨q, hq⟩ := h3.2 (h4' (h2.1 hp))
            rw [hq]
            exact ok_ok _
          · exact ok_ok _
    | _ => simp [not_ok]

theorem ok_boundary {c : Cls} {d : Dict} (ht : Typed (mainFields c) d) (nv : List Nat) (labels : List Int)
    (points : Int → Key → Bool) :
    Ok (boundary d nv labels points) ↔ ∀ z ∈ labels, z ≠ -1 → z ≠ -2 →
      ∃ b e m, get d "boundary_conditions" = some (.dict b) ∧ getInt b z = some (.dict e) ∧
      get e "method" = some (.dict m) ∧
      (∀ k : Int, (∃ v, (Key.int k, v) ∈ m) → -(nv.length : Int) ≤ k ∧ k < nv.length) ∧
      ((∃ k v, (k, v) ∈ m ∧ points z k = true) → ∀ v, get e "value" = some v → v = .func ∨ FuncArgs v) := by
  rw [boundary]
  cases hg : get d "boundary_conditions" with
  | none =>
    change Ok (List.mapM (boundaryLabel nv points []) _) ↔ _
    rw [ok_mapM]
    simp only [List.mem_filter, decide_eq_true_eq]
    constructor
    · intro h z hz h1 h2
      exact absurd (h z ⟨hz, h1, h2⟩) (not_ok _)
    · rintro h z ⟨hz, h1, h2⟩
      obtain ⟨b, _, _, hb, _⟩ := h z hz h1 h2
      cases hb
  | some v =>
    obtain ⟨b, rfl, hb⟩ := dictOf_some (typed_boundary ht hg)
    change Ok (List.mapM (boundaryLabel nv points b) _) ↔ _
    rw [ok_mapM]
    simp only [List.mem_filter, decide_eq_true_eq]
    constructor
    · intro h z hz h1 h2
      obtain ⟨e, m, h3⟩ := (ok_boundaryLabel nv points (fun p hp => (hb p hp).2) z).1 (h z ⟨hz, h1, h2⟩)
      exact ⟨b, e, m, rfl, h3⟩
    · rintro h z ⟨hz, h1, h2⟩
      obtain ⟨b', e, m, h3, h4⟩ := h z hz h1 h2
      cases h3
      exact (ok_boundaryLabel nv points (fun p hp => (hb p hp).2) z).2 ⟨e, m, h4⟩

/-! ## The simulation -/

/-- **C91** (reads): for an accepted dictionary, the constructor of `Simulation` finds all that it reads exactly when the
dictionary is `Usable`. -/
theorem C91_reads (d : Dict) (labels : List Int) (points : Int → Key → Bool) (h : accepts .simulation d = true) :
    (∃ r, simulation d labels points = .ok r) ↔ Usable d labels points := by
  obtain ⟨ht, h1, h2, h3, h4, h5, h6⟩ := (C91_simulation d).1 h
  obtain ⟨bv, hbv⟩ := get_of_has h1
  obtain ⟨b, rfl, hbf⟩ := typed_box ht hbv
  obtain ⟨v, hv⟩ := get_of_has h5
  obtain ⟨l, hl, hm⟩ := seqOf_some (typed_schemes ht hv)
  obtain ⟨dx, hdx⟩ := get_of_has h3
  have hst := ok_stencil (Or.inr rfl) ht h2 hbv hv hl
  have hdo := ok_domain hdx
  have hge := ok_geometry ht hbv
  have hsc := ok_scheme ht h4 hv hl
  change Ok (simulation d labels points) ↔ _
  rw [simulation, ok_bind]
  constructor
  · rintro ⟨g, hg, h⟩
    obtain ⟨s, hs, h⟩ := (ok_bind _ _).1 h
    obtain ⟨o, ho, h⟩ := (ok_bind _ _).1 h
    obtain ⟨w, hw, h⟩ := (ok_bind _ _).1 h
    obtain ⟨q, hq, h⟩ := (ok_bind _ _).1 h
    obtain ⟨i, hi, h⟩ := (ok_bind _ _).1 h
    obtain ⟨g1, g2, g3⟩ := hdo.1 ⟨g, hg⟩
    obtain ⟨k1, k2, k3⟩ := hge.1 g1
    obtain ⟨_, s', w', z', e1, e2, e3, e4⟩ := hst.1.1 g2
    have hM := (hsc.1.1 ⟨s, hs⟩).2
    have hn : (w.2.map List.length).length = l.length := by rw [List.length_map]; exact (hst.2 w hw).2
    have hB := (ok_boundary ht _ labels points).1 ⟨q, hq⟩
    rw [hn] at hB
    refine ⟨?_, ?_, ?_, ?_, ?_, ?_, ?_, ?_, ?_⟩
    · intro b' hb'
      rw [hbv] at hb'
      cases hb'
      exact k1
    · intro b' v' hb'
      rw [hbv] at hb'
      cases hb'
      exact k2 v'
    · intro b' v' l' n hb'
      rw [hbv] at hb'
      cases hb'
      exact k3 v' l' n
    · intro v' hv'
      rw [hdx] at hv'
      cases hv'
      exact g3
    · exact ⟨v, l, s', w', z', hv, hl, e1, e2, e3, e4⟩
    · intro v' l' s' hv' hl'
      rw [hv] at hv'
      cases hv'
      rw [hl] at hl'
      cases hl'
      exact hM s'
    · exact (ok_codegen ht).1 ⟨o, ho⟩
    · intro z hz z1 z2
      obtain ⟨b', e, m, f1, f2, f3, f4, f5⟩ := hB z hz z1 z2
      refine ⟨b', e, m, f1, f2, f3, ?_, f5⟩
      intro k hk v' l' hv' hl'
      rw [hv] at hv'
      cases hv'
      rw [hl] at hl'
      cases hl'
      exact f4 k hk
    · exact (ok_initialization ht).1 ⟨i, hi⟩
  · intro hu
    have g1 : Ok (geometry d) := hge.2 ⟨hu.x b hbv, fun v' hv' => hu.label b v' hbv hv',
      fun v' l' n e1 e2 e3 => hu.elements b v' l' n hbv e1 e2 e3⟩
    have g2 : Ok (stencil d) := by
      refine hst.1.2 ⟨hu.x b hbv, ?_⟩
      obtain ⟨v', l', s', w', z', e0, e1, e2, e3, e4, e5⟩ := hu.velocity
      rw [hv] at e0
      cases e0
      rw [hl] at e1
      cases e1
      exact ⟨s', w', z', e2, e3, e4, e5⟩
    obtain ⟨g, hg⟩ := hdo.2 ⟨g1, g2, hu.step dx hdx⟩
    obtain ⟨s, hs⟩ := hsc.1.2 ⟨g2, fun s' => hu.moments v l s' hv hl⟩
    obtain ⟨o, ho⟩ := (ok_codegen ht).2 hu.directory
    obtain ⟨w, hw⟩ := g2
    have hn : (w.2.map List.length).length = l.length := by rw [List.length_map]; exact (hst.2 w hw).2
    obtain ⟨q, hq⟩ := (ok_boundary ht (w.2.map List.length) labels points).2 (by
      intro z hz z1 z2
      obtain ⟨b', e, m, f1, f2, f3, f4, f5⟩ := hu.boundary z hz z1 z2
      refine ⟨b', e, m, f1, f2, f3, ?_, f5⟩
      intro k hk
      rw [hn]
      exact f4 k hk v l hv hl)
    obtain ⟨i, hi⟩ := (ok_initialization ht).2 hu.init
    exact ⟨g, hg, (ok_bind _ _).2 ⟨s, hs, (ok_bind _ _).2 ⟨o, ho, (ok_bind _ _).2 ⟨w, hw, (ok_bind _ _).2 ⟨q, hq,
      (ok_bind _ _).2 ⟨i, hi, ok_pure _⟩⟩⟩⟩⟩⟩

/-- **C91** (dimension): the dimension of the domain and the dimension of the scheme are the same, so the comparison of
`Simulation` (simulation.py 99-103) never stops the program; it is the number of the intervals `x`, `y`, `z`. -/
theorem C91_dimension (d b : Dict) (labels : List Int) (points : Int → Key → Bool) (h : accepts .simulation d = true)
    (hb : get d "box" = some (.dict b)) (r : Nat × Nat) (hr : simulation d labels points = .ok r) :
    r.1 = axes b ∧ r.2 = axes b := by
  obtain ⟨ht, h1, h2, h3, h4, h5, h6⟩ := (C91_simulation d).1 h
  obtain ⟨v, hv⟩ := get_of_has h5
  obtain ⟨l, hl, hm⟩ := seqOf_some (typed_schemes ht hv)
  have hst := ok_stencil (Or.inr rfl) ht h2 hb hv hl
  have hsc := ok_scheme ht h4 hv hl
  rw [simulation, bind_ok] at hr
  obtain ⟨g, hg, h⟩ := hr
  obtain ⟨s, hs, h⟩ := (bind_ok _ _ _).1 h
  obtain ⟨o, ho, h⟩ := (bind_ok _ _ _).1 h
  obtain ⟨w, hw, h⟩ := (bind_ok _ _ _).1 h
  obtain ⟨q, hq, h⟩ := (bind_ok _ _ _).1 h
  obtain ⟨i, hi, h⟩ := (bind_ok _ _ _).1 h
  cases h
  constructor
  · rw [domain, bind_ok] at hg
    obtain ⟨g', hg', h⟩ := hg
    obtain ⟨_, _, h⟩ := (bind_ok _ _ _).1 h
    obtain ⟨dx, _, h⟩ := (bind_ok _ _ _).1 h
    split at h
    · cases h
    · cases h
      exact geometry_dim hb hg'
  · rw [← (hst.2 w hw).1]
    exact hsc.2 s w hs hw

/-- **C91** (geometry): what the geometry has read: the intervals of the box in the order `x`, `y`, `z`, the elements of the
user, and the labels of the faces: those of the list, or the given one or -1 for all of them. -/
theorem C91_geometry_read (d b : Dict) (hb : get d "box" = some (.dict b)) (g : Geom) (h : geometry d = .ok g) :
    (g.bounds.length = g.dim ∧ ∀ i < g.dim, g.bounds[i]? = (["x", "y", "z"][i]?).bind (get b)) ∧
    ((get d "elements" = none → g.elems = []) ∧ ∀ v, get d "elements" = some v → seq? v = some g.elems) ∧
    (get b "label" = none → g.label = List.replicate (2 * g.dim) (.int (-1))) ∧
    (∀ z, get b "label" = some (.int z) → g.label = List.replicate (2 * g.dim) (.int z)) ∧
    ∀ l, get b "label" = some (.list l) → g.label = l := by
  rw [geometry, bind_ok] at h
  obtain ⟨bd, hbd, h⟩ := h
  obtain ⟨lb, hlb, h⟩ := (bind_ok _ _ _).1 h
  obtain ⟨el, hel, h⟩ := (bind_ok _ _ _).1 h
  cases h
  refine ⟨?_, ?_, ?_⟩
  · simp only [getBox, hb, asDict] at hbd
    change boxBounds b = .ok bd at hbd
    unfold boxBounds at hbd
    split at hbd <;> cases hbd
    all_goals
      refine ⟨rfl, fun i hi => ?_⟩
      simp only at hi
    · obtain rfl : i = 0 := by omega
      simp [*]
    · obtain rfl | rfl : i = 0 ∨ i = 1 := by omega
      all_goals simp [*]
    · obtain rfl | rfl | rfl : i = 0 ∨ i = 1 ∨ i = 2 := by omega
      all_goals simp [*]
  · unfold elements at hel
    cases he : get d "elements" with
    | none =>
      rw [he] at hel
      change Except.ok [] = Except.ok el at hel
      cases hel
      exact ⟨fun _ => rfl, fun v hv => nomatch hv⟩
    | some v =>
      rw [he] at hel
      refine ⟨(fun h => nomatch h), fun v' hv' => ?_⟩
      cases hv'
      obtain ⟨l, hl, h⟩ := (bind_ok _ _ _).1 hel
      unfold asSeq at hl
      split at hl
      · rename_i l' hl'
        cases hl
        split at h
        · cases h
          exact hl'
        · cases h
      · cases hl
  · unfold boxLabel at hlb
    obtain ⟨b', hb', h⟩ := (bind_ok _ _ _).1 hlb
    simp only [item, hb] at hb'
    cases hb'
    obtain ⟨b', hb', h⟩ := (bind_ok _ _ _).1 h
    cases hb'
    refine ⟨fun h1 => ?_, fun z h1 => ?_, fun l h1 => ?_⟩ <;> rw [h1] at h <;> cases h <;> rfl

/-- A square with a disc. -/
example (g : Geom) (h : geometry [(.str "box", .dict [(.str "y", .list [.int 2, .int 3]), (.str "x", .list [.int 0, .int 1]),
      (.str "label", .list [.int 1, .int 2, .int 3, .int 4])]), (.str "elements", .list [.element 2])] = .ok g) :
    g.elems = [.element 2] ∧ g.label = [.int 1, .int 2, .int 3, .int 4] := by
  obtain ⟨-, ⟨-, h1⟩, -, -, h2⟩ := C91_geometry_read _ _ rfl g h
  exact ⟨(Option.some.inj (h1 _ rfl)).symm, h2 _ rfl⟩

/-- **C91** (time and space): the keys `time`, `space_x`, `space_y` and `space_z` of the parameters, which the scheme reads,
are never there in an accepted dictionary: the symbols are always `t`, `X`, `Y`, `Z`. -/
theorem C91_time_and_space_negation (c : Cls) (d : Dict) (h : accepts c d = true) :
    timeAndSpace d = .ok [.symbol "t", .symbol "X", .symbol "Y", .symbol "Z"] :=
  timeAndSpace_eq ((fields_iff _ _).1 h).1

end Pylbm.Input
