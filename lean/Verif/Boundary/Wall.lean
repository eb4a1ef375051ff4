import Verif.Boundary.Witness
import Verif.Boundary.Time
/-!
# C74: the value which a boundary link gets; C57: the calls of the user's functions
-/
set_option linter.unusedSectionVars false
namespace Pylbm.Boundary
open Domain DomainSpec BoundarySpec

/-! ## Specification -/

/-- The value on a link from a fluid cell to the wall at the distance `d`: `out` is the population which
leaves the cell towards the wall, `back` the one which comes from the wall, both in the fluid cell,
`outNext` is the population `out` of the next cell away from the wall, `side` the population `back` of the
cell read by the Neumann conditions along one axis, and `wOut`, `wBack` are the populations of
the state imposed on the wall (0 when nothing is imposed). Bounce-back sends `out` back, anti bounce-back sends its
opposite back, the interpolated conditions use two populations, Neumann copies `back`. -/
def reflection {K : Type} [Field K] [LinearOrder K] {dim : Nat} (m : Method dim)
    (d out back outNext side wOut wBack : K) : K :=
  match m with
  | .bounceBack => out + (wBack - wOut)
  | .antiBounceBack => -out + (wBack + wOut)
  | .bouzidiBounceBack =>
    (if d < 1 / 2 then 2 * d * out + (1 - 2 * d) * outNext
      else 1 / (2 * d) * out + (1 - 1 / (2 * d)) * back) + (wBack - wOut)
  | .bouzidiAntiBounceBack =>
    (if d < 1 / 2 then -(2 * d) * out + (1 - 2 * d) * outNext
      else -(1 / (2 * d)) * out + (1 - 1 / (2 * d)) * back) + (wBack + wOut)
  | .neumann => back
  | .neumannAxis _ => side

/-- The state imposed at a point by the value of a label; 0 when there is no value. -/
def imposed {K : Type} [Field K] {dim n : Nat} (w : Option ((Fin dim → K) → Fin n → K))
    (x : Fin dim → K) (k : Fin n) : K :=
  match w with
  | none => 0
  | some ψ => ψ x k

section wall
variable {K : Type} [Field K] [LinearOrder K] [IsStrictOrderedRing K] [FloorRing K] {dim : Nat}
  (s : Sten dim)

theorem Sten.WF.sym_unique {s : Sten dim} (hs : s.WF) {k k' : Fin s.ns} (h1 : s.scheme k' = s.scheme k)
    (h2 : ∀ j, s.vel k' j = -s.vel k j) : k' = s.sym k := by
  apply hs.distinct
  · rw [hs.scheme, h1]
  · apply hs.inj
    funext j
    have := hs.sym k j
    unfold Sten.vel at this h2
    rw [h2 j, this]

theorem flat_prepareAll (g : Grid K dim s.nu) (wall : Int → Option ((Fin dim → K) → Fin s.ns → K))
    (insts : List (Method dim × List (Entry K dim s.ns))) :
    (flat s (prepareAll s g wall insts)).map (fun q => (q.1, q.2.toEntry)) = entries s insts := by
  unfold flat prepareAll entries
  simp only [List.map_flatMap, List.flatMap_map, List.map_map]
  rfl

/-- An instance has at least one column. -/
theorem instances_ne_nil {K : Type} (shape : Fin dim → Nat) (link : Fin s.nu → Cell dim → Link K dim) (labels : List Int)
    (dico : Int → Option (List (Nat × Method dim)))
    (insts : List (Method dim × List (Entry K dim s.ns)))
    (h : instances s shape link labels dico = some insts) :
    (∀ p ∈ insts, p.2 ≠ []) ∧ (insts.map Prod.fst).Nodup := by
  unfold instances at h
  simp only [Option.bind_eq_bind, Option.bind_eq_some_iff, Option.pure_def, Option.some.injEq] at h
  obtain ⟨all, hall, rfl⟩ := h
  constructor
  · intro p hp
    obtain ⟨m, hm, rfl⟩ := List.mem_map.1 hp
    obtain ⟨q, hq, rfl⟩ := List.mem_map.1 ((mem_firsts _ _).1 hm)
    intro h0
    have : q.2 ∈ (all.filter fun p => decide (p.1 = q.1)).map Prod.snd :=
      List.mem_map.2 ⟨q, List.mem_filter.2 ⟨hq, by simp⟩, rfl⟩
    simp only at h0
    rw [h0] at this
    simp at this
  · rw [List.map_map]
    have : (Prod.fst ∘ fun m => (m, (all.filter fun p => decide (p.1 = m)).map Prod.snd)) =
        (id : Method dim → Method dim) := rfl
    rw [this, List.map_id]
    exact firsts_nodup _

/-- A domain with boundary conditions and a link of the fluid cell `c` which meets a wall: velocity `u`, and
`k` comes back from the wall, `k'` goes to it. -/
structure WallLink (g : Grid K dim s.nu) (elems : List (Elem K dim)) (st : State K dim s.nu)
    (labels : List Int) (dico : Int → Option (List (Nat × Method dim)))
    (insts : List (Method dim × List (Entry K dim s.ns))) (c : Cell dim) (u : Fin s.nu) (k k' : Fin s.ns)
    (label : Int) (m : Method dim) : Prop where
  sten : s.WF
  grid : g.WF
  vel : g.vel = s.uvel
  sound : ∀ e ∈ elems, e.Sound
  built : build g elems = some st
  nodup : labels.Nodup
  not999 : (999 : Int) ∉ labels
  dict : ∀ label ms, dico label = some ms → (ms.map Prod.fst).Nodup
  inst : instances s g.total st.link labels dico = some insts
  interior : g.Interior c
  link : ∀ j, s.uvel u j = -s.vel k j
  scheme : s.scheme k' = s.scheme k
  opposite : ∀ j, s.vel k' j = -s.vel k j
  mem : label ∈ labels
  user : label ≠ -1 ∧ label ≠ -2
  flag : (st.link u c).flag = label
  method : (s.scheme k, m) ∈ (dico label).getD []

/-- The point where the link meets the wall. -/
def meets (g : Grid K dim s.nu) (st : State K dim s.nu) (c : Cell dim) (u : Fin s.nu) : Fin dim → K :=
  fun i => g.cellCentre c i + (st.link u c).dist * (g.dx * (s.uvel u i : K))

section link
variable {s} {g : Grid K dim s.nu} {elems : List (Elem K dim)} {st : State K dim s.nu}
  {labels : List Int} {dico : Int → Option (List (Nat × Method dim))}
  {insts : List (Method dim × List (Entry K dim s.ns))} {c : Cell dim} {u : Fin s.nu} {k k' : Fin s.ns}
  {label : Int} {m : Method dim}
  (w : WallLink s g elems st labels dico insts c u k k' label m)
  (wall : Int → Option ((Fin dim → K) → Fin s.ns → K))
include w

theorem WallLink.onDomain : OnDomain s g elems st labels dico (prepareAll s g wall insts) :=
  ⟨w.vel, w.grid, w.sound, w.built, w.nodup, w.dict, insts, w.inst, by rw [flat_prepareAll]⟩

/-- Every class of the instances is given by the user. -/
theorem WallLink.classes (P : Method dim → Prop)
    (hm : ∀ label ms, dico label = some ms → ∀ p ∈ ms, P p.2) : ∀ p ∈ insts, P p.1 := by
  intro q hq
  cases hes : q.2 with
  | nil => exact absurd hes ((instances_ne_nil s g.total st.link labels dico insts w.inst).1 q hq)
  | cons e es =>
    have hme : (q.1, e) ∈ entries s insts :=
      List.mem_flatMap.2 ⟨q, hq, List.mem_map.2 ⟨e, by rw [hes]; simp, rfl⟩⟩
    obtain ⟨l, -, -, -, hd', -⟩ :=
      (mem_entries s g.total st.link w.sten labels dico insts w.inst _ _).1 hme
    cases hdl : dico l with
    | none => rw [hdl] at hd'; simp at hd'
    | some ms => rw [hdl] at hd'; exact hm l ms hdl _ hd'

/-- The column of the link. -/
theorem WallLink.item : ∃ (items : List (Item K dim s.ns)) (it : Item K dim s.ns),
    (m, items) ∈ prepareAll s g wall insts ∧ it ∈ items ∧ it.k = k ∧
      it.cell = (fun j => c j - s.vel k j) ∧ it.dist = (st.link u c).dist ∧
      it.feq = imposed (wall label) (meets s g st c u) := by
  have hcs : ∀ j, 0 ≤ c j ∧ c j < (g.total j : Int) := by
    intro j
    have := w.interior j
    unfold Grid.total
    omega
  obtain ⟨es, hes, he⟩ := (C30_ghosts_are_links s g.total st.link w.sten labels w.nodup dico w.dict insts
    w.inst).2.1 k c u w.link hcs m label w.mem w.user.1 w.user.2 w.flag w.method
  set e : Entry K dim s.ns := ⟨k, fun j => c j - s.vel k j, label, (st.link u c).dist⟩ with hedef
  have hitems : (m, es.map (prepare s g wall)) ∈ prepareAll s g wall insts :=
    List.mem_map.2 ⟨_, hes, rfl⟩
  have hit : prepare s g wall e ∈ es.map (prepare s g wall) := List.mem_map.2 ⟨e, he, rfl⟩
  have hq : (m, prepare s g wall e) ∈ flat s (prepareAll s g wall insts) :=
    List.mem_flatMap.2 ⟨_, hitems, List.mem_map.2 ⟨_, hit, rfl⟩⟩
  have hpt : wallPoint s g e = meets s g st c u := by
    funext i
    have hwp := (w.onDomain wall).wall w.sten w.not999 hq i
    have huu : u = s.ux (s.sym k) := by
      apply w.sten.inj
      funext j
      rw [w.link j, ← w.sten.sym k j]; rfl
    have hsrc : source s e = c := by funext j; simp [source, e]
    have h3 : (prepare s g wall e).toEntry = e := rfl
    simp only [h3, hsrc] at hwp
    rw [hwp]
    simp only [meets, e, ← huu]
  refine ⟨_, _, hitems, hit, rfl, rfl, rfl, ?_⟩
  funext q
  unfold prepare imposed
  rw [hpt]
  simp only [e]
  cases wall label <;> rfl

end link

section agree
omit [IsStrictOrderedRing K] [FloorRing K]
variable {s}

/-- The arrays agree outside the positions `P`. -/
def Agree (P : List (Fin s.ns × Cell dim)) (g f : Dist K dim s.ns) : Prop :=
  ∀ p, p ∉ P → g p.1 p.2 = f p.1 p.2

theorem Agree.put {P : List (Fin s.ns × Cell dim)} {g f : Dist K dim s.ns} (h : Agree P g f) {k : Fin s.ns}
    {c : Cell dim} (hk : (k, c) ∈ P) (x : K) : Agree P (put g k c x) f := by
  intro p hp
  rw [put_spec, if_neg (fun e => hp (by rw [show p = (k, c) from e]; exact hk))]
  exact h p hp

theorem fold_agree {P : List (Fin s.ns × Cell dim)} {f fc : Dist K dim s.ns} (m : Method dim)
    (hfc : Agree P fc f) : ∀ (items : List (Item K dim s.ns)) (g : Dist K dim s.ns), Agree P g f →
    (∀ it ∈ items, (it.k, it.cell) ∈ P) → (items.map fun it => (it.k, it.cell)).Nodup →
    let r := items.foldl (fun g it => put g it.k it.cell (value s m g fc it)) g
    Agree P r f ∧ (∀ p, p ∉ items.map (fun it => (it.k, it.cell)) → r p.1 p.2 = g p.1 p.2) ∧
    ∀ it ∈ items, (∀ p ∈ reads s m it, p ∉ P) → r it.k it.cell = value s m f f it
  | [], g, hg, _, _ => ⟨hg, by simp, by simp⟩
  | it :: items, g, hg, hP, hn => by
    simp only [List.map_cons, List.nodup_cons] at hn
    have hg' := hg.put (hP it (by simp)) (value s m g fc it)
    obtain ⟨h1, h2, h3⟩ := fold_agree m hfc items _ hg' (fun i hi => hP i (by simp [hi])) hn.2
    simp only [List.foldl_cons]
    refine ⟨h1, ?_, ?_⟩
    · intro p hp
      simp only [List.map_cons, List.mem_cons, not_or] at hp
      rw [h2 p hp.2, put_spec, if_neg hp.1]
    · intro i hi hr
      rcases List.mem_cons.1 hi with rfl | hi
      · rw [h2 (i.k, i.cell) hn.1, put_spec, if_pos rfl]
        exact value_congr s (fun p hp => hg p (hr p hp)) (fun p hp => hfc p (hr p hp))
      · exact h3 i hi hr

theorem boundaryCondition_agree {P : List (Fin s.ns × Cell dim)} {f : Dist K dim s.ns} :
    ∀ (I : List (Method dim × List (Item K dim s.ns))) (g : Dist K dim s.ns), Agree P g f →
    (∀ p ∈ positions s (flat s I), p ∈ P) → (positions s (flat s I)).Nodup →
    let r := boundaryCondition s I g
    Agree P r f ∧ (∀ p, p ∉ positions s (flat s I) → r p.1 p.2 = g p.1 p.2) ∧
    ∀ q ∈ flat s I, (∀ p ∈ reads s q.1 q.2, p ∉ P) → r q.2.k q.2.cell = value s q.1 f f q.2
  | [], g, hg, _, _ => ⟨hg, fun _ _ => rfl, by simp [flat]⟩
  | b :: I, g, hg, hP, hn => by
    have hpos : positions s (flat s (b :: I)) =
        b.2.map (fun it => (it.k, it.cell)) ++ positions s (flat s I) := by
      simp [positions, flat, List.map_map, Function.comp_def]
    rw [hpos] at hP hn
    rw [List.nodup_append] at hn
    obtain ⟨h1, h2, h3⟩ := fold_agree b.1 hg b.2 g hg
      (fun it hit => hP _ (List.mem_append_left _ (List.mem_map.2 ⟨it, hit, rfl⟩))) hn.1
    obtain ⟨h4, h5, h6⟩ := boundaryCondition_agree I (update s b.1 b.2 g) h1
      (fun p hp => hP p (List.mem_append_right _ hp)) hn.2.1
    refine ⟨h4, ?_, ?_⟩
    · intro p hp
      rw [hpos, List.mem_append, not_or] at hp
      exact (h5 p hp.2).trans (h2 p hp.1)
    · intro q hq hr
      simp only [flat, List.flatMap_cons, List.mem_append] at hq
      rcases hq with hq | hq
      · obtain ⟨it, hit, rfl⟩ := List.mem_map.1 hq
        have hnot : (it.k, it.cell) ∉ positions s (flat s I) := fun hh =>
          hn.2.2 _ (List.mem_map.2 ⟨it, hit, rfl⟩) _ hh rfl
        exact (h5 _ hnot).trans (h3 it hit hr)
      · exact h6 q hq hr

end agree

/-- **C74.** On a domain built from any list of elements, with any methods and with or without values on the
walls: take a cell `c` whose link of velocity `-v_k` meets a wall at the distance `d`, with a label for which a
condition `m` is given for the scheme of `k`. The update writes at the position `(k, c - v_k)`, from where `k`
arrives in `c`, the reflection of the populations before the update, with the state imposed on the
wall at the point where the link meets it. For the interpolated conditions at a distance `d < 1/2` this
needs that the next cell is fluid, and for the Neumann conditions along an axis that the cell which they
read is fluid. -/
theorem C74_wall_formula (g : Grid K dim s.nu) (elems : List (Elem K dim)) (st : State K dim s.nu)
    (labels : List Int) (dico : Int → Option (List (Nat × Method dim)))
    (insts : List (Method dim × List (Entry K dim s.ns))) (c : Cell dim) (u : Fin s.nu) (k k' : Fin s.ns)
    (label : Int) (m : Method dim) (w : WallLink s g elems st labels dico insts c u k k' label m)
    (wall : Int → Option ((Fin dim → K) → Fin s.ns → K)) (f : Dist K dim s.ns)
    (hnext : m = .bouzidiBounceBack ∨ m = .bouzidiAntiBounceBack → (st.link u c).dist < 1 / 2 →
      st.ioo (fun j => c j + s.vel k j) = 999)
    (side : Fin dim → Cell dim)
    (hside : ∀ a, side a = fun i => if i = a then c i else c i - s.vel k i)
    (hax : ∀ a, m = .neumannAxis a → st.ioo (side a) = 999) :
    let d := (st.link u c).dist
    let x : Fin dim → K := fun i => g.cellCentre c i + d * (g.dx * (s.uvel u i : K))
    boundaryCondition s (prepareAll s g wall insts) f k (fun j => c j - s.vel k j) =
      reflection m d (f k' c) (f k c) (f k' (fun j => c j + s.vel k j))
        (match m with | .neumannAxis a => f k (side a) | _ => 0)
        (imposed (wall label) x k') (imposed (wall label) x k) := by
  intro d x
  have hsym := w.sten.sym_unique w.scheme w.opposite
  have hI := w.onDomain wall
  obtain ⟨items, it, hitems, hit, e1, e2, e3, e4⟩ := w.item wall
  have hq : (m, it) ∈ flat s (prepareAll s g wall insts) :=
    List.mem_flatMap.2 ⟨_, hitems, List.mem_map.2 ⟨_, hit, rfl⟩⟩
  have hin : inner s 1 it.toEntry = c := by
    funext j; simp [inner, e1, e2]
  have hin2 : inner s 2 it.toEntry = fun j => c j + s.vel k j := by
    funext j; simp only [inner, e1, e2]; ring
  have hinj : ∀ a : Fin dim, (fun i => it.cell i + if i = a then s.vel it.k i else 0) = side a := by
    intro a
    rw [hside a]
    funext i
    simp only [e1, e2]
    split_ifs <;> ring
  have hc : st.ioo c = 999 := by
    have := (hI.item w.sten w.not999 hq).2.2.1
    have hsrc : source s it.toEntry = c := by funext j; simp [source, e1, e2]
    rwa [hsrc] at this
  -- fluid cells are not written
  have hfluid : ∀ p : Fin s.ns × Cell dim, st.ioo p.2 = 999 →
      p ∉ positions s (flat s (prepareAll s g wall insts)) := by
    intro p hp hmem
    obtain ⟨r, hr, hre⟩ := List.mem_map.1 hmem
    have h2 := (hI.item w.sten w.not999 hr).2.2.2.1
    rw [show r.2.cell = p.2 from by rw [← hre], hp] at h2
    exact absurd h2 (by norm_num)
  have hreads : ∀ p ∈ reads s m it, p ∉ positions s (flat s (prepareAll s g wall insts)) := by
    intro p hp
    apply hfluid
    cases m with
    | bounceBack =>
      simp only [reads, List.mem_singleton] at hp; subst hp; simpa only [hin] using hc
    | antiBounceBack =>
      simp only [reads, List.mem_singleton] at hp; subst hp; simpa only [hin] using hc
    | neumann =>
      simp only [reads, List.mem_singleton] at hp; subst hp; simpa only [hin] using hc
    | neumannAxis a =>
      simp only [reads, List.mem_singleton] at hp
      rw [hp]
      simp only [hinj]
      exact hax a rfl
    | bouzidiBounceBack =>
      simp only [reads, List.mem_cons, List.not_mem_nil, or_false] at hp
      rcases hp with rfl | rfl
      · simpa only [hin] using hc
      · split_ifs with hd
        · simp only [hin2]; exact hnext (Or.inl rfl) (by rw [← e3]; exact hd)
        · simpa only [hin] using hc
    | bouzidiAntiBounceBack =>
      simp only [reads, List.mem_cons, List.not_mem_nil, or_false] at hp
      rcases hp with rfl | rfl
      · simpa only [hin] using hc
      · split_ifs with hd
        · simp only [hin2]; exact hnext (Or.inr rfl) (by rw [← e3]; exact hd)
        · simpa only [hin] using hc
  have hw := (boundaryCondition_agree (prepareAll s g wall insts) f (fun _ _ => rfl) (fun p hp => hp)
    (hI.nodup_positions w.sten)).2.2 (m, it) hq hreads
  simp only [e1, e2] at hw
  rw [hw]
  have hx : meets s g st c u = x := rfl
  cases m with
  | bounceBack => simp only [value, rhs, reflection, hin, e4, e1, ← hsym, hx]
  | antiBounceBack => simp only [value, rhs, reflection, hin, e4, e1, ← hsym, hx]
  | neumann => simp only [value, reflection, hin, e1]
  | bouzidiBounceBack =>
    simp only [value, rhs, reflection, load0, load1, weight, hin, hin2, e1, e3, e4, ← hsym, hx, d]
    split_ifs <;> ring
  | bouzidiAntiBounceBack =>
    simp only [value, rhs, reflection, load0, load1, weight, hin, hin2, e1, e3, e4, ← hsym, hx, d]
    split_ifs <;> ring
  | neumannAxis a =>
    simp only [value, reflection, e1]
    rw [← e1, hinj]

/-- **C74 (interpolated bounce-back).** When the only class is the interpolated bounce-back, the position
`(k, c - v_k)` gets the interpolation at the distance `d` of the wall between the population which leaves `c`
and, for `d < 1/2`, the one which leaves the next cell `c + v_k`, for `d ≥ 1/2` the one which comes from the
wall in `c`; all are those before the update. -/
theorem C74_interpolated_formula (g : Grid K dim s.nu) (elems : List (Elem K dim)) (st : State K dim s.nu)
    (labels : List Int) (dico : Int → Option (List (Nat × Method dim)))
    (insts : List (Method dim × List (Entry K dim s.ns))) (c : Cell dim) (u : Fin s.nu) (k k' : Fin s.ns)
    (label : Int) (m : Method dim) (w : WallLink s g elems st labels dico insts c u k k' label m)
    (hm : ∀ label ms, dico label = some ms → ∀ p ∈ ms, p.2 = .bouzidiBounceBack)
    (wall : Int → Option ((Fin dim → K) → Fin s.ns → K)) (f : Dist K dim s.ns) :
    let d := (st.link u c).dist
    let x : Fin dim → K := fun i => g.cellCentre c i + d * (g.dx * (s.uvel u i : K))
    boundaryCondition s (prepareAll s g wall insts) f k (fun j => c j - s.vel k j) =
      (if d < 1 / 2 then 2 * d * f k' c + (1 - 2 * d) * f k' (fun j => c j + s.vel k j)
        else 1 / (2 * d) * f k' c + (1 - 1 / (2 * d)) * f k c) +
      (imposed (wall label) x k - imposed (wall label) x k') := by
  intro d x
  have hsym := w.sten.sym_unique w.scheme w.opposite
  have hall : ∀ p ∈ insts, p.1 = .bouzidiBounceBack := w.classes (· = .bouzidiBounceBack) hm
  obtain ⟨items, it, hitems, hit, e1, e2, e3, e4⟩ := w.item wall
  have hpos := (w.onDomain wall).nodup_positions w.sten
  have hnd := (instances_ne_nil s g.total st.link labels dico insts w.inst).2
  have hsingle : prepareAll s g wall insts = [(.bouzidiBounceBack, items)] := by
    match insts, hall, hnd, hitems with
    | [], _, _, h => simp [prepareAll] at h
    | [p], ha, _, h =>
      simp only [prepareAll, List.map_cons, List.map_nil, List.mem_singleton] at h ⊢
      rw [← h]
      have := ha p (by simp)
      rw [← this, ← (Prod.mk.inj h).1]
    | p :: q :: l, ha, hn, _ =>
      simp only [List.map_cons, List.nodup_cons, List.mem_cons, not_or] at hn
      exact absurd ((ha p (by simp)).trans (ha q (by simp)).symm) hn.1.1
  have hn : (items.map fun it => (it.k, it.cell)).Nodup := by
    rw [hsingle] at hpos
    simpa [positions, flat, List.map_map, Function.comp_def] using hpos
  have hw := (C35_bouzidi_bounce_back s items items hn (List.Perm.refl _) f).2.2.1 it hit
  rw [e1, e2] at hw
  rw [hsingle]
  change update s .bouzidiBounceBack items f k _ = _
  rw [hw]
  have hin : inner s 1 it.toEntry = c := by
    funext j; simp [inner, e1, e2]
  have hin2 : inner s 2 it.toEntry = fun j => c j + s.vel k j := by
    funext j; simp only [inner, e1, e2]; ring
  simp only [value, rhs, load0, load1, weight, hin, hin2, e1, e3, e4, ← hsym]
  have hx : meets s g st c u = x := rfl
  rw [hx]
  split_ifs <;> ring

end wall

/-- A case: the cell of `boxGrid` under the moving face 4, its link upwards, bounce-back. -/
theorem box_wallLink : WallLink sten25 boxGrid [obstacle] boxState [1, 2, 3, 4, 7] allBounce boxInsts
    ![1, 3] (2 : Fin 5) (4 : Fin 5) (2 : Fin 5) 4 .bounceBack where
  sten := sten25_wf
  grid := boxGrid_wf
  vel := rfl
  sound := by
    simp only [List.mem_singleton, forall_eq]
    exact rect_sound (by norm_num) (by norm_num) _ _
  built := boxState_eq
  nodup := by decide
  not999 := by decide
  dict := by rintro _ _ ⟨⟩; simp
  inst := boxInsts_eq
  interior := by unfold Grid.Interior; decide +kernel
  link := by decide +kernel
  scheme := rfl
  opposite := by decide +kernel
  mem := by decide
  user := by decide
  flag := by decide +kernel
  method := by decide +kernel

/-! ## The calls of the user's functions -/

section calls
open Scheme Sim
variable {K : Type} [Field K] [LinearOrder K] {dim nc d : Nat} (s : Sten dim)
  (S : Kernel K s.ns nc d) (pt : Entry K dim s.ns → Fin dim → K)
  (wall : Int → Option (WallValue K dim s.ns))

/-- The times at which a sequence of operations which begins at the time `t` calls `boundary_condition`: in
every time step, at its beginning, and in every explicit call. -/
def callTimes {n : Nat} (dt : K) : K → List (Op K n dim) → List K
  | _, [] => []
  | t, .step :: l => t :: callTimes dt (t + dt) l
  | t, .boundary :: l => t :: callTimes dt t l
  | t, _ :: l => callTimes dt t l

theorem bcCall_columns (t : K) : ∀ (J : List (Method dim × List (Column K dim s.ns))) (f : Dist K dim s.ns),
    (bcCall s S pt wall t J f).1 = J.map fun p => (p.1, p.2.map (updateFeq s S pt wall t))
  | [], _ => rfl
  | p :: J, f => by simp only [bcCall, List.map_cons]; rw [bcCall_columns t J]

/-- **C57 (calls).** For every function of the user, also one which keeps something in its arrays: the arrays
of a column after a sequence of operations are those of `prepare_rhs` followed by one call at each of
the times of `callTimes`, in this order, on the arrays left by the previous call. -/
theorem C57_calls (P : Setup K s.ns nc d dim) (halo : Arr K s.ns dim → Arr K s.ns dim)
    (l : List (Op K s.ns dim)) (x : Simu K s.ns d dim × List (Method dim × List (Column K dim s.ns))) :
    (runT s S pt wall P halo x l).2 = x.2.map fun p => (p.1, p.2.map fun c =>
      (callTimes P.S.dt x.1.t l).foldl (fun c t => updateFeq s S pt wall t c) c) := by
  have triv : ∀ J : List (Method dim × List (Column K dim s.ns)),
      J = J.map fun p => (p.1, p.2.map fun c => c) := by
    intro J
    conv_lhs => rw [← List.map_id J]
    apply List.map_congr_left
    intro p _
    simp
  induction l generalizing x with
  | nil => exact triv x.2
  | cons o l ih =>
    have hr : runT s S pt wall P halo x (o :: l) =
        runT s S pt wall P halo (applyT s S pt wall P halo x o) l := rfl
    rw [hr, ih]
    have ht : (applyT s S pt wall P halo x o).1.t = match o with
        | .step => x.1.t + P.S.dt
        | _ => x.1.t := by
      cases o <;> simp only [applyT, Simu.apply, Simu.setF]
      unfold Simu.getM
      split_ifs <;> rfl
    rw [ht]
    cases o <;> simp only [callTimes, applyT, bcCall_columns, List.map_map, List.foldl_cons] <;>
      (apply List.map_congr_left; intro p _; simp)

/-- A case: the function `pulse` keeps its value; the call at the time 0 imposes 4, the one at the time 1 finds
and keeps it. -/
example : callTimes (n := 2) (dim := 1) (1 : ℚ) 0 [.step, .readM, .boundary, .step, .writeM 0 fun _ => 0, .boundary] =
    [0, 1, 1, 2] := by decide +kernel

end calls

/-- The values which C57 wants at the time `t` are those of `prepareAll` with the functions of the user at this
time, so that C74 applies in every time step. -/
theorem wantedInsts_eq {K : Type} [Field K] [LinearOrder K] [FloorRing K] {dim nc d : Nat} (s : Sten dim)
    (S : Scheme.Kernel K s.ns nc d) (g : Grid K dim s.nu) (wall : Int → Option (WallValue K dim s.ns))
    (imp : Int → Imposed K dim nc) (insts : List (Method dim × List (Entry K dim s.ns))) (t : K) :
    wantedInsts s S (wallPoint s g) wall imp insts t = prepareAll s g (fun l => (wall l).map fun v x =>
      (imp l).feq S.invM S.EQ (if v.time then t else 0) x) insts := by
  unfold wantedInsts prepareAll
  apply List.map_congr_left
  intro p _
  simp only [Prod.mk.injEq, true_and]
  apply List.map_congr_left
  intro e _
  unfold prepare
  beta_reduce
  cases wall e.label <;> rfl

end Pylbm.Boundary
