import Verif.Boundary.Model
import Mathlib.Data.List.Nodup
import Mathlib.Data.List.Perm.Basic
import Mathlib.Data.List.Flatten
import Mathlib.Tactic.Ring
import Mathlib.Tactic.Linarith
/-!
# Lemmas on the tables and on the update loops of the boundary conditions
-/
set_option linter.unusedSectionVars false
namespace Pylbm.Boundary
open Domain

theorem mem_cells {dim : Nat} {s : Fin dim → Nat} {c : Cell dim} :
    c ∈ cells dim s ↔ ∀ j, 0 ≤ c j ∧ c j < s j := by
  induction dim with
  | zero =>
    simp only [cells, List.mem_singleton, IsEmpty.forall_iff, iff_true]
    funext j; exact j.elim0
  | succ dim ih =>
    simp only [cells, List.mem_flatMap, List.mem_range, List.mem_map, ih]
    constructor
    · rintro ⟨i, hi, d, hd, rfl⟩ j
      refine Fin.cases ?_ (fun j => ?_) j
      · simp only [Fin.cons_zero]; omega
      · simp only [Fin.cons_succ]; exact hd j
    · intro h
      refine ⟨(c 0).toNat, ?_, fun j => c j.succ, fun j => h j.succ, ?_⟩
      · have := h 0; omega
      · have h0 := h 0
        have : (((c 0).toNat : Nat) : Int) = c 0 := by omega
        rw [this]; exact Fin.cons_self_tail c

theorem cells_nodup {dim : Nat} (s : Fin dim → Nat) : (cells dim s).Nodup := by
  induction dim with
  | zero => simp [cells]
  | succ dim ih =>
    simp only [cells]
    rw [List.nodup_flatMap]
    refine ⟨fun i _ => (ih _).map ?_, ?_⟩
    · intro a b h
      exact (Fin.cons_inj.1 h).2
    · refine List.nodup_range.imp ?_
      intro a b hab x hx hy
      obtain ⟨p, _, rfl⟩ := List.mem_map.1 hx
      obtain ⟨q, _, hq⟩ := List.mem_map.1 hy
      have := (Fin.cons_inj.1 hq).1
      omega

/-- Coherence of the tables of a symmetric stencil without repeated velocity (consequence of C06
and C07, see `Boundary/Bridge.lean`). -/
structure Sten.WF {dim : Nat} (s : Sten dim) : Prop where
  inj : Function.Injective s.uvel
  usym : ∀ u j, s.uvel (s.usym u) j = -s.uvel u j
  sym : ∀ k j, s.vel (s.sym k) j = -s.vel k j
  scheme : ∀ k, s.scheme (s.sym k) = s.scheme k
  distinct : ∀ k k', s.scheme k = s.scheme k' → s.ux k = s.ux k' → k = k'

theorem Sten.WF.sym_sym {dim : Nat} {s : Sten dim} (hs : s.WF) (k : Fin s.ns) :
    s.sym (s.sym k) = k := by
  apply hs.distinct
  · rw [hs.scheme, hs.scheme]
  · apply hs.inj
    funext j
    have h1 := hs.sym (s.sym k) j
    have h2 := hs.sym k j
    unfold Sten.vel at h1 h2
    omega

theorem Sten.WF.ux_sym {dim : Nat} {s : Sten dim} (hs : s.WF) (k : Fin s.ns) :
    s.ux (s.sym k) = s.usym (s.ux k) := by
  apply hs.inj
  funext j
  have := hs.sym k j
  unfold Sten.vel at this
  rw [hs.usym, this]

section tables
variable {K : Type} {dim : Nat} (s : Sten dim) (shape : Fin dim → Nat)
  (link : Fin s.nu → Cell dim → Link K dim)

/-- The inner cell of an entry. -/
def source (e : Entry K dim s.ns) : Cell dim := fun j => e.cell j + s.vel e.k j

theorem mem_labelEntries (hs : s.WF) (label : Int) (p : Nat × Method dim)
    (q : Method dim × Entry K dim s.ns) :
    q ∈ labelEntries s shape link label p ↔
      q.1 = p.2 ∧ s.scheme q.2.k = p.1 ∧ q.2.label = label ∧
      source s q.2 ∈ cells dim shape ∧ (link (s.ux (s.sym q.2.k)) (source s q.2)).flag = label ∧
      q.2.dist = (link (s.ux (s.sym q.2.k)) (source s q.2)).dist := by
  unfold labelEntries boundaryVelocity
  simp only [List.mem_flatMap, List.mem_filter, List.mem_finRange, true_and, decide_eq_true_eq,
    List.mem_map]
  constructor
  · rintro ⟨k, hk, q', ⟨c, ⟨hc, hf⟩, rfl⟩, rfl⟩
    have hsrc : source s (⟨k, fun j => c j + s.uvel (s.usym (s.ux k)) j, label,
        (link (s.usym (s.ux k)) c).dist⟩ : Entry K dim s.ns) = c := by
      funext j
      simp only [source, Sten.vel, hs.usym]
      ring
    simp only [hsrc, hs.ux_sym, hc, hf, hk, and_self]
  · rintro ⟨h1, h2, h3, h4, h5, h6⟩
    refine ⟨q.2.k, h2, _, ⟨source s q.2, ⟨h4, ?_⟩, rfl⟩, ?_⟩
    · rw [← hs.ux_sym]; exact h5
    · have hcell : (fun j => source s q.2 j + s.uvel (s.usym (s.ux q.2.k)) j) = q.2.cell := by
        funext j
        simp only [source, Sten.vel, hs.usym]
        ring
      simp only [hcell]
      rw [← hs.ux_sym, ← h6, ← h1, ← h3]

theorem labelEntries_nodup (label : Int) (p : Nat × Method dim) :
    ((labelEntries s shape link label p).map fun q => (q.2.k, q.2.cell)).Nodup := by
  unfold labelEntries
  rw [List.map_flatMap, List.nodup_flatMap]
  constructor
  · intro k _
    rw [List.map_map]
    unfold boundaryVelocity
    simp only [List.map_map]
    apply ((cells_nodup shape).filter _).map
    intro a b h
    simp only [Function.comp, Prod.mk.injEq, true_and] at h
    funext j
    have := congrFun h j
    omega
  · apply ((List.nodup_finRange _).filter _).imp
    intro a b hab x hx hy
    simp only [List.map_map, List.mem_map, Function.comp] at hx hy
    obtain ⟨_, _, rfl⟩ := hx
    obtain ⟨_, _, h⟩ := hy
    exact hab (congrArg Prod.fst h).symm

theorem allEntries_spec (labels : List Int) (dico : Int → Option (List (Nat × Method dim)))
    (all : List (Method dim × Entry K dim s.ns))
    (h : allEntries s shape link labels dico = some all) :
    (∀ label ∈ labels, label ≠ -1 → label ≠ -2 → (dico label).isSome) ∧
    all = (labels.filter fun label => decide (label ≠ -1 ∧ label ≠ -2)).flatMap fun label =>
      ((dico label).getD []).flatMap (labelEntries s shape link label) := by
  unfold allEntries at h
  simp only [Option.bind_eq_bind, Option.bind_eq_some_iff, Option.pure_def, Option.some.injEq] at h
  obtain ⟨l, hl, rfl⟩ := h
  have key : ∀ (ls : List Int) (l : List (List (Method dim × Entry K dim s.ns))),
      (ls.mapM fun label => (dico label).map fun ms =>
        ms.flatMap (labelEntries s shape link label)) = some l →
      (∀ label ∈ ls, (dico label).isSome) ∧ l = ls.map fun label =>
        ((dico label).getD []).flatMap (labelEntries s shape link label) := by
    intro ls
    induction ls with
    | nil => intro l hl; simp at hl; subst hl; simp
    | cons a ls ih =>
      intro l hl
      rw [List.mapM_cons] at hl
      simp only [Option.bind_eq_bind, Option.bind_eq_some_iff, Option.pure_def,
        Option.some.injEq] at hl
      obtain ⟨x, hx, y, hy, rfl⟩ := hl
      obtain ⟨i1, i2⟩ := ih y hy
      obtain ⟨ms, hms, rfl⟩ := Option.map_eq_some_iff.1 hx
      refine ⟨?_, ?_⟩
      · intro label hlab
        rcases List.mem_cons.1 hlab with rfl | hlab
        · rw [hms]; rfl
        · exact i1 label hlab
      · simp [hms, i2]
  obtain ⟨k1, k2⟩ := key _ l hl
  refine ⟨fun label h1 h2 h3 => k1 label ?_, ?_⟩
  · simp [h1, h2, h3]
  · rw [k2, List.flatMap_def]

theorem firsts_nodup {α : Type} [DecidableEq α] (l : List α) : (firsts l).Nodup := by
  induction l with
  | nil => simp [firsts]
  | cons a l ih =>
    simp only [firsts, List.nodup_cons]
    exact ⟨by simp, ih.filter _⟩

theorem mem_firsts {α : Type} [DecidableEq α] (l : List α) (a : α) : a ∈ firsts l ↔ a ∈ l := by
  induction l with
  | nil => simp [firsts]
  | cons b l ih =>
    simp only [firsts, List.mem_cons, List.mem_filter, ih, decide_eq_true_eq]
    by_cases h : a = b <;> simp [h]

theorem group_perm {α β : Type} [DecidableEq α] : ∀ (keys : List α) (l : List (α × β)),
    keys.Nodup → (∀ p ∈ l, p.1 ∈ keys) →
    (keys.flatMap fun m => l.filter fun p => decide (p.1 = m)).Perm l
  | [], l, _, h => by
    cases l with
    | nil => simp
    | cons p l => exact absurd (h p (by simp)) (by simp)
  | a :: keys, l, hn, h => by
    rw [List.nodup_cons] at hn
    have e1 : (keys.flatMap fun m => l.filter fun p => decide (p.1 = m)) =
        keys.flatMap fun m => (l.filter fun p => !decide (p.1 = a)).filter
          fun p => decide (p.1 = m) := by
      apply List.flatMap_congr
      intro m hm
      rw [List.filter_filter]
      apply List.filter_congr
      intro p _
      by_cases hp : p.1 = m
      · have : p.1 ≠ a := fun h => hn.1 (by rw [← h, hp]; exact hm)
        simp [hp] at this ⊢
        exact this
      · simp [hp]
    rw [List.flatMap_cons, e1]
    have ih := group_perm keys (l.filter fun p => !decide (p.1 = a)) hn.2 (by
      intro p hp
      obtain ⟨hp1, hp2⟩ := List.mem_filter.1 hp
      have := h p hp1
      simp at hp2
      exact (List.mem_cons.1 this).resolve_left hp2)
    exact (List.Perm.append_left _ ih).trans (List.filter_append_perm _ l)

theorem instances_spec (labels : List Int) (dico : Int → Option (List (Nat × Method dim)))
    (insts : List (Method dim × List (Entry K dim s.ns)))
    (h : instances s shape link labels dico = some insts) :
    ∃ all, allEntries s shape link labels dico = some all ∧
      (insts.flatMap fun p => p.2.map fun e => (p.1, e)).Perm all := by
  unfold instances at h
  simp only [Option.bind_eq_bind, Option.bind_eq_some_iff, Option.pure_def, Option.some.injEq] at h
  obtain ⟨all, hall, rfl⟩ := h
  refine ⟨all, hall, ?_⟩
  rw [List.flatMap_map]
  have e : ((firsts (all.map Prod.fst)).flatMap fun m =>
      ((all.filter fun p => decide (p.1 = m)).map Prod.snd).map fun e => (m, e)) =
      (firsts (all.map Prod.fst)).flatMap fun m => all.filter fun p => decide (p.1 = m) := by
    apply List.flatMap_congr
    intro m _
    rw [List.map_map]
    conv_rhs => rw [← List.map_id (all.filter fun p => decide (p.1 = m))]
    apply List.map_congr_left
    intro p hp
    have := (List.mem_filter.1 hp).2
    simp only [decide_eq_true_eq] at this
    simp [← this]
  rw [e]
  exact group_perm _ all (firsts_nodup _) (fun p hp => (mem_firsts _ _).2 (List.mem_map.2 ⟨p, hp, rfl⟩))

end tables

section update
variable {K : Type} {dim : Nat} [Field K] [LinearOrder K] (s : Sten dim)

/-- The entries of the array read by the assignment of an item. -/
def reads (m : Method dim) (it : Item K dim s.ns) : List (Fin s.ns × Cell dim) :=
  match m with
  | .bounceBack | .antiBounceBack => [(s.sym it.k, inner s 1 it.toEntry)]
  | .neumann => [(it.k, inner s 1 it.toEntry)]
  | .neumannAxis j => [(it.k, fun i => it.cell i + if i = j then s.vel it.k i else 0)]
  | .bouzidiBounceBack | .bouzidiAntiBounceBack =>
    [(s.sym it.k, inner s 1 it.toEntry), if it.dist < 1 / 2 then (s.sym it.k, inner s 2 it.toEntry)
      else (it.k, inner s 1 it.toEntry)]

theorem value_congr {m : Method dim} {it : Item K dim s.ns} {f g f' g' : Dist K dim s.ns}
    (h : ∀ p ∈ reads s m it, f p.1 p.2 = f' p.1 p.2)
    (h' : ∀ p ∈ reads s m it, g p.1 p.2 = g' p.1 p.2) :
    value s m f g it = value s m f' g' it := by
  cases m <;> simp only [reads, forall_eq, List.mem_cons, List.not_mem_nil,
    or_false, forall_eq_or_imp] at h h' <;> simp only [value, load0, load1]
  · rw [h]
  · rw [h'.1]
    split_ifs at h' ⊢ with hd
    · rw [h'.2]
    · rw [h'.2]
  · rw [h]
  · rw [h.1]
    split_ifs at h ⊢ with hd
    · rw [h.2]
    · rw [h.2]
  · rw [h]
  · rw [h]

/-- The value of an entry after the assignments of a list of (class, item): the value of the item
stored there computed on the array `f`, and `f` when there is none. -/
def written (l : List (Method dim × Item K dim s.ns)) (f : Dist K dim s.ns) : Dist K dim s.ns :=
  fun k c => match l.find? (fun q => decide (q.2.k = k ∧ q.2.cell = c)) with
    | some q => value s q.1 f f q.2
    | none => f k c

/-- Positions of the items. -/
def positions (l : List (Method dim × Item K dim s.ns)) : List (Fin s.ns × Cell dim) :=
  l.map fun q => (q.2.k, q.2.cell)

theorem find_of_mem {l : List (Method dim × Item K dim s.ns)} (hn : (positions s l).Nodup)
    {q : Method dim × Item K dim s.ns} (hq : q ∈ l) :
    l.find? (fun r => decide (r.2.k = q.2.k ∧ r.2.cell = q.2.cell)) = some q := by
  cases hf : l.find? (fun r => decide (r.2.k = q.2.k ∧ r.2.cell = q.2.cell)) with
  | none =>
    have := List.find?_eq_none.1 hf q hq
    simp at this
  | some r =>
    have h1 := List.find?_some hf
    simp only [decide_eq_true_eq] at h1
    have h2 := List.mem_of_find?_eq_some hf
    rw [List.inj_on_of_nodup_map hn h2 hq (by simp [h1.1, h1.2])]

theorem find_none {l : List (Method dim × Item K dim s.ns)} {k : Fin s.ns} {c : Cell dim}
    (h : (k, c) ∉ positions s l) :
    l.find? (fun r => decide (r.2.k = k ∧ r.2.cell = c)) = none := by
  rw [List.find?_eq_none]
  intro q hq hq'
  simp only [decide_eq_true_eq] at hq'
  exact h (List.mem_map.2 ⟨q, hq, by simp [hq'.1, hq'.2]⟩)

theorem written_mem {l : List (Method dim × Item K dim s.ns)} (hn : (positions s l).Nodup)
    {q : Method dim × Item K dim s.ns} (hq : q ∈ l) (f : Dist K dim s.ns) :
    written s l f q.2.k q.2.cell = value s q.1 f f q.2 := by
  unfold written
  rw [find_of_mem s hn hq]

theorem written_not_mem {l : List (Method dim × Item K dim s.ns)} {k : Fin s.ns} {c : Cell dim}
    (h : (k, c) ∉ positions s l) (f : Dist K dim s.ns) : written s l f k c = f k c := by
  unfold written
  rw [find_none s h]

theorem written_perm {l l' : List (Method dim × Item K dim s.ns)} (hn : (positions s l).Nodup)
    (hp : l.Perm l') (f : Dist K dim s.ns) : written s l f = written s l' f := by
  have hn' : (positions s l').Nodup := ((hp.map _).nodup_iff).1 hn
  funext k c
  by_cases h : (k, c) ∈ positions s l
  · obtain ⟨q, hq, hqe⟩ := List.mem_map.1 h
    simp only [Prod.mk.injEq] at hqe
    obtain ⟨rfl, rfl⟩ := hqe
    rw [written_mem s hn hq, written_mem s hn' (hp.mem_iff.1 hq)]
  · have h' : (k, c) ∉ positions s l' := fun hh => h (((hp.map _).mem_iff).2 hh)
    rw [written_not_mem s h, written_not_mem s h']

/-- The reads of the items are not positions of the items. -/
def Free (l : List (Method dim × Item K dim s.ns)) : Prop :=
  ∀ q ∈ l, ∀ p ∈ reads s q.1 q.2, p ∉ positions s l

theorem put_spec {f : Dist K dim s.ns} (k : Fin s.ns) (c : Cell dim) (x : K) (k' : Fin s.ns)
    (c' : Cell dim) : put f k c x k' c' = if (k', c') = (k, c) then x else f k' c' := by
  unfold put; simp only [Prod.mk.injEq]

/-- Assignments whose values on the current arrays are those on `f`. -/
theorem foldl_put (F : Dist K dim s.ns → Method dim × Item K dim s.ns → K) (f : Dist K dim s.ns) :
    ∀ (todo done : List (Method dim × Item K dim s.ns)), (positions s (done ++ todo)).Nodup →
    (∀ q ∈ todo, ∀ done' todo', done ++ todo = done' ++ q :: todo' →
      F (written s done' f) q = value s q.1 f f q.2) →
    todo.foldl (fun g q => put g q.2.k q.2.cell (F g q)) (written s done f) =
      written s (done ++ todo) f
  | [], done, _, _ => by simp
  | q :: todo, done, hn, h => by
    have step : put (written s done f) q.2.k q.2.cell (F (written s done f) q) =
        written s (done ++ [q]) f := by
      rw [h q (by simp) done todo rfl]
      have hn1 : (positions s (done ++ [q])).Nodup := by
        unfold positions at hn ⊢
        rw [show done ++ q :: todo = (done ++ [q]) ++ todo by simp, List.map_append] at hn
        exact hn.of_append_left
      funext k c
      rw [put_spec]
      by_cases hkc : (k, c) = (q.2.k, q.2.cell)
      · rw [if_pos hkc]
        simp only [Prod.mk.injEq] at hkc
        rw [hkc.1, hkc.2, written_mem s hn1 (by simp)]
      · rw [if_neg hkc]
        by_cases hm : (k, c) ∈ positions s done
        · obtain ⟨r, hr, hre⟩ := List.mem_map.1 hm
          simp only [Prod.mk.injEq] at hre
          obtain ⟨rfl, rfl⟩ := hre
          have hn0 : (positions s done).Nodup := by
            unfold positions at hn1 ⊢
            rw [List.map_append] at hn1
            exact hn1.of_append_left
          rw [written_mem s hn0 hr, written_mem s hn1 (by simp [hr])]
        · rw [written_not_mem s hm, written_not_mem]
          unfold positions at hm ⊢
          rw [List.map_append, List.mem_append]
          rintro (h' | h')
          · exact hm h'
          · simp only [List.map_cons, List.map_nil, List.mem_singleton] at h'
            exact hkc h'
    rw [List.foldl_cons, step]
    have := foldl_put F f todo (done ++ [q]) (by simpa using hn) (by
      intro q' hq' done' todo' e
      exact h q' (by simp [hq']) done' todo' (by simpa using e))
    rw [this]; simp

theorem written_nil (f : Dist K dim s.ns) : written s [] f = f := by
  funext k c; simp [written]

theorem written_reads {l : List (Method dim × Item K dim s.ns)} (hf : Free s l)
    {q : Method dim × Item K dim s.ns} (hq : q ∈ l) {d : List (Method dim × Item K dim s.ns)}
    (hd : ∀ r ∈ d, r ∈ l) (f : Dist K dim s.ns) (p : Fin s.ns × Cell dim)
    (hp : p ∈ reads s q.1 q.2) : written s d f p.1 p.2 = f p.1 p.2 := by
  apply written_not_mem
  intro h
  apply hf q hq p hp
  obtain ⟨r, hr, hre⟩ := List.mem_map.1 h
  exact List.mem_map.2 ⟨r, hd r hr, hre⟩

/-- The flat list of assignments of the instances. -/
def flat (insts : List (Method dim × List (Item K dim s.ns))) : List (Method dim × Item K dim s.ns) :=
  insts.flatMap fun p => p.2.map fun it => (p.1, it)

theorem update_written {m : Method dim} {items : List (Item K dim s.ns)}
    {all : List (Method dim × Item K dim s.ns)}
    {done : List (Method dim × Item K dim s.ns)} (hn : (positions s all).Nodup)
    (hf : Free s all) (f : Dist K dim s.ns)
    (hsub : ∃ rest, all = done ++ (items.map fun it => (m, it)) ++ rest) :
    update s m items (written s done f) =
      written s (done ++ items.map fun it => (m, it)) f := by
  obtain ⟨rest, hall⟩ := hsub
  unfold update
  have e : items.foldl (fun g it => put g it.k it.cell (value s m g (written s done f) it))
      (written s done f) = (items.map fun it => (m, it)).foldl
        (fun g q => put g q.2.k q.2.cell (value s q.1 g (written s done f) q.2))
        (written s done f) := by
    rw [List.foldl_map]
  rw [e]
  apply foldl_put s (fun g q => value s q.1 g (written s done f) q.2) f
  · unfold positions at hn ⊢
    rw [hall, List.map_append] at hn
    exact hn.of_append_left
  · intro q hq done' todo' e'
    have hqa : q ∈ all := by rw [hall]; simp only [List.mem_append]; left; right; exact hq
    apply value_congr
    · intro p hp
      refine written_reads s hf hqa ?_ f p hp
      intro r hr
      rw [hall, e']; simp [hr]
    · intro p hp
      refine written_reads s hf hqa ?_ f p hp
      intro r hr
      rw [hall]; simp [hr]

theorem boundaryCondition_written (insts : List (Method dim × List (Item K dim s.ns)))
    (hn : (positions s (flat s insts)).Nodup) (hf : Free s (flat s insts)) (f : Dist K dim s.ns) :
    boundaryCondition s insts f = written s (flat s insts) f := by
  have key : ∀ (todo done : List (Method dim × List (Item K dim s.ns))), insts = done ++ todo →
      todo.foldl (fun g p => update s p.1 p.2 g) (written s (flat s done) f) =
        written s (flat s insts) f := by
    intro todo
    induction todo with
    | nil => intro done h; simp only [List.foldl_nil]; rw [h]; simp
    | cons p todo ih =>
      intro done h
      have e : flat s (done ++ [p]) = flat s done ++ p.2.map fun it => (p.1, it) := by
        simp [flat]
      rw [List.foldl_cons, update_written s hn hf f ⟨flat s todo, by rw [h]; simp [flat]⟩, ← e]
      exact ih (done ++ [p]) (by rw [h]; simp)
  have := key insts [] rfl
  unfold boundaryCondition
  rw [← this]
  simp [flat, written_nil]

end update
end Pylbm.Boundary
