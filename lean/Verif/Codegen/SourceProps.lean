import Verif.Codegen.Source
import Mathlib.Data.Rat.Cast.Order
import Mathlib.Algebra.Order.Field.Basic
import Mathlib.Algebra.Order.Round
import Mathlib.Tactic.NormNum
import Mathlib.Tactic.Linarith
import Mathlib.Tactic.IntervalCases
import Mathlib.Tactic.FinCases
import Mathlib.Tactic.Positivity
import Mathlib.Algebra.Order.Field.Power
import Mathlib.Data.Rat.Floor

/-! C79: the source terms act on the moments of the cell. -/

namespace Pylbm.Source

open Pylbm Storage StorageSpec

variable {V : Type}

/-- The axes of the space indices of a kernel (`_get_space_idx_inner`, base.py 170-189; symbolic.py 247-256). -/
def spaceAxes (sorder : List Nat) : List Nat := setOrder (List.range 3) sorder.tail

/-- The source terms of a scheme, base.py 452-495: the symbols and the text of each. -/
def sources (d : List (String × Nat)) (sorder : List Nat) (l : List (List String × List Tok)) :
    Option (List (Locals × List Tok)) :=
  sourceTexts (fullLocals d sorder (spaceAxes sorder)) (l.map fun x => (x.1, x.2 ++ [.fin]))

/-- The same with moments local to the loop (`m_local` without `split`). -/
def localSources (d : List (String × Nat)) (l : List (List String × List Tok)) : Option (List (Locals × List Tok)) :=
  sourceTexts (localLocals d) (l.map fun x => (x.1, x.2 ++ [.fin]))

/-! ## Lemmas -/

theorem lookup_addSymbols (syms : List String) : ∀ (L : Locals) (s : String),
    (addSymbols L syms).lookup s = if s ∈ syms then some (.sym s) else L.lookup s := by
  induction syms with
  | nil => intro L s; simp [addSymbols]
  | cons a syms ih =>
    intro L s
    have := ih ((a, .sym a) :: L) s
    unfold addSymbols at this ⊢
    rw [List.foldl_cons, this]
    by_cases h : s ∈ syms
    · simp [h]
    · by_cases h2 : s = a
      · subst h2; simp [List.lookup]
      · have : (s == a) = false := by simpa using h2
        simp [h, h2, List.lookup, this]

theorem pick_eq {α : Type} (l : List α) : ∀ ps : List Nat, (∀ p ∈ ps, p < l.length) →
    pick l ps = some (ps.filterMap (l[·]?)) := by
  intro ps
  induction ps with
  | nil => intro _; rfl
  | cons p ps ih =>
    intro h
    have hp : p < l.length := h p (by simp)
    simp only [pick, ih (fun q hq => h q (by simp [hq])), List.getElem?_eq_getElem hp, List.filterMap_cons]

theorem setOrder?_eq {α : Type} (l : List α) (p : List Nat) (hp : IsOrder p) (hl : l.length = p.length) :
    setOrder? l (some p) = some (setOrder l p) := by
  cases p with
  | nil => have : l = [] := List.eq_nil_of_length_eq_zero hl
           subst this; rfl
  | cons a ps =>
    show pick l (argsort (a :: ps)) = _
    rw [pick_eq]
    · rfl
    · intro q hq
      have : q ∈ List.range (a :: ps).length :=
        ((List.perm_insertionSort (fun i j => (a :: ps).getD i 0 ≤ (a :: ps).getD j 0) _).mem_iff).1 hq
      rw [hl]; simpa using this

theorem placed_setOrder {α : Type} (l : List α) (p : List Nat) (hp : IsOrder p) (hl : l.length = p.length) :
    Placed p l (setOrder l p) := by
  refine ⟨length_setOrder hp l hl, fun i hi => ?_⟩
  rw [setOrder_getElem? hp l hl _ (order_get_lt hp hi), order_idx_get hp hi]

theorem forall₂_setOrder {α β : Type} {R : α → β → Prop} {l : List α} {l' : List β} (h : List.Forall₂ R l l')
    (p : List Nat) (hp : IsOrder p) (hl : l.length = p.length) : List.Forall₂ R (setOrder l p) (setOrder l' p) := by
  have hl' : l'.length = p.length := by rw [← h.length_eq, hl]
  rw [List.forall₂_iff_get] at h ⊢
  refine ⟨by rw [length_setOrder hp l hl, length_setOrder hp l' hl'], fun i h1 h2 => ?_⟩
  have hi : i < p.length := by rwa [length_setOrder hp l hl] at h1
  have hj := order_idx hp hi
  have e1 := setOrder_getElem? hp l hl i hi
  have e2 := setOrder_getElem? hp l' hl' i hi
  rw [List.getElem?_eq_getElem h1, List.getElem?_eq_getElem (by omega), Option.some_inj] at e1
  rw [List.getElem?_eq_getElem h2, List.getElem?_eq_getElem (by omega), Option.some_inj] at e2
  simp only [List.get_eq_getElem]
  rw [e1, e2]
  exact h.2 _ (by omega) (by omega)

theorem reads_flat {S : Sem V} {N : Lang V} (ha : ∀ a, N.arg a) (ht : N.trailing) :
    ∀ (as : List (List Tok)) (vs : List V), as ≠ [] → List.Forall₂ (fun a x => Reads S N .sum a [x]) as vs →
      Reads S N .idx (as.flatMap (fun a => a ++ [.comma])) vs := by
  intro as
  induction as with
  | nil => intro _ h; exact absurd rfl h
  | cons a as ih =>
    intro vs _ hf
    cases hf with
    | cons h1 h2 =>
      by_cases hn : as = []
      · subst hn
        cases h2
        simpa using Reads.idxTrail ht (.idxOne h1 (ha a))
      · have := ih _ hn h2
        have := Reads.idxCons h1 (ha a) this
        simpa using this

theorem reads_lit {S : Sem V} {N : Lang V} (q : ℚ) : Reads S N .sum [.lit q] [S.lit q] :=
  .sumTerm (.termFactor (.factorPower (.powerAtom (.lit q))))

theorem reads_name {S : Sem V} {N : Lang V} (s : String) (v : V) (h : N.var s = some v) :
    Reads S N .sum [.name s] [v] :=
  .sumTerm (.termFactor (.factorPower (.powerAtom (.name s h))))

theorem indices_eq (p : List Nat) (hp : IsOrder p) (space : List Nat) (hl : space.length + 1 = p.length) :
    indices p space = space := by
  obtain ⟨a, t, rfl⟩ : ∃ a t, p = a :: t := by
    cases p with
    | nil => simp at hl
    | cons a t => exact ⟨a, t, rfl⟩
  have hpl := placed_setOrder (none :: space.map some) (a :: t) hp (by simpa using hl)
  unfold indices momentIndices
  rw [List.tail_cons]
  have hkey : ∀ i (hi : i < t.length), (((setOrder (none :: space.map some) (a :: t))[t[i]]?).join) = space[i]? := by
    intro i hi
    have := hpl.2 (i + 1) (by simpa using hi)
    rw [List.getElem_cons_succ] at this
    rw [this, List.getElem?_cons_succ, List.getElem?_map]
    cases space[i]? <;> rfl
  have hlen : space.length = t.length := by simpa using hl
  generalize setOrder (none :: space.map some) (a :: t) = m at hkey
  clear hpl hl hp
  induction t generalizing space with
  | nil => simp at hlen; simp [hlen]
  | cons b t ih =>
    cases space with
    | nil => simp at hlen
    | cons x space =>
      have h0 := hkey 0 (by simp)
      simp only [List.getElem_cons_zero, List.getElem?_cons_zero] at h0
      rw [List.filterMap_cons, h0]
      rw [ih space (by simpa using hlen) (fun i hi => hkey (i + 1) (by simpa using hi))]

theorem spaceAxes_eq (p : List Nat) (hinc : p.tail.Pairwise (· < ·)) (h3 : p.length ≤ 4) :
    spaceAxes p = List.range (p.length - 1) := by
  have h4 : p.tail.length ≤ 3 := by rw [List.length_tail]; omega
  have h5 : p.tail.length = p.length - 1 := List.length_tail
  unfold spaceAxes setOrder
  rw [argsort_of_sorted hinc, h5]
  rw [h5] at h4
  generalize p.length - 1 = n at h4
  interval_cases n <;> decide

/-- What the dictionary of locals must keep from one source term to the next. -/
structure Good (L : Locals) (d : List (String × Nat)) (p : List Nat) (dim : Nat) : Prop where
  m : L.lookup "m" = some .base
  consm : L.lookup "consm" = some (.dict d)
  sorder : L.lookup "sorder" = some (.order (some p))
  dflt : L.lookup "default_index" = some (.index ((List.range dim).map fun i => .name (indexStr i)))
  axis : ∀ i < dim, L.lookup (indexStr i) = some (.idx i) ∨ L.lookup (indexStr i) = some (.sym (indexStr i))

theorem good_add {L : Locals} {d : List (String × Nat)} {p : List Nat} {dim : Nat} (h : Good L d p dim)
    (syms : List String) (hs : ∀ s ∈ syms, s ∉ reserved) : Good (addSymbols L syms) d p dim := by
  have hr : ∀ s ∈ reserved, s ∉ syms := fun s h1 h2 => hs s h2 h1
  constructor
  · rw [lookup_addSymbols, if_neg (hr _ (by decide)), h.m]
  · rw [lookup_addSymbols, if_neg (hr _ (by decide)), h.consm]
  · rw [lookup_addSymbols, if_neg (hr _ (by decide)), h.sorder]
  · rw [lookup_addSymbols, if_neg (hr _ (by decide)), h.dflt]
  · intro i hi
    rw [lookup_addSymbols]
    by_cases hm : indexStr i ∈ syms
    · right; rw [if_pos hm]
    · rw [if_neg hm]; exact h.axis i hi

theorem axisOf_indexStr (i : Nat) (hi : i < 3) : axisOf (indexStr i) = some i := by
  interval_cases i <;> decide

theorem faithful_full (W : World V) (d : List (String × Nat)) (p : List Nat) (hp : IsOrder p)
    (hlen : p.length = W.here.length + 1) (h3 : W.here.length ≤ 3) (hm : Holds W p)
    (L : Locals) (h : Good L d p W.here.length) (syms : List String) (hs : ∀ s ∈ syms, s ∉ reserved)
    (text : List Tok) (ht : ∀ s, Tok.name s ∈ text → s ∈ syms ∨ L.lookup s = none) :
    Faithful W.sem (addSymbols L syms) d (userLang W d syms) (codeLang W (addSymbols L syms)) text := by
  have hg := good_add h syms hs
  have hitem : ∀ (k : Nat) (as : List (List Tok)) (vs : List V), vs.length = W.here.length →
      List.Forall₂ (fun a x => Reads W.sem (codeLang W (addSymbols L syms)) .sum a [x]) as vs →
      ∃ b, setOrder? ([Tok.lit k] :: as) (some p) = some b ∧
        Reads W.sem (codeLang W (addSymbols L syms)) .atom
          (.name "m" :: .lb :: (b.flatMap (fun a => a ++ [.comma]) ++ [.rb])) [W.fld k vs] := by
    intro k as vs hv hf
    have hl1 : ([Tok.lit k] :: as).length = p.length := by simp [hf.length_eq, hv, hlen]
    have hl2 : (W.sem.lit k :: vs).length = p.length := by simp [hv, hlen]
    refine ⟨_, setOrder?_eq _ p hp hl1, ?_⟩
    have hf2 : List.Forall₂ (fun a x => Reads W.sem (codeLang W (addSymbols L syms)) .sum a [x])
        (setOrder ([Tok.lit k] :: as) p) (setOrder (W.sem.lit k :: vs) p) :=
      forall₂_setOrder (R := fun a x => Reads W.sem (codeLang W (addSymbols L syms)) .sum a [x])
        (.cons (reads_lit _) hf) p hp hl1
    refine .item "m" (reads_flat (fun _ => trivial) trivial _ _ ?_ hf2) ?_
    · intro he
      have := length_setOrder hp _ hl1
      rw [he] at this
      simp at this
      omega
    · show (match (addSymbols L syms).lookup "m" with
        | some .base => W.mem (setOrder (W.sem.lit k :: vs) p)
        | _ => none) = _
      rw [hg.m]
      exact hm k vs hv _ (placed_setOrder _ p hp hl2)
  refine ⟨⟨d, hg.consm, rfl⟩, fun _ h => h, fun _ h => h, fun h => h, ?_, ⟨rfl, rfl⟩, ?_, ?_, ?_⟩
  · intro s v hst hd hv
    have hv' : (match d.lookup s with
        | some k => some (W.fld k W.here)
        | none => if s ∈ syms then some (W.symVal s) else W.glob s) = some v := hv
    rw [hd] at hv'
    show (match (addSymbols L syms).lookup s with
      | some (.sym s') => some (W.symVal s')
      | some (.idx i) => W.here[i]?
      | some _ => none
      | none => W.glob s) = _
    rw [lookup_addSymbols]
    by_cases hsm : s ∈ syms
    · simpa [hsm] using hv'
    · have := (ht s hst).resolve_left hsm
      simpa [hsm, this] using hv'
  · intro s vs v hv
    have hv' : (match d.lookup s with
        | some k => if vs.length = W.here.length then some (W.fld k vs) else none
        | none => none) = some v := hv
    cases hd : d.lookup s with
    | none => rw [hd] at hv'; simp at hv'
    | some k => exact ⟨k, rfl⟩
  · intro s k v hd hv
    have hv' : (match d.lookup s with
        | some k => some (W.fld k W.here)
        | none => if s ∈ syms then some (W.symVal s) else W.glob s) = some v := hv
    rw [hd] at hv'
    simp only [Option.some_inj] at hv'
    subst hv'
    have hf : List.Forall₂ (fun a x => Reads W.sem (codeLang W (addSymbols L syms)) .sum a [x])
        ((List.range W.here.length).map fun i => [Tok.name (indexStr i)]) W.here := by
      rw [List.forall₂_iff_get]
      refine ⟨by simp, fun i h1 h2 => ?_⟩
      have h2' : i < W.here.length := h2
      simp only [List.get_eq_getElem, List.getElem_map, List.getElem_range]
      refine reads_name _ _ ?_
      show (match (addSymbols L syms).lookup (indexStr i) with
        | some (.sym s') => some (W.symVal s')
        | some (.idx i) => W.here[i]?
        | some _ => none
        | none => W.glob (indexStr i)) = _
      rcases hg.axis i h2' with h | h
      · rw [h]; exact List.getElem?_eq_getElem h2'
      · rw [h]
        simp only [World.symVal, axisOf_indexStr i (by omega), List.getElem?_eq_getElem h2', Option.getD_some]
    obtain ⟨b, hb, hr⟩ := hitem k _ W.here rfl hf
    have hb2 : setOrder? (Tok.lit k :: (List.range W.here.length).map fun i => .name (indexStr i)) (some p) =
        some (setOrder (Tok.lit k :: (List.range W.here.length).map fun i => .name (indexStr i)) p) :=
      setOrder?_eq _ p hp (by simp [hlen])
    have hbe : b = (setOrder (Tok.lit k :: (List.range W.here.length).map fun i => .name (indexStr i)) p).map
        fun t => [t] := by
      have e := setOrder?_eq ([Tok.lit k] :: (List.range W.here.length).map fun i => [Tok.name (indexStr i)]) p hp
        (by simp [hlen])
      rw [hb, Option.some_inj] at e
      rw [e]
      unfold setOrder
      rw [List.map_filterMap]
      apply List.filterMap_congr
      intro j _
      have : ([Tok.lit k] :: (List.range W.here.length).map fun i => [Tok.name (indexStr i)]) =
          (Tok.lit k :: (List.range W.here.length).map fun i => .name (indexStr i)).map fun t => [t] := by
        simp
      rw [this, List.getElem?_map]
    refine ⟨_, ?_, hr⟩
    unfold bare indexOf orderOf
    rw [hg.dflt, hg.sorder]
    simp only [hb2, hbe, List.flatMap_map, List.singleton_append]
  · intro s k as vs v hd hv hf
    have hv' : (match d.lookup s with
        | some k => if vs.length = W.here.length then some (W.fld k vs) else none
        | none => none) = some v := hv
    rw [hd] at hv'
    simp only [Option.ite_none_right_eq_some, Option.some_inj] at hv'
    obtain ⟨hvl, rfl⟩ := hv'
    obtain ⟨b, hb, hr⟩ := hitem k as vs hvl hf
    refine ⟨_, ?_, hr⟩
    unfold reorder orderOf
    rw [hg.sorder]
    simp only [hb]

theorem parse_through {S : Sem V} {L : Locals} {d : List (String × Nat)} {U N : Lang V} {syms : List String}
    {text : List Tok} {v : V} (H : Faithful S (addSymbols L syms) d U N text) (h : Reads S U .sum text [v]) :
    ∃ t', parseExpr L syms (text ++ [.fin]) = some (addSymbols L syms, t' ++ [.fin]) ∧ Reads S N .sum t' [v] := by
  obtain ⟨t', e, hr⟩ := through H h (by simp) (fun _ h => h) .fin [] (by simp)
  refine ⟨t', ?_, hr⟩
  unfold parseExpr
  rw [e]
  simp [go]

/-! ## C79 -/

/-- The names of a source term: no key of the dictionary of locals; a name which is not a symbol of the source term (a
constant or a function of SymPy) is not a symbol of another one either. -/
def NamesOK (l : List (List String × List Tok)) : Prop :=
  ∀ x ∈ l, (∀ s ∈ x.1, s ∉ reserved) ∧
    ∀ s, Tok.name s ∈ x.2 → s ∈ x.1 ∨ (s ∉ reserved ∧ axisOf s = none ∧ ∀ y ∈ l, s ∉ y.1)

/-- **C79, partial**: with the space axes stored in increasing order, the text made of a source term has the value that
the user gives to it: a conserved moment is its value in the cell, a conserved moment with indices its value in the
cell of these indices, whatever the place of the velocity axis in the storage. The names `m`, `consm`, `sorder` and
`default_index` are not used, and the indices have no comma, bracket or conserved moment inside.

Missing: the other storage orders, names and indices, for which it is false (`C79_order_negation`,
`C79_name_negation`, `C79_index_negation`). -/
theorem C79_value_partial (W : World V) (d : List (String × Nat)) (p : List Nat) (hp : IsOrder p)
    (hinc : p.tail.Pairwise (· < ·)) (hlen : p.length = W.here.length + 1) (h3 : W.here.length ≤ 3)
    (hm : Holds W p) (l : List (List String × List Tok)) (vs : List V) (hn : NamesOK l)
    (hl : List.Forall₂ (fun x v => Reads W.sem (userLang W d x.1) .sum x.2 [v]) l vs) :
    ∃ r, sources d p l = some r ∧
      List.Forall₂ (fun y v => ∃ t, y.2 = t ++ [.fin] ∧ Reads W.sem (codeLang W y.1) .sum t [v]) r vs := by
  have hspace : spaceAxes p = List.range W.here.length := by
    rw [spaceAxes_eq p hinc (by omega), hlen]; rfl
  have hind : indices p (List.range W.here.length) = List.range W.here.length := indices_eq p hp _ (by simp [hlen])
  have key : ∀ (l : List (List String × List Tok)) (vs : List V) (L : Locals), Good L d p W.here.length →
      (∀ x ∈ l, (∀ s ∈ x.1, s ∉ reserved) ∧
        ∀ s, Tok.name s ∈ x.2 → s ∈ x.1 ∨ (L.lookup s = none ∧ ∀ y ∈ l, s ∉ y.1)) →
      List.Forall₂ (fun x v => Reads W.sem (userLang W d x.1) .sum x.2 [v]) l vs →
      ∃ r, sourceTexts L (l.map fun x => (x.1, x.2 ++ [.fin])) = some r ∧
        List.Forall₂ (fun y v => ∃ t, y.2 = t ++ [.fin] ∧ Reads W.sem (codeLang W y.1) .sum t [v]) r vs := by
    intro l
    induction l with
    | nil => intro vs L _ _ h; cases h; exact ⟨[], rfl, .nil⟩
    | cons x l ih =>
      intro vs L hL hx hr
      cases hr with
      | cons h1 h2 =>
        obtain ⟨hx1, hx2⟩ := hx x (by simp)
        have H := faithful_full W d p hp hlen h3 hm L hL x.1 hx1 x.2
          (fun s hs => (hx2 s hs).imp id fun h => h.1)
        obtain ⟨t', e, hread⟩ := parse_through H h1
        obtain ⟨r, er, hrr⟩ := ih _ (addSymbols L x.1) (good_add hL x.1 hx1) (fun y hy => ⟨(hx y (by simp [hy])).1,
          fun s hs => by
            rcases (hx y (by simp [hy])).2 s hs with h | ⟨ha, hb⟩
            · exact .inl h
            · refine .inr ⟨?_, fun z hz => hb z (by simp [hz])⟩
              rw [lookup_addSymbols, if_neg (hb x (by simp)), ha]⟩) h2
        refine ⟨(addSymbols L x.1, t' ++ [.fin]) :: r, ?_, .cons ⟨t', rfl, hread⟩ hrr⟩
        simp only [List.map_cons, sourceTexts, e, er, Option.map_some]
  unfold sources
  rw [hspace]
  have hlook : ∀ s, s ∉ reserved → axisOf s = none →
      (fullLocals d p (List.range W.here.length)).lookup s = none := by
    intro s h1 h2
    unfold fullLocals
    rw [hind]
    simp only [reserved, List.mem_cons, List.not_mem_nil, or_false, not_or] at h1
    have h6 : ∀ i, s ≠ indexStr i := by
      rintro i rfl
      unfold indexStr at h2
      split at h2 <;> [skip; split at h2] <;> revert h2 <;> decide
    rw [List.lookup_eq_none_iff]
    intro q hq
    simp only [List.mem_append, List.mem_map, List.mem_cons, List.not_mem_nil, or_false] at hq
    rcases hq with ⟨a, _, rfl⟩ | rfl | rfl | rfl | rfl
    · simpa using h6 a.2
    · simpa using h1.1
    · simpa using h1.2.1
    · simpa using h1.2.2.1
    · simpa using h1.2.2.2
  refine key l vs _ ?_ (fun x hx => ⟨(hn x hx).1, fun s hs => ?_⟩) hl
  · unfold fullLocals
    rw [hind]
    generalize W.here.length = n at h3
    interval_cases n <;> (constructor <;> (try rfl))
    · intro i hi; omega
    · intro i hi; interval_cases i; left; rfl
    · intro i hi; interval_cases i <;> (left; rfl)
    · intro i hi; interval_cases i <;> (left; rfl)
  · rcases (hn x hx).2 s hs with h | ⟨h1, h2, h3'⟩
    · exact .inl h
    · exact .inr ⟨hlook s h1 h2, h3'⟩

/-- How the user reads a source term in which no conserved moment has indices. -/
def pointLang (W : World V) (d : List (String × Nat)) (syms : List String) : Lang V :=
  { userLang W d syms with sub := fun _ _ => none }

/-- **C79, moments local to the loop** (`m_local`): `m` is the column of the moments of the cell, and a source term has
the value that the user gives to it. -/
theorem C79_local_partial (W : World V) (d : List (String × Nat))
    (hm : ∀ k : Nat, W.mem [W.sem.lit k, W.sem.lit 0] = some (W.fld k W.here))
    (l : List (List String × List Tok)) (vs : List V) (hn : NamesOK l)
    (hl : List.Forall₂ (fun x v => Reads W.sem (pointLang W d x.1) .sum x.2 [v]) l vs) :
    ∃ r, localSources d l = some r ∧
      List.Forall₂ (fun y v => ∃ t, y.2 = t ++ [.fin] ∧ Reads W.sem (codeLang W y.1) .sum t [v]) r vs := by
  have key : ∀ (l : List (List String × List Tok)) (vs : List V) (L : Locals),
      (L.lookup "m" = some .base ∧ L.lookup "consm" = some (.dict d) ∧ L.lookup "sorder" = some (.order none) ∧
        L.lookup "default_index" = some (.index [.lit 0])) →
      (∀ x ∈ l, (∀ s ∈ x.1, s ∉ reserved) ∧
        ∀ s, Tok.name s ∈ x.2 → s ∈ x.1 ∨ (L.lookup s = none ∧ ∀ y ∈ l, s ∉ y.1)) →
      List.Forall₂ (fun x v => Reads W.sem (pointLang W d x.1) .sum x.2 [v]) l vs →
      ∃ r, sourceTexts L (l.map fun x => (x.1, x.2 ++ [.fin])) = some r ∧
        List.Forall₂ (fun y v => ∃ t, y.2 = t ++ [.fin] ∧ Reads W.sem (codeLang W y.1) .sum t [v]) r vs := by
    intro l
    induction l with
    | nil => intro vs L _ _ h; cases h; exact ⟨[], rfl, .nil⟩
    | cons x l ih =>
      intro vs L hL hx hr
      cases hr with
      | cons h1 h2 =>
        obtain ⟨hx1, hx2⟩ := hx x (by simp)
        have hk : ∀ s ∈ reserved, (addSymbols L x.1).lookup s = L.lookup s := fun s hs => by
          rw [lookup_addSymbols, if_neg fun h => hx1 s h hs]
        have hL' : (addSymbols L x.1).lookup "m" = some .base ∧ (addSymbols L x.1).lookup "consm" = some (.dict d) ∧
            (addSymbols L x.1).lookup "sorder" = some (.order none) ∧
            (addSymbols L x.1).lookup "default_index" = some (.index [.lit 0]) := by
          rw [hk _ (by decide), hk _ (by decide), hk _ (by decide), hk _ (by decide)]; exact hL
        have H : Faithful W.sem (addSymbols L x.1) d (pointLang W d x.1) (codeLang W (addSymbols L x.1)) x.2 := by
          refine ⟨⟨d, hL'.2.1, rfl⟩, fun _ h => h, fun _ h => h, fun h => h, ?_, ⟨rfl, rfl⟩, ?_, ?_, ?_⟩
          · intro s v hst hd hv
            have hv' : (match d.lookup s with
                | some k => some (W.fld k W.here)
                | none => if s ∈ x.1 then some (W.symVal s) else W.glob s) = some v := hv
            rw [hd] at hv'
            show (match (addSymbols L x.1).lookup s with
              | some (.sym s') => some (W.symVal s')
              | some (.idx i) => W.here[i]?
              | some _ => none
              | none => W.glob s) = _
            rw [lookup_addSymbols]
            by_cases hsm : s ∈ x.1
            · simpa [hsm] using hv'
            · have := ((hx2 s hst).resolve_left hsm).1
              simpa [hsm, this] using hv'
          · intro s vs v hv; exact absurd hv (by simp [pointLang])
          · intro s k v hd hv
            have hv' : (match d.lookup s with
                | some k => some (W.fld k W.here)
                | none => if s ∈ x.1 then some (W.symVal s) else W.glob s) = some v := hv
            rw [hd] at hv'
            simp only [Option.some_inj] at hv'
            subst hv'
            refine ⟨.name "m" :: .lb :: ([.lit k, .comma, .lit 0, .comma] ++ [.rb]), ?_, .item "m" (xs := [W.sem.lit k, W.sem.lit 0])
              ?_ ?_⟩
            · unfold bare indexOf orderOf
              rw [hL'.2.2.2, hL'.2.2.1]
              rfl
            · exact .idxCons (a := [.lit k]) (b := [.lit 0, .comma]) (reads_lit _) trivial
                (.idxTrail (a := [.lit 0]) trivial (.idxOne (reads_lit 0) trivial))
            · show (match (addSymbols L x.1).lookup "m" with
                | some .base => W.mem [W.sem.lit k, W.sem.lit 0]
                | _ => none) = _
              rw [hL'.1]
              exact hm k
          · intro s k as vs v _ hv; exact absurd hv (by simp [pointLang])
        obtain ⟨t', e, hread⟩ := parse_through H h1
        obtain ⟨r, er, hrr⟩ := ih _ (addSymbols L x.1) hL' (fun y hy => ⟨(hx y (by simp [hy])).1,
          fun s hs => by
            rcases (hx y (by simp [hy])).2 s hs with h | ⟨ha, hb⟩
            · exact .inl h
            · refine .inr ⟨?_, fun z hz => hb z (by simp [hz])⟩
              rw [lookup_addSymbols, if_neg (hb x (by simp)), ha]⟩) h2
        refine ⟨(addSymbols L x.1, t' ++ [.fin]) :: r, ?_, .cons ⟨t', rfl, hread⟩ hrr⟩
        simp only [List.map_cons, sourceTexts, e, er, Option.map_some]
  refine key l vs _ ⟨rfl, rfl, rfl, rfl⟩ (fun x hx => ⟨(hn x hx).1, fun s hs => ?_⟩) hl
  rcases (hn x hx).2 s hs with h | ⟨h1, h2, h3'⟩
  · exact .inl h
  · refine .inr ⟨?_, h3'⟩
    simp only [reserved, List.mem_cons, List.not_mem_nil, or_false, not_or] at h1
    rw [List.lookup_eq_none_iff]
    intro q hq
    simp only [localLocals, List.mem_cons, List.not_mem_nil, or_false] at hq
    rcases hq with rfl | rfl | rfl | rfl
    · simpa using h1.1
    · simpa using h1.2.1
    · simpa using h1.2.2.1
    · simpa using h1.2.2.2

/-! ## Cases -/

/-- Rational values, and fields given by a function of the number and of the place. -/
def ratSem : Sem ℚ where
  lit q := q
  add := (· + ·)
  sub := (· - ·)
  mul := (· * ·)
  div := (· / ·)
  pow _ _ := 0
  neg := (- ·)
  fn _ _ := 0

/-- A plane of cells at the cell `(3, 5)`; the storage order is that of Cython, the velocity axis last. -/
def plane : World ℚ where
  sem := ratSem
  val _ := 7
  glob _ := none
  here := [3, 5]
  fld k vs := k + 10 * vs.getD 0 0 + 100 * vs.getD 1 0
  mem a := match a with
    | [x, y, k] => some (k + 10 * x + 100 * y)
    | _ => none

theorem plane_holds : Holds plane [2, 0, 1] := by
  intro k vs hv a ha
  obtain ⟨h1, h2⟩ := ha
  match vs, hv with
  | [x, y], _ =>
    match a, h1 with
    | [p, q, s], _ =>
      have e0 := h2 0 (by simp)
      have e1 := h2 1 (by simp)
      have e2 := h2 2 (by simp)
      simp only [List.getElem_cons_zero, List.getElem_cons_succ, List.getElem?_cons_zero, List.getElem?_cons_succ,
        Option.some_inj] at e0 e1 e2
      subst e0 e1 e2
      rfl

/-- `MU*u*(v - u[ix + 1, iy])`, with `u` and `v` conserved. -/
def reaction : List Tok :=
  [.name "MU", .mul, .name "u", .mul, .lp, .name "v", .sub, .name "u", .lb, .name "ix", .add, .lit 1, .comma,
    .name "iy", .rb, .rp]

theorem reaction_reads : Reads plane.sem (userLang plane [("u", 0), ("v", 3)] ["MU", "u", "v", "ix", "iy"]) .sum reaction
    [7 * (0 + 10 * 3 + 100 * 5) * ((3 + 10 * 3 + 100 * 5) - (0 + 10 * (3 + 1) + 100 * 5))] := by
  refine .sumTerm (.termMul (a := [.name "MU", .mul, .name "u"]) (.termMul (a := [.name "MU"]) (b := [.name "u"])
    (.termFactor (.factorPower (.powerAtom (.name "MU" ?_)))) (.factorPower (.powerAtom (.name "u" ?_))))
    (.factorPower (.powerAtom (.paren (a := [.name "v", .sub, .name "u", .lb, .name "ix", .add, .lit 1, .comma,
      .name "iy", .rb]) (.sumSub (a := [.name "v"]) (.sumTerm (.termFactor (.factorPower (.powerAtom (.name "v" ?_)))))
      (.termFactor (.factorPower (.powerAtom (.item "u" (a := [.name "ix", .add, .lit 1, .comma, .name "iy"])
        (xs := [3 + 1, 5]) (.idxCons (a := [.name "ix", .add, .lit 1]) (b := [.name "iy"])
          (.sumAdd (a := [.name "ix"]) (.sumTerm (.termFactor (.factorPower (.powerAtom (.name "ix" ?_)))))
            (.termFactor (.factorPower (.powerAtom (.lit 1))))) ?_ (.idxOne (reads_name "iy" _ ?_) ?_)) ?_)))))))))
  · rfl
  · rfl
  · rfl
  · rfl
  · intro t ht; fin_cases ht <;> simp
  · rfl
  · intro t ht; fin_cases ht <;> simp
  · rfl

/-- The reaction term of the example in the Cython order: it becomes
`MU*m[ix_, iy_, 0, ]*(m[ix_, iy_, 3, ] - m[ix + 1, iy, 0, ])`. -/
example : ∃ r, sources [("u", 0), ("v", 3)] [2, 0, 1] [(["MU", "u", "v", "ix", "iy"], reaction)] = some r ∧
    List.Forall₂ (fun y v => ∃ t, y.2 = t ++ [.fin] ∧ Reads plane.sem (codeLang plane y.1) .sum t [v]) r
      [7 * (0 + 10 * 3 + 100 * 5) * ((3 + 10 * 3 + 100 * 5) - (0 + 10 * (3 + 1) + 100 * 5))] :=
  C79_value_partial plane [("u", 0), ("v", 3)] [2, 0, 1] (by unfold IsOrder; decide) (by decide) rfl (by decide) plane_holds
    [(["MU", "u", "v", "ix", "iy"], reaction)] _
    (by
      intro x hx
      simp only [List.mem_singleton] at hx
      subst hx
      refine ⟨by decide, fun s hs => .inl ?_⟩
      simp only [reaction, List.mem_cons, Tok.name.injEq, reduceCtorEq, List.not_mem_nil, or_false, false_or] at hs ⊢
      tauto)
    (.cons reaction_reads .nil)

example : (sources [("u", 0), ("v", 3)] [2, 0, 1] [(["MU", "u", "v", "ix", "iy"], reaction)]).map (List.map Prod.snd) =
    some [[.name "MU", .mul, .name "m", .lb, .name "ix_", .comma, .name "iy_", .comma, .lit 0, .comma, .rb, .mul, .lp,
      .name "m", .lb, .name "ix_", .comma, .name "iy_", .comma, .lit 3, .comma, .rb, .sub,
      .name "m", .lb, .name "ix", .add, .lit 1, .comma, .name "iy", .comma, .lit 0, .comma, .rb, .rp, .fin]] := by
  decide +kernel

/-- `MU*u*(1 - u)` of demo/1D/advection_reaction.py with local moments. -/
example (W : World ℚ) (hm : ∀ k : Nat, W.mem [W.sem.lit k, W.sem.lit 0] = some (W.fld k W.here)) :
    ∃ r, localSources [("u", 0)] [(["MU", "u"], [.name "MU", .mul, .name "u", .mul, .lp, .lit 1, .sub, .name "u", .rp])] =
        some r ∧
      List.Forall₂ (fun y v => ∃ t, y.2 = t ++ [.fin] ∧ Reads W.sem (codeLang W y.1) .sum t [v]) r
        [W.sem.mul (W.sem.mul (W.val "MU") (W.fld 0 W.here)) (W.sem.sub (W.sem.lit 1) (W.fld 0 W.here))] :=
  C79_local_partial W [("u", 0)] hm _ _
    (by
      intro x hx
      simp only [List.mem_singleton] at hx
      subst hx
      refine ⟨by decide, fun s hs => .inl ?_⟩
      simp only [List.mem_cons, Tok.name.injEq, reduceCtorEq, List.not_mem_nil, or_false, false_or] at hs ⊢
      tauto)
    (.cons (.sumTerm (.termMul (a := [.name "MU", .mul, .name "u"]) (.termMul (a := [.name "MU"]) (b := [.name "u"])
      (.termFactor (.factorPower (.powerAtom (.name "MU" rfl)))) (.factorPower (.powerAtom (.name "u" rfl))))
      (.factorPower (.powerAtom (.paren (a := [.lit 1, .sub, .name "u"]) (.sumSub (a := [.lit 1]) (reads_lit 1)
        (.termFactor (.factorPower (.powerAtom (.name "u" rfl)))))))))) .nil)

/-! ## Where it fails -/

theorem no_brackets {S : Sem V} {N : Lang V} (h : ∀ s vs, N.sub s vs = none) {c : Cat} {t : List Tok} {vs : List V}
    (hr : Reads S N c t vs) : Tok.lb ∉ t := by
  induction hr with
  | item s _ hv _ => rw [h] at hv; simp at hv
  | _ => simp_all

theorem balanced {S : Sem V} {N : Lang V} {c : Cat} {t : List Tok} {vs : List V} (hr : Reads S N c t vs) :
    t.count .lp = t.count .rp := by
  induction hr <;> simp_all [List.count_append]

/-- **C79, negation: a conserved moment called `m`** (a mass, say). Its symbol takes the place of the array in the
dictionary of locals (transform.py 77-78), and the text made of a source term which uses it has no value at all: SymPy is
asked for `m[0, ix_, ]` with the symbol `m`, a `TypeError`. The same source term with another name is accepted
(`C79_value_partial`). -/
theorem C79_name_negation (W : World V) :
    ∃ L t, sources [("m", 0)] [0, 1] [(["m"], [.name "m"])] = some [(L, t ++ [.fin])] ∧
      ∀ v, ¬ Reads W.sem (codeLang W L) .sum t [v] := by
  refine ⟨addSymbols (fullLocals [("m", 0)] [0, 1] (spaceAxes [0, 1])) ["m"],
    [.name "m", .lb, .lit 0, .comma, .name "ix_", .comma, .rb], ?_, fun v hr => ?_⟩
  · rfl
  · have hs : ∀ s vs, (codeLang W (addSymbols (fullLocals [("m", 0)] [0, 1] (spaceAxes [0, 1])) ["m"])).sub s vs = none := by
      intro s vs
      show (match (addSymbols (fullLocals [("m", 0)] [0, 1] (spaceAxes [0, 1])) ["m"]).lookup s with
        | some .base => W.mem vs
        | _ => none) = none
      rw [lookup_addSymbols]
      by_cases hm : s = "m"
      · simp [hm]
      · have he : fullLocals [("m", 0)] [0, 1] (spaceAxes [0, 1]) = [("ix_", .idx 0), ("m", .base), ("consm", .dict [("m", 0)]),
          ("sorder", .order (some [0, 1])), ("default_index", .index [.name "ix_"])] := rfl
        rw [if_neg (by simpa using hm), he]
        have hb : (s == "m") = false := by simpa using hm
        simp only [List.lookup, hb]
        split
        · rename_i h; revert h; split <;> (try split) <;> (try split) <;> (try split) <;> simp
        · rfl
    exact no_brackets hs hr (by simp)

/-- … and the source terms which come after it and do not use it are lost too, since the dictionary is shared. -/
theorem C79_shared_negation (W : World V) :
    ∃ L1 t1 L t, sources [("u", 0)] [0, 1] [(["m"], [.name "m"]), (["u"], [.name "u"])] =
        some [(L1, t1), (L, t ++ [.fin])] ∧ ∀ v, ¬ Reads W.sem (codeLang W L) .sum t [v] := by
  refine ⟨_, _, addSymbols (addSymbols (fullLocals [("u", 0)] [0, 1] (spaceAxes [0, 1])) ["m"]) ["u"],
    [.name "m", .lb, .lit 0, .comma, .name "ix_", .comma, .rb], rfl, fun v hr => ?_⟩
  have hs : ∀ s vs, (codeLang W (addSymbols (addSymbols (fullLocals [("u", 0)] [0, 1] (spaceAxes [0, 1])) ["m"])
      ["u"])).sub s vs = none := by
    intro s vs
    show (match (addSymbols (addSymbols (fullLocals [("u", 0)] [0, 1] (spaceAxes [0, 1])) ["m"]) ["u"]).lookup s with
      | some .base => W.mem vs
      | _ => none) = none
    rw [lookup_addSymbols, lookup_addSymbols]
    by_cases hu : s = "u"
    · simp [hu]
    by_cases hm : s = "m"
    · simp [hm]
    · have he : fullLocals [("u", 0)] [0, 1] (spaceAxes [0, 1]) = [("ix_", .idx 0), ("m", .base), ("consm", .dict [("u", 0)]),
        ("sorder", .order (some [0, 1])), ("default_index", .index [.name "ix_"])] := rfl
      rw [if_neg (by simpa using hu), if_neg (by simpa using hm), he]
      have hb : (s == "m") = false := by simpa using hm
      simp only [List.lookup, hb]
      split
      · rename_i h; revert h; split <;> (try split) <;> (try split) <;> (try split) <;> simp
      · rfl
  exact no_brackets hs hr (by simp)

/-- **C79, negation: an index with a comma inside**, `u[Max(0, ix - 1)]`: the loop cuts at each comma, whatever the
parentheses (transform.py 41-42), and what comes after the second one is dropped by `set_order`. -/
theorem C79_index_negation (W : World V) :
    ∃ L t, sources [("u", 0)] [0, 1] [(["u", "ix"], [.name "u", .lb, .name "Max", .lp, .lit 0, .comma, .name "ix", .sub,
        .lit 1, .rp, .rb])] = some [(L, t ++ [.fin])] ∧ ∀ v, ¬ Reads W.sem (codeLang W L) .sum t [v] := by
  refine ⟨_, [.name "m", .lb, .lit 0, .comma, .name "Max", .lp, .lit 0, .comma, .rb], rfl, fun v hr => ?_⟩
  have := balanced hr
  revert this
  decide

/-- The value which the kernel has for the moment `k`: `m[k]` with the indices of its loops (`indexed`, symbolic.py
195-197). -/
def World.kernel (W : World V) (sorder : List Nat) (k : Nat) : Option V :=
  W.mem (setOrder (W.sem.lit k :: (spaceAxes sorder).filterMap (W.here[·]?)) sorder)

theorem filterMap_range {α : Type} (l : List α) : (List.range l.length).filterMap (l[·]?) = l := by
  induction l with
  | nil => rfl
  | cons a l ih =>
    rw [List.length_cons, List.range_succ_eq_map, List.filterMap_cons]
    simp only [List.getElem?_cons_zero, List.filterMap_map]
    congr 1

/-- In the orders of `C79_value_partial` this is the moment of the cell. -/
theorem kernel_eq (W : World V) (p : List Nat) (hp : IsOrder p) (hinc : p.tail.Pairwise (· < ·))
    (hlen : p.length = W.here.length + 1) (h3 : W.here.length ≤ 3) (hm : Holds W p) (k : Nat) :
    W.kernel p k = some (W.fld k W.here) := by
  have hspace : spaceAxes p = List.range W.here.length := by
    rw [spaceAxes_eq p hinc (by omega), hlen]; rfl
  have hh : (List.range W.here.length).filterMap (W.here[·]?) = W.here := by
    exact filterMap_range W.here
  unfold World.kernel
  rw [hspace, hh]
  exact hm k W.here rfl _ (placed_setOrder _ p hp (by simp [hlen]))

/-- **C79, negation: permuted space axes**, `sorder = [0, 2, 1]`. The list `indices` is in the order of the loops of the
kernel, but the names `ix_`, `iy_` are given to its entries as if it were in the order of the axes (base.py 483-484): the
text made of `u` is the moment of another cell than the one of the kernel, in which the source term is added. -/
theorem C79_order_negation : ∃ (W : World ℚ) (L : Locals) (t : List Tok) (v w : ℚ),
    Holds W [0, 2, 1] ∧ sources [("u", 0)] [0, 2, 1] [(["u"], [.name "u"])] = some [(L, t ++ [.fin])] ∧
    W.kernel [0, 2, 1] 0 = some v ∧ Reads W.sem (codeLang W L) .sum t [w] ∧ v ≠ w := by
  let W : World ℚ := { plane with mem := fun a => match a with
    | [k, y, x] => some (k + 10 * x + 100 * y)
    | _ => none }
  refine ⟨W, _, [.name "m", .lb, .lit 0, .comma, .name "ix_", .comma, .name "iy_", .comma, .rb], 0 + 10 * 5 + 100 * 3,
    0 + 10 * 3 + 100 * 5, ?_, rfl, rfl, ?_, by norm_num⟩
  · intro k vs hv a ha
    obtain ⟨h1, h2⟩ := ha
    match vs, hv with
    | [x, y], _ =>
      match a, h1 with
      | [p, q, s], _ =>
        have e0 := h2 0 (by simp)
        have e1 := h2 1 (by simp)
        have e2 := h2 2 (by simp)
        simp only [List.getElem_cons_zero, List.getElem_cons_succ, List.getElem?_cons_zero, List.getElem?_cons_succ,
          Option.some_inj] at e0 e1 e2
        subst e0 e1 e2
        rfl
  · refine .sumTerm (.termFactor (.factorPower (.powerAtom (.item "m" (a := [.lit 0, .comma, .name "ix_", .comma,
      .name "iy_", .comma]) (xs := [0, 5, 3]) (.idxCons (a := [.lit 0]) (reads_lit _) trivial
      (.idxCons (a := [.name "ix_"]) (reads_name "ix_" _ ?_) trivial
        (.idxTrail (a := [.name "iy_"]) trivial (.idxOne (reads_name "iy_" _ ?_) trivial)))) ?_))))
    · rfl
    · rfl
    · rfl

/-- A decimal number of at most 15 digits. -/
def Dec15 (r : ℚ) : Prop := ∃ m e : ℤ, |m| < 10 ^ 15 ∧ r = m * (10 : ℚ) ^ e

/-- **C79, negation: the coefficients are rounded.** The source terms go through the text of SymPy, where a `Float` of
53 bits has 15 digits. The double nearest to `1/3` cannot be recovered: it is at more than half a unit in the last place from all the numbers of 15
digits. -/
theorem C79_digits_negation (r : ℚ) (hr : Dec15 r) :
    (1 / 2 ^ 55 : ℚ) < |r - 6004799503160661 / 2 ^ 54| := by
  obtain ⟨m, e, hm, rfl⟩ := hr
  have hm' : |(m : ℚ)| < 10 ^ 15 := by exact_mod_cast hm
  rcases le_or_gt (-15) e with he | he
  · obtain ⟨n, rfl⟩ : ∃ n : ℕ, e = n - 15 := ⟨(e + 15).toNat, by omega⟩
    have hz : (m : ℚ) * 10 ^ ((n : ℤ) - 15) = ((m * 10 ^ n : ℤ) : ℚ) / 10 ^ 15 := by
      rw [zpow_sub₀ (by norm_num)]
      push_cast
      norm_num
      ring
    rw [hz]
    generalize m * 10 ^ n = M
    rcases le_or_gt M 333333333333333 with h | h
    · have h' : (M : ℚ) ≤ 333333333333333 := by exact_mod_cast h
      rw [lt_abs]; right
      have : (M : ℚ) / 10 ^ 15 ≤ 333333333333333 / 10 ^ 15 := by gcongr
      have : (1 / 2 ^ 55 : ℚ) < -(333333333333333 / 10 ^ 15 - 6004799503160661 / 2 ^ 54) := by norm_num
      linarith
    · have h' : (333333333333334 : ℚ) ≤ M := by exact_mod_cast h
      rw [lt_abs]; left
      have : (333333333333334 : ℚ) / 10 ^ 15 ≤ M / 10 ^ 15 := by gcongr
      have : (1 / 2 ^ 55 : ℚ) < (333333333333334 / 10 ^ 15 - 6004799503160661 / 2 ^ 54) := by norm_num
      linarith
  · have h1 : (10 : ℚ) ^ e ≤ 10 ^ (-16 : ℤ) := zpow_le_zpow_right₀ (by norm_num) (by omega)
    have h2 : (m : ℚ) * 10 ^ e ≤ 10 ^ 15 * 10 ^ (-16 : ℤ) :=
      mul_le_mul (le_trans (le_abs_self _) hm'.le) h1 (by positivity) (by positivity)
    rw [lt_abs]; right
    have : (1 / 2 ^ 55 : ℚ) < -((10 : ℚ) ^ 15 * 10 ^ (-16 : ℤ) - 6004799503160661 / 2 ^ 54) := by norm_num
    exact lt_of_lt_of_le this (by rw [neg_le_neg_iff]; gcongr)

end Pylbm.Source
