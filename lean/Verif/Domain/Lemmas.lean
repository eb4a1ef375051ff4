import Verif.Domain.Coords
import Mathlib.Data.List.FinRange
import Mathlib.Data.Fintype.Basic
import Mathlib.Tactic.Positivity
/-!
# Lemmas on the construction of the domain
-/

namespace Pylbm.Domain
open Round Storage DomainSpec

variable {K : Type} [Field K] [LinearOrder K] [IsStrictOrderedRing K] [FloorRing K] {dim nv : Nat}

/-- Update of one link by one crossing. -/
def upd (ax : Fin dim) (d : K) (lab : Int) (sgn : K) (L : Link K dim) : Link K dim :=
  if d < L.dist then ⟨d, lab, fun j => if j < ax then 0 else if j = ax then sgn else L.normal j⟩
  else L

omit [IsStrictOrderedRing K] [FloorRing K] in
theorem layerFold (g : Grid K dim nv) (ax : Fin dim) (k : Fin nv) (pos : Nat → Nat) (d : Nat → K)
    (lab : Int) (sgn : K) (n : Nat) (hinj : ∀ i j, i < n → j < n → pos i = pos j → i = j) (m : Nat)
    (st st' : State K dim nv)
    (h : (List.range m).foldlM (fun st i =>
      if i < n then some (layer g ax k (pos i) (d i) lab sgn st) else none) st = some st') :
    m ≤ n ∧ st'.ioo = st.ioo ∧
    (∀ c i, i < m → g.Interior c → c ax = g.h ax + pos i →
      st'.link k c = upd ax (d i) lab sgn (st.link k c)) ∧
    (∀ k' c, ¬ (k' = k ∧ g.Interior c ∧ ∃ i < m, c ax = g.h ax + pos i) →
      st'.link k' c = st.link k' c) := by
  induction m generalizing st' with
  | zero =>
    simp only [List.range_zero, List.foldlM_nil, Option.pure_def, Option.some.injEq] at h
    subst h
    exact ⟨by omega, rfl, fun c i hi => absurd hi (by omega), fun _ _ _ => rfl⟩
  | succ m ih =>
    rw [List.range_succ, List.foldlM_append] at h
    simp only [List.foldlM_cons, List.foldlM_nil, Option.pure_def, Option.bind_eq_bind,
      Option.bind_eq_some_iff] at h
    obtain ⟨s1, h1, s2, h2, h3⟩ := h
    obtain ⟨hm, hio, hl, hk⟩ := ih s1 h1
    simp only [Option.some.injEq] at h3
    subst h3
    split_ifs at h2 with hmn
    simp only [Option.some.injEq] at h2
    subst h2
    refine ⟨by omega, by simp [layer, hio], ?_, ?_⟩
    · intro c i hi hc hpos
      by_cases him : i = m
      · subst him
        have hsame : s1.link k c = st.link k c := by
          apply hk
          rintro ⟨-, -, i', hi', hpos'⟩
          have : pos i = pos i' := by
            have : ((pos i : Int)) = pos i' := by linarith
            exact_mod_cast this
          have := hinj i i' hmn (by omega) this
          omega
        simp only [layer, upd, hsame, hc, hpos, true_and]
      · have hne : ¬ (c ax = g.h ax + pos m) := by
          intro hp
          have : pos i = pos m := by
            have : ((pos i : Int)) = pos m := by linarith
            exact_mod_cast this
          exact him (hinj i m (by omega) hmn this)
        simp only [layer, hne, false_and, and_false, if_false]
        exact hl c i (by omega) hc hpos
    · intro k' c hn
      have h4 : ¬ (k' = k ∧ g.Interior c ∧ c ax = g.h ax + pos m ∧ d m < (s1.link k' c).dist) :=
        fun ⟨a, b, c', _⟩ => hn ⟨a, b, m, by omega, c'⟩
      simp only [layer]
      rw [if_neg h4]
      exact hk k' c (fun ⟨a, b, i, hi, e⟩ => hn ⟨a, b, i, by omega, e⟩)

/-- The crossing of a face orthogonal to `ax`, if any: fraction, label, component of the normal. -/
def crossing (g : Grid K dim nv) (ax : Fin dim) (k : Fin nv) (c : Cell dim) :
    Option (K × Int × K) :=
  let v := g.vel k ax
  let i := c ax - g.h ax
  if v < 0 ∧ g.label ax false ≠ -2 then
    (if i + v < 0 then some (-((i : K) + 1 / 2) / (v : K), g.label ax false, -1) else none)
  else if 0 < v ∧ g.label ax true ≠ -2 then
    (if (g.n ax : Int) ≤ i + v then
      some (((g.n ax : K) - 1 - (i : K) + 1 / 2) / (v : K), g.label ax true, 1) else none)
  else none

def axisUpd (g : Grid K dim nv) (ax : Fin dim) (k : Fin nv) (c : Cell dim) (L : Link K dim) :
    Link K dim :=
  match crossing g ax k c with
  | none => L
  | some (d, lab, sgn) => upd ax d lab sgn L

omit [IsStrictOrderedRing K] [FloorRing K] in
theorem layers_spec (g : Grid K dim nv) (ax : Fin dim) (k : Fin nv) (st st' : State K dim nv)
    (h : layers g ax k st = some st') :
    st'.ioo = st.ioo ∧ ∀ k' c, st'.link k' c =
      if k' = k ∧ g.Interior c then axisUpd g ax k' c (st.link k' c) else st.link k' c := by
  unfold layers at h
  simp only at h
  by_cases h1 : g.vel k ax < 0 ∧ g.label ax false ≠ -2
  · rw [if_pos h1] at h
    obtain ⟨hm, hio, hl, hk⟩ := layerFold g ax k id (fun i => -((i : K) + 1 / 2) / (g.vel k ax : K))
      _ _ _ (fun i j _ _ h => h) _ st st' h
    refine ⟨hio, fun k' c => ?_⟩
    split_ifs with hc
    · obtain ⟨rfl, hc⟩ := hc
      have hcb := hc ax
      unfold axisUpd crossing
      simp only
      rw [if_pos h1]
      by_cases hx : c ax - g.h ax + g.vel k' ax < 0
      · rw [if_pos hx]
        have := hl c (c ax - g.h ax).toNat (by omega) hc (by simp; omega)
        rw [this]
        simp only
        have e : (((c ax - g.h ax).toNat : Nat) : K) = ((c ax - g.h ax : Int) : K) := by
          rw [← Int.cast_natCast, Int.toNat_of_nonneg (by omega)]
        rw [e]
      · rw [if_neg hx]
        apply hk
        rintro ⟨-, -, i, hi, e⟩
        simp only [id] at e
        omega
    · exact hk k' c (fun ⟨a, b, _⟩ => hc ⟨a, b⟩)
  · rw [if_neg h1] at h
    by_cases h2 : 0 < g.vel k ax ∧ g.label ax true ≠ -2
    · rw [if_pos h2] at h
      obtain ⟨hm, hio, hl, hk⟩ := layerFold g ax k (fun i => g.n ax - 1 - i)
        (fun i => ((i : K) + 1 / 2) / (g.vel k ax : K)) _ _ _
        (fun i j _ _ h => by omega) _ st st' h
      refine ⟨hio, fun k' c => ?_⟩
      split_ifs with hc
      · obtain ⟨rfl, hc⟩ := hc
        have hcb := hc ax
        unfold axisUpd crossing
        simp only
        rw [if_neg h1, if_pos h2]
        by_cases hx : (g.n ax : Int) ≤ c ax - g.h ax + g.vel k' ax
        · rw [if_pos hx]
          have := hl c (g.n ax - 1 - (c ax - g.h ax).toNat) (by omega) hc (by omega)
          rw [this]
          simp only
          have e : ((g.n ax - 1 - (c ax - g.h ax).toNat : Nat) : K) =
              (g.n ax : K) - 1 - ((c ax - g.h ax : Int) : K) := by
            have e1 : (((g.n ax - 1 - (c ax - g.h ax).toNat : Nat) : Int)) =
                (g.n ax : Int) - 1 - (c ax - g.h ax) := by omega
            rw [← Int.cast_natCast, e1]; push_cast; ring
          rw [e]
        · rw [if_neg hx]
          apply hk
          rintro ⟨-, -, i, hi, e⟩
          omega
      · exact hk k' c (fun ⟨a, b, _⟩ => hc ⟨a, b⟩)
    · rw [if_neg h2] at h
      simp only [Option.some.injEq] at h
      subst h
      refine ⟨rfl, fun k' c => ?_⟩
      split_ifs with hc
      · obtain ⟨rfl, hc⟩ := hc
        unfold axisUpd crossing
        simp only
        rw [if_neg h1, if_neg h2]
      · rfl

omit [Field K] [LinearOrder K] [IsStrictOrderedRing K] [FloorRing K] in
/-- A fold over distinct velocities, each changing only its own links. -/
theorem foldVel {α : Type} (f : α → Fin nv → Option α) (ioo : α → Cell dim → Int)
    (link : α → Fin nv → Cell dim → Link K dim)
    (F : Fin nv → Cell dim → Link K dim → Link K dim) (io : Cell dim → Int)
    (hf : ∀ st k st', ioo st = io → f st k = some st' → ioo st' = io ∧
      ∀ k' c, link st' k' c = if k' = k then F k' c (link st k' c) else link st k' c)
    (l : List (Fin nv)) (hl : l.Nodup) (st st' : α) (hio : ioo st = io)
    (h : l.foldlM f st = some st') :
    ioo st' = io ∧ ∀ k' c, link st' k' c =
      if k' ∈ l then F k' c (link st k' c) else link st k' c := by
  induction l generalizing st with
  | nil =>
    simp only [List.foldlM_nil, Option.pure_def, Option.some.injEq] at h
    subst h; exact ⟨hio, fun _ _ => by simp⟩
  | cons k l ih =>
    rw [List.nodup_cons] at hl
    simp only [List.foldlM_cons, Option.bind_eq_bind, Option.bind_eq_some_iff] at h
    obtain ⟨s1, h1, h2⟩ := h
    obtain ⟨hio1, hl1⟩ := hf st k s1 hio h1
    obtain ⟨hio2, hl2⟩ := ih hl.2 s1 hio1 h2
    refine ⟨hio2, fun k' c => ?_⟩
    rw [hl2 k' c, hl1 k' c]
    by_cases hk : k' = k
    · subst hk; simp [hl.1]
    · simp [hk]

omit [IsStrictOrderedRing K] [FloorRing K] in
theorem addInit_spec (g : Grid K dim nv) (st : State K dim nv) (h : addInit g = some st) :
    st.ioo = (initState g).ioo ∧ ∀ k c, st.link k c =
      if g.Interior c then (List.finRange dim).foldl (fun L ax => axisUpd g ax k c L)
        ⟨(valin : K), valin, fun _ => 0⟩
      else ⟨(valin : K), valin, fun _ => 0⟩ := by
  unfold addInit at h
  have key : ∀ (l : List (Fin dim)) (s0 st : State K dim nv),
      l.foldlM (fun st ax => (List.finRange nv).foldlM (fun st k => layers g ax k st) st) s0
        = some st → st.ioo = s0.ioo ∧ ∀ k c, st.link k c =
      if g.Interior c then l.foldl (fun L ax => axisUpd g ax k c L) (s0.link k c)
      else s0.link k c := by
    intro l
    induction l with
    | nil =>
      intro s0 st h
      simp only [List.foldlM_nil, Option.pure_def, Option.some.injEq] at h
      subst h; exact ⟨rfl, fun _ _ => by simp⟩
    | cons ax l ih =>
      intro s0 st h
      simp only [List.foldlM_cons, Option.bind_eq_bind, Option.bind_eq_some_iff] at h
      obtain ⟨s1, h1, h2⟩ := h
      obtain ⟨hi, hl⟩ := foldVel (fun st k => layers g ax k st) State.ioo State.link
        (fun k c L => if g.Interior c then axisUpd g ax k c L else L) s0.ioo
        (by
          intro st k st' hio hs
          obtain ⟨a, b⟩ := layers_spec g ax k st st' hs
          refine ⟨a.trans hio, fun k' c => ?_⟩
          rw [b k' c]
          by_cases hk : k' = k <;> by_cases hc : g.Interior c <;> simp [hk, hc])
        _ (List.nodup_finRange nv) s0 s1 rfl h1
      obtain ⟨hi2, hl2⟩ := ih s1 st h2
      refine ⟨hi2.trans hi, fun k c => ?_⟩
      rw [hl2 k c, hl k c, if_pos (List.mem_finRange k)]
      by_cases hc : g.Interior c <;> simp [hc]
  exact key _ _ _ h

end Pylbm.Domain
