import Verif.Domain.Lemmas
/-!
# Property C20: links cut by the faces of the box
-/

namespace Pylbm.Domain
open Round Storage DomainSpec

variable {K : Type} [Field K] [LinearOrder K] [IsStrictOrderedRing K] {dim nv : Nat}

/-- Index of a cell in the interior of the local box. -/
def Grid.inner (g : Grid K dim nv) (c : Cell dim) : Fin dim → Int := fun j => c j - g.h j

/-- The faces which are not interfaces between processes. -/
def Grid.Active (g : Grid K dim nv) (f : Face dim) : Prop := g.label f.ax f.upper ≠ -2

theorem crossing_some {g : Grid K dim nv} {ax : Fin dim} {k : Fin nv} {c : Cell dim}
    (hc : g.Interior c) {d : K} {lab : Int} {sgn : K} (h : crossing g ax k c = some (d, lab, sgn)) :
    ∃ side, g.Active ⟨ax, side⟩ ∧ Crosses g.n (g.inner c) (g.vel k) ⟨ax, side⟩ d ∧
      lab = g.label ax side ∧ sgn = if side then 1 else -1 := by
  have hcb := hc ax
  unfold crossing at h
  simp only at h
  split_ifs at h with h1 h2 h3 h4
  · simp only [Option.some.injEq, Prod.mk.injEq] at h
    obtain ⟨rfl, rfl, rfl⟩ := h
    have hv : ((g.vel k ax : Int) : K) < 0 := by exact_mod_cast h1.1
    have hi : (0 : K) ≤ ((c ax - g.h ax : Int) : K) := by exact_mod_cast (by omega)
    have hle : ((c ax - g.h ax : Int) : K) + 1 ≤ -((g.vel k ax : Int) : K) := by
      exact_mod_cast (by omega)
    refine ⟨false, h1.2, ⟨?_, ?_, ?_⟩, rfl, by simp⟩
    · apply div_pos_of_neg_of_neg <;> linarith
    · rw [div_le_one_of_neg hv]; linarith
    · simp only [facePos, Grid.inner]
      rw [div_mul_cancel₀ _ hv.ne]
      push_cast
      simp
      try ring
  · simp only [Option.some.injEq, Prod.mk.injEq] at h
    obtain ⟨rfl, rfl, rfl⟩ := h
    have hv : (0 : K) < ((g.vel k ax : Int) : K) := by exact_mod_cast h3.1
    have hi : ((c ax - g.h ax : Int) : K) + 1 ≤ (g.n ax : K) := by exact_mod_cast (by omega)
    have hle : (g.n ax : K) ≤ ((c ax - g.h ax : Int) : K) + ((g.vel k ax : Int) : K) := by
      exact_mod_cast h4
    refine ⟨true, h3.2, ⟨?_, ?_, ?_⟩, rfl, by simp⟩
    · apply div_pos _ hv; linarith
    · rw [div_le_one hv]; linarith
    · simp only [facePos, Grid.inner]
      rw [div_mul_cancel₀ _ hv.ne']
      push_cast
      simp
      try ring

theorem crossing_of_crosses {g : Grid K dim nv} {k : Fin nv} {c : Cell dim}
    (hc : g.Interior c) {f : Face dim} {t : K} (ha : g.Active f)
    (h : Crosses g.n (g.inner c) (g.vel k) f t) :
    crossing g f.ax k c = some (t, g.label f.ax f.upper, if f.upper then 1 else -1) := by
  obtain ⟨ax, side⟩ := f
  obtain ⟨h0, h1, h2⟩ := h
  have hcb := hc ax
  simp only [facePos, Grid.inner, Grid.Active] at h2 ha ⊢
  have hi : (0 : K) ≤ ((c ax - g.h ax : Int) : K) := by exact_mod_cast (by omega)
  have hi' : ((c ax - g.h ax : Int) : K) + 1 ≤ (g.n ax : K) := by exact_mod_cast (by omega)
  unfold crossing
  simp only
  cases side with
  | false =>
    simp only [Bool.false_eq_true, if_false] at h2 ha ⊢
    have hv : ((g.vel k ax : Int) : K) < 0 := by
      by_contra hv
      push Not at hv
      have := mul_nonneg h0.le hv
      linarith
    have hvi : g.vel k ax < 0 := by exact_mod_cast hv
    have hle : ((c ax - g.h ax : Int) : K) + ((g.vel k ax : Int) : K) < 0 := by
      have := mul_le_mul_of_nonpos_right h1 hv.le
      linarith
    rw [if_pos ⟨hvi, ha⟩, if_pos (by exact_mod_cast hle)]
    congr 2
    rw [div_eq_iff hv.ne]; linarith
  | true =>
    simp only [if_true] at h2 ha ⊢
    have hv : (0 : K) < ((g.vel k ax : Int) : K) := by
      by_contra hv
      push Not at hv
      have := mul_nonpos_of_nonneg_of_nonpos h0.le hv
      linarith
    have hvi : 0 < g.vel k ax := by exact_mod_cast hv
    have hle : (g.n ax : K) < ((c ax - g.h ax : Int) : K) + ((g.vel k ax : Int) : K) + 1 := by
      have := mul_le_mul_of_nonneg_right h1 hv.le
      linarith
    have hle' : (g.n ax : Int) < (c ax - g.h ax) + g.vel k ax + 1 := by exact_mod_cast hle
    rw [if_neg (fun h => by omega), if_pos ⟨hvi, ha⟩, if_pos (by omega)]
    congr 2
    rw [div_eq_iff hv.ne']; linarith

/-- What is known of a link after the axes of the list `l`. -/
def BoxInv (g : Grid K dim nv) (k : Fin nv) (c : Cell dim) (P : Fin dim → Prop) (L : Link K dim) :
    Prop :=
  ((∀ f (t : K), P f.ax → g.Active f → ¬ Crosses g.n (g.inner c) (g.vel k) f t) ∧
    L = ⟨(valin : K), valin, fun _ => 0⟩) ∨
  ∃ f, ∃ t : K, P f.ax ∧
    FirstFace g.n (fun f => P f.ax ∧ g.Active f) (g.inner c) (g.vel k) f t ∧
    L = ⟨t, g.label f.ax f.upper, outward f⟩

theorem boxInv_fold (g : Grid K dim nv) (k : Fin nv) (c : Cell dim) (hc : g.Interior c)
    (l : List (Fin dim)) (hl : l.Pairwise (· < ·)) :
    BoxInv g k c (· ∈ l) (l.foldl (fun L ax => axisUpd g ax k c L) ⟨(valin : K), valin, fun _ => 0⟩) := by
  induction l using List.reverseRecOn with
  | nil => unfold BoxInv; left; simp
  | append_singleton l ax ih =>
    rw [List.pairwise_append] at hl
    obtain ⟨hl1, -, hl3⟩ := hl
    have hlt : ∀ j ∈ l, j < ax := fun j hj => hl3 j hj ax (by simp)
    specialize ih hl1
    rw [List.foldl_append]
    simp only [List.foldl_cons, List.foldl_nil]
    set L := l.foldl (fun L ax => axisUpd g ax k c L) ⟨(valin : K), valin, fun _ => 0⟩ with hL
    clear_value L
    have hmem : ∀ j, j ∈ l ++ [ax] ↔ j ∈ l ∨ j = ax := by simp
    unfold axisUpd
    cases hcr : crossing g ax k c with
    | none =>
      have hno : ∀ f (t : K), f.ax = ax → g.Active f → ¬ Crosses g.n (g.inner c) (g.vel k) f t := by
        intro f t hf ha hx
        have := crossing_of_crosses hc ha hx
        rw [hf, hcr] at this; simp at this
      simp only
      rcases ih with ⟨h1, h2⟩ | ⟨f, t, hf, ⟨⟨_, hA⟩, hX, hmin⟩, h2⟩
      · left
        refine ⟨fun f t hf ha => ?_, h2⟩
        rcases (hmem _).1 hf with hf | hf
        · exact h1 f t hf ha
        · exact hno f t hf ha
      · right
        refine ⟨f, t, (hmem _).2 (Or.inl hf), ⟨⟨(hmem _).2 (Or.inl hf), hA⟩, hX, ?_⟩, h2⟩
        rintro f' t' ⟨hf', ha'⟩ hx'
        rcases (hmem _).1 hf' with hf' | hf'
        · exact hmin f' t' ⟨hf', ha'⟩ hx'
        · exact absurd hx' (hno f' t' hf' ha')
    | some p =>
      obtain ⟨d, lab, sgn⟩ := p
      obtain ⟨side, hA, hX, rfl, rfl⟩ := crossing_some hc hcr
      have hone : ∀ f t, f.ax = ax → g.Active f → Crosses g.n (g.inner c) (g.vel k) f t →
          t = d := by
        intro f t hf ha hx
        have := crossing_of_crosses hc ha hx
        rw [hf, hcr] at this
        simp only [Option.some.injEq, Prod.mk.injEq] at this
        exact this.1.symm
      simp only
      rcases ih with ⟨h1, h2⟩ | ⟨f, t, hf, ⟨⟨_, hA'⟩, hX', hmin⟩, h2⟩
      · right
        refine ⟨⟨ax, side⟩, d, by simp, ⟨⟨by simp, hA⟩, hX, ?_⟩, ?_⟩
        · rintro f' t' ⟨hf', ha'⟩ hx'
          rcases (hmem _).1 hf' with hf' | hf'
          · exact absurd hx' (h1 f' t' hf' ha')
          · right; exact ⟨(hone f' t' hf' ha' hx').symm, hf'.ge⟩
        · unfold upd
          rw [h2, if_pos]
          · congr 1
            funext j
            simp only [outward]
            rcases lt_trichotomy j ax with h | h | h
            · rw [if_pos h, if_neg h.ne]
            · subst h; simp
            · rw [if_neg h.not_gt, if_neg h.ne']
          · have := hX.2.1
            simp only [valin]
            push_cast; linarith
      · right
        by_cases hd : d < t
        · refine ⟨⟨ax, side⟩, d, by simp, ⟨⟨by simp, hA⟩, hX, ?_⟩, ?_⟩
          · rintro f' t' ⟨hf', ha'⟩ hx'
            rcases (hmem _).1 hf' with hf' | hf'
            · left
              rcases hmin f' t' ⟨hf', ha'⟩ hx' with h | ⟨h, _⟩ <;> linarith
            · right; exact ⟨(hone f' t' hf' ha' hx').symm, hf'.ge⟩
          · unfold upd
            rw [h2, if_pos hd]
            congr 1
            funext j
            simp only [outward]
            rcases lt_trichotomy j ax with h | h | h
            · rw [if_pos h, if_neg h.ne]
            · subst h; simp
            · have : j ≠ f.ax := fun e => absurd (hlt f.ax hf) (by rw [← e]; exact h.not_gt)
              simp [h.not_gt, h.ne', this]
        · refine ⟨f, t, (hmem _).2 (Or.inl hf), ⟨⟨(hmem _).2 (Or.inl hf), hA'⟩, hX', ?_⟩, ?_⟩
          · rintro f' t' ⟨hf', ha'⟩ hx'
            rcases (hmem _).1 hf' with hf' | hf'
            · exact hmin f' t' ⟨hf', ha'⟩ hx'
            · have := hone f' t' hf' ha' hx'
              subst this
              rcases lt_or_eq_of_le (not_lt.1 hd) with h | h
              · exact Or.inl h
              · exact Or.inr ⟨h, by rw [hf']; exact (hlt _ hf).le⟩
          · unfold upd
            rw [h2, if_neg hd]

/-- C20: after the treatment of the box, each link of each interior cell either crosses no face
of the box (interfaces between processes excepted) and holds the default values, or holds the
fraction, the label and the outward normal of the first face which it crosses. -/
theorem C20_box_links (g : Grid K dim nv) (st : State K dim nv) (h : addInit g = some st)
    (k : Fin nv) (c : Cell dim) (hc : g.Interior c) :
    ((∀ f (t : K), g.Active f → ¬ Crosses g.n (g.inner c) (g.vel k) f t) ∧
      st.link k c = ⟨999, 999, fun _ => 0⟩) ∨
    ∃ f t, FirstFace g.n g.Active (g.inner c) (g.vel k) f t ∧
      st.link k c = ⟨t, g.label f.ax f.upper, outward f⟩ := by
  have h1 := (addInit_spec g st h).2 k c
  rw [if_pos hc] at h1
  have h2 := boxInv_fold g k c hc (List.finRange dim) (List.pairwise_lt_finRange dim)
  rw [← h1] at h2
  rcases h2 with ⟨h2, h3⟩ | ⟨f, t, _, ⟨⟨_, hA⟩, hX, hm⟩, h3⟩
  · left
    refine ⟨fun f t => h2 f t (List.mem_finRange _), ?_⟩
    rw [h3]; simp [valin]
  · right
    exact ⟨f, t, ⟨hA, hX, fun f' t' ha => hm f' t' ⟨List.mem_finRange _, ha⟩⟩, h3⟩

omit [IsStrictOrderedRing K] in
/-- C20: the treatment of the box succeeds exactly when no velocity goes farther than the local
box through a face which is not an interface. -/
theorem C20_box_succeeds (g : Grid K dim nv) :
    (∃ st, addInit g = some st) ↔ ∀ k ax,
      (g.Active ⟨ax, false⟩ → -g.vel k ax ≤ g.n ax) ∧ (g.Active ⟨ax, true⟩ → g.vel k ax ≤ g.n ax) := by
  have hr : ∀ (n m : Nat) (f : Nat → State K dim nv → State K dim nv) (s : State K dim nv),
      (∃ s', (List.range m).foldlM (fun st i => if i < n then some (f i st) else none) s = some s')
        ↔ m ≤ n := by
    intro n m f s
    induction m with
    | zero => simp
    | succ m ih =>
      rw [List.range_succ, List.foldlM_append]
      constructor
      · rintro ⟨s', h⟩
        simp only [List.foldlM_cons, List.foldlM_nil, Option.pure_def, Option.bind_eq_bind,
          Option.bind_eq_some_iff] at h
        obtain ⟨s1, -, s2, h2, -⟩ := h
        split_ifs at h2 with h3
        omega
      · intro hm
        obtain ⟨s1, h1⟩ := ih.2 (by omega)
        refine ⟨f m s1, ?_⟩
        rw [h1]; simp; omega
  have hl : ∀ ax k s, (∃ s', layers g ax k s = some s') ↔
      (g.Active ⟨ax, false⟩ → -g.vel k ax ≤ g.n ax) ∧
        (g.Active ⟨ax, true⟩ → g.vel k ax ≤ g.n ax) := by
    intro ax k s
    unfold layers Grid.Active
    simp only
    split_ifs with h1 h2
    · rw [hr]
      refine ⟨fun h => ⟨fun _ => by omega, fun _ => by omega⟩, fun h => ?_⟩
      have := h.1 h1.2; omega
    · rw [hr]
      refine ⟨fun h => ⟨fun _ => by omega, fun _ => by omega⟩, fun h => ?_⟩
      have := h.2 h2.2; omega
    · simp only [Option.some.injEq, exists_eq', true_iff]
      refine ⟨fun h => ?_, fun h => ?_⟩
      · have : ¬ g.vel k ax < 0 := fun h' => h1 ⟨h', h⟩
        omega
      · have : ¬ 0 < g.vel k ax := fun h' => h2 ⟨h', h⟩
        omega
  have hf : ∀ {β : Type} (l : List β) (f : State K dim nv → β → Option (State K dim nv))
      (Q : β → Prop) (_ : ∀ s b, (∃ s', f s b = some s') ↔ Q b) (s : State K dim nv),
      (∃ s', l.foldlM f s = some s') ↔ ∀ b ∈ l, Q b := by
    intro β l f Q hQ
    induction l with
    | nil => intro s; simp
    | cons b l ih =>
      intro s
      simp only [List.foldlM_cons, Option.bind_eq_bind, Option.bind_eq_some_iff, List.mem_cons,
        forall_eq_or_imp]
      constructor
      · rintro ⟨s', s1, h1, h2⟩
        exact ⟨(hQ s b).1 ⟨s1, h1⟩, (ih s1).1 ⟨s', h2⟩⟩
      · rintro ⟨h1, h2⟩
        obtain ⟨s1, hs1⟩ := (hQ s b).2 h1
        obtain ⟨s', hs'⟩ := (ih s1).2 h2
        exact ⟨s', s1, hs1, hs'⟩
  unfold addInit
  rw [hf (List.finRange dim) _ (fun ax => ∀ k,
      (g.Active ⟨ax, false⟩ → -g.vel k ax ≤ g.n ax) ∧ (g.Active ⟨ax, true⟩ → g.vel k ax ≤ g.n ax))
    (fun s ax => by rw [hf (List.finRange nv) _ _ (fun s k => hl ax k s)]; simp)]
  simp only [List.mem_finRange, true_implies]
  exact forall_comm

/-- A two-dimensional box of 3 × 2 cells, two velocities, the lower face of the first axis being an
interface. -/
def exampleGrid : Grid ℚ 2 2 where
  lo := fun _ => 0
  dx := 1
  N := fun j => if j = 0 then 6 else 2
  r0 := fun j => if j = 0 then 3 else 0
  r1 := fun j => if j = 0 then 6 else 2
  h := fun _ => 2
  vel := fun k j => if k = 0 then 2 else if j = 0 then -1 else 1
  userLabel := fun j s => if j = 0 then 4 else if s then 7 else 5

example : ∃ st, addInit exampleGrid = some st :=
  (C20_box_succeeds exampleGrid).2 (by unfold Grid.Active; decide)

example : exampleGrid.Interior (fun j => if j = 0 then 4 else 3) := by decide

end Pylbm.Domain
