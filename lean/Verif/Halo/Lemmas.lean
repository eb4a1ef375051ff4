import Verif.Halo.Model
import Verif.Halo.Spec
import Verif.Mpi.Props
import Mathlib.Tactic.Linarith
import Mathlib.Tactic.IntervalCases
/-! Helper lemmas for the halo exchange. -/

namespace Pylbm.Halo
open Mpi HaloSpec

variable {dim : Nat} {α : Type}

theorem start_eq (g : Grid dim) (i : Fin dim) (k : Nat) (hk : k ≤ g.p i) :
    start g i k = bound (g.N i) (g.p i) k := by
  unfold start
  rw [List.getD_eq_getElem?_getD, regionIndices_getElem? _ _ _ hk]; rfl

theorem start_zero (g : Grid dim) (i : Fin dim) : start g i 0 = 0 := by
  rw [start_eq g i 0 (Nat.zero_le _)]; simp [bound]

theorem start_last (g : Grid dim) (i : Fin dim) : start g i (g.p i) = g.N i := by
  rw [start_eq g i _ le_rfl, bound_last _ _ (g.hp i)]

theorem start_succ (g : Grid dim) (c : Proc g) (i : Fin dim) :
    start g i ((c i : Nat) + 1) = start g i (c i) + size g c i := by
  have h1 : start g i (c i) ≤ start g i ((c i : Nat) + 1) := by
    rw [start_eq g i _ (by omega), start_eq g i _ (by omega)]
    exact bound_mono _ _ (by omega)
  unfold size; omega

theorem nbr_ne (g : Grid dim) (c : Proc g) (d i : Fin dim) (side : Bool) (h : i ≠ d) :
    nbr g c d side i = c i := by
  unfold nbr; rw [Function.update_of_ne h]

theorem nbr_self_true (g : Grid dim) (c : Proc g) (d : Fin dim) :
    ((nbr g c d true d : Fin (g.p d)) : Nat) = ((c d : Nat) + 1) % g.p d := by
  unfold nbr; simp

theorem nbr_self_false (g : Grid dim) (c : Proc g) (d : Fin dim) :
    ((nbr g c d false d : Fin (g.p d)) : Nat) = ((c d : Nat) + (g.p d - 1)) % g.p d := by
  unfold nbr; simp

theorem nbr_nbr (g : Grid dim) (c : Proc g) (d : Fin dim) (side : Bool) :
    nbr g (nbr g c d side) d (!side) = c := by
  funext i
  by_cases h : i = d
  · subst h
    apply Fin.ext
    have hp := g.hp i
    have hc := (c i).isLt
    cases side
    · rw [Bool.not_false, nbr_self_true, nbr_self_false, Nat.mod_add_mod]
      rw [show (c i : Nat) + (g.p i - 1) + 1 = (c i : Nat) + g.p i by omega, Nat.add_mod_right,
        Nat.mod_eq_of_lt hc]
    · rw [Bool.not_true, nbr_self_false, nbr_self_true, Nat.mod_add_mod]
      rw [show (c i : Nat) + 1 + (g.p i - 1) = (c i : Nat) + g.p i by omega, Nat.add_mod_right,
        Nat.mod_eq_of_lt hc]
  · rw [nbr_ne g _ d i _ h, nbr_ne g _ d i _ h]

theorem size_nbr (g : Grid dim) (c : Proc g) (d i : Fin dim) (side : Bool) (h : i ≠ d) :
    size g (nbr g c d side) i = size g c i := by
  unfold size; rw [nbr_ne g c d i side h]

theorem subsize_nbr (g : Grid dim) (c : Proc g) (d i : Fin dim) (side : Bool) :
    subsize g (nbr g c d side) d i = subsize g c d i := by
  unfold subsize
  split
  · rfl
  · next h => unfold nspace; rw [size_nbr g c d i side h]

theorem tag_match (d d' : Nat) (hd : d < 3) (hd' : d' < 3) (side side' : Bool) :
    sendTag d' side' = recvTag d side ↔ d' = d ∧ side' = !side := by
  interval_cases d <;> interval_cases d' <;> cases side <;> cases side' <;> decide

theorem matches_iff (h3 : dim ≤ 3) (g : Grid dim) (c : Proc g) (d : Fin dim) (side : Bool)
    (src : Proc g) (d' : Fin dim) (side' : Bool) :
    Matches g c d side src d' side' ↔ src = nbr g c d side ∧ d' = d ∧ side' = !side := by
  unfold Matches
  have ht := tag_match d d' (by omega) (by omega) side side'
  constructor
  · rintro ⟨h1, _, h⟩
    obtain ⟨h5, h6⟩ := ht.1 h
    exact ⟨h1, Fin.ext h5, h6⟩
  · rintro ⟨rfl, rfl, rfl⟩
    exact ⟨rfl, nbr_nbr g c d' side, ht.2 ⟨rfl, rfl⟩⟩

open Classical in
/-- Effect of the exchange in the direction `d` on all the processes. -/
noncomputable def sync (g : Grid dim) (d : Fin dim) (A : Proc g → Cell dim → α) (c : Proc g)
    (x : Cell dim) : α :=
  if InRecv g c d false x then
    A (nbr g c d false) (fun i => sstart g (nbr g c d false) d true i + (x i - rstart g c d false i))
  else if InRecv g c d true x then
    A (nbr g c d true) (fun i => sstart g (nbr g c d true) d false i + (x i - rstart g c d true i))
  else A c x

/-- State of the local arrays after the exchange in the `k` first directions. -/
noncomputable def canon (g : Grid dim) (A : Proc g → Cell dim → α) : Nat → Proc g → Cell dim → α
  | 0 => A
  | k + 1 => if h : k < dim then sync g ⟨k, h⟩ (canon g A k) else canon g A k

theorem inRecv_disjoint (g : Grid dim) (c : Proc g) (d : Fin dim) (x : Cell dim)
    (h1 : InRecv g c d false x) (h2 : InRecv g c d true x) : False := by
  have a := h1 d
  have b := h2 d
  simp only [rstart, subsize, if_true, nspace, Bool.false_eq_true, if_false] at a b
  omega

theorem sync_recv (g : Grid dim) (d : Fin dim) (A : Proc g → Cell dim → α) (c : Proc g)
    (x : Cell dim) (side : Bool) (h : InRecv g c d side x) :
    sync g d A c x = A (nbr g c d side)
      (fun i => sstart g (nbr g c d side) d (!side) i + (x i - rstart g c d side i)) := by
  unfold sync
  cases side
  · rw [if_pos h]; rfl
  · rw [if_neg (fun h' => inRecv_disjoint g c d x h' h), if_pos h]; rfl

theorem sync_other (g : Grid dim) (d : Fin dim) (A : Proc g → Cell dim → α) (c : Proc g)
    (x : Cell dim) (h : ∀ side, ¬ InRecv g c d side x) : sync g d A c x = A c x := by
  unfold sync
  rw [if_neg (h false), if_neg (h true)]

/-- The local sizes are at least the width of the halo. -/
def Large (g : Grid dim) : Prop := ∀ c i, g.w i ≤ size g c i

/-- The sent cells are not received cells of the same direction. -/
theorem send_not_recv (g : Grid dim) (hL : Large g) (c : Proc g) (d : Fin dim) (side side' : Bool)
    (o : Cell dim) (ho : 0 ≤ o d ∧ o d < subsize g c d d) :
    ¬ InRecv g c d side' (fun i => sstart g c d side i + o i) := by
  intro h
  have h1 := h d
  have h2 := hL c d
  have h3 := ho
  cases side <;> cases side' <;>
  simp only [rstart, sstart, subsize, if_true, nspace, Bool.false_eq_true, if_false] at h1 h3 <;> omega

/-- The invariant of the executions. -/
structure Inv (g : Grid dim) (A : Proc g → Cell dim → α) (s : State g α) : Prop where
  ph_le : ∀ c, s.ph c ≤ dim
  po_le : ∀ c, s.po c ≤ 4
  sent_posted : ∀ c d side, s.sent c d side = true → d < s.ph c ∨ s.SendPosted c d side
  past : ∀ c (d : Fin dim) side, d < s.ph c → s.sent c d side = true ∧ s.rcvd c d side = true
  rcvd_sent : ∀ c d side, s.rcvd c d side = true → s.sent (nbr g c d side) d (!side) = true
  rcvd_posted : ∀ c (d : Fin dim) side, s.rcvd c d side = true → (d : Nat) ≤ s.ph c
  net_data : ∀ c d side data, s.net c d side = some data → s.sent c d side = true ∧
    s.rcvd (nbr g c d side) d (!side) = false ∧
    ∀ o : Cell dim, (∀ i, 0 ≤ o i ∧ o i < subsize g c d i) →
      data o = canon g A d c (fun i => sstart g c d side i + o i)
  sent_net : ∀ c d side, s.sent c d side = true →
    s.net c d side ≠ none ∨ s.rcvd (nbr g c d side) d (!side) = true
  array : ∀ c x, ((∃ (d : Fin dim) (side : Bool), (d : Nat) = s.ph c ∧ InRecv g c d side x ∧
      s.rcvd c d side = true) → s.arr c x = canon g A (s.ph c + 1) c x) ∧
    (¬ (∃ (d : Fin dim) (side : Bool), (d : Nat) = s.ph c ∧ InRecv g c d side x ∧
      s.rcvd c d side = true) → s.arr c x = canon g A (s.ph c) c x)

theorem canon_succ (g : Grid dim) (A : Proc g → Cell dim → α) (d : Fin dim) :
    canon g A ((d : Nat) + 1) = sync g d (canon g A d) := by
  rw [canon, dif_pos d.isLt]

theorem inv_init (g : Grid dim) (A : Proc g → Cell dim → α) : Inv g A (State.init g A) where
  ph_le := fun _ => Nat.zero_le _
  po_le := fun _ => Nat.zero_le _
  sent_posted := by intro c d side h; simp [State.init] at h
  past := by intro c d side h; simp [State.init] at h
  rcvd_sent := by intro c d side h; simp [State.init] at h
  rcvd_posted := by intro c d side h; simp [State.init] at h
  net_data := by intro c d side data h; simp [State.init] at h
  sent_net := by intro c d side h; simp [State.init] at h
  array := by
    intro c x
    constructor
    · rintro ⟨d, side, _, _, h⟩; simp [State.init] at h
    · intro _; rfl

theorem inv_step (h3 : dim ≤ 3) (g : Grid dim) (hL : Large g) (eager : Proc g → Fin dim → Bool → Prop)
    (A : Proc g → Cell dim → α) (s s' : State g α) (hi : Inv g A s) (hs : Step g eager s s') :
    Inv g A s' := by
  cases hs with
  | post c h1 h2 =>
    refine ⟨hi.ph_le, ?_, ?_, hi.past, hi.rcvd_sent, hi.rcvd_posted, hi.net_data, hi.sent_net, hi.array⟩
    · intro c'
      by_cases hc : c' = c
      · subst hc; simp; omega
      · simp [Function.update_of_ne hc]; exact hi.po_le c'
    · intro c' d side hsent
      rcases hi.sent_posted c' d side hsent with h | ⟨h, h'⟩
      · exact Or.inl h
      · refine Or.inr ⟨h, ?_⟩
        by_cases hc : c' = c
        · subst hc; simp; omega
        · simp [Function.update_of_ne hc]; exact h'
  | inject c d side h1 h2 h3' =>
    refine ⟨hi.ph_le, hi.po_le, ?_, ?_, ?_, hi.rcvd_posted, ?_, ?_, hi.array⟩
    · intro c' d' side' hsent
      simp only at hsent
      split at hsent
      · next hc => obtain ⟨rfl, rfl, rfl⟩ := hc; exact Or.inr h1
      · exact hi.sent_posted c' d' side' hsent
    · intro c' d' side' hlt
      have := hi.past c' d' side' hlt
      refine ⟨?_, this.2⟩
      simp only [this.1, ite_self]
    · intro c' d' side' hr
      have := hi.rcvd_sent c' d' side' hr
      simp only [this, ite_self]
    · intro c' d' side' data hnet
      simp only at hnet
      split at hnet
      · next hc =>
        obtain ⟨rfl, rfl, rfl⟩ := hc
        refine ⟨by simp, ?_, ?_⟩
        · cases hr : s.rcvd (nbr g c' d' side') d' (!side') with
          | false => simp
          | true =>
            have h4 := hi.rcvd_sent _ _ _ hr
            rw [Bool.not_not] at h4
            have h5 := nbr_nbr g c' d' side'
            rw [h5] at h4
            rw [h4] at h2; simp at h2
        · intro o ho
          obtain rfl := Option.some.inj hnet
          have h6 := (hi.array c' (fun i => sstart g c' d' side' i + o i)).2
          have h7 := h6 (by
            rintro ⟨e, side'', he, hin, _⟩
            have hed : e = d' := Fin.ext (by rw [he, h1.1])
            subst hed
            exact send_not_recv g hL c' e side' side'' o (ho e) hin)
          rw [h1.1] at h7
          exact h7
      · next hc =>
        obtain ⟨h4, h5, h6⟩ := hi.net_data c' d' side' data hnet
        refine ⟨by simp only [h4, ite_self], h5, h6⟩
    · intro c' d' side' hsent
      simp only at hsent ⊢
      by_cases hc : c' = c ∧ d' = d ∧ side' = side
      · left; rw [if_pos hc]; simp
      · rw [if_neg hc] at hsent ⊢
        exact hi.sent_net c' d' side' hsent
  | deliver c d side src d' side' data h1 h2 h4 h5 =>
    obtain ⟨rfl, rfl, rfl⟩ := (matches_iff h3 g c d side src d' side').1 h4
    obtain ⟨n1, n2, n3⟩ := hi.net_data _ _ _ _ h5
    refine ⟨hi.ph_le, hi.po_le, hi.sent_posted, ?_, ?_, ?_, ?_, ?_, ?_⟩
    · intro c' e side' hlt
      have := hi.past c' e side' hlt
      exact ⟨this.1, by simp only [this.2, ite_self]⟩
    · intro c' e side' hr
      simp only at hr
      split at hr
      · next hc => obtain ⟨rfl, rfl, rfl⟩ := hc; exact n1
      · exact hi.rcvd_sent c' e side' hr
    · intro c' e side' hr
      simp only at hr
      split at hr
      · next hc => obtain ⟨rfl, rfl, rfl⟩ := hc; exact h1.1.ge
      · exact hi.rcvd_posted c' e side' hr
    · intro c' e side' data' hnet
      simp only at hnet
      split at hnet
      · simp at hnet
      · next hc =>
        obtain ⟨m1, m2, m3⟩ := hi.net_data c' e side' data' hnet
        refine ⟨m1, ?_, m3⟩
        simp only
        rw [if_neg ?_]
        · exact m2
        · rintro ⟨hx, rfl, hy⟩
          apply hc
          refine ⟨?_, rfl, ?_⟩
          · rw [← hx, ← hy, nbr_nbr]
          · rw [← hy, Bool.not_not]
    · intro c' e side' hsent
      simp only
      by_cases hc : c' = nbr g c d' side ∧ e = d' ∧ side' = !side
      · obtain ⟨rfl, rfl, rfl⟩ := hc
        right
        rw [nbr_nbr, Bool.not_not]; simp
      · rw [if_neg hc]
        rcases hi.sent_net c' e side' hsent with h | h
        · exact Or.inl h
        · right; simp only [h, ite_self]
    · intro c' x
      simp only
      by_cases hc : c' = c
      · subst hc
        have hph : s.ph c' = d' := h1.1
        by_cases hin : InRecv g c' d' side x
        · -- the new data
          rw [if_pos ⟨rfl, hin⟩]
          constructor
          · intro _
            rw [hph, canon_succ, sync_recv g d' _ c' x side hin]
            apply n3
            intro i
            rw [subsize_nbr]
            have := hin i
            omega
          · intro hneg
            exact absurd ⟨d', side, hph.symm, hin, by simp⟩ hneg
        · rw [if_neg (fun h => hin h.2)]
          have key : (∃ (e : Fin dim) (side'' : Bool), (e : Nat) = s.ph c' ∧ InRecv g c' e side'' x ∧
                (if c' = c' ∧ e = d' ∧ side'' = side then true else s.rcvd c' e side'') = true) ↔
              ∃ (e : Fin dim) (side'' : Bool), (e : Nat) = s.ph c' ∧ InRecv g c' e side'' x ∧
                s.rcvd c' e side'' = true := by
            constructor
            · rintro ⟨e, side'', he, hin', hr⟩
              refine ⟨e, side'', he, hin', ?_⟩
              split at hr
              · next hcc => obtain ⟨_, rfl, rfl⟩ := hcc; exact absurd hin' hin
              · exact hr
            · rintro ⟨e, side'', he, hin', hr⟩
              exact ⟨e, side'', he, hin', by simp only [hr, ite_self]⟩
          rw [key]
          exact hi.array c' x
      · simp only [hc, false_and, if_false]
        exact hi.array c' x
  | wait c d h0 h1 h2 h3' =>
    have hother : ∀ c', c' ≠ c → Function.update s.ph c (s.ph c + 1) c' = s.ph c' :=
      fun c' h => Function.update_of_ne h _ _
    refine ⟨?_, ?_, ?_, ?_, hi.rcvd_sent, ?_, hi.net_data, hi.sent_net, ?_⟩
    · intro c'
      by_cases hc : c' = c
      · subst hc; simp only [Function.update_self]; omega
      · simp only [hother c' hc]; exact hi.ph_le c'
    · intro c'
      by_cases hc : c' = c
      · subst hc; simp
      · simp only [Function.update_of_ne hc]; exact hi.po_le c'
    · intro c' e side hsent
      simp only [State.SendPosted]
      by_cases hc : c' = c
      · subst hc
        simp only [Function.update_self]
        left
        rcases hi.sent_posted c' e side hsent with h | ⟨h, _⟩ <;> omega
      · simp only [Function.update_of_ne hc]
        exact hi.sent_posted c' e side hsent
    · intro c' e side hlt
      simp only at hlt
      by_cases hc : c' = c
      · subst hc
        simp only [Function.update_self] at hlt
        by_cases he : (e : Nat) = s.ph c'
        · have : e = d := Fin.ext (by omega)
          subst this
          exact ⟨h2 side, h3' side⟩
        · exact hi.past c' e side (by omega)
      · rw [hother c' hc] at hlt
        exact hi.past c' e side hlt
    · intro c' e side hr
      simp only
      have := hi.rcvd_posted c' e side hr
      by_cases hc : c' = c
      · subst hc; simp only [Function.update_self]; omega
      · rw [hother c' hc]; exact this
    · intro c' x
      simp only
      by_cases hc : c' = c
      · subst hc
        simp only [Function.update_self]
        have hno : ¬ ∃ (e : Fin dim) (side : Bool), (e : Nat) = s.ph c' + 1 ∧ InRecv g c' e side x ∧
            s.rcvd c' e side = true := by
          rintro ⟨e, side, he, _, hr⟩
          have := hi.rcvd_posted c' e side hr
          omega
        refine ⟨fun h => absurd h hno, fun _ => ?_⟩
        by_cases hex : ∃ side, InRecv g c' d side x
        · obtain ⟨side, hin⟩ := hex
          exact (hi.array c' x).1 ⟨d, side, h0.symm, hin, h3' side⟩
        · push Not at hex
          have : s.arr c' x = canon g A (s.ph c') c' x := by
            apply (hi.array c' x).2
            rintro ⟨e, side, he, hin, _⟩
            have : e = d := Fin.ext (by omega)
            subst this
            exact hex side hin
          rw [this, h0, canon_succ, sync_other g d _ c' x hex]
      · rw [hother c' hc]
        exact hi.array c' x

theorem inv_reach (h3 : dim ≤ 3) (g : Grid dim) (hL : Large g)
    (eager : Proc g → Fin dim → Bool → Prop) (A : Proc g → Cell dim → α) (n : Nat) (s : State g α)
    (h : Reach g eager A n s) : Inv g A s := by
  induction h with
  | init => exact inv_init g A
  | step n s s' _ hs ih => exact inv_step h3 g hL eager A s s' ih hs

/-- Periodic extension property after `k` directions. -/
theorem canon_periodic (g : Grid dim) (hL : Large g) (A : Proc g → Cell dim → α)
    (G : Cell dim → α)
    (hA : ∀ (c : Proc g) (x : Cell dim), Owned (size g c) g.w x →
      A c x = G (globalPos (fun i => start g i (c i)) g.w x)) (k : Nat) (hk : k ≤ dim) :
    ∀ (c : Proc g) (x : Cell dim), (∀ i, 0 ≤ x i ∧ x i < size g c i + 2 * g.w i) →
      (∀ i : Fin dim, k ≤ i → (g.w i : Int) ≤ x i ∧ x i < g.w i + size g c i) →
      canon g A k c x = periodic g.N G (globalPos (fun i => start g i (c i)) g.w x) := by
  induction k with
  | zero =>
    intro c x hx ho
    rw [canon, hA c x (fun i => ho i (Nat.zero_le _))]
    unfold periodic
    congr 1
    funext i
    have h1 := ho i (Nat.zero_le _)
    have h2 := start_succ g c i
    have h3 : start g i ((c i : Nat) + 1) ≤ g.N i := by
      rw [← start_last g i, start_eq g i _ (by omega), start_eq g i _ le_rfl]
      exact bound_mono _ _ (by omega)
    rw [Int.emod_eq_of_lt]
    · simp only [globalPos]; omega
    · simp only [globalPos]; omega
  | succ k ih =>
    intro c x hx ho
    set d : Fin dim := ⟨k, by omega⟩ with hd
    have hcs := canon_succ g A d
    rw [show ((d : Nat) + 1) = k + 1 from rfl] at hcs
    rw [hcs]
    have hne : ∀ i : Fin dim, k ≤ i → i ≠ d → k + 1 ≤ i := by
      intro i h1 h2
      have : (i : Nat) ≠ k := fun h => h2 (Fin.ext h)
      omega
    have hLc := hL c d
    -- the two received regions
    have hrec : ∀ side, InRecv g c d side x ↔ (if side then (size g c d : Int) + g.w d ≤ x d
        else x d < g.w d) := by
      intro side
      constructor
      · intro h
        have := h d
        cases side <;>
          simp only [rstart, subsize, if_true, nspace, Bool.false_eq_true, if_false] at this ⊢ <;> omega
      · intro h i
        have hxi := hx i
        by_cases hi : i = d
        · subst hi
          cases side <;>
            simp only [rstart, subsize, if_true, nspace, Bool.false_eq_true, if_false] at h ⊢ <;> omega
        · simp only [rstart, subsize, if_neg hi, nspace]; omega
    by_cases hex : ∃ side, InRecv g c d side x
    · obtain ⟨side, hin⟩ := hex
      have hin' := (hrec side).1 hin
      rw [sync_recv g d _ c x side hin]
      set c' := nbr g c d side with hc'
      set x' : Cell dim := fun i => sstart g c' d (!side) i + (x i - rstart g c d side i) with hx'
      have hx'd : x' d = if side then x d - size g c d else x d + size g c' d := by
        simp only [hx', sstart, rstart, if_true, nspace]
        cases side <;> simp <;> omega
      have hx'i : ∀ i, i ≠ d → x' i = x i := by
        intro i hi
        simp only [hx', sstart, rstart, if_neg hi]; omega
      have hLc' := hL c' d
      have hown : (g.w d : Int) ≤ x' d ∧ x' d < g.w d + size g c' d := by
        have hxd := hx d
        rw [hx'd]
        cases side <;> simp only [Bool.false_eq_true, if_false, if_true] at hin' ⊢ <;> omega
      rw [show (d : Nat) = k from rfl]
      rw [ih (by omega) c' x' ?_ ?_]
      · unfold periodic
        congr 1
        funext i
        by_cases hi : i = d
        · subst hi
          unfold globalPos
          simp only
          rw [hx'd]
          have hs1 := start_succ g c d
          have hs2 := start_succ g c' d
          have hpi := g.hp d
          have hci := (c d).isLt
          cases hside : side
          · -- left neighbour
            simp only [Bool.false_eq_true, if_false]
            have hv : ((c' d : Fin (g.p d)) : Nat) = ((c d : Nat) + (g.p d - 1)) % g.p d := by
              rw [hc', hside]; exact nbr_self_false g c d
            by_cases h0 : (c d : Nat) = 0
            · have hv' : ((c' d : Fin (g.p d)) : Nat) = g.p d - 1 := by
                rw [hv, h0, Nat.zero_add, Nat.mod_eq_of_lt (by omega)]
              have e1 : start g d ((c' d : Nat) + 1) = g.N d := by
                rw [hv', show g.p d - 1 + 1 = g.p d by omega, start_last]
              have e2 : start g d (c d) = 0 := by rw [h0, start_zero]
              have : (start g d (c' d) : Int) + (x d + size g c' d) - g.w d =
                  ((start g d (c d) : Int) + x d - g.w d) + g.N d := by
                rw [e1] at hs2; omega
              rw [this, Int.add_emod_right]
            · have hv' : ((c' d : Fin (g.p d)) : Nat) + 1 = c d := by
                rw [hv, show (c d : Nat) + (g.p d - 1) = ((c d : Nat) - 1) + g.p d by omega,
                  Nat.add_mod_right, Nat.mod_eq_of_lt (by omega)]
                omega
              rw [hv'] at hs2
              congr 1
              omega
          · -- right neighbour
            simp only [if_true]
            have hv : ((c' d : Fin (g.p d)) : Nat) = ((c d : Nat) + 1) % g.p d := by
              rw [hc', hside]; exact nbr_self_true g c d
            by_cases h0 : (c d : Nat) + 1 = g.p d
            · have hv' : ((c' d : Fin (g.p d)) : Nat) = 0 := by
                rw [hv, h0, Nat.mod_self]
              have e1 : start g d ((c d : Nat) + 1) = g.N d := by rw [h0, start_last]
              have e2 : start g d (c' d) = 0 := by rw [hv', start_zero]
              have : (start g d (c d) : Int) + x d - g.w d =
                  ((start g d (c' d) : Int) + (x d - size g c d) - g.w d) + g.N d := by
                rw [e1] at hs1; omega
              rw [this, Int.add_emod_right]
            · have hv' : ((c' d : Fin (g.p d)) : Nat) = (c d : Nat) + 1 := by
                rw [hv, Nat.mod_eq_of_lt (by omega)]
              rw [hv', hs1]
              congr 1
              omega
        · unfold globalPos
          simp only
          rw [hx'i i hi, hc', nbr_ne g c d i side hi]
      · intro i
        by_cases hi : i = d
        · subst hi; omega
        · rw [hx'i i hi, hc', size_nbr g c d i side hi]; exact hx i
      · intro i hki
        by_cases hi : i = d
        · subst hi; exact hown
        · rw [hx'i i hi, hc', size_nbr g c d i side hi]
          exact ho i (hne i hki hi)
    · push Not at hex
      rw [sync_other g d _ c x hex]
      apply ih (by omega) c x hx
      intro i hki
      by_cases hi : i = d
      · subst hi
        have a : ¬ x d < g.w d := fun h => hex false ((hrec false).2 (by simpa using h))
        have b : ¬ (size g c d : Int) + g.w d ≤ x d := fun h => hex true ((hrec true).2 (by simpa using h))
        omega
      · exact ho i (hne i hki hi)

end Pylbm.Halo
