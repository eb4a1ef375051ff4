import Verif.Velocity.LemmasPerm
import Mathlib.Data.List.Nodup
import Mathlib.Data.List.Range
import Mathlib.Data.List.Perm.Subperm
import Mathlib.Data.Int.Interval
import Mathlib.Order.Interval.Finset.Nat
import Mathlib.Data.Finset.Prod
import Mathlib.Tactic.Ring
/-! Helper lemmas for the 3D enumeration. -/

namespace Pylbm.Velocity

theorem signs_zero : signs 0 = [1] := rfl
theorem signs_succ (k : Nat) : signs (k + 1) = [1, -1] := by
  unfold signs; rw [show k + 1 + 1 = 2 + k by omega]; simp

theorem mem_signs {k : Nat} {w : Int} : (∃ s ∈ signs k, s * (k : Int) = w) ↔ w.natAbs = k := by
  cases k with
  | zero => simp [signs_zero]; omega
  | succ k => simp only [signs_succ, List.mem_cons, List.not_mem_nil, or_false]
              constructor
              · rintro ⟨s, rfl | rfl, rfl⟩ <;> omega
              · intro h
                rcases Int.natAbs_eq w with h' | h'
                · exact ⟨1, Or.inl rfl, by omega⟩
                · exact ⟨-1, Or.inr rfl, by omega⟩

theorem signs_nodup (k : Nat) : (signs k).Nodup := by
  cases k with
  | zero => simp [signs_zero]
  | succ k => rw [signs_succ]; decide

theorem signs_inj {k : Nat} {s t : Int} (hs : s ∈ signs k) (ht : t ∈ signs k)
    (h : s * (k : Int) = t * k) : s = t := by
  cases k with
  | zero => simp [signs_zero] at hs ht; rw [hs, ht]
  | succ k =>
    simp only [signs_succ, List.mem_cons, List.not_mem_nil, or_false] at hs ht
    rcases hs with rfl | rfl <;> rcases ht with rfl | rfl <;> omega

/-- Absolute values of a candidate. -/
def absList (v : Int × Int × Int) : List Nat := [v.1.natAbs, v.2.1.natAbs, v.2.2.natAbs]

theorem mem_signed {l : List Nat} (hl : l.length = 3) {v : Int × Int × Int} :
    v ∈ signed l ↔ absList v = l := by
  match l, hl with
  | [kk, ii, jj], _ =>
    simp only [signed, List.mem_flatMap, List.mem_map, absList]
    constructor
    · rintro ⟨a, ha, b, hb, c, hc, rfl⟩
      have h1 := (mem_signs (k := kk)).1 ⟨a, ha, rfl⟩
      have h2 := (mem_signs (k := ii)).1 ⟨b, hb, rfl⟩
      have h3 := (mem_signs (k := jj)).1 ⟨c, hc, rfl⟩
      simp only [h1, h2, h3]
    · intro h
      simp only [List.cons.injEq, and_true] at h
      obtain ⟨a, ha, ha'⟩ := (mem_signs (k := kk) (w := v.1)).2 h.1
      obtain ⟨b, hb, hb'⟩ := (mem_signs (k := ii) (w := v.2.1)).2 h.2.1
      obtain ⟨c, hc, hc'⟩ := (mem_signs (k := jj) (w := v.2.2)).2 h.2.2
      exact ⟨a, ha, b, hb, c, hc, by rw [ha', hb', hc']⟩

theorem signed_nodup (l : List Nat) : (signed l).Nodup := by
  unfold signed
  split
  · rename_i kk ii jj
    rw [List.nodup_flatMap]
    refine ⟨fun a ha => ?_, ?_⟩
    · rw [List.nodup_flatMap]
      refine ⟨fun b hb => ?_, ?_⟩
      · refine List.Nodup.map_on ?_ (signs_nodup jj)
        intro c hc c' hc' h
        simp only [Prod.mk.injEq, true_and] at h
        exact signs_inj hc hc' h
      · refine List.Pairwise.imp_of_mem ?_ (List.nodup_iff_pairwise_ne.1 (signs_nodup ii))
        intro b b' hb hb' hne v hv hv'
        simp only [List.mem_map] at hv hv'
        obtain ⟨c, _, rfl⟩ := hv
        obtain ⟨c', _, h⟩ := hv'
        simp only [Prod.mk.injEq, true_and] at h
        exact hne (signs_inj hb hb' h.1.symm)
    · refine List.Pairwise.imp_of_mem ?_ (List.nodup_iff_pairwise_ne.1 (signs_nodup kk))
      intro b b' hb hb' hne v hv hv'
      simp only [List.mem_flatMap, List.mem_map] at hv hv'
      obtain ⟨c, _, d, _, rfl⟩ := hv
      obtain ⟨c', _, d', _, h⟩ := hv'
      simp only [Prod.mk.injEq] at h
      exact hne (signs_inj hb hb' h.1.symm)
  · exact List.nodup_nil

theorem mem_block {l : List Nat} (hl : l.length = 3) {v : Int × Int × Int} :
    v ∈ (permuteInPlace l).1.flatMap signed ↔ (absList v).Perm l := by
  rw [List.mem_flatMap]
  have hs := (permuteInPlace_spec l).2.1
  constructor
  · rintro ⟨c, hc, hv⟩
    have hc' := (hs c).1 hc
    rw [mem_signed (by rw [hc'.length_eq, hl])] at hv
    rw [hv]; exact hc'
  · intro h
    exact ⟨_, (hs _).2 h, (mem_signed rfl).2 rfl⟩

theorem block_nodup {l : List Nat} (hl : l.length = 3) :
    ((permuteInPlace l).1.flatMap signed).Nodup := by
  have hs := permuteInPlace_spec l
  rw [List.nodup_flatMap]
  refine ⟨fun c _ => signed_nodup c, ?_⟩
  refine List.Pairwise.imp_of_mem ?_ hs.1
  intro c c' hc hc' hlt v hv hv'
  have e := ((hs.2.1 c).1 hc).length_eq
  have e' := ((hs.2.1 c').1 hc').length_eq
  rw [mem_signed (by rw [e, hl])] at hv
  rw [mem_signed (by rw [e', hl])] at hv'
  rw [← hv, ← hv'] at hlt
  exact lt_irrefl _ hlt

theorem desc3_eq {k i j k' i' j' : Nat} (h1 : i ≤ k) (h2 : j ≤ i) (h1' : i' ≤ k') (h2' : j' ≤ i')
    (h : [k, i, j].Perm [k', i', j']) : k = k' ∧ i = i' ∧ j = j' := by
  have hle : ∀ {a b c : Nat}, b ≤ a → c ≤ b → [a, b, c].Pairwise (· ≥ ·) := by
    intro a b c hab hbc
    simp; omega
  have e : [k, i, j] = [k', i', j'] :=
    le_antisymm (perm_le_of_desc (hle h1' h2') h) (perm_le_of_desc (hle h1 h2) h.symm)
  simpa using e

theorem mem_enum3 {K : Nat} {v : Int × Int × Int} :
    v ∈ enum3 K ↔ v.1.natAbs < K ∧ v.2.1.natAbs < K ∧ v.2.2.natAbs < K := by
  unfold enum3
  simp only [List.mem_flatMap, List.mem_range]
  constructor
  · rintro ⟨k, hk, i, hi, j, hj, l, hl, hv⟩
    have hl' := ((permuteInPlace_spec [k, i, j]).2.1 l).1 hl
    rw [mem_signed (by rw [hl'.length_eq]; rfl)] at hv
    rw [← hv] at hl'
    have hm : ∀ a ∈ absList v, a < K := by
      intro a ha
      have := hl'.subset ha
      simp at this; omega
    exact ⟨hm _ (by simp [absList]), hm _ (by simp [absList]), hm _ (by simp [absList])⟩
  · rintro ⟨h1, h2, h3⟩
    obtain ⟨k, i, j, hp, hik, hji⟩ : ∃ k i j, (absList v).Perm [k, i, j] ∧ i ≤ k ∧ j ≤ i := by
      have hp := List.mergeSort_perm (absList v) (fun a b => decide (a ≥ b))
      have hs := List.pairwise_mergeSort (le := fun a b : Nat => decide (a ≥ b))
        (by intro a b c; simp; omega) (by intro a b; simp; omega) (absList v)
      have hl := hp.length_eq
      generalize (absList v).mergeSort (fun a b => decide (a ≥ b)) = s at *
      match s, hl with
      | [k, i, j], _ =>
        simp at hs
        exact ⟨k, i, j, hp.symm, by omega, by omega⟩
    have hk : k < K := by
      have : k ∈ absList v := hp.symm.subset (by simp)
      simp [absList] at this; omega
    have := (mem_block (l := [k, i, j]) rfl (v := v)).2 hp
    rw [List.mem_flatMap] at this
    obtain ⟨l, hl, hv⟩ := this
    exact ⟨k, hk, i, by omega, j, by omega, l, hl, hv⟩

theorem enum3_nodup (K : Nat) : (enum3 K).Nodup := by
  unfold enum3
  rw [List.nodup_flatMap]
  refine ⟨fun k hk => ?_, ?_⟩
  · rw [List.nodup_flatMap]
    refine ⟨fun i hi => ?_, ?_⟩
    · rw [List.nodup_flatMap]
      refine ⟨fun j hj => block_nodup rfl, ?_⟩
      refine List.Pairwise.imp_of_mem ?_ (List.nodup_iff_pairwise_ne.1 List.nodup_range)
      intro j j' hj hj' hne v hv hv'
      simp only [List.mem_range] at hi hj hj'
      rw [mem_block rfl] at hv hv'
      exact hne (desc3_eq (by omega) (by omega) (by omega) (by omega) (hv.symm.trans hv')).2.2
    · refine List.Pairwise.imp_of_mem ?_ (List.nodup_iff_pairwise_ne.1 List.nodup_range)
      intro i i' hi hi' hne v hv hv'
      rw [List.mem_flatMap] at hv hv'
      obtain ⟨j, hj, hv⟩ := hv
      obtain ⟨j', hj', hv'⟩ := hv'
      simp only [List.mem_range] at hi hi' hj hj'
      rw [mem_block rfl] at hv hv'
      exact hne (desc3_eq (by omega) (by omega) (by omega) (by omega) (hv.symm.trans hv')).2.1
  · refine List.Pairwise.imp_of_mem ?_ (List.nodup_iff_pairwise_ne.1 List.nodup_range)
    intro k k' hk hk' hne v hv hv'
    simp only [List.mem_flatMap] at hv hv'
    obtain ⟨i, hi, j, hj, hv⟩ := hv
    obtain ⟨i', hi', j', hj', hv'⟩ := hv'
    rw [← List.mem_flatMap] at hv hv'
    simp only [List.mem_range] at hi hi' hj hj'
    rw [mem_block rfl] at hv hv'
    exact hne (desc3_eq (by omega) (by omega) (by omega) (by omega) (hv.symm.trans hv')).1

theorem enum3_length (K : Nat) : (enum3 (K + 1)).length = (2 * K + 1) ^ 3 := by
  have h : (enum3 (K + 1)).toFinset =
      Finset.Icc (-(K : Int)) K ×ˢ (Finset.Icc (-(K : Int)) K ×ˢ Finset.Icc (-(K : Int)) K) := by
    ext v
    simp only [List.mem_toFinset, mem_enum3, Finset.mem_product, Finset.mem_Icc]
    omega
  rw [← List.toFinset_card_of_nodup (enum3_nodup _), h]
  simp only [Finset.card_product, Int.card_Icc]
  have : ((K : Int) + 1 - -(K : Int)).toNat = 2 * K + 1 := by omega
  rw [this]; ring

end Pylbm.Velocity
