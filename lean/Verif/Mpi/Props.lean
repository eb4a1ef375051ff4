import Verif.Mpi.Model
import Verif.Mpi.Spec
import Verif.Common.List
import Mathlib.Tactic.Linarith
/-!
# Properties C10–C12: splitting of the grid
-/

namespace Pylbm.Mpi
open Radix MpiSpec ListAux

/-- Closed form of the boundaries. -/
def bound (n p k : Nat) : Nat := k * (n / p) + min k (n % p)

theorem regionIndices_eq (n p : Nat) :
    regionIndices n p = (List.range (p + 1)).map (bound n p) := by
  have key : ∀ k, (List.range k).foldl
      (fun acc i => acc ++ [acc.getLastD 0 + n / p + (if n % p > i then 1 else 0)]) [0] =
      (List.range (k + 1)).map (bound n p) := by
    intro k
    induction k with
    | zero => simp [bound]
    | succ k ih =>
      rw [List.range_succ, List.foldl_append, ih]
      conv_rhs => rw [List.range_succ, List.map_append]
      simp only [List.foldl_cons, List.foldl_nil, List.map_cons, List.map_nil]
      congr 2
      rw [List.range_succ, List.map_append]
      simp only [List.map_cons, List.map_nil, List.getLastD_concat]
      unfold bound
      have : (k + 1) * (n / p) = k * (n / p) + n / p := by ring
      split <;> omega
  exact key p

theorem regionIndices_getElem? (n p k : Nat) (hk : k ≤ p) :
    (regionIndices n p)[k]? = some (bound n p k) := by
  rw [regionIndices_eq]
  rw [List.getElem?_map, List.getElem?_range (by omega)]; rfl

theorem regionIndices_getElem?_none (n p k : Nat) (hk : p < k) :
    (regionIndices n p)[k]? = none := by
  rw [regionIndices_eq, List.getElem?_eq_none_iff]; simp; omega

theorem bound_mono (n p : Nat) {i j : Nat} (h : i ≤ j) : bound n p i ≤ bound n p j := by
  unfold bound
  have := Nat.mul_le_mul_right (n / p) h
  omega

theorem bound_succ (n p k : Nat) :
    bound n p (k + 1) = bound n p k + (n / p + if k < n % p then 1 else 0) := by
  unfold bound
  have : (k + 1) * (n / p) = k * (n / p) + n / p := by ring
  split <;> omega

theorem bound_last (n p : Nat) (hp : 0 < p) : bound n p p = n := by
  unfold bound
  have h1 := Nat.div_add_mod n p
  have h2 := Nat.mod_lt n hp
  rw [Nat.min_eq_right h2.le]; exact h1

theorem exists_region (n p x : Nat) (hp : 0 < p) (hx : x < n) :
    ∃ i < p, bound n p i ≤ x ∧ x < bound n p (i + 1) := by
  have hex : ∃ k, x < bound n p k := ⟨p, by rw [bound_last n p hp]; exact hx⟩
  have h1 := Nat.find_spec hex
  have h0 : Nat.find hex ≠ 0 := by
    intro h
    rw [h] at h1
    simp [bound] at h1
  obtain ⟨i, hi⟩ := Nat.exists_eq_succ_of_ne_zero h0
  have h2 := Nat.find_min hex (m := i) (by omega)
  refine ⟨i, ?_, by omega, by rw [hi] at h1; exact h1⟩
  by_contra hc
  have := bound_mono n p (show p ≤ i by omega)
  rw [bound_last n p hp] at this
  omega

theorem region_unique (n p x i j : Nat) (hi : bound n p i ≤ x ∧ x < bound n p (i + 1))
    (hj : bound n p j ≤ x ∧ x < bound n p (j + 1)) : i = j := by
  rcases Nat.lt_trichotomy i j with h | h | h
  · have := bound_mono n p (show i + 1 ≤ j by omega); omega
  · exact h
  · have := bound_mono n p (show j + 1 ≤ i by omega); omega

/-- **C10.** The region boundaries are an exact balanced partition, the larger regions first. -/
theorem C10_region_indices_partition (n p : Nat) (hp : 1 ≤ p) :
    BalancedPartition (regionIndices n p) n p where
  length := by simp [regionIndices_eq]
  first := by rw [regionIndices_getElem? n p 0 (by omega)]; simp [bound]
  last := by rw [regionIndices_getElem? n p p le_rfl, bound_last n p hp]
  sorted := by
    rw [regionIndices_eq, List.pairwise_map]
    exact List.pairwise_lt_range.imp (fun h => bound_mono n p h.le)
  unique := by
    intro x hx
    obtain ⟨i, hi, h1, h2⟩ := exists_region n p x hp hx
    refine ⟨i, ⟨hi, _, _, regionIndices_getElem? n p i (by omega),
      regionIndices_getElem? n p (i + 1) (by omega), h1, h2⟩, ?_⟩
    rintro j ⟨hj, a, b, ha, hb, h3, h4⟩
    rw [regionIndices_getElem? n p j (by omega)] at ha
    rw [regionIndices_getElem? n p (j + 1) (by omega)] at hb
    obtain rfl := Option.some.inj ha
    obtain rfl := Option.some.inj hb
    exact region_unique n p x j i ⟨h3, h4⟩ ⟨h1, h2⟩
  balanced := by
    intro i j a b c d hij ha hb hc hd
    have hle : ∀ k v, (regionIndices n p)[k]? = some v → k ≤ p ∧ v = bound n p k := by
      intro k v h
      by_cases hk : k ≤ p
      · rw [regionIndices_getElem? n p k hk] at h
        exact ⟨hk, (Option.some.inj h).symm⟩
      · rw [regionIndices_getElem?_none n p k (by omega)] at h; simp at h
    obtain ⟨_, rfl⟩ := hle _ _ ha
    obtain ⟨_, rfl⟩ := hle _ _ hb
    obtain ⟨_, rfl⟩ := hle _ _ hc
    obtain ⟨_, rfl⟩ := hle _ _ hd
    rw [bound_succ, bound_succ]
    split <;> split <;> omega

example : regionIndices 10 4 = [0, 3, 6, 8, 10] := by decide

/-- **C11.** Every cell of the grid is in the region of exactly one rank. -/
theorem C11_owner_unique (ns split : List Nat) (hlen : ns.length = split.length)
    (hsplit : ∀ p ∈ split, 1 ≤ p) (cell : List Nat) (hcell : InShape ns cell) :
    ∃! rank, rank < split.prod ∧
      ∃ box, getRegion ns split (cartCoords split rank) = some box ∧ InBox box cell := by
  -- first for the coordinates
  have key : ∀ (ns cell : List Nat), InShape ns cell → ∀ split : List Nat, ns.length = split.length →
      (∀ p ∈ split, 1 ≤ p) → ∃ c, (InShape split c ∧
        ∃ box, getRegion ns split c = some box ∧ InBox box cell) ∧
        ∀ c', InShape split c' → (∃ box, getRegion ns split c' = some box ∧ InBox box cell) → c' = c := by
    intro ns cell h
    induction h with
    | nil =>
      intro split hl _
      obtain rfl := List.eq_nil_of_length_eq_zero hl.symm
      refine ⟨[], ⟨List.Forall₂.nil, [], rfl, List.Forall₂.nil⟩, ?_⟩
      intro c' hc' _
      cases hc'; rfl
    | @cons x n xs ns hx _ ih =>
      intro split hl hs
      match split, hl, hs with
      | [], hl, _ => simp at hl
      | p :: ps, hl, hs =>
        obtain ⟨c, ⟨hc1, box, hbox, hin⟩, huniq⟩ := ih ps (by simpa using hl) (fun q hq => hs q (by simp [hq]))
        have hp : 1 ≤ p := hs p (by simp)
        obtain ⟨i, hi, h1, h2⟩ := exists_region n p x hp hx
        have hreg : ∀ (j : Nat) (c' : List Nat), getRegion (n :: ns) (p :: ps) (j :: c') =
            (do let a ← (regionIndices n p)[j]?
                let b ← (regionIndices n p)[j + 1]?
                let l ← getRegion ns ps c'
                return (a, b) :: l) := by
          intro j c'
          simp only [getRegion, List.zip_cons_cons, List.mapM_cons]
          cases (regionIndices n p)[j]? with
          | none => rfl
          | some a => cases (regionIndices n p)[j + 1]? <;> rfl
        refine ⟨i :: c, ⟨List.Forall₂.cons hi hc1, (bound n p i, bound n p (i + 1)) :: box, ?_,
          List.Forall₂.cons ⟨h1, h2⟩ hin⟩, ?_⟩
        · rw [hreg, regionIndices_getElem? n p i (by omega),
            regionIndices_getElem? n p (i + 1) (by omega), hbox]; rfl
        · intro c' hc' hbox'
          match c', hc' with
          | j :: c', List.Forall₂.cons hj hc' =>
            obtain ⟨box', hb', hin'⟩ := hbox'
            rw [hreg, regionIndices_getElem? n p j (by omega),
              regionIndices_getElem? n p (j + 1) (by omega)] at hb'
            cases hl' : getRegion ns ps c' with
            | none => rw [hl'] at hb'; simp at hb'
            | some l =>
              rw [hl'] at hb'
              simp only [Option.bind_eq_bind, Option.bind_some, Option.pure_def, Option.some.injEq] at hb'
              subst hb'
              cases hin' with
              | cons hh ht =>
                rw [huniq c' hc' ⟨l, hl', ht⟩, region_unique n p x j i hh ⟨h1, h2⟩]
  obtain ⟨c, ⟨hc1, hbox⟩, huniq⟩ := key ns cell hcell split hlen hsplit
  refine ⟨ravel split c, ⟨ravel_lt hc1, ?_⟩, ?_⟩
  · simp only [cartCoords, unravel_ravel hc1]; exact hbox
  · rintro r ⟨hr, hb⟩
    obtain ⟨h1, h2⟩ := unravel_inShape split r hr
    have := huniq (unravel split r) h1 hb
    rw [← h2, this]

example : InShape [7, 5] [6, 2] ∧ getRegion [7, 5] [3, 2] (cartCoords [3, 2] 4) = some [(5, 7), (0, 3)] :=
  ⟨by unfold InShape; exact .cons (by decide) (.cons (by decide) .nil), by decide⟩

/-- **C12.** The rows of `get_directions` are the ternary expansions of their index; hence all the
vectors with components in `{-1, 0, 1}`, once, in lexicographic order. -/
theorem C12_directions (dim : Nat) (hdim : 1 ≤ dim ∧ dim ≤ 3) :
    ∃ rows, getDirections dim = some rows ∧ rows.length = 3 ^ dim ∧
      (∀ i < 3 ^ dim, rows[i]? = some (ternary dim i)) ∧
      rows.Nodup ∧ rows.Pairwise (fun a b => List.Lex (· < ·) a b) ∧
      ∀ v : List Int, v ∈ rows ↔ v.length = dim ∧ ∀ x ∈ v, x = -1 ∨ x = 0 ∨ x = 1 := by
  have h3 : dim = 1 ∨ dim = 2 ∨ dim = 3 := by omega
  rcases h3 with rfl | rfl | rfl
  · refine ⟨_, rfl, by decide, by decide, by decide, by decide, fun v => ⟨?_, ?_⟩⟩
    · intro h
      revert v; decide
    · rintro ⟨hl, hv⟩
      match v, hl with
      | [a], _ =>
        rcases hv a (by simp) with rfl | rfl | rfl <;> decide
  · refine ⟨_, rfl, by decide, by decide, by decide, by decide, fun v => ⟨?_, ?_⟩⟩
    · intro h
      revert v; decide
    · rintro ⟨hl, hv⟩
      match v, hl with
      | [a, b], _ =>
        rcases hv a (by simp) with rfl | rfl | rfl <;>
        rcases hv b (by simp) with rfl | rfl | rfl <;> decide
  · refine ⟨_, rfl, by decide, by decide, by decide +kernel, by decide +kernel, fun v => ⟨?_, ?_⟩⟩
    · intro h
      revert v; decide +kernel
    · rintro ⟨hl, hv⟩
      match v, hl with
      | [a, b, c], _ =>
        rcases hv a (by simp) with rfl | rfl | rfl <;>
        rcases hv b (by simp) with rfl | rfl | rfl <;>
        rcases hv c (by simp) with rfl | rfl | rfl <;> decide

/-- **C12.** In the other dimensions the call raises. -/
theorem C12_directions_error (dim : Nat) (hdim : dim = 0 ∨ 3 < dim) : getDirections dim = none := by
  rcases hdim with rfl | h
  · rfl
  · unfold getDirections
    split <;> first | omega | rfl

end Pylbm.Mpi
