import Verif.Domain.Model
import Verif.Domain.Spec
import Verif.Mpi.Props
import Mathlib.Tactic.Ring
import Mathlib.Tactic.NormNum
import Mathlib.Data.Rat.Floor
/-!
# Properties C18 and C19: coordinates and number of cells
-/

namespace Pylbm.Domain
open Round Storage DomainSpec

section
variable {K : Type} [Field K] [LinearOrder K] [IsStrictOrderedRing K]

omit [LinearOrder K] [IsStrictOrderedRing K] in
theorem linspace_length (a b : K) (n : Nat) : (linspace a b n).length = n := by
  simp [linspace]

omit [LinearOrder K] [IsStrictOrderedRing K] in
theorem coordsHalo_length (lo dx : K) (r0 r1 h : Nat) :
    (coordsHalo lo dx r0 r1 h).length = r1 - r0 + 2 * h := linspace_length _ _ _

theorem coordsHalo_getElem? (lo dx : K) {r0 r1 h i : Nat} (hr : r0 ≤ r1)
    (hi : i < r1 - r0 + 2 * h) :
    (coordsHalo lo dx r0 r1 h)[i]? = some (centre lo dx ((r0 : Int) + i - h)) := by
  unfold coordsHalo linspace
  simp only
  rw [List.getElem?_map, List.getElem?_range hi, Option.map_some]
  congr 1
  unfold centre
  push_cast
  obtain ⟨n, rfl⟩ := Nat.exists_eq_add_of_le hr
  simp only [Nat.add_sub_cancel_left] at hi ⊢
  split_ifs with h0 h1
  · subst h0; simp; ring
  · have : (n : K) = i + 1 - 2 * h := by
      have : ((i + 1 : Nat) : K) = ((n + 2 * h : Nat) : K) := by rw [h1]
      push_cast at this; linarith
    push_cast; rw [this]; ring
  · have hne : ((n : K) + 2 * h - 1) ≠ 0 := by
      have : (1 : K) < ((n + 2 * h : Nat) : K) := by exact_mod_cast (by omega)
      push_cast at this; linarith
    push_cast
    have e : (lo + dx * ((r0 : K) + n) + dx * (h - 1 / 2) - (lo + dx * r0 - dx * (h - 1 / 2))) =
        dx * ((n : K) + 2 * h - 1) := by ring
    rw [e, mul_div_assoc, div_self hne]
    ring

/-- C18: the coordinates with halo are the centres of the cells `r0 - h, …, r1 + h - 1` of the
global grid, where `[r0, r1)` is the region of the process. -/
theorem C18_halo_coordinates (lo dx : K) (r0 r1 h i : Nat) (hr : r0 ≤ r1) :
    (coordsHalo lo dx r0 r1 h)[i]? =
      if i < r1 - r0 + 2 * h then some (centre lo dx ((r0 : Int) + i - h)) else none := by
  split_ifs with hi
  · exact coordsHalo_getElem? lo dx hr hi
  · rw [List.getElem?_eq_none_iff, coordsHalo_length]; omega

example : (coordsHalo (0 : ℚ) (1 / 4) 2 4 1)[0]? = some (3 / 8) := by
  rw [C18_halo_coordinates _ _ _ _ _ _ (by decide)]; norm_num [centre]

/-- C18: the coordinates seen by a process of a decomposed run are those of the run on one
process, on any axis, for any number of processes. -/
theorem C18_decomposition_independent (lo dx : K) (n p k h i a b : Nat)
    (ha : (Mpi.regionIndices n p)[k]? = some a) (hb : (Mpi.regionIndices n p)[k + 1]? = some b)
    (hi : i < b - a + 2 * h) :
    (coordsHalo lo dx a b h)[i]? = (coordsHalo lo dx 0 n h)[a + i]? := by
  by_cases hk : k + 1 ≤ p
  · rw [Mpi.regionIndices_getElem? n p k (by omega)] at ha
    rw [Mpi.regionIndices_getElem? n p (k + 1) hk] at hb
    obtain ⟨rfl⟩ := ha; obtain ⟨rfl⟩ := hb
    have h1 := Mpi.bound_mono n p (show k ≤ k + 1 by omega)
    have h2 := Mpi.bound_mono n p hk
    rw [Mpi.bound_last n p (by omega)] at h2
    rw [coordsHalo_getElem? lo dx h1 hi, coordsHalo_getElem? lo dx (Nat.zero_le _) (by omega)]
    simp
  · rw [Mpi.regionIndices_getElem?_none n p (k + 1) (by omega)] at hb; simp at hb

example : ∃ a b, (Mpi.regionIndices 7 3)[1]? = some a ∧ (Mpi.regionIndices 7 3)[2]? = some b ∧
    1 < b - a + 2 * 1 := ⟨3, 5, by decide, by decide, by decide⟩

omit [LinearOrder K] [IsStrictOrderedRing K] in
theorem coords_pos_eq (lo dx : K) {r0 r1 h : Nat} (hh : 0 < h) (i : Nat) :
    (coords lo dx r0 r1 h)[i]? =
      if i < r1 - r0 then (coordsHalo lo dx r0 r1 h)[h + i]? else none := by
  unfold coords pySlice
  rw [if_pos hh, coordsHalo_length]
  have e1 : sliceBound (r1 - r0 + 2 * h) (-(h : Int)) = r1 - r0 + h := by
    unfold sliceBound; rw [if_pos (by omega)]; omega
  have e2 : sliceBound (r1 - r0 + 2 * h) (h : Int) = h := by
    unfold sliceBound; rw [if_neg (by omega)]; omega
  rw [e1, e2, List.getElem?_drop, List.getElem?_take]
  by_cases hi : i < r1 - r0
  · rw [if_pos (by omega), if_pos hi]
  · rw [if_neg (by omega), if_neg hi]

/-- C18 (positive halo width): the interior coordinates are exactly the centres of the cells owned
by the process. -/
theorem C18_interior_coordinates_partial (lo dx : K) (r0 r1 h i : Nat) (hr : r0 ≤ r1)
    (hh : 0 < h) :
    (coords lo dx r0 r1 h)[i]? =
      if i < r1 - r0 then some (centre lo dx ((r0 : Int) + i)) else none := by
  rw [coords_pos_eq lo dx hh i]
  split_ifs with hi
  · rw [coordsHalo_getElem? lo dx hr (by omega)]
    congr 2; push_cast; ring
  · rfl

example : (coords (0 : ℚ) (1 / 4) 2 4 1)[1]? = some (7 / 8) := by
  rw [C18_interior_coordinates_partial _ _ _ _ _ _ (by decide) (by decide)]; norm_num [centre]

/-- C18 fails on an axis without velocity (halo width 0): only the first owned cell has a
coordinate, whatever the size of the region. -/
theorem C18_interior_coordinates_negation (lo dx : K) (r0 r1 : Nat) (hr : r0 + 1 < r1) :
    (coords lo dx r0 r1 0).length = 1 ∧ (coords lo dx r0 r1 0)[1]? = none ∧
      (coordsHalo lo dx r0 r1 0)[1]? = some (centre lo dx ((r0 : Int) + 1)) := by
  have hl : (coords lo dx r0 r1 0).length = 1 := by
    unfold coords pySlice
    rw [coordsHalo_length, if_neg (by omega)]
    simp only [List.length_drop, List.length_take, coordsHalo_length]
    unfold sliceBound
    simp; omega
  refine ⟨hl, ?_, ?_⟩
  · rw [List.getElem?_eq_none_iff]; omega
  · rw [coordsHalo_getElem? lo dx (by omega) (by omega)]; simp

example : (coords (0 : ℚ) (1 / 4) 0 4 0).length = 1 :=
  (C18_interior_coordinates_negation (0 : ℚ) (1 / 4) 0 4 (by decide)).1

/-- C18: consecutive coordinates differ by the space step. -/
theorem C18_equally_spaced (lo dx : K) (r0 r1 h i : Nat) (x y : K) (hr : r0 ≤ r1)
    (hx : (coordsHalo lo dx r0 r1 h)[i]? = some x)
    (hy : (coordsHalo lo dx r0 r1 h)[i + 1]? = some y) : y - x = dx := by
  rw [C18_halo_coordinates lo dx r0 r1 h _ hr] at hx hy
  split_ifs at hx hy
  simp only [Option.some.injEq] at hx hy
  rw [← hx, ← hy]; unfold centre; push_cast; ring

example : ∃ x y, (coordsHalo (0 : ℚ) (1 / 4) 2 4 1)[0]? = some x ∧
    (coordsHalo (0 : ℚ) (1 / 4) 2 4 1)[1]? = some y := by
  refine ⟨3 / 8, 5 / 8, ?_, ?_⟩ <;> rw [C18_halo_coordinates _ _ _ _ _ _ (by decide)] <;>
    norm_num [centre]

variable [FloorRing K]

/-- C19: a box whose side is a multiple of the step is accepted, with the right number of cells. -/
theorem C19_accepts_multiples (n : Int) (dx : K) (hdx : 0 < dx) :
    globalSize ((n : K) * dx) dx = some n := by
  unfold globalSize
  simp only
  rw [mul_div_assoc, div_self hdx.ne', mul_one]
  simp

example : (0 : ℚ) < 1 / 10 := by norm_num

/-- C19 (what is enforced): when a side is accepted, the discretised length differs from the
requested one by at most half a step and by less than the square of the step. -/
theorem C19_accepted_error_partial (L dx : K) (n : Int) (hdx : 0 < dx)
    (h : globalSize L dx = some n) :
    |(n : K) * dx - L| < dx ^ 2 ∧ |(n : K) * dx - L| ≤ dx / 2 := by
  unfold globalSize at h
  simp only at h
  split_ifs at h with h1 h2
  · simp only [Option.some.injEq] at h
    have : (n : K) * dx - L = 0 := by
      rw [← h, h1]; field_simp; ring
    rw [this, abs_zero]
    exact ⟨by positivity, by positivity⟩
  · simp only [Option.some.injEq] at h
    have e : (n : K) * dx - L = ((n : K) - L / dx) * dx := by field_simp
    rw [e, abs_mul, abs_of_pos hdx, ← h]
    constructor
    · rw [pow_two]; exact mul_lt_mul_of_pos_right h2 hdx
    · have := abs_pyRound_sub_le (L / dx)
      have := mul_le_mul_of_nonneg_right this hdx.le
      linarith

example : globalSize (3 / 2 : ℚ) 1 = some 2 := by decide +kernel

/-- C19 fails: the tolerance is compared with the step itself.  A box of side 1.5 is accepted
for the step 1 (and given two cells), while the same box in another unit is refused. -/
theorem C19_negation : globalSize (3 / 2 : ℚ) 1 = some 2 ∧
    (¬ ∃ n : Int, (3 / 2 : ℚ) = n * 1) ∧ globalSize (3 / 20 : ℚ) (1 / 10) = none := by
  refine ⟨by decide +kernel, ?_, by decide +kernel⟩
  rintro ⟨n, hn⟩
  have h1 : (3 : ℚ) = ((2 * n : Int) : ℚ) := by push_cast; linarith
  have h2 : (3 : Int) = 2 * n := by exact_mod_cast h1
  omega

/-- C19 fails: for a step larger than one half nothing is ever refused. -/
theorem C19_coarse_negation (L dx : K) (hdx : 1 / 2 < dx) : ∃ n, globalSize L dx = some n := by
  unfold globalSize
  simp only
  have := abs_pyRound_sub_le (L / dx)
  split_ifs with h1 h2
  · exact ⟨_, rfl⟩
  · exact ⟨_, rfl⟩
  · exact absurd (this.trans_lt hdx) h2

example : (1 : ℚ) / 2 < 3 / 4 := by norm_num

end

end Pylbm.Domain
