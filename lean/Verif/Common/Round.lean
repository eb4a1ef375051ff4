import Mathlib.Algebra.Order.Floor.Ring
import Mathlib.Algebra.Order.Field.Basic
import Mathlib.Algebra.Order.Round
import Mathlib.Tactic.Linarith
import Mathlib.Tactic.FieldSimp
/-!
# Conversions from numbers to integers in Python
-/

namespace Pylbm.Round
variable {K : Type} [Field K] [LinearOrder K] [IsStrictOrderedRing K] [FloorRing K]

/-- `int(q)` and the numpy cast to `int`: truncation towards zero. -/
def trunc (q : K) : Int := if 0 ≤ q then ⌊q⌋ else ⌈q⌉

/-- Python `round(q)`: nearest integer, ties to even. -/
def pyRound (q : K) : Int :=
  let f := ⌊q⌋
  if q - f < 1 / 2 then f
  else if 1 / 2 < q - f then f + 1
  else if f % 2 = 0 then f else f + 1

theorem abs_pyRound_sub_le (q : K) : |(pyRound q : K) - q| ≤ 1 / 2 := by
  have h0 := Int.floor_le q
  have h1 := Int.lt_floor_add_one q
  unfold pyRound
  simp only
  rw [abs_le]
  split_ifs <;> push_cast <;> constructor <;> linarith

theorem pyRound_intCast (z : Int) : pyRound (z : K) = z := by
  simp [pyRound]

theorem trunc_le_of_le {q : K} {i : Int} (h : q ≤ i) : trunc q ≤ i := by
  unfold trunc
  split_ifs with h0
  · exact_mod_cast (Int.floor_le q).trans h
  · exact Int.ceil_le.2 h

theorem le_trunc_of_le {q : K} {i : Int} (h : (i : K) ≤ q) : i ≤ trunc q := by
  unfold trunc
  split_ifs with h0
  · exact Int.le_floor.2 h
  · exact_mod_cast h.trans (Int.le_ceil q)

omit [IsStrictOrderedRing K] in
theorem trunc_eq_zero_or {q : K} (h : -1 < q) (h' : q < 1) : trunc q = 0 := by
  unfold trunc
  split_ifs with h0
  · rw [Int.floor_eq_iff]; simp; exact ⟨h0, h'⟩
  · rw [Int.ceil_eq_iff]; simp; push Not at h0; exact ⟨h, h0.le⟩

end Pylbm.Round
