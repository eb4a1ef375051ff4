import Verif.Domain.Coords
/-!
# C19: boxes without points
-/

namespace Pylbm.Domain
open Round Storage DomainSpec

variable {K : Type} [Field K] [LinearOrder K] [IsStrictOrderedRing K] [FloorRing K]

/-- C19 fails: boxes much shorter than a step are accepted, with no point at all. -/
theorem C19_empty_negation (L dx : K) (hdx : 0 < dx) (hL : 0 < L) (h1 : L < dx ^ 2) (h2 : L < dx / 2) :
    globalSize L dx = some 0 := by
  have hq : 0 < L / dx := div_pos hL hdx
  have hq2 : L / dx < 1 / 2 := by rw [div_lt_iff₀ hdx]; linarith
  have hr := abs_le.1 (abs_pyRound_sub_le (L / dx))
  have h0 : pyRound (L / dx) = 0 := by
    have a1 : ((pyRound (L / dx) : Int) : K) < 1 := by linarith [hr.2]
    have a2 : (-1 : K) < ((pyRound (L / dx) : Int) : K) := by linarith [hr.1]
    have b1 : pyRound (L / dx) < 1 := by exact_mod_cast a1
    have b2 : -1 < pyRound (L / dx) := by exact_mod_cast a2
    omega
  have h3 : |(pyRound (L / dx) : K) - L / dx| < dx := by
    rw [h0, Int.cast_zero, zero_sub, abs_neg, abs_of_pos hq, div_lt_iff₀ hdx]
    nlinarith
  unfold globalSize
  simp only
  split_ifs with g1
  · rw [Option.some.injEq]
    have a1 : ((⌊L / dx⌋ : Int) : K) < 1 := by linarith [Int.floor_le (L / dx)]
    have a2 : (-1 : K) < ((⌊L / dx⌋ : Int) : K) := by linarith [Int.lt_floor_add_one (L / dx)]
    have b1 : ⌊L / dx⌋ < 1 := by exact_mod_cast a1
    have b2 : -1 < ⌊L / dx⌋ := by exact_mod_cast a2
    omega
  · rw [h0]

/-- A case for `C19_empty_negation`: the length 1/200 and the step 1/10. -/
example : globalSize (1 / 200 : ℚ) (1 / 10) = some 0 := C19_empty_negation _ _ (by norm_num) (by norm_num) (by norm_num) (by norm_num)

/-- C19 fails: a box whose bounds are in the wrong order is accepted, with a negative number of points. -/
theorem C19_reversed_negation (a b dx : K) (hdx : 0 < dx) (n : Nat) (hn : 0 < n) (hab : a = b + n * dx) :
    b < a ∧ globalSize (b - a) dx = some (-(n : Int)) := by
  have hn' : (0 : K) < n := by exact_mod_cast hn
  refine ⟨by rw [hab]; nlinarith, ?_⟩
  have := C19_accepts_multiples (-(n : Int)) dx hdx
  rw [← this]
  congr 1
  rw [hab]
  push_cast
  ring

/-- A case for `C19_reversed_negation`: the box `[1, 0]` and the step 1/10. -/
example : globalSize (0 - 1 : ℚ) (1 / 10) = some (-10) := (C19_reversed_negation (1 : ℚ) 0 (1 / 10) (by norm_num) 10 (by norm_num) (by norm_num)).2

end Pylbm.Domain
