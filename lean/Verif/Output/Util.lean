/-
Model of the small helpers a user sees directly: the colour conversion `hsl_to_rgb` and the text
progress bar (`pylbm/utils.py`), the selection of the items shown by the views of the domain
(`pylbm/domain.py`).
-/
import Mathlib.Data.List.Range
import Mathlib.Data.Rat.Floor
import Mathlib.Tactic.Linarith
import Mathlib.Tactic.FieldSimp
import Mathlib.Tactic.Ring
import Verif.Common.Round

namespace Pylbm.Util
open Pylbm.Round

/-! ## Colours -/

section Colour
variable {K : Type} [Field K] [LinearOrder K] [IsStrictOrderedRing K] [FloorRing K]

/-- `hue2rgb(p, q, t)`, the local function of `hsl_to_rgb`, `pylbm/utils.py:111-119`.  `t % 1` of
python is the fractional part; the arithmetic is exact here. -/
def hue2rgb (p q t : K) : K :=
  let t := Int.fract t
  if t < 1 / 6 then p + (q - p) * 6 * t
  else if t < 1 / 2 then q
  else if t < 2 / 3 then p + (q - p) * (2 / 3 - t) * 6
  else p

/-- `hsl_to_rgb(h, s, l)`, `pylbm/utils.py:82-128`. -/
def hslToRgb (h s l : K) : K × K × K :=
  if s = 0 then (l, l, l)
  else
    let q := if l < 1 / 2 then l * (1 + s) else l + s - l * s
    let p := 2 * l - q
    (hue2rgb p q (h + 1 / 3), hue2rgb p q h, hue2rgb p q (h - 1 / 3))

theorem hue2rgb_mem {p q : K} (h : p ≤ q) (t : K) : p ≤ hue2rgb p q t ∧ hue2rgb p q t ≤ q := by
  have h0 := Int.fract_nonneg t
  have h1 := Int.fract_lt_one t
  unfold hue2rgb
  simp only
  generalize Int.fract t = u at *
  split_ifs <;> constructor <;> nlinarith

omit [IsStrictOrderedRing K] in
theorem hue2rgb_top {p q t : K} (h : 1 / 6 ≤ Int.fract t) (h' : Int.fract t < 1 / 2) :
    hue2rgb p q t = q := by
  simp only [hue2rgb, if_neg (not_lt.mpr h), if_pos h']

theorem hue2rgb_bot {p q t : K} (h : 2 / 3 ≤ Int.fract t) : hue2rgb p q t = p := by
  have h1 : ¬ Int.fract t < 1 / 6 := by
    intro hh; linarith
  have h2 : ¬ Int.fract t < 1 / 2 := by
    intro hh; linarith
  simp only [hue2rgb, if_neg h1, if_neg h2, if_neg (not_lt.mpr h)]

/-- the fractional part of a shift by a third -/
theorem fract_up (h : K) : Int.fract (h + 1 / 3) =
    if Int.fract h < 2 / 3 then Int.fract h + 1 / 3 else Int.fract h - 2 / 3 := by
  have h0 := Int.fract_nonneg h
  have h1 := Int.fract_lt_one h
  have h2 := Int.floor_add_fract h
  split_ifs with hc
  · rw [Int.fract_eq_iff]
    refine ⟨by linarith, by linarith, ⌊h⌋, by linarith⟩
  · push Not at hc
    rw [Int.fract_eq_iff]
    refine ⟨by linarith, by linarith, ⌊h⌋ + 1, by push_cast; linarith⟩

theorem fract_down (h : K) : Int.fract (h - 1 / 3) =
    if Int.fract h < 1 / 3 then Int.fract h + 2 / 3 else Int.fract h - 1 / 3 := by
  have h0 := Int.fract_nonneg h
  have h1 := Int.fract_lt_one h
  have h2 := Int.floor_add_fract h
  split_ifs with hc
  · rw [Int.fract_eq_iff]
    refine ⟨by linarith, by linarith, ⌊h⌋ - 1, by push_cast; linarith⟩
  · push Not at hc
    rw [Int.fract_eq_iff]
    refine ⟨by linarith, by linarith, ⌊h⌋, by linarith⟩

/-- one of the three shifted hues is on the upper plateau and one on the lower plateau -/
theorem plateaus {p q : K} (h : K) :
    (hue2rgb p q (h + 1 / 3) = q ∨ hue2rgb p q h = q ∨ hue2rgb p q (h - 1 / 3) = q) ∧
    (hue2rgb p q (h + 1 / 3) = p ∨ hue2rgb p q h = p ∨ hue2rgb p q (h - 1 / 3) = p) := by
  have h0 := Int.fract_nonneg h
  have h1 := Int.fract_lt_one h
  have hu := fract_up h
  have hd := fract_down h
  constructor
  · by_cases c1 : Int.fract h < 1 / 6
    · left
      rw [if_pos (by linarith)] at hu
      exact hue2rgb_top (by rw [hu]; linarith) (by rw [hu]; linarith)
    · push Not at c1
      by_cases c2 : Int.fract h < 1 / 2
      · right; left; exact hue2rgb_top c1 c2
      · push Not at c2
        by_cases c3 : Int.fract h < 5 / 6
        · right; right
          rw [if_neg (by intro hh; linarith)] at hd
          exact hue2rgb_top (by rw [hd]; linarith) (by rw [hd]; linarith)
        · push Not at c3
          left
          rw [if_neg (by intro hh; linarith)] at hu
          exact hue2rgb_top (by rw [hu]; linarith) (by rw [hu]; linarith)
  · by_cases c1 : Int.fract h < 1 / 3
    · right; right
      rw [if_pos c1] at hd
      exact hue2rgb_bot (by rw [hd]; linarith)
    · push Not at c1
      by_cases c2 : Int.fract h < 2 / 3
      · left
        rw [if_pos c2] at hu
        exact hue2rgb_bot (by rw [hu]; linarith)
      · push Not at c2
        right; left; exact hue2rgb_bot c2

/-- **C54**, first part: the colour is in the unit cube. -/
theorem C54_cube (h s l : K) (hs : 0 ≤ s ∧ s ≤ 1) (hl : 0 ≤ l ∧ l ≤ 1) :
    ∀ c, c = (hslToRgb h s l).1 ∨ c = (hslToRgb h s l).2.1 ∨ c = (hslToRgb h s l).2.2 →
      0 ≤ c ∧ c ≤ 1 := by
  intro c hc
  obtain ⟨hs0, hs1⟩ := hs
  obtain ⟨hl0, hl1⟩ := hl
  unfold hslToRgb at hc
  by_cases hz : s = 0
  · simp only [hz, if_true, or_self] at hc
    rw [hc]; exact ⟨hl0, hl1⟩
  · simp only [hz, if_false] at hc
    set q := if l < 1 / 2 then l * (1 + s) else l + s - l * s with hq
    have hq1 : q ≤ 1 ∧ l ≤ q ∧ q ≤ 2 * l := by
      rw [hq]
      split_ifs with c1
      · refine ⟨by nlinarith, by nlinarith, by nlinarith⟩
      · push Not at c1
        refine ⟨by nlinarith, by nlinarith, by nlinarith⟩
    obtain ⟨h1, h2, h3⟩ := hq1
    have key : ∀ t, 0 ≤ hue2rgb (2 * l - q) q t ∧ hue2rgb (2 * l - q) q t ≤ 1 := by
      intro t
      obtain ⟨ha, hb⟩ := hue2rgb_mem (show 2 * l - q ≤ q by linarith) t
      exact ⟨by linarith, by linarith⟩
    rcases hc with hc | hc | hc <;> rw [hc] <;> exact key _

/-- **C54**, second part: the largest plus the smallest component is twice the lightness, and
their difference is the chroma `s (1 - |2 l - 1|)`; these are the definitions of lightness and
saturation of a colour. -/
theorem C54_lightness (h s l : K) (hs : 0 ≤ s ∧ s ≤ 1) (hl : 0 ≤ l ∧ l ≤ 1) :
    let c := hslToRgb h s l
    let mx := max c.1 (max c.2.1 c.2.2)
    let mn := min c.1 (min c.2.1 c.2.2)
    mx + mn = 2 * l ∧ mx - mn = s * (1 - |2 * l - 1|) := by
  obtain ⟨hs0, hs1⟩ := hs
  obtain ⟨hl0, hl1⟩ := hl
  unfold hslToRgb
  by_cases hz : s = 0
  · simp only [hz, if_true, max_self, min_self]
    exact ⟨by ring, by ring⟩
  · simp only [hz, if_false]
    set q := if l < 1 / 2 then l * (1 + s) else l + s - l * s with hq
    have hq1 : l ≤ q ∧ q - (2 * l - q) = s * (1 - |2 * l - 1|) := by
      rw [hq]
      split_ifs with c1
      · rw [abs_of_neg (by linarith)]
        exact ⟨by nlinarith, by ring⟩
      · push Not at c1
        rw [abs_of_nonneg (by linarith)]
        exact ⟨by nlinarith, by ring⟩
    obtain ⟨h2, h3⟩ := hq1
    clear_value q
    have hpq : 2 * l - q ≤ q := by linarith
    obtain ⟨hT, hB⟩ := plateaus (p := 2 * l - q) (q := q) h
    have m1 := hue2rgb_mem hpq (h + 1 / 3)
    have m2 := hue2rgb_mem hpq h
    have m3 := hue2rgb_mem hpq (h - 1 / 3)
    generalize hue2rgb (2 * l - q) q (h + 1 / 3) = a at *
    generalize hue2rgb (2 * l - q) q h = b at *
    generalize hue2rgb (2 * l - q) q (h - 1 / 3) = c at *
    have hmx : max a (max b c) = q := by
      apply le_antisymm
      · exact max_le m1.2 (max_le m2.2 m3.2)
      · rcases hT with e | e | e
        · rw [← e]; exact le_max_left _ _
        · rw [← e]; exact le_max_of_le_right (le_max_left _ _)
        · rw [← e]; exact le_max_of_le_right (le_max_right _ _)
    have hmn : min a (min b c) = 2 * l - q := by
      apply le_antisymm
      · rcases hB with e | e | e
        · rw [← e]; exact min_le_left _ _
        · rw [← e]; exact min_le_of_right_le (min_le_left _ _)
        · rw [← e]; exact min_le_of_right_le (min_le_right _ _)
      · exact le_min m1.1 (le_min m2.1 m3.1)
    rw [hmx, hmn]
    exact ⟨by ring, h3⟩

/-- Specification: the closed formula of the HSL colour space, component `n` (0 red, 8 green,
4 blue), `f(n) = l - a max(-1, min(k - 3, 9 - k, 1))` with `k = (n + 12 h) mod 12` and
`a = s min(l, 1 - l)`. -/
def hslComponent (n : K) (h s l : K) : K :=
  let k := 12 * Int.fract (h + n / 12)
  l - s * min l (1 - l) * max (-1) (min (k - 3) (min (9 - k) 1))

theorem hue2rgb_formula (l a h : K) :
    hue2rgb (l - a) (l + a) (h + 1 / 3) =
      l - a * max (-1) (min (12 * Int.fract h - 3) (min (9 - 12 * Int.fract h) 1)) := by
  have h0 := Int.fract_nonneg h
  have h1 := Int.fract_lt_one h
  unfold hue2rgb
  simp only
  rw [fract_up]
  generalize Int.fract h = u at *
  by_cases c1 : u < 1 / 6
  · rw [if_pos (show u < 2 / 3 by linarith), if_neg (by intro hh; linarith), if_pos (by linarith),
      max_eq_left]
    · ring
    · exact le_trans (min_le_left _ _) (by linarith)
  push Not at c1
  by_cases c2 : u < 1 / 3
  · rw [if_pos (show u < 2 / 3 by linarith), if_neg (by intro hh; linarith), if_neg (by intro hh; linarith),
      if_pos (by linarith), min_eq_left (le_min (by linarith) (by linarith)),
      max_eq_right (by linarith)]
    ring
  push Not at c2
  by_cases c3 : u < 2 / 3
  · rw [if_pos (show u < 2 / 3 by linarith), if_neg (by intro hh; linarith), if_neg (by intro hh; linarith),
      if_neg (by intro hh; linarith), min_eq_right (a := 9 - 12 * u) (by linarith),
      min_eq_right (by linarith), max_eq_right (by linarith)]
    ring
  push Not at c3
  by_cases c4 : u < 5 / 6
  · rw [if_neg (show ¬ u < 2 / 3 by intro hh; linarith), if_pos (by linarith),
      min_eq_left (a := 9 - 12 * u) (by linarith), min_eq_right (by linarith),
      max_eq_right (by linarith)]
    ring
  push Not at c4
  rw [if_neg (show ¬ u < 2 / 3 by intro hh; linarith), if_neg (by intro hh; linarith),
    if_pos (by linarith), max_eq_left]
  · ring
  · exact le_trans (min_le_right _ _) (le_trans (min_le_left _ _) (by linarith))

/-- **C54**, third part: the three components are those of the closed formula of the HSL space,
for every hue (inside `[0, 1]` or not) and every saturation and lightness. -/
theorem C54_formula (h s l : K) :
    hslToRgb h s l = (hslComponent 0 h s l, hslComponent 8 h s l, hslComponent 4 h s l) := by
  unfold hslToRgb
  by_cases hz : s = 0
  · simp [hz, hslComponent]
  · simp only [hz, if_false]
    have hq : (if l < 1 / 2 then l * (1 + s) else l + s - l * s) = l + s * min l (1 - l) := by
      split_ifs with c1
      · rw [min_eq_left (by linarith)]; ring
      · push Not at c1
        rw [min_eq_right (by linarith)]; ring
    have hp : 2 * l - (l + s * min l (1 - l)) = l - s * min l (1 - l) := by ring
    rw [hq, hp]
    refine Prod.ext ?_ (Prod.ext ?_ ?_)
    · rw [hue2rgb_formula]; simp [hslComponent]
    · have := hue2rgb_formula l (s * min l (1 - l)) (h - 1 / 3)
      rw [sub_add_cancel] at this
      simp only [hslComponent]
      rw [this, show h + (8 : K) / 12 = (h - 1 / 3) + 1 by ring, Int.fract_add_one]
    · have := hue2rgb_formula l (s * min l (1 - l)) (h - 1 / 3 - 1 / 3)
      rw [sub_add_cancel] at this
      simp only [hslComponent]
      rw [this, show h + (4 : K) / 12 = (h - 1 / 3 - 1 / 3) + 1 by ring, Int.fract_add_one]

/-- a non trivial colour: hue 0.1, saturation 0.8, lightness 0.6 -/
example : hslToRgb (1 / 10 : ℚ) (4 / 5) (3 / 5) = (23 / 25, 83 / 125, 7 / 25) := by
  decide +kernel

end Colour

/-! ## Progress bar -/

section Bar

/-- The rounding of the floating point division.  Only the two facts used about it are kept: it is
monotone and exact on the integers that are drawn (`0 … barLength`). -/
structure Rounding where
  fl : ℚ → ℚ
  mono : Monotone fl
  exact : ∀ n : ℕ, fl n = n

/-- exact arithmetic is such a rounding -/
def Rounding.id : Rounding := ⟨fun q => q, monotone_id, fun _ => rfl⟩

/-- `filledLength` of `print_progress`, `pylbm/utils.py:146`; `none` is the `ZeroDivisionError` of
`float(total) == 0` (line 145 raises it first). -/
def filledLength (R : Rounding) (barLength iteration total : ℕ) : Option Int :=
  if total = 0 then none
  else some (pyRound (R.fl (((barLength * iteration : ℕ) : ℚ) / total)))

/-- `p_bar` of `print_progress`, `pylbm/utils.py:147`: `"*" * n` is empty for `n ≤ 0`.  The
prefix, the percentage and the suffix are not modelled. -/
def progressBar (R : Rounding) (barLength iteration total : ℕ) : Option (List Char) :=
  (filledLength R barLength iteration total).map fun f =>
    List.replicate f.toNat '*' ++ List.replicate ((barLength : Int) - f).toNat '-'

theorem pyRound_mono {K : Type} [Field K] [LinearOrder K] [IsStrictOrderedRing K] [FloorRing K]
    {x y : K} (h : x ≤ y) : pyRound x ≤ pyRound y := by
  by_contra hc
  push Not at hc
  have hx := abs_le.mp (abs_pyRound_sub_le x)
  have hy := abs_le.mp (abs_pyRound_sub_le y)
  have h1 : ((pyRound y + 1 : Int) : K) ≤ (pyRound x : K) := by exact_mod_cast hc
  push_cast at h1
  have : x = y := by linarith [hx.1, hx.2, hy.1, hy.2]
  rw [this] at hc
  exact lt_irrefl _ hc

theorem filled_spec (R : Rounding) {b i t : ℕ} (ht : 0 < t) (hi : i ≤ t) :
    ∃ f : ℕ, f ≤ b ∧ filledLength R b i t = some (f : Int) := by
  have h0 : R.fl 0 = 0 := by simpa using R.exact 0
  have htq : (0 : ℚ) < t := by exact_mod_cast ht
  have hlo : (0 : Int) ≤ pyRound (R.fl (((b * i : ℕ) : ℚ) / t)) := by
    have h := pyRound_mono (R.mono (show (0 : ℚ) ≤ ((b * i : ℕ) : ℚ) / t by positivity))
    rw [h0] at h
    have e : pyRound (0 : ℚ) = 0 := by simpa using pyRound_intCast (K := ℚ) 0
    rw [e] at h; exact h
  have hhi : pyRound (R.fl (((b * i : ℕ) : ℚ) / t)) ≤ (b : Int) := by
    have h1 : ((b * i : ℕ) : ℚ) / t ≤ (b : ℕ) := by
      rw [div_le_iff₀ htq]
      exact_mod_cast Nat.mul_le_mul_left b hi
    have h := pyRound_mono (R.mono h1)
    rw [R.exact] at h
    have e : pyRound ((b : ℕ) : ℚ) = (b : Int) := by
      simpa using pyRound_intCast (K := ℚ) (b : Int)
    rw [e] at h; exact h
  refine ⟨(pyRound (R.fl (((b * i : ℕ) : ℚ) / t))).toNat, by omega, ?_⟩
  rw [filledLength, if_neg (by omega)]
  congr 1
  omega

theorem bar_of_filled {R : Rounding} {b i t f : ℕ} (hf : filledLength R b i t = some (f : Int))
    (hb : f ≤ b) :
    progressBar R b i t = some (List.replicate f '*' ++ List.replicate (b - f) '-') := by
  rw [progressBar, hf, Option.map_some]
  congr 3
  omega

/-- **C55**: for every total of at least one, every iteration between 0 and the total and every bar
length, the bar is drawn, has exactly `barLength` characters, consists of stars followed by
dashes, is empty at 0 and full at the total. -/
theorem C55_bar (R : Rounding) (b i t : ℕ) (ht : 0 < t) (hi : i ≤ t) :
    ∃ bar, progressBar R b i t = some bar ∧ bar.length = b ∧
      (∃ m n, bar = List.replicate m '*' ++ List.replicate n '-') ∧
      (i = 0 → bar = List.replicate b '-') ∧ (i = t → bar = List.replicate b '*') := by
  obtain ⟨f, hfb, hf⟩ := filled_spec R (b := b) ht hi
  refine ⟨_, bar_of_filled hf hfb, ?_, ⟨f, b - f, rfl⟩, ?_, ?_⟩
  · simp; omega
  · intro h
    have : filledLength R b i t = some 0 := by
      rw [filledLength, if_neg (by omega), h]
      have h0 : R.fl 0 = 0 := by simpa using R.exact 0
      have e : pyRound (0 : ℚ) = 0 := by simpa using pyRound_intCast (K := ℚ) 0
      simp [h0, e]
    rw [this] at hf
    have : f = 0 := by simpa using hf.symm
    simp [this]
  · intro h
    have htq : (t : ℚ) ≠ 0 := by exact_mod_cast (by omega : t ≠ 0)
    have : filledLength R b i t = some (b : Int) := by
      rw [filledLength, if_neg (by omega), h]
      have e : pyRound ((b : ℕ) : ℚ) = (b : Int) := by
        simpa using pyRound_intCast (K := ℚ) (b : Int)
      rw [show ((b * t : ℕ) : ℚ) / t = (b : ℕ) by push_cast; field_simp, R.exact, e]
    rw [this] at hf
    have : f = b := by simpa using hf.symm
    simp [this]

/-- **C55**, monotonicity: the bar never shrinks, a filled position stays filled. -/
theorem C55_grows (R : Rounding) (b i j t : ℕ) (ht : 0 < t) (hij : i ≤ j) (hj : j ≤ t)
    (bi bj : List Char) (hbi : progressBar R b i t = some bi) (hbj : progressBar R b j t = some bj)
    (k : ℕ) (hk : bi[k]? = some '*') : bj[k]? = some '*' := by
  obtain ⟨f, hfb, hf⟩ := filled_spec R (b := b) ht (le_trans hij hj)
  obtain ⟨g, hgb, hg⟩ := filled_spec R (b := b) ht hj
  have htq : (0 : ℚ) < t := by exact_mod_cast ht
  have hfg : f ≤ g := by
    have h : ((b * i : ℕ) : ℚ) / t ≤ ((b * j : ℕ) : ℚ) / t := by
      have : ((b * i : ℕ) : ℚ) ≤ ((b * j : ℕ) : ℚ) := by
        exact_mod_cast Nat.mul_le_mul_left b hij
      exact div_le_div_of_nonneg_right this htq.le
    have h' := pyRound_mono (R.mono h)
    rw [filledLength, if_neg (by omega)] at hf hg
    simp only [Option.some.injEq] at hf hg
    rw [hf, hg] at h'
    omega
  rw [bar_of_filled hf hfb, Option.some.injEq] at hbi
  rw [bar_of_filled hg hgb, Option.some.injEq] at hbj
  rw [← hbi] at hk
  rw [← hbj]
  by_cases hkf : k < f
  · rw [List.getElem?_append_left (by rw [List.length_replicate]; omega),
      List.getElem?_replicate, if_pos (by omega)]
  · rw [List.getElem?_append_right (by rw [List.length_replicate]; omega),
      List.getElem?_replicate] at hk
    split_ifs at hk
    simp at hk

/-- the share of the bar that is filled is the share of the work done, to half a character (exact
division) -/
theorem C55_share (b i t : ℕ) (ht : 0 < t) (hi : i ≤ t) :
    ∃ bar, progressBar Rounding.id b i t = some bar ∧
      |((bar.count '*' : ℕ) : ℚ) - b * (i / t)| ≤ 1 / 2 := by
  obtain ⟨f, hfb, hf⟩ := filled_spec Rounding.id (b := b) ht hi
  refine ⟨_, bar_of_filled hf hfb, ?_⟩
  have hc : (List.replicate f '*' ++ List.replicate (b - f) '-').count '*' = f := by
    rw [List.count_append, List.count_replicate_self, List.count_replicate]
    simp
  rw [hc]
  rw [filledLength, if_neg (by omega)] at hf
  simp only [Option.some.injEq, Rounding.id] at hf
  have h := abs_pyRound_sub_le (((b * i : ℕ) : ℚ) / t)
  rw [hf] at h
  have e : (b : ℚ) * (i / t) = ((b * i : ℕ) : ℚ) / t := by push_cast; ring
  rw [e]
  exact_mod_cast h

/-- 3 iterations out of 8 on a bar of ten characters: 3.75 is drawn as four stars -/
example : progressBar Rounding.id 10 3 8 = some "****------".toList := by decide +kernel

end Bar

/-! ## Views -/

section Views

/-- The first argument of `_create_view_something`: a boolean, an integer, a list or tuple of
integers, or anything else (e.g. `None` or a numpy integer). -/
inductive Request where
  | bool (b : Bool)
  | int (k : Int)
  | list (l : List Int)
  | other

/-- `_create_view_something(something, unvtot)`, `pylbm/domain.py:25-74`; the loop over the list is
written as a left fold that appends. -/
def createView (r : Request) (n : ℕ) : List Int :=
  match r with
  | .bool b => if b then (List.range n).map fun (i : ℕ) => (i : Int) else []
  | .int k => if k ≥ 0 ∧ k < n then [k] else []
  | .list l => l.foldl (fun (acc : List Int) (k : Int) => if k ≥ 0 ∧ k < n then acc ++ [k] else acc) []
  | .other => []

theorem foldl_view (n : ℕ) (l acc : List Int) :
    l.foldl (fun (acc : List Int) (k : Int) => if k ≥ 0 ∧ k < n then acc ++ [k] else acc) acc =
      acc ++ l.filter fun (k : Int) => decide (0 ≤ k ∧ k < n) := by
  induction l generalizing acc with
  | nil => simp
  | cons a t ih =>
    rw [List.foldl_cons, ih]
    by_cases h : 0 ≤ a ∧ a < n
    · rw [if_pos h, List.filter_cons_of_pos (by simpa using h)]; simp
    · rw [if_neg h, List.filter_cons_of_neg (by simpa using h)]

/-- Specification: the items asked for, as a set. -/
def Asked : Request → Int → Prop
  | .bool b, _ => b = true
  | .int j, k => k = j
  | .list l, k => k ∈ l
  | .other, _ => False

/-- **C56**: the view contains exactly the items that exist and were asked for; nothing outside
`0 … n-1` is returned. -/
theorem C56_items (r : Request) (n : ℕ) (k : Int) :
    k ∈ createView r n ↔ (0 ≤ k ∧ k < n) ∧ Asked r k := by
  cases r with
  | bool b =>
    cases b
    · simp [createView, Asked]
    · simp only [createView, if_true, List.mem_map, List.mem_range, Asked, and_true]
      constructor
      · rintro ⟨i, hi, rfl⟩; omega
      · intro h; exact ⟨k.toNat, by omega, by omega⟩
  | int j =>
    simp only [createView, Asked]
    split_ifs with h
    · rw [List.mem_singleton]; constructor
      · rintro rfl; exact ⟨⟨h.1, h.2⟩, rfl⟩
      · exact fun hh => hh.2
    · simp only [List.not_mem_nil, false_iff]
      rintro ⟨h1, rfl⟩; exact h ⟨h1.1, h1.2⟩
  | list l =>
    simp only [createView, Asked]
    rw [foldl_view]
    simp [and_comm]
  | other => simp [createView, Asked]

/-- **C56**, order: a list is kept in the order given with its repetitions, `True` gives the
increasing list of all the items. -/
theorem C56_order (n : ℕ) :
    (∀ l, (createView (.list l) n).Sublist l ∧
      ∀ k : Int, 0 ≤ k → k < n → (createView (.list l) n).count k = l.count k) ∧
    (createView (.bool true) n).length = n ∧
    ∀ i (h : i < (createView (.bool true) n).length), (createView (.bool true) n)[i] = (i : Int) := by
  refine ⟨fun l => ?_, ?_, ?_⟩
  · simp only [createView]
    rw [foldl_view, List.nil_append]
    refine ⟨List.filter_sublist, fun k h0 h1 => ?_⟩
    rw [List.count_filter]
    simpa using ⟨h0, h1⟩
  · simp [createView]
  · intro i h
    simp [createView]

/-- the four examples of the documentation string, and a list with repetitions -/
example : createView (.bool true) 3 = [0, 1, 2] ∧ createView (.bool false) 3 = [] ∧
    createView (.int 1) 3 = [1] ∧ createView (.list [0, 2, 3]) 3 = [0, 2] ∧
    createView (.list [2, -1, 0, 2, 7]) 3 = [2, 0, 2] := by decide

end Views

end Pylbm.Util
