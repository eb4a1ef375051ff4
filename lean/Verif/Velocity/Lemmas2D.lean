import Verif.Velocity.Model
import Mathlib.Tactic.Ring
import Mathlib.Tactic.Linarith
/-! Helper lemmas for the 1D and 2D numbering. -/

namespace Pylbm.Velocity

theorem setNum1_setCoord1 (n : Nat) : setNum1 (setCoord1 n) = n := by
  have h : ((n : Int) + 1) % 2 = 0 ∨ ((n : Int) + 1) % 2 = 1 := by omega
  rcases h with h | h
  · obtain ⟨m, hm⟩ : ∃ m : Nat, (n : Int) + 1 = 2 * m := ⟨(n + 1) / 2, by omega⟩
    have : setCoord1 n = m := by
      unfold setCoord1
      simp only [h]
      rw [hm, show ((1 : Int) - 2 * 0) * (2 * m) = 2 * m by ring,
        Int.mul_tdiv_cancel_left _ (by norm_num)]
    rw [this]; unfold setNum1; split <;> omega
  · obtain ⟨m, hm⟩ : ∃ m : Nat, (n : Int) = 2 * m := ⟨n / 2, by omega⟩
    have : setCoord1 n = -m := by
      unfold setCoord1
      simp only [h]
      rw [hm, show ((1 : Int) - 2 * 1) * (2 * m + 1) = -(2 * m + 1) by ring, Int.neg_tdiv,
        Int.tdiv_eq_ediv_of_nonneg (by omega)]
      omega
    rw [this]; unfold setNum1; split <;> omega

theorem setCoord1_setNum1 (v : Int) : setCoord1 (setNum1 v) = v := by
  unfold setNum1 setCoord1
  by_cases hv : v > 0
  · simp only [hv, if_true]
    have h : (2 * (v.natAbs : Int) - 1 + 1) = 2 * v := by omega
    have h' : (2 * v) % 2 = 0 := by omega
    rw [h]
    simp only [h', mul_zero, sub_zero, one_mul]
    rw [Int.mul_tdiv_cancel_left _ (by norm_num)]
  · simp only [hv, if_false]
    have h : (2 * (v.natAbs : Int) - 0 + 1) = -(2 * v) + 1 := by omega
    have h' : (-(2 * v) + 1) % 2 = 1 := by omega
    rw [h]
    simp only [h']
    rw [show ((1 : Int) - 2 * 1) * (-(2 * v) + 1) = -(-(2 * v) + 1) by ring, Int.neg_tdiv,
      Int.tdiv_eq_ediv_of_nonneg (by omega)]
    omega

theorem setNum1_nonneg (v : Int) : 0 ≤ setNum1 v := by
  unfold setNum1; split <;> omega

/-- Shell and position in the shell. -/
theorem exists_shell (num : Nat) (h : num ≠ 0) :
    ∃ n p : Nat, 1 ≤ n ∧ p < 8 * n ∧ num = (2 * n - 1) ^ 2 + p := by
  set s := Nat.sqrt num with hs
  have h1 : s * s ≤ num := Nat.sqrt_le num
  have h2 : num < (s + 1) * (s + 1) := Nat.lt_succ_sqrt num
  have hs1 : 1 ≤ s := Nat.le_sqrt.2 (by omega)
  refine ⟨(s + 1) / 2, num - (2 * ((s + 1) / 2) - 1) ^ 2, by omega, ?_, ?_⟩
  · obtain ⟨m, hm | hm⟩ : ∃ m, s = 2 * m ∨ s = 2 * m + 1 := ⟨s / 2, by omega⟩
    · obtain ⟨m', rfl⟩ : ∃ m', m = m' + 1 := ⟨m - 1, by omega⟩
      have e : (s + 1) / 2 = m' + 1 := by omega
      rw [e, show 2 * (m' + 1) - 1 = 2 * m' + 1 by omega]
      have h2' : num < (2 * m' + 3) * (2 * m' + 3) := by
        rw [hm] at h2; exact h2
      have : num < (2 * m' + 1) ^ 2 + 8 * (m' + 1) := by nlinarith
      omega
    · have e : (s + 1) / 2 = m + 1 := by omega
      rw [e, show 2 * (m + 1) - 1 = 2 * m + 1 by omega]
      have h2' : num < (2 * m + 2) * (2 * m + 2) := by
        rw [hm] at h2; exact h2
      have : num < (2 * m + 1) ^ 2 + 8 * (m + 1) := by nlinarith
      omega
  · have : (2 * ((s + 1) / 2) - 1) ^ 2 ≤ num := by
      refine le_trans ?_ h1
      rw [pow_two]
      have : 2 * ((s + 1) / 2) - 1 ≤ s := by omega
      exact Nat.mul_le_mul this this
    omega

theorem shell_sqrt (n p : Nat) (hn : 1 ≤ n) (hp : p < 8 * n) :
    (Nat.sqrt ((2 * n - 1) ^ 2 + p) + 1) / 2 = n := by
  obtain ⟨m, rfl⟩ : ∃ m, n = m + 1 := ⟨n - 1, by omega⟩
  rw [show 2 * (m + 1) - 1 = 2 * m + 1 by omega]
  have h1 : 2 * m + 1 ≤ Nat.sqrt ((2 * m + 1) ^ 2 + p) := Nat.le_sqrt.2 (by nlinarith)
  have h2 : Nat.sqrt ((2 * m + 1) ^ 2 + p) < 2 * m + 3 := Nat.sqrt_lt.2 (by nlinarith)
  omega

/-- The position `p` in the shell `n`, as a plain case split. -/
def coordOf (n p : Nat) : Int × Int :=
  if p = 0 then (n, 0) else if p = 1 then (0, n) else if p = 2 then (-n, 0)
  else if p = 3 then (0, -n) else if p = 4 then (n, n) else if p = 5 then (-n, n)
  else if p = 6 then (-n, -n) else if p = 7 then (n, -n)
  else
    let j : Int := (p / 8 : Nat)
    if p % 8 = 0 then (n, j) else if p % 8 = 1 then (j, n) else if p % 8 = 2 then (-j, n)
    else if p % 8 = 3 then (-n, j) else if p % 8 = 4 then (-n, -j) else if p % 8 = 5 then (-j, -n)
    else if p % 8 = 6 then (j, -n) else (n, -j)

theorem setCoord2_shell (n p : Nat) (hn : 1 ≤ n) (hp : p < 8 * n) :
    setCoord2 ((2 * n - 1) ^ 2 + p) = some (coordOf n p) := by
  unfold setCoord2
  simp only [shell_sqrt n p hn hp]
  have hpp : (((2 * n - 1) ^ 2 + p : Nat) : Int) - (2 * (n : Int) - 1) ^ 2 = p := by
    push_cast [Nat.cast_sub (show 1 ≤ 2 * n by omega)]; ring
  rw [hpp]
  by_cases h4 : p < 4
  · have : (p : Int) < 4 := by omega
    simp only [this, if_true]
    have : p = 0 ∨ p = 1 ∨ p = 2 ∨ p = 3 := by omega
    rcases this with rfl | rfl | rfl | rfl <;> simp [pyGet?, coordOf]
  · by_cases h8 : p < 8
    · have h4' : ¬ (p : Int) < 4 := by omega
      have h8' : (p : Int) < 8 := by omega
      simp only [h4', h8', if_true, if_false]
      have : p = 4 ∨ p = 5 ∨ p = 6 ∨ p = 7 := by omega
      rcases this with rfl | rfl | rfl | rfl <;> simp [pyGet?, coordOf]
    · have h4' : ¬ (p : Int) < 4 := by omega
      have h8' : ¬ (p : Int) < 8 := by omega
      simp only [h4', h8', if_false]
      have t1 : Int.tdiv (p : Int) 8 = ((p / 8 : Nat) : Int) := by
        rw [Int.tdiv_eq_ediv_of_nonneg (by omega)]; omega
      have t2 : Int.tdiv (-(p : Int)) 8 = -((p / 8 : Nat) : Int) := by
        rw [Int.neg_tdiv, t1]
      have t3 : (p : Int) % 8 = ((p % 8 : Nat) : Int) := by omega
      rw [t1, t2, t3]
      have hne : p ≠ 0 ∧ p ≠ 1 ∧ p ≠ 2 ∧ p ≠ 3 ∧ p ≠ 4 ∧ p ≠ 5 ∧ p ≠ 6 ∧ p ≠ 7 := by omega
      obtain ⟨a0, a1, a2, a3, a4, a5, a6, a7⟩ := hne
      simp only [coordOf, a0, a1, a2, a3, a4, a5, a6, a7, if_false]
      have : p % 8 = 0 ∨ p % 8 = 1 ∨ p % 8 = 2 ∨ p % 8 = 3 ∨ p % 8 = 4 ∨ p % 8 = 5 ∨ p % 8 = 6 ∨
        p % 8 = 7 := by omega
      rcases this with h | h | h | h | h | h | h | h <;> simp [h, pyGet?]

theorem setCoord2_zero : setCoord2 0 = some (0, 0) := by
  simp [setCoord2, pyGet?]

theorem cmp_pos {a b : Int} (h : b < a) : cmp a b = 1 := by
  unfold cmp; rw [if_pos h, if_neg (by omega)]; rfl
theorem cmp_neg {a b : Int} (h : a < b) : cmp a b = -1 := by
  unfold cmp; rw [if_neg (by omega), if_pos h]; rfl
theorem cmp_self (a : Int) : cmp a a = 0 := by
  unfold cmp; rw [if_neg (by omega)]; rfl

/-- `setNum2` on the signed pair built from `a = |vx|`, `b = |vy|`: explicit formula. -/
theorem setNum2_eq (vx vy : Int) (t1 t2 t3 r M m T : Int)
    (h1 : cmp vx 0 = t1) (h2 : cmp vy 0 = t2) (h3 : cmp (vx.natAbs : Int) (vy.natAbs : Int) = t3)
    (hM : max (vx.natAbs : Int) (vy.natAbs : Int) = M)
    (hm : min (vx.natAbs : Int) (vy.natAbs : Int) = m)
    (hT : (t3.natAbs : Int) = T)
    (hr : ((pyGet? R2 (t1 + 1)).bind fun t => (pyGet? t (t2 + 1)).bind fun t => pyGet? t (t3 + 1))
      = some r) :
    setNum2 vx vy = some ((2 * M - 1) * (2 * M - 1) + 8 * m * T + r) := by
  unfold setNum2
  simp only [h1, h2, h3, hM, hm, hT, hr]
  rfl

theorem setNum2_coordOf (n p : Nat) (hn : 1 ≤ n) (hp : p < 8 * n) :
    setNum2 (coordOf n p).1 (coordOf n p).2 = some ((2 * (n : Int) - 1) ^ 2 + p) := by
  have hn' : (1 : Int) ≤ n := by exact_mod_cast hn
  have hpos : (0 : Int) < n := by omega
  have key : ∀ (vx vy t1 t2 t3 r m : Int),
      cmp vx 0 = t1 → cmp vy 0 = t2 → cmp (vx.natAbs : Int) (vy.natAbs : Int) = t3 →
      max (vx.natAbs : Int) (vy.natAbs : Int) = n → min (vx.natAbs : Int) (vy.natAbs : Int) = m →
      ((pyGet? R2 (t1 + 1)).bind fun t => (pyGet? t (t2 + 1)).bind fun t => pyGet? t (t3 + 1))
        = some r →
      8 * m * (t3.natAbs : Int) + r = p →
      setNum2 vx vy = some ((2 * (n : Int) - 1) ^ 2 + p) := by
    intro vx vy t1 t2 t3 r m h1 h2 h3 hM hm hr e
    rw [setNum2_eq vx vy t1 t2 t3 r n m _ h1 h2 h3 hM hm rfl hr, ← e]
    congr 1; ring
  have c0 := cmp_self 0
  have cp := cmp_pos hpos
  have cn : cmp (-(n : Int)) 0 = -1 := cmp_neg (by omega)
  have ge : ∀ q : Nat, q ≤ 7 → p = q → (coordOf n p).1 = (coordOf n q).1 ∧
      (coordOf n p).2 = (coordOf n q).2 := by intro q _ h; subst h; exact ⟨rfl, rfl⟩
  by_cases hlt : p < 8
  · have : p = 0 ∨ p = 1 ∨ p = 2 ∨ p = 3 ∨ p = 4 ∨ p = 5 ∨ p = 6 ∨ p = 7 := by omega
    rcases this with rfl | rfl | rfl | rfl | rfl | rfl | rfl | rfl
    · exact key _ _ 1 0 1 0 0 cp c0 (cmp_pos (by simp [coordOf]; omega)) (by simp [coordOf])
        (by simp [coordOf]) rfl (by norm_num)
    · exact key _ _ 0 1 (-1) 1 0 c0 cp (cmp_neg (by simp [coordOf]; omega)) (by simp [coordOf])
        (by simp [coordOf]) rfl (by norm_num)
    · exact key _ _ (-1) 0 1 2 0 cn c0 (cmp_pos (by simp [coordOf]; omega)) (by simp [coordOf])
        (by simp [coordOf]) rfl (by norm_num)
    · exact key _ _ 0 (-1) (-1) 3 0 c0 cn (cmp_neg (by simp [coordOf]; omega)) (by simp [coordOf])
        (by simp [coordOf]) rfl (by norm_num)
    · exact key _ _ 1 1 0 4 n cp cp (by simp [coordOf, cmp_self]) (by simp [coordOf])
        (by simp [coordOf]) rfl (by norm_num)
    · exact key _ _ (-1) 1 0 5 n cn cp (by simp [coordOf, cmp_self]) (by simp [coordOf])
        (by simp [coordOf]) rfl (by norm_num)
    · exact key _ _ (-1) (-1) 0 6 n cn cn (by simp [coordOf, cmp_self]) (by simp [coordOf])
        (by simp [coordOf]) rfl (by norm_num)
    · exact key _ _ 1 (-1) 0 7 n cp cn (by simp [coordOf, cmp_self]) (by simp [coordOf])
        (by simp [coordOf]) rfl (by norm_num)
  · obtain ⟨j, hj⟩ : ∃ j : Nat, p / 8 = j := ⟨_, rfl⟩
    have hj1 : 1 ≤ j := by omega
    have hj2 : j < n := by omega
    have jp : cmp (j : Int) 0 = 1 := cmp_pos (by omega)
    have jn : cmp (-(j : Int)) 0 = -1 := cmp_neg (by omega)
    have gt : cmp (n : Int) (j : Int) = 1 := cmp_pos (by omega)
    have lt : cmp (j : Int) (n : Int) = -1 := cmp_neg (by omega)
    have mx1 : max (n : Int) (j : Int) = n := max_eq_left (by omega)
    have mx2 : max (j : Int) (n : Int) = n := max_eq_right (by omega)
    have mn1 : min (n : Int) (j : Int) = j := min_eq_right (by omega)
    have mn2 : min (j : Int) (n : Int) = j := min_eq_left (by omega)
    have hne : p ≠ 0 ∧ p ≠ 1 ∧ p ≠ 2 ∧ p ≠ 3 ∧ p ≠ 4 ∧ p ≠ 5 ∧ p ≠ 6 ∧ p ≠ 7 := by omega
    obtain ⟨a0, a1, a2, a3, a4, a5, a6, a7⟩ := hne
    have hc : coordOf n p = if p % 8 = 0 then ((n : Int), (j : Int)) else if p % 8 = 1 then (j, n)
        else if p % 8 = 2 then (-j, n)
        else if p % 8 = 3 then (-n, j) else if p % 8 = 4 then (-n, -j)
        else if p % 8 = 5 then (-j, -n) else if p % 8 = 6 then (j, -n) else (n, -j) := by
      simp only [coordOf, a0, a1, a2, a3, a4, a5, a6, a7, if_false, hj]
    rw [hc]
    have : p % 8 = 0 ∨ p % 8 = 1 ∨ p % 8 = 2 ∨ p % 8 = 3 ∨ p % 8 = 4 ∨ p % 8 = 5 ∨ p % 8 = 6 ∨
        p % 8 = 7 := by omega
    rcases this with h | h | h | h | h | h | h | h <;> simp only [h] <;> norm_num
    · exact key _ _ 1 1 1 0 j cp jp (by simpa) (by simp; omega) (by simp; omega) rfl (by norm_num; omega)
    · exact key _ _ 1 1 (-1) 1 j jp cp (by simpa) (by simp; omega) (by simp; omega) rfl (by norm_num; omega)
    · exact key _ _ (-1) 1 (-1) 2 j jn cp (by simpa) (by simp; omega) (by simp; omega) rfl (by norm_num; omega)
    · exact key _ _ (-1) 1 1 3 j cn jp (by simpa) (by simp; omega) (by simp; omega) rfl (by norm_num; omega)
    · exact key _ _ (-1) (-1) 1 4 j cn jn (by simpa) (by simp; omega) (by simp; omega) rfl (by norm_num; omega)
    · exact key _ _ (-1) (-1) (-1) 5 j jn cn (by simpa) (by simp; omega) (by simp; omega) rfl (by norm_num; omega)
    · exact key _ _ 1 (-1) (-1) 6 j jp cn (by simpa) (by simp; omega) (by simp; omega) rfl (by norm_num; omega)
    · exact key _ _ 1 (-1) 1 7 j cp jn (by simpa) (by simp; omega) (by simp; omega) rfl (by norm_num; omega)

theorem setNum2_zero : setNum2 0 0 = some 0 := by decide

theorem exists_coordOf (vx vy : Int) (h : ¬ (vx = 0 ∧ vy = 0)) :
    ∃ n p : Nat, 1 ≤ n ∧ p < 8 * n ∧ coordOf n p = (vx, vy) := by
  rcases lt_trichotomy vx.natAbs vy.natAbs with hlt | heq | hgt
  · refine ⟨vy.natAbs, 8 * vx.natAbs + (if vx = 0 then (if 0 < vy then 1 else 3)
      else if 0 < vx then (if 0 < vy then 1 else 6) else (if 0 < vy then 2 else 5)), by omega, ?_, ?_⟩
    · split <;> split <;> (try split) <;> omega
    · by_cases h0 : vx = 0
      · subst h0
        by_cases hy : 0 < vy <;> simp [hy, coordOf, -Nat.cast_natAbs] <;> omega
      · have : 1 ≤ vx.natAbs := by omega
        by_cases hx : 0 < vx <;> by_cases hy : 0 < vy <;> simp only [h0, hx, hy, if_true, if_false]
        all_goals
          rw [coordOf]
          repeat rw [if_neg (by omega)]
          simp only [Nat.mul_add_div (show 0 < 8 by norm_num), Nat.mul_add_mod]
          norm_num [-Nat.cast_natAbs]
          omega
  · by_cases hx : 0 < vx <;> by_cases hy : 0 < vy
    · exact ⟨vx.natAbs, 4, by omega, by omega, by simp [coordOf, -Nat.cast_natAbs]; omega⟩
    · exact ⟨vx.natAbs, 7, by omega, by omega, by simp [coordOf, -Nat.cast_natAbs]; omega⟩
    · exact ⟨vx.natAbs, 5, by omega, by omega, by simp [coordOf, -Nat.cast_natAbs]; omega⟩
    · exact ⟨vx.natAbs, 6, by omega, by omega, by simp [coordOf, -Nat.cast_natAbs]; omega⟩
  · refine ⟨vx.natAbs, 8 * vy.natAbs + (if vy = 0 then (if 0 < vx then 0 else 2)
      else if 0 < vx then (if 0 < vy then 0 else 7) else (if 0 < vy then 3 else 4)), by omega, ?_, ?_⟩
    · split <;> split <;> (try split) <;> omega
    · by_cases h0 : vy = 0
      · subst h0
        by_cases hx : 0 < vx <;> simp [hx, coordOf, -Nat.cast_natAbs] <;> omega
      · have : 1 ≤ vy.natAbs := by omega
        by_cases hx : 0 < vx <;> by_cases hy : 0 < vy <;> simp only [h0, hx, hy, if_true, if_false]
        all_goals
          rw [coordOf]
          repeat rw [if_neg (by omega)]
          simp only [Nat.mul_add_div (show 0 < 8 by norm_num), Nat.mul_add_mod]
          norm_num [-Nat.cast_natAbs]
          omega

theorem roundtrip2_num (num : Nat) :
    ∃ v, setCoord2 num = some v ∧ setNum2 v.1 v.2 = some (num : Int) := by
  by_cases h : num = 0
  · subst h; exact ⟨_, setCoord2_zero, setNum2_zero⟩
  · obtain ⟨n, p, hn, hp, rfl⟩ := exists_shell num h
    refine ⟨_, setCoord2_shell n p hn hp, ?_⟩
    rw [setNum2_coordOf n p hn hp]
    push_cast [Nat.cast_sub (show 1 ≤ 2 * n by omega)]; rfl

theorem setCoord2_surj (vx vy : Int) : ∃ num, setCoord2 num = some (vx, vy) := by
  by_cases h : vx = 0 ∧ vy = 0
  · exact ⟨0, by rw [h.1, h.2]; exact setCoord2_zero⟩
  · obtain ⟨n, p, hn, hp, e⟩ := exists_coordOf vx vy h
    exact ⟨_, by rw [setCoord2_shell n p hn hp, e]⟩

end Pylbm.Velocity
