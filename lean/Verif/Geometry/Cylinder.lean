import Verif.Geometry.Quadric
/-!
# Cylinders: properties C24, C28, C29
-/
set_option linter.unusedSectionVars false
namespace Pylbm.Geometry
open GeometrySpec

variable {K : Type} [Field K] [LinearOrder K] [IsStrictOrderedRing K]

/-- The base of the cylinder describes the set `B` with the boundary curve `C`. -/
structure Base.OK (b : Base K) (B C : Set (K × K)) : Prop where
  mem : ∀ y, b.inside y = true ↔ y ∈ B
  sub : C ⊆ B
  convex : ∀ x v s1 s s2, s1 ≤ s → s ≤ s2 → along x v s1 ∈ B → along x v s2 ∈ B → along x v s ∈ B
  sound : ∀ x v m, m < 10 ^ 16 → 0 < (b.dist x v (some m)).alpha →
    (b.dist x v (some m)).alpha ≤ m ∧ along x v (b.dist x v (some m)).alpha ∈ C
  nonzero : ∀ x v m, m < 10 ^ 16 → (b.dist x v (some m)).alpha ≠ 0
  seen : ∀ x v m s, m < 10 ^ 16 → x ∉ B → 0 < s → s ≤ m → along x v s ∈ B →
    0 < (b.dist x v (some m)).alpha ∧ (b.dist x v (some m)).alpha ≤ s
  left : ∀ x v m s, m < 10 ^ 16 → x ∈ B → x ∉ C → 0 < s → s ≤ m → along x v s ∉ B →
    0 < (b.dist x v (some m)).alpha ∧ (b.dist x v (some m)).alpha ≤ s

theorem Cyl.frame_comb (c : Cyl K) (hc : c.det ≠ 0) (y : K × K × K) (a b d : K) :
    c.frame y = (a, b, d) ↔ y = comb3 (0, 0, 0) c.v1 c.v2 c.w a b d := by
  unfold Cyl.frame comb3
  simp only [Prod.mk.injEq, zero_add]
  rw [div_eq_iff hc, div_eq_iff hc, div_eq_iff hc]
  constructor
  · rintro ⟨h1, h2, h3⟩
    refine Prod.ext ?_ (Prod.ext ?_ ?_) <;>
    · apply mul_right_cancel₀ hc
      simp only
      unfold Cyl.det inner3 cross at *
      simp only at *
      first
      | linear_combination c.v1.1 * h1 + c.v2.1 * h2 + c.w.1 * h3
      | linear_combination c.v1.2.1 * h1 + c.v2.2.1 * h2 + c.w.2.1 * h3
      | linear_combination c.v1.2.2 * h1 + c.v2.2.2 * h2 + c.w.2.2 * h3
  · rintro rfl
    unfold Cyl.det inner3 cross
    simp only
    refine ⟨?_, ?_, ?_⟩ <;> ring

theorem Cyl.coords_comb (c : Cyl K) (hc : c.det ≠ 0) (y : K × K × K) (a b d : K) :
    c.coords y = (a, b, d) ↔ y = comb3 c.center c.v1 c.v2 c.w a b d := by
  unfold Cyl.coords
  rw [Cyl.frame_comb c hc]
  unfold comb3
  simp only [Prod.mk.injEq, zero_add]
  constructor
  · rintro ⟨h1, h2, h3⟩
    exact Prod.ext (by simp only; linear_combination h1)
      (Prod.ext (by simp only; linear_combination h2) (by simp only; linear_combination h3))
  · rintro rfl
    simp only
    refine ⟨?_, ?_, ?_⟩ <;> ring

theorem Cyl.coords_along (c : Cyl K) (x v : K × K × K) (t : K) :
    c.coords (along3 x v t) = along3 (c.coords x) (c.frame v) t := by
  unfold Cyl.coords Cyl.frame along3 inner3
  simp only [Prod.mk.injEq]
  refine ⟨?_, ?_, ?_⟩ <;> ring

/-- C28 (cylinders): `point_inside` is membership in the cylinder, surface included. -/
theorem C28_cylinder_inside (c : Cyl K) (hc : inner3 c.v1 (cross c.v2 c.w) ≠ 0)
    (B C : Set (K × K)) (hB : c.base.OK B C) (y : K × K × K) :
    c.inside y = true ↔ y ∈ cylinder c.center c.v1 c.v2 c.w B := by
  have h := Cyl.coords_comb c hc y
  unfold Cyl.inside cylinder
  simp only [Bool.and_eq_true, hB.mem, decide_eq_true_eq, abs_le]
  constructor
  · rintro ⟨h1, h2⟩
    exact ⟨_, _, _, h1, h2, (h _ _ _).1 rfl⟩
  · rintro ⟨a, b, d, h1, h2, h3⟩
    rw [(h a b d).2 h3]; exact ⟨h1, h2⟩

theorem Cyl.surface_of_coords (c : Cyl K) (hc : c.det ≠ 0) (B C : Set (K × K)) (y : K × K × K)
    (h : (((c.coords y).1, (c.coords y).2.1) ∈ C ∧ |(c.coords y).2.2| ≤ 1) ∨
      (((c.coords y).1, (c.coords y).2.1) ∈ B ∧ |(c.coords y).2.2| = 1)) :
    y ∈ cylinderSurface c.center c.v1 c.v2 c.w B C := by
  refine ⟨(c.coords y).1, (c.coords y).2.1, (c.coords y).2.2, ?_, (Cyl.coords_comb c hc y _ _ _).1 rfl⟩
  rcases h with ⟨h1, h2⟩ | ⟨h1, h2⟩
  · exact Or.inl ⟨h1, abs_le.1 h2⟩
  · refine Or.inr ⟨h1, ?_⟩
    rcases (abs_eq zero_le_one).1 h2 with h | h
    · exact Or.inr h
    · exact Or.inl h

/-- The plane part: the result is `1e16` or a parameter in `[0, m]` with the point in the base. -/
theorem Cyl.plane_cases (c : Cyl K) (y vc : K × K × K) (num m : K) :
    c.plane y vc num m = tgv ∨
    (0 ≤ c.plane y vc num m ∧ c.plane y vc num m ≤ m ∧
      c.base.inside (y.1 + c.plane y vc num m * vc.1, y.2.1 + c.plane y vc num m * vc.2.1) = true ∧
      c.plane y vc num m = num / (vc.2.2 + if vc.2.2 = 0 then 1 / 10 ^ 16 else 0)) := by
  unfold Cyl.plane
  simp only
  split_ifs with h1 h2 h2
  · exact Or.inl rfl
  · right
    push Not at h2
    exact ⟨h2.1.1, h2.1.2, h2.2, rfl⟩
  · exact Or.inl rfl
  · right
    push Not at h2
    exact ⟨h2.1.1, h2.1.2, h2.2, rfl⟩

theorem Cyl.plane_hit (c : Cyl K) (y vc : K × K × K) (num m t : K) (hv : vc.2.2 ≠ 0)
    (ht : t = num / vc.2.2) (h0 : 0 ≤ t) (hm : t ≤ m)
    (hi : c.base.inside (y.1 + t * vc.1, y.2.1 + t * vc.2.1) = true) :
    c.plane y vc num m = t := by
  unfold Cyl.plane
  simp only [hv, if_false, add_zero, ← ht]
  rw [if_neg]
  push Not
  exact ⟨⟨h0, hm⟩, hi⟩

/-- The first hit of a link which meets the cylinder at the parameter `s`: the bottom, the top or
the side, with their labels (with no velocity along `w`, a plane may be taken together with the
side). -/
theorem Cyl.enter_core (c : Cyl K) (B C : Set (K × K))
    (hB : c.base.OK B C) (x v : K × K × K) (m s : K) (hm1 : m < 10 ^ 16) (hs0 : 0 < s) (hsm : s ≤ m)
    (hout : c.inside x = false) (hin : c.inside (along3 x v s) = true) :
    let r := c.distance x v m
    let y := c.coords x
    let vc := c.frame v
    let h := c.base.dist (y.1, y.2.1) (vc.1, vc.2.1) (some m)
    let side := fun z : K × K × K => (z.1, z.2.1) ∈ C ∧ |z.2.2| ≤ 1
    0 < r.alpha ∧ r.alpha ≤ s ∧
      ((r.alpha = c.plane y vc (-(1 + y.2.2)) m ∧ r.border = c.lbot ∧
          (((y.1 + r.alpha * vc.1, y.2.1 + r.alpha * vc.2.1) ∈ B ∧ y.2.2 + r.alpha * vc.2.2 = -1) ∨
            (vc.2.2 = 0 ∧ side (along3 y vc r.alpha)))) ∨
       (r.alpha = c.plane y vc (1 - y.2.2) m ∧ r.border = c.ltop ∧
          (((y.1 + r.alpha * vc.1, y.2.1 + r.alpha * vc.2.1) ∈ B ∧ y.2.2 + r.alpha * vc.2.2 = 1) ∨
            (vc.2.2 = 0 ∧ side (along3 y vc r.alpha)))) ∨
       (r.alpha = h.alpha ∧ r.border = h.border ∧ side (along3 y vc r.alpha))) := by
  intro r y vc h side
  have hr : r = c.distance x v m := rfl
  have hy : y = c.coords x := rfl
  have hvc : vc = c.frame v := rfl
  have hh : h = c.base.dist (y.1, y.2.1) (vc.1, vc.2.1) (some m) := rfl
  unfold Cyl.inside at hin hout
  rw [Cyl.coords_along, ← hy, ← hvc] at hin
  rw [← hy] at hout
  have htg : m < tgv := hm1
  simp only [along3, Bool.and_eq_true, hB.mem] at hin
  simp only [Bool.and_eq_false_iff, decide_eq_false_iff_not, not_le] at hout
  obtain ⟨hb1, hz1⟩ := hin
  replace hz1 := of_decide_eq_true hz1
  have hz1' := abs_le.1 hz1
  have hpt : ∀ t : K, along (y.1, y.2.1) (vc.1, vc.2.1) t = (y.1 + t * vc.1, y.2.1 + t * vc.2.1) :=
    fun t => rfl
  set a0 := if h.alpha < 0 then tgv else h.alpha with ha0
  set a1 := if a0 > 0 ∧ |y.2.2 + a0 * vc.2.2| > 1 then tgv else a0 with ha1
  set b1 : Int := if a0 > 0 ∧ |y.2.2 + a0 * vc.2.2| > 1 then -1 else h.border with hb1'
  set atop := c.plane y vc (1 - y.2.2) m with hatop
  set abot := c.plane y vc (-(1 + y.2.2)) m with habot
  have hres : r.alpha =
      if min (min a1 atop) abot = tgv then -1 else min (min a1 atop) abot := rfl
  have hbor : r.border = if min (min a1 atop) abot = abot then c.lbot else
      if min (min a1 atop) abot = atop then c.ltop else b1 := rfl
  have hhn := hB.nonzero (y.1, y.2.1) (vc.1, vc.2.1) m hm1
  rw [← hh] at hhn
  have hsound := hB.sound (y.1, y.2.1) (vc.1, vc.2.1) m hm1
  rw [← hh] at hsound
  have hseen := fun t => hB.seen (y.1, y.2.1) (vc.1, vc.2.1) m t hm1
  rw [← hh] at hseen
  clear_value r y vc h a0 a1 b1 atop abot
  -- the side: `1e16` or a point of the side
  have hside : a1 = tgv ∨ (0 < a1 ∧ a1 ≤ m ∧ a1 = h.alpha ∧ b1 = h.border ∧
      (y.1 + a1 * vc.1, y.2.1 + a1 * vc.2.1) ∈ C ∧ |y.2.2 + a1 * vc.2.2| ≤ 1) := by
    by_cases hneg : h.alpha < 0
    · left
      rw [ha1, ha0, if_pos hneg]; split_ifs <;> rfl
    · have hpos : 0 < h.alpha := lt_of_le_of_ne (not_lt.1 hneg) (Ne.symm hhn)
      have h0 : a0 = h.alpha := by rw [ha0, if_neg hneg]
      by_cases hz : a0 > 0 ∧ |y.2.2 + a0 * vc.2.2| > 1
      · left; rw [ha1, if_pos hz]
      · right
        have h1 : a1 = h.alpha := by rw [ha1, if_neg hz, h0]
        have hs := hsound hpos
        rw [h1]
        refine ⟨hpos, hs.1, rfl, by rw [hb1', if_neg hz], hs.2, ?_⟩
        rw [h0] at hz
        push Not at hz
        exact hz hpos
  -- some candidate is in `(0, s]`
  have hex : (0 < a1 ∧ a1 ≤ s) ∨ (0 < atop ∧ atop ≤ s) ∨ (0 < abot ∧ abot ≤ s) := by
    have hplanes : ∀ t, 0 ≤ t → t ≤ s → (y.1 + t * vc.1, y.2.1 + t * vc.2.1) ∈ B →
        1 < |y.2.2 + t * vc.2.2| → (0 < atop ∧ atop ≤ s) ∨ (0 < abot ∧ abot ≤ s) := by
      intro t s0 s1 hs hz
      rcases lt_abs.1 hz with hz | hz
      · left
        have hv : vc.2.2 < 0 := by
          by_contra hv
          push Not at hv
          have := mul_le_mul_of_nonneg_right s1 hv
          linarith [hz1'.2]
        have ht : (1 - y.2.2) / vc.2.2 = (y.2.2 - 1) / -vc.2.2 := by
          rw [div_neg, ← neg_div]; congr 1; ring
        have hst : t < (1 - y.2.2) / vc.2.2 := by
          rw [ht, lt_div_iff₀ (by linarith)]; linarith
        have ht1 : (1 - y.2.2) / vc.2.2 ≤ s := by
          rw [ht, div_le_iff₀ (by linarith)]; linarith [hz1'.2]
        have hpl := Cyl.plane_hit c y vc (1 - y.2.2) m _ hv.ne rfl (by linarith) (ht1.trans hsm)
          ((hB.mem _).2 (hB.convex (y.1, y.2.1) (vc.1, vc.2.1) t _ s hst.le ht1 hs
            (by rw [hpt]; exact hb1)))
        rw [← hatop] at hpl
        rw [hpl]; exact ⟨by linarith, ht1⟩
      · right
        have hv : 0 < vc.2.2 := by
          by_contra hv
          push Not at hv
          have := mul_le_mul_of_nonpos_right s1 hv
          linarith [hz1'.1]
        have hst : t < -(1 + y.2.2) / vc.2.2 := by
          rw [lt_div_iff₀ hv]; linarith
        have ht1 : -(1 + y.2.2) / vc.2.2 ≤ s := by
          rw [div_le_iff₀ hv]; linarith [hz1'.1]
        have hpl := Cyl.plane_hit c y vc (-(1 + y.2.2)) m _ hv.ne' rfl (by linarith) (ht1.trans hsm)
          ((hB.mem _).2 (hB.convex (y.1, y.2.1) (vc.1, vc.2.1) t _ s hst.le ht1 hs
            (by rw [hpt]; exact hb1)))
        rw [← habot] at hpl
        rw [hpl]; exact ⟨by linarith, ht1⟩
    by_cases hb0 : (y.1, y.2.1) ∈ B
    · right
      have hz0 : 1 < |y.2.2| := by
        rcases hout with h1 | h1
        · rw [(hB.mem _).2 hb0] at h1; exact absurd h1 (by simp)
        · exact h1
      exact hplanes 0 le_rfl hs0.le (by simpa using hb0) (by simpa using hz0)
    · have hs := hseen s hb0 hs0 hsm (by rw [hpt]; exact hb1)
      have hs2 := hsound hs.1
      by_cases hz : 1 < |y.2.2 + h.alpha * vc.2.2|
      · right
        exact hplanes h.alpha hs.1.le hs.2 (hB.sub hs2.2) hz
      · left
        have h0 : a0 = h.alpha := by rw [ha0, if_neg (not_lt.2 hs.1.le)]
        have h1 : a1 = h.alpha := by
          rw [ha1, if_neg, h0]
          rw [h0]; exact fun h => hz h.2
        rw [h1]; exact hs
  -- the planes are not met at parameter 0, and without vertical velocity not before the side
  have hflat : ∀ t, vc.2.2 = 0 → 0 ≤ t → t ≤ m → (y.1 + t * vc.1, y.2.1 + t * vc.2.1) ∈ B →
      0 < t ∧ 0 < a1 ∧ a1 ≤ t := by
    intro t hv h1 h2 h3
    rw [hv] at hz1
    simp only [mul_zero, add_zero] at hz1
    have hb0 : (y.1, y.2.1) ∉ B := by
      intro hb0
      rcases hout with h5 | h5
      · rw [(hB.mem _).2 hb0] at h5; exact absurd h5 (by simp)
      · linarith
    have h0 : 0 < t := by
      refine lt_of_le_of_ne h1 (fun h5 => hb0 ?_)
      rw [← h5] at h3; simpa using h3
    have hs := hseen t hb0 h0 h2 h3
    have e0 : a0 = h.alpha := by rw [ha0, if_neg (not_lt.2 hs.1.le)]
    have e1 : a1 = h.alpha := by
      rw [ha1, if_neg, e0]
      rw [hv, mul_zero, add_zero]; exact fun h => absurd hz1 (not_le.2 h.2)
    exact ⟨h0, by rw [e1]; exact hs⟩
  have hflat0 : ∀ t, (y.1 + t * vc.1, y.2.1 + t * vc.2.1) ∈ B → |y.2.2 + t * vc.2.2| = 1 → t ≠ 0 := by
    rintro t h3 hz rfl
    simp only [zero_mul, add_zero] at h3 hz
    rcases hout with h6 | h6
    · rw [(hB.mem _).2 h3] at h6; exact absurd h6 (by simp)
    · rw [hz] at h6; exact absurd h6 (lt_irrefl _)
  have htop0 : atop = tgv ∨ (0 < atop ∧ atop ≤ m ∧ (y.1 + atop * vc.1, y.2.1 + atop * vc.2.1) ∈ B ∧
      (y.2.2 + atop * vc.2.2 = 1 ∨ (vc.2.2 = 0 ∧ 0 < a1 ∧ a1 ≤ atop))) := by
    rcases Cyl.plane_cases c y vc (1 - y.2.2) m with h1 | ⟨h1, h2, h3, h4⟩
    · exact Or.inl (hatop.trans h1)
    · rw [← hatop] at h1 h2 h3 h4
      right
      rw [hB.mem] at h3
      by_cases hv : vc.2.2 = 0
      · have := hflat atop hv h1 h2 h3
        exact ⟨this.1, h2, h3, Or.inr ⟨hv, this.2⟩⟩
      · rw [if_neg hv, add_zero] at h4
        have hz : y.2.2 + atop * vc.2.2 = 1 := by
          rw [h4, div_mul_cancel₀ _ hv]; ring
        exact ⟨lt_of_le_of_ne h1 (Ne.symm (hflat0 atop h3 (by rw [hz, abs_one]))), h2, h3, Or.inl hz⟩
  have hbot0 : abot = tgv ∨ (0 < abot ∧ abot ≤ m ∧ (y.1 + abot * vc.1, y.2.1 + abot * vc.2.1) ∈ B ∧
      (y.2.2 + abot * vc.2.2 = -1 ∨ (vc.2.2 = 0 ∧ 0 < a1 ∧ a1 ≤ abot))) := by
    rcases Cyl.plane_cases c y vc (-(1 + y.2.2)) m with h1 | ⟨h1, h2, h3, h4⟩
    · exact Or.inl (habot.trans h1)
    · rw [← habot] at h1 h2 h3 h4
      right
      rw [hB.mem] at h3
      by_cases hv : vc.2.2 = 0
      · have := hflat abot hv h1 h2 h3
        exact ⟨this.1, h2, h3, Or.inr ⟨hv, this.2⟩⟩
      · rw [if_neg hv, add_zero] at h4
        have hz : y.2.2 + abot * vc.2.2 = -1 := by
          rw [h4, div_mul_cancel₀ _ hv]; ring
        exact ⟨lt_of_le_of_ne h1 (Ne.symm (hflat0 abot h3 (by rw [hz, abs_neg, abs_one]))), h2, h3,
          Or.inl hz⟩
  -- the minimum
  set a := min (min a1 atop) abot with ha
  have htg0 : (0 : K) < tgv := by unfold tgv; norm_num
  have hp1 : 0 < a1 := by rcases hside with h1 | h1; · rw [h1]; exact htg0
                          · exact h1.1
  have hp2 : 0 < atop := by rcases htop0 with h1 | h1; · rw [h1]; exact htg0
                            · exact h1.1
  have hp3 : 0 < abot := by rcases hbot0 with h1 | h1; · rw [h1]; exact htg0
                            · exact h1.1
  have hapos : 0 < a := lt_min (lt_min hp1 hp2) hp3
  have hle1 : a ≤ a1 := (min_le_left _ _).trans (min_le_left _ _)
  have hale : a ≤ s := by
    rcases hex with h1 | h1 | h1
    · exact hle1.trans h1.2
    · exact ((min_le_left _ _).trans (min_le_right _ _)).trans h1.2
    · exact (min_le_right _ _).trans h1.2
  have hane : a ≠ tgv := (lt_of_le_of_lt (hale.trans hsm) htg).ne
  have hra : r.alpha = a := by rw [hres, if_neg hane]
  rw [hra]
  have hsidecase : a = a1 → a = h.alpha ∧ b1 = h.border ∧ side (along3 y vc a) := by
    intro h1
    rcases hside with h2 | ⟨_, _, h3, h4, h5, h6⟩
    · exact absurd (h1.trans h2) hane
    · exact ⟨h1.trans h3, h4, by rw [h1]; exact ⟨h5, h6⟩⟩
  refine ⟨hapos, hale, ?_⟩
  by_cases hb : a = abot
  · left
    refine ⟨hb, by rw [hbor, if_pos hb], ?_⟩
    rcases hbot0 with h4 | ⟨_, _, h5, h6 | h6⟩
    · exact absurd (hb.trans h4) hane
    · left; rw [hb]; exact ⟨h5, h6⟩
    · exact Or.inr ⟨h6.1, (hsidecase (le_antisymm hle1 (by rw [hb]; exact h6.2.2))).2.2⟩
  · by_cases ht : a = atop
    · right; left
      refine ⟨ht, by rw [hbor, if_neg hb, if_pos ht], ?_⟩
      rcases htop0 with h4 | ⟨_, _, h5, h6 | h6⟩
      · exact absurd (ht.trans h4) hane
      · left; rw [ht]; exact ⟨h5, h6⟩
      · exact Or.inr ⟨h6.1, (hsidecase (le_antisymm hle1 (by rw [ht]; exact h6.2.2))).2.2⟩
    · right; right
      have h1 : a = a1 := by
        rcases min_choice (min a1 atop) abot with h1 | h1
        · rcases min_choice a1 atop with h2 | h2
          · rw [ha, h1, h2]
          · exact absurd (by rw [ha, h1, h2]) ht
        · exact absurd (by rw [ha, h1]) hb
      obtain ⟨g1, g2, g3⟩ := hsidecase h1
      exact ⟨g1, by rw [hbor, if_neg hb, if_neg ht, g2], g3⟩

/-- C24 (cylinders): the distance is the first parameter at which a link from outside is in the
cylinder, and the point is on its surface. -/
theorem C24_cylinder_first (c : Cyl K) (hc : inner3 c.v1 (cross c.v2 c.w) ≠ 0) (B C : Set (K × K))
    (hB : c.base.OK B C) (x v : K × K × K) (m : K) (hm : m < 10 ^ 16) (hout : c.inside x = false)
    (h : (hits3 x v m (cylinder c.center c.v1 c.v2 c.w B)).Nonempty) :
    IsLeast (hits3 x v m (cylinder c.center c.v1 c.v2 c.w B)) (c.distance x v m).alpha ∧
      along3 x v (c.distance x v m).alpha ∈ cylinderSurface c.center c.v1 c.v2 c.w B C := by
  have key : ∀ s, 0 < s → s ≤ m → along3 x v s ∈ cylinder c.center c.v1 c.v2 c.w B →
      0 < (c.distance x v m).alpha ∧ (c.distance x v m).alpha ≤ s ∧
      along3 x v (c.distance x v m).alpha ∈ cylinderSurface c.center c.v1 c.v2 c.w B C := by
    intro s h0 h1 h2
    obtain ⟨g1, g2, g3⟩ := Cyl.enter_core c B C hB x v m s hm h0 h1 hout
      ((C28_cylinder_inside c hc B C hB _).2 h2)
    refine ⟨g1, g2, Cyl.surface_of_coords c hc B C _ ?_⟩
    rw [Cyl.coords_along]
    rcases g3 with ⟨_, _, ⟨g4, g5⟩ | ⟨_, g4⟩⟩ | ⟨_, _, ⟨g4, g5⟩ | ⟨_, g4⟩⟩ | ⟨_, _, g4⟩
    · exact Or.inr ⟨g4, by simp only [along3]; rw [g5, abs_neg, abs_one]⟩
    · exact Or.inl g4
    · exact Or.inr ⟨g4, by simp only [along3]; rw [g5, abs_one]⟩
    · exact Or.inl g4
    · exact Or.inl g4
  obtain ⟨s, h0, h1, h2⟩ := h
  obtain ⟨g1, g2, g3⟩ := key s h0 h1 h2
  refine ⟨⟨⟨g1, g2.trans h1, ?_⟩, fun t ht => (key t ht.1 ht.2.1 ht.2.2).2.1⟩, g3⟩
  obtain ⟨a, b, d, g4, g5⟩ := g3
  refine ⟨a, b, d, ?_⟩
  rcases g4 with ⟨g4, g6⟩ | ⟨g4, g6⟩
  · exact ⟨hB.sub g4, g6, g5⟩
  · refine ⟨g4, ?_, g5⟩
    rcases g6 with rfl | rfl <;> constructor <;> norm_num

/-- C24 (cylinders): a link which enters the cylinder is seen, at a point of its surface. -/
theorem C24_cylinder_enter (c : Cyl K) (hc : inner3 c.v1 (cross c.v2 c.w) ≠ 0) (B C : Set (K × K))
    (hB : c.base.OK B C) (x v : K × K × K) (hout : c.inside x = false)
    (hin : c.inside (x.1 + v.1, x.2.1 + v.2.1, x.2.2 + v.2.2) = true) :
    0 < (c.distance x v 1).alpha ∧ (c.distance x v 1).alpha ≤ 1 ∧
      along3 x v (c.distance x v 1).alpha ∈ cylinderSurface c.center c.v1 c.v2 c.w B C := by
  have e1 : ((x.1 + v.1, x.2.1 + v.2.1, x.2.2 + v.2.2) : K × K × K) = along3 x v 1 := by
    simp [along3]
  rw [e1, C28_cylinder_inside c hc B C hB] at hin
  obtain ⟨⟨h1, _⟩, h2⟩ := C24_cylinder_first c hc B C hB x v 1 (by norm_num) hout
    ⟨1, one_pos, le_rfl, hin⟩
  exact ⟨h1.1, h1.2.1, h2⟩

/-- A positive distance, from any point, is at most `m`.  The point hit has its base coordinates in
the base and its height in `[-1, 1]` up to `m * 1e-16` (`decal`, cylinder.py 170-171, makes a link
without component along `w` meet the plane of the bottom from just below it); it is on the surface
when the link has a component along `w`. -/
theorem Cyl.hit_mem (c : Cyl K) (B C : Set (K × K)) (hB : c.base.OK B C)
    (x v : K × K × K) (m : K) (hm : m < 10 ^ 16) (h : 0 < (c.distance x v m).alpha) :
    let p := c.coords (along3 x v (c.distance x v m).alpha)
    (c.distance x v m).alpha ≤ m ∧ (p.1, p.2.1) ∈ B ∧ |p.2.2| ≤ 1 + m / 10 ^ 16 ∧
      (-1 ≤ (c.coords x).2.2 → |p.2.2| ≤ 1) ∧
      ((c.frame v).2.2 ≠ 0 → ((p.1, p.2.1) ∈ C ∧ |p.2.2| ≤ 1) ∨ |p.2.2| = 1) := by
  have htg : m < tgv := hm
  intro p
  have hp : p = along3 (c.coords x) (c.frame v) (c.distance x v m).alpha := Cyl.coords_along c x v _
  rw [hp]
  clear hp p
  have hplane : ∀ num : K, (num = 1 - (c.coords x).2.2 ∨ num = -(1 + (c.coords x).2.2)) →
      c.plane (c.coords x) (c.frame v) num m ≠ tgv →
      c.plane (c.coords x) (c.frame v) num m ≤ m ∧
      ((along3 (c.coords x) (c.frame v) (c.plane (c.coords x) (c.frame v) num m)).1,
        (along3 (c.coords x) (c.frame v) (c.plane (c.coords x) (c.frame v) num m)).2.1) ∈ B ∧
      |(along3 (c.coords x) (c.frame v) (c.plane (c.coords x) (c.frame v) num m)).2.2| ≤
        1 + m / 10 ^ 16 ∧
      (-1 ≤ (c.coords x).2.2 →
        |(along3 (c.coords x) (c.frame v) (c.plane (c.coords x) (c.frame v) num m)).2.2| ≤ 1) ∧
      ((c.frame v).2.2 ≠ 0 →
        |(along3 (c.coords x) (c.frame v) (c.plane (c.coords x) (c.frame v) num m)).2.2| = 1) := by
    intro num hnum hne
    rcases Cyl.plane_cases c (c.coords x) (c.frame v) num m with h1 | ⟨h1, h2, h3, h4⟩
    · exact absurd h1 hne
    · rw [hB.mem] at h3
      set t := c.plane (c.coords x) (c.frame v) num m
      clear_value t
      have hm0 : 0 ≤ m := h1.trans h2
      by_cases hv : (c.frame v).2.2 = 0
      · rw [if_pos hv, hv, zero_add, div_div_eq_mul_div, div_one] at h4
        have h5 : 0 ≤ num := by
          rw [h4] at h1
          exact nonneg_of_mul_nonneg_left h1 (by norm_num)
        have h6 : num ≤ m / 10 ^ 16 := by
          rw [le_div_iff₀ (by norm_num), ← h4]; exact h2
        have h7 : m / 10 ^ 16 < 1 := by rw [div_lt_one (by norm_num)]; exact hm
        simp only [along3, hv, mul_zero, add_zero]
        refine ⟨h2, by rw [hv] at *; exact h3, ?_, fun hz => ?_, fun h => absurd rfl h⟩
        · rw [abs_le]
          rcases hnum with rfl | rfl <;> constructor <;> linarith
        · rw [abs_le]
          rcases hnum with rfl | rfl <;> constructor <;> linarith
      · rw [if_neg hv, add_zero] at h4
        have hz : (c.coords x).2.2 + t * (c.frame v).2.2 = (c.coords x).2.2 + num := by
          rw [h4, div_mul_cancel₀ _ hv]
        have hz1 : |(c.coords x).2.2 + t * (c.frame v).2.2| = 1 := by
          rw [hz]
          rcases hnum with rfl | rfl
          · rw [show (c.coords x).2.2 + (1 - (c.coords x).2.2) = 1 by ring, abs_one]
          · rw [show (c.coords x).2.2 + -(1 + (c.coords x).2.2) = -1 by ring, abs_neg, abs_one]
        have hm1 : 0 ≤ m / 10 ^ 16 := by positivity
        exact ⟨h2, h3, by simp only [along3]; rw [hz1]; linarith, fun _ => hz1.le, fun _ => hz1⟩
  set y := c.coords x with hy
  set vc := c.frame v with hvc
  set h' := c.base.dist (y.1, y.2.1) (vc.1, vc.2.1) (some m) with hh
  set a0 := if h'.alpha < 0 then tgv else h'.alpha with ha0
  set a1 := if a0 > 0 ∧ |y.2.2 + a0 * vc.2.2| > 1 then tgv else a0 with ha1
  set atop := c.plane y vc (1 - y.2.2) m with hatop
  set abot := c.plane y vc (-(1 + y.2.2)) m with habot
  have hres : (c.distance x v m).alpha =
      if min (min a1 atop) abot = tgv then -1 else min (min a1 atop) abot := rfl
  have hne : min (min a1 atop) abot ≠ tgv := by
    intro h1
    rw [hres, if_pos h1] at h
    exact absurd h (by norm_num)
  have hra : (c.distance x v m).alpha = min (min a1 atop) abot := by rw [hres, if_neg hne]
  have hsound := hB.sound (y.1, y.2.1) (vc.1, vc.2.1) m hm
  rw [← hh] at hsound
  have hT := hplane (1 - y.2.2) (Or.inl rfl)
  have hBo := hplane (-(1 + y.2.2)) (Or.inr rfl)
  rw [← hatop] at hT
  rw [← habot] at hBo
  clear_value h' atop abot
  rw [hra] at h ⊢
  rcases min_choice (min a1 atop) abot with h1 | h1
  · rcases min_choice a1 atop with h2 | h2
    · rw [h1, h2] at h hne ⊢
      have h3 : a1 = h'.alpha ∧ ¬ (a0 > 0 ∧ |y.2.2 + a0 * vc.2.2| > 1) := by
        by_cases hz : a0 > 0 ∧ |y.2.2 + a0 * vc.2.2| > 1
        · rw [ha1, if_pos hz] at hne; exact absurd rfl hne
        · refine ⟨?_, hz⟩
          rw [ha1, if_neg hz] at hne ⊢
          by_cases hn : h'.alpha < 0
          · rw [ha0, if_pos hn] at hne; exact absurd rfl hne
          · rw [ha0, if_neg hn]
      have h4 : a0 = a1 := by rw [ha1, if_neg h3.2]
      rw [h4] at h3
      have h5 := hsound (h3.1 ▸ h)
      rw [← h3.1] at h5
      have h6 := h3.2
      push Not at h6
      have h7 := h6 h
      have hm1 : 0 ≤ m / 10 ^ 16 := div_nonneg (h.le.trans h5.1) (by norm_num)
      exact ⟨h5.1, hB.sub h5.2, by simp only [along3]; linarith, fun _ => h7,
        fun _ => Or.inl ⟨h5.2, h7⟩⟩
    · rw [h1, h2] at h hne ⊢
      obtain ⟨k1, k2, k3, k4, k5⟩ := hT hne
      exact ⟨k1, k2, k3, k4, fun hv => Or.inr (k5 hv)⟩
  · rw [h1] at h hne ⊢
    obtain ⟨k1, k2, k3, k4, k5⟩ := hBo hne
    exact ⟨k1, k2, k3, k4, fun hv => Or.inr (k5 hv)⟩

/-- C24 (cylinders): a link which leaves the cylinder from a point which is not on its surface is
seen, at a point of the cylinder; at a point of its surface when the link has a component along
`w` (without it, within `1e-16` of the bottom or of the top, the distance is that of a plane which
the link does not meet). -/
theorem C24_cylinder_leave (c : Cyl K) (hc : inner3 c.v1 (cross c.v2 c.w) ≠ 0) (B C : Set (K × K))
    (hB : c.base.OK B C) (x v : K × K × K) (hin : c.inside x = true)
    (hx : x ∉ cylinderSurface c.center c.v1 c.v2 c.w B C)
    (hout : c.inside (x.1 + v.1, x.2.1 + v.2.1, x.2.2 + v.2.2) = false) :
    let a := (c.distance x v 1).alpha
    0 < a ∧ a ≤ 1 ∧ along3 x v a ∈ cylinder c.center c.v1 c.v2 c.w B ∧
      ((∀ p q, v ≠ comb3 (0, 0, 0) c.v1 c.v2 c.w p q 0) →
        along3 x v a ∈ cylinderSurface c.center c.v1 c.v2 c.w B C) := by
  have hm1 : (1 : K) < 10 ^ 16 := by norm_num
  have hdet : c.det ≠ 0 := hc
  intro a
  suffices hpos : 0 < a by
    obtain ⟨h1, h2, _, h3, h4⟩ := Cyl.hit_mem c B C hB x v 1 hm1 hpos
    have hz : -1 ≤ (c.coords x).2.2 := by
      unfold Cyl.inside at hin
      simp only [Bool.and_eq_true, decide_eq_true_eq] at hin
      exact (abs_le.1 hin.2).1
    refine ⟨hpos, h1, ?_, fun hv => ?_⟩
    · rw [← C28_cylinder_inside c hc B C hB]
      unfold Cyl.inside
      simp only [Bool.and_eq_true, hB.mem, decide_eq_true_eq]
      exact ⟨h2, h3 hz⟩
    · refine Cyl.surface_of_coords c hc B C _ ?_
      rcases h4 (fun h5 => hv (c.frame v).1 (c.frame v).2.1
        ((Cyl.frame_comb c hdet v _ _ _).1 (by rw [← h5]))) with h6 | h6
      · exact Or.inl h6
      · exact Or.inr ⟨h2, h6⟩
  have e1 : ((x.1 + v.1, x.2.1 + v.2.1, x.2.2 + v.2.2) : K × K × K) = along3 x v 1 := by
    simp [along3]
  rw [e1] at hout
  have hnsurf : ∀ z : K × K × K, z = c.coords x →
      (¬ ((z.1, z.2.1) ∈ C ∧ |z.2.2| ≤ 1)) ∧ ¬ ((z.1, z.2.1) ∈ B ∧ |z.2.2| = 1) := by
    rintro z rfl
    exact ⟨fun h => hx (Cyl.surface_of_coords c hc B C x (Or.inl h)),
      fun h => hx (Cyl.surface_of_coords c hc B C x (Or.inr h))⟩
  have hn := hnsurf _ rfl
  unfold Cyl.inside at hin hout
  rw [Cyl.coords_along] at hout
  have hplane := fun num t => Cyl.plane_hit c (c.coords x) (c.frame v) num 1 t
  have hcases := fun num => Cyl.plane_cases c (c.coords x) (c.frame v) num 1
  have hsound := hB.sound ((c.coords x).1, (c.coords x).2.1) ((c.frame v).1, (c.frame v).2.1) 1 hm1
  have hnz := hB.nonzero ((c.coords x).1, (c.coords x).2.1) ((c.frame v).1, (c.frame v).2.1) 1 hm1
  have hleft := hB.left ((c.coords x).1, (c.coords x).2.1) ((c.frame v).1, (c.frame v).2.1) 1
  have hconv := hB.convex ((c.coords x).1, (c.coords x).2.1) ((c.frame v).1, (c.frame v).2.1) 0
  have hres : a = (c.distance x v 1).alpha := rfl
  unfold Cyl.distance at hres
  simp only at hres
  set y := c.coords x with hy
  set vc := c.frame v with hvc
  set h' := c.base.dist (y.1, y.2.1) (vc.1, vc.2.1) (some 1) with hh
  set a0 := if h'.alpha < 0 then tgv else h'.alpha with ha0
  set a1 := if a0 > 0 ∧ |y.2.2 + a0 * vc.2.2| > 1 then tgv else a0 with ha1
  set atop := c.plane y vc (1 - y.2.2) 1 with hatop
  set abot := c.plane y vc (-(1 + y.2.2)) 1 with habot
  clear_value a y vc h' atop abot
  simp only [Bool.and_eq_true, hB.mem, decide_eq_true_eq] at hin
  obtain ⟨hb, hz⟩ := hin
  have hzC : (y.1, y.2.1) ∉ C := fun h => hn.1 ⟨h, hz⟩
  have hz1 : |y.2.2| < 1 := lt_of_le_of_ne hz fun h => hn.2 ⟨hb, h⟩
  obtain ⟨hza, hzb⟩ := abs_lt.1 hz1
  have htg0 : (0 : K) < tgv := by unfold tgv; norm_num
  -- the two planes are met after the start
  have hp : ∀ num, num ≠ 0 → 0 < c.plane y vc num 1 := by
    intro num hnum
    rcases hcases num with h1 | ⟨h1, _, _, h4⟩
    · rw [h1]; exact htg0
    · refine lt_of_le_of_ne h1 (Ne.symm ?_)
      rw [h4]
      refine div_ne_zero hnum ?_
      split_ifs with h5
      · rw [h5]; norm_num
      · simpa using h5
  have hp2 : 0 < atop := by rw [hatop]; exact hp _ (by intro h; linarith)
  have hp3 : 0 < abot := by rw [habot]; exact hp _ (by intro h; linarith)
  have hp1 : 0 < a1 := by
    rw [ha1]
    split_ifs with h1
    · exact htg0
    · rw [ha0]
      split_ifs with h2
      · exact htg0
      · exact lt_of_le_of_ne (not_lt.1 h2) (Ne.symm hnz)
  -- leaving through a plane, up to a parameter where the base is not left
  have hexit : ∀ t, 0 < t → t ≤ 1 → (y.1 + t * vc.1, y.2.1 + t * vc.2.1) ∈ B →
      1 < |y.2.2 + t * vc.2.2| → atop ≤ 1 ∨ abot ≤ 1 := by
    intro t t0 t1 htB htz
    have hB' : ∀ s, 0 ≤ s → s ≤ t → c.base.inside (y.1 + s * vc.1, y.2.1 + s * vc.2.1) = true := by
      intro s s0 s1
      rw [hB.mem]
      exact hconv s t s0 s1 (by simpa [along] using hb) htB
    rcases lt_abs.1 htz with hz2 | hz2
    · left
      have hv : 0 < vc.2.2 := by
        by_contra hv; push Not at hv
        have := mul_nonpos_of_nonneg_of_nonpos t0.le hv
        linarith
      have k0 : 0 ≤ (1 - y.2.2) / vc.2.2 := div_nonneg (by linarith) hv.le
      have k1 : (1 - y.2.2) / vc.2.2 ≤ t := by rw [div_le_iff₀ hv]; linarith
      rw [hatop, hplane _ _ hv.ne' rfl k0 (k1.trans t1) (hB' _ k0 k1)]
      exact k1.trans t1
    · right
      have hv : vc.2.2 < 0 := by
        by_contra hv; push Not at hv
        have := mul_nonneg t0.le hv
        linarith
      have e : -(1 + y.2.2) / vc.2.2 = (1 + y.2.2) / -vc.2.2 := by rw [div_neg, neg_div]
      have k0 : 0 ≤ -(1 + y.2.2) / vc.2.2 := by rw [e]; exact div_nonneg (by linarith) (by linarith)
      have k1 : -(1 + y.2.2) / vc.2.2 ≤ t := by rw [e, div_le_iff₀ (by linarith)]; linarith
      rw [habot, hplane _ _ hv.ne rfl k0 (k1.trans t1) (hB' _ k0 k1)]
      exact k1.trans t1
  have hex : a1 ≤ 1 ∨ atop ≤ 1 ∨ abot ≤ 1 := by
    by_cases hpos : 0 < h'.alpha
    · obtain ⟨s1, s2⟩ := hsound hpos
      by_cases hz2 : 1 < |y.2.2 + h'.alpha * vc.2.2|
      · exact Or.inr (hexit _ hpos s1 (hB.sub s2) hz2)
      · left
        have h0 : a0 = h'.alpha := by rw [ha0, if_neg (not_lt.2 hpos.le)]
        rw [ha1, if_neg (fun h => hz2 (by rw [← h0]; exact h.2)), h0]
        exact s1
    · right
      have hstay : (y.1 + 1 * vc.1, y.2.1 + 1 * vc.2.1) ∈ B := by
        by_contra h1
        exact hpos (hleft 1 hm1 hb hzC one_pos le_rfl h1).1
      refine hexit 1 one_pos le_rfl hstay ?_
      have h2 := hout
      simp only [along3, Bool.and_eq_false_iff] at h2
      rcases h2 with h2 | h2
      · rw [(hB.mem _).2 hstay] at h2; exact absurd h2 (by simp)
      · exact not_le.1 (of_decide_eq_false h2)
  have hmin : min (min a1 atop) abot ≤ 1 := by
    rcases hex with h | h | h
    · exact ((min_le_left _ _).trans (min_le_left _ _)).trans h
    · exact ((min_le_left _ _).trans (min_le_right _ _)).trans h
    · exact (min_le_right _ _).trans h
  have hne : min (min a1 atop) abot ≠ tgv := by
    intro h
    rw [h] at hmin
    have : (1 : K) < tgv := hm1
    linarith
  rw [hres, if_neg hne]
  exact lt_min (lt_min hp1 hp2) hp3

/-! ### The bases -/

/-- A base is correct when its distance is, from the points which are not on its curve. -/
theorem Base.ok_of_distance (b : Base K) (B C : Set (K × K))
    (mem : ∀ y, b.inside y = true ↔ y ∈ B) (sub : C ⊆ B)
    (convex : ∀ x v s1 s s2, s1 ≤ s → s ≤ s2 → along x v s1 ∈ B → along x v s2 ∈ B →
      along x v s ∈ B)
    (sound : ∀ x v m, m < 10 ^ 16 → (b.dist x v (some m)).alpha = -1 ∨
      (b.dist x v (some m)).alpha ∈ hits x v m C)
    (dist : ∀ x v m, m < 10 ^ 16 → x ∉ C → IsDistance (b.dist x v (some m)).alpha (hits x v m C))
    (enter : ∀ x v, x ∉ B → along x v 1 ∈ B → (hits x v 1 C).Nonempty)
    (leave : ∀ x v, x ∈ B → x ∉ C → along x v 1 ∉ B → (hits x v 1 C).Nonempty) : b.OK B C where
  mem := mem
  sub := sub
  convex := convex
  sound := by
    intro x v m hm h
    rcases sound x v m hm with h1 | h1
    · rw [h1] at h; exact absurd h (by norm_num)
    · exact h1.2
  nonzero := by
    intro x v m hm h
    rcases sound x v m hm with h1 | h1
    · rw [h1] at h; exact absurd h (by norm_num)
    · exact h1.1.ne' h
  seen := by
    intro x v m s hm hx hs hsm h
    have e : ∀ t, along x (s * v.1, s * v.2) t = along x v (s * t) := by
      intro t; unfold along; simp only [Prod.mk.injEq]; constructor <;> ring
    obtain ⟨t, t0, t1, ht⟩ := enter x (s * v.1, s * v.2) hx (by rw [e, mul_one]; exact h)
    rw [e] at ht
    have hst : s * t ≤ s := by nlinarith
    have hmem : s * t ∈ hits x v m C := ⟨mul_pos hs t0, hst.trans hsm, ht⟩
    rcases dist x v m hm (fun hx' => hx (sub hx')) with h1 | ⟨h1, _⟩
    · exact ⟨h1.1.1, (h1.2 hmem).trans hst⟩
    · rw [h1] at hmem; exact absurd hmem (Set.notMem_empty _)
  left := by
    intro x v m s hm hx hxC hs hsm h
    have e : ∀ t, along x (s * v.1, s * v.2) t = along x v (s * t) := by
      intro t; unfold along; simp only [Prod.mk.injEq]; constructor <;> ring
    obtain ⟨t, t0, t1, ht⟩ := leave x (s * v.1, s * v.2) hx hxC (by rw [e, mul_one]; exact h)
    rw [e] at ht
    have hst : s * t ≤ s := by nlinarith
    have hmem : s * t ∈ hits x v m C := ⟨mul_pos hs t0, hst.trans hsm, ht⟩
    rcases dist x v m hm hxC with h1 | ⟨h1, _⟩
    · exact ⟨h1.1.1, (h1.2 hmem).trans hst⟩
    · rw [h1] at hmem; exact absurd hmem (Set.notMem_empty _)

theorem lines_sound {N : Type} (nf : K × K → N) (n0 : N) (edges : List (Edge K)) (C : Set (K × K))
    (h : ∀ e ∈ edges, segment e.p e.vt ⊆ C) (x v : K × K) (m : K) (hm : m < 10 ^ 16) :
    (distanceLines nf n0 x v edges (some m)).alpha = -1 ∨
      (distanceLines nf n0 x v edges (some m)).alpha ∈ hits x v m C := by
  rcases C26_first_edge nf n0 x v edges m hm with ⟨_, h4⟩ | ⟨pre, e, post, t, h3, h4, _, _, h7⟩
  · left; rw [h4]
  · right
    rw [h7]
    refine ⟨h4.2.1, h4.2.2.1, h e (by rw [h3]; simp) ?_⟩
    obtain ⟨_, _, _, s, s0, s1, hs⟩ := h4
    exact ⟨s, s0, s1, hs⟩

/-- The unit square, with its sides. -/
def unitSquare : Set (K × K) := {y | (0 ≤ y.1 ∧ y.1 ≤ 1) ∧ 0 ≤ y.2 ∧ y.2 ≤ 1}

def unitSquareSides : Set (K × K) :=
  {y | ((0 ≤ y.1 ∧ y.1 ≤ 1) ∧ 0 ≤ y.2 ∧ y.2 ≤ 1) ∧ (y.1 = 0 ∨ y.1 = 1 ∨ y.2 = 0 ∨ y.2 = 1)}

/-- The unit triangle, with its sides. -/
def unitTriangle : Set (K × K) := {y | 0 ≤ y.1 ∧ 0 ≤ y.2 ∧ y.1 + y.2 ≤ 1}

def unitTriangleSides : Set (K × K) :=
  {y | (0 ≤ y.1 ∧ 0 ≤ y.2 ∧ y.1 + y.2 ≤ 1) ∧ (y.1 = 0 ∨ y.2 = 0 ∨ y.1 + y.2 = 1)}

theorem parallelogram_unit : parallelogram (0, 0) (1, 0) (0, 1) = (unitSquare : Set (K × K)) := by
  ext y
  simp only [parallelogram, unitSquare, comb2, Set.mem_ofPred_eq]
  constructor
  · rintro ⟨a, b, ha, hb, rfl⟩; simp [ha, hb]
  · rintro ⟨ha, hb⟩; exact ⟨y.1, y.2, ha, hb, by simp⟩

theorem parallelogramSides_unit :
    parallelogramSides (0, 0) (1, 0) (0, 1) = (unitSquareSides : Set (K × K)) := by
  ext y
  simp only [parallelogramSides, unitSquareSides, comb2, Set.mem_ofPred_eq]
  constructor
  · rintro ⟨a, b, ha, hb, hs, rfl⟩; simpa [ha, hb] using hs
  · rintro ⟨⟨ha, hb⟩, hs⟩; exact ⟨y.1, y.2, ha, hb, hs, by simp⟩

theorem triangle_unit : triangle (0, 0) (1, 0) (0, 1) = (unitTriangle : Set (K × K)) := by
  ext y
  simp only [triangle, unitTriangle, comb2, Set.mem_ofPred_eq]
  constructor
  · rintro ⟨a, b, ha, hb, hab, rfl⟩; simp [ha, hb, hab]
  · rintro ⟨ha, hb, hab⟩; exact ⟨y.1, y.2, ha, hb, hab, by simp⟩

theorem triangleSides_unit :
    triangleSides (0, 0) (1, 0) (0, 1) = (unitTriangleSides : Set (K × K)) := by
  ext y
  simp only [triangleSides, unitTriangleSides, comb2, Set.mem_ofPred_eq]
  constructor
  · rintro ⟨a, b, ha, hb, hab, hs, rfl⟩; simpa [ha, hb, hab] using hs
  · rintro ⟨⟨ha, hb, hab⟩, hs⟩; exact ⟨y.1, y.2, ha, hb, hab, hs, by simp⟩

theorem affine_between {f d s1 s s2 : K} (h1 : s1 ≤ s) (h2 : s ≤ s2) (a : 0 ≤ f + s1 * d)
    (b : 0 ≤ f + s2 * d) : 0 ≤ f + s * d := by
  rcases le_total 0 d with hd | hd
  · have := mul_le_mul_of_nonneg_right h1 hd; linarith
  · have := mul_le_mul_of_nonpos_right h2 hd; linarith

theorem baseParallelogram_ok (nf : V2 K → V2 K → V2 K) (l0 l1 l2 l3 : Int) :
    (baseParallelogram nf l0 l1 l2 l3).OK unitSquare unitSquareSides := by
  set q : Quad K := ⟨(0, 0), (1, 0), (0, 1)⟩ with hq
  have hdet : q.v1.1 * q.v2.2 - q.v1.2 * q.v2.1 ≠ 0 := by simp [hq]
  have hB : parallelogram q.point q.v1 q.v2 = unitSquare := parallelogram_unit
  have hC : parallelogramSides q.point q.v1 q.v2 = unitSquareSides := parallelogramSides_unit
  apply Base.ok_of_distance
  · intro y
    simp only [baseParallelogram, unitSquare, Set.mem_ofPred_eq, Bool.and_eq_true,
      decide_eq_true_eq, ge_iff_le]
    tauto
  · exact fun y h => h.1
  · rintro x v s1 s s2 h1 h2 ⟨⟨a1, a2⟩, a3, a4⟩ ⟨⟨b1, b2⟩, b3, b4⟩
    simp only [along] at *
    have k2 := affine_between (f := 1 - x.1) (d := -v.1) h1 h2 (by linarith) (by linarith)
    have k4 := affine_between (f := 1 - x.2) (d := -v.2) h1 h2 (by linarith) (by linarith)
    exact ⟨⟨affine_between h1 h2 a1 b1, by simp only; linarith⟩,
      affine_between h1 h2 a3 b3, by simp only; linarith⟩
  · intro x v m hm
    refine lines_sound (nf v) (0, 0) _ unitSquareSides ?_ x v m hm
    intro e he
    simp only [List.mem_cons, List.not_mem_nil, or_false] at he
    rcases he with rfl | rfl | rfl | rfl <;>
    · rintro y ⟨s, s0, s1, rfl⟩
      simp [along, unitSquareSides, s0, s1]
  · intro x v m hm hx
    have := parallelogram_distance (nf v) (0, 0) q hdet l0 l1 l3 l2
      [⟨(0, 0), (1, 0), l0⟩, ⟨(0, 0), (0, 1), l1⟩, ⟨(1, 0), (0, 1), l2⟩, ⟨(0, 1), (1, 0), l3⟩]
      (by intro e; simp [hq]; tauto) x v m hm (by rw [hC]; exact hx)
    rw [hC] at this
    simpa [Quad.distance, hq, baseParallelogram] using this
  · intro x v hx h1
    have := C24_parallelogram_enter (fun w => w) ((0, 0) : K × K) q hdet 0 0 0 0 x v
      (by
        rw [← Bool.not_eq_true, C28_parallelogram_inside q hdet, hB]; exact hx)
      (by
        rw [C28_parallelogram_inside q hdet, hB]; simpa [along] using h1)
    rw [hC] at this
    exact ⟨_, this⟩
  · intro x v hx hxC h1
    have := C24_parallelogram_leave (fun w => w) ((0, 0) : K × K) q hdet 0 0 0 0 x v
      (by rw [C28_parallelogram_inside q hdet, hB]; exact hx) (by rw [hC]; exact hxC)
      (by
        rw [← Bool.not_eq_true, C28_parallelogram_inside q hdet, hB]; simpa [along] using h1)
    rw [hC] at this
    exact ⟨_, this⟩

theorem baseTriangle_ok (nf : V2 K → V2 K → V2 K) (l0 l1 l2 : Int) :
    (baseTriangle nf l0 l1 l2).OK unitTriangle unitTriangleSides := by
  set q : Quad K := ⟨(0, 0), (1, 0), (0, 1)⟩ with hq
  have hdet : q.v1.1 * q.v2.2 - q.v1.2 * q.v2.1 ≠ 0 := by simp [hq]
  have hB : triangle q.point q.v1 q.v2 = unitTriangle := triangle_unit
  have hC : triangleSides q.point q.v1 q.v2 = unitTriangleSides := triangleSides_unit
  apply Base.ok_of_distance
  · intro y
    simp only [baseTriangle, unitTriangle, Set.mem_ofPred_eq, Bool.and_eq_true,
      decide_eq_true_eq, ge_iff_le]
    tauto
  · exact fun y h => h.1
  · rintro x v s1 s s2 h1 h2 ⟨a1, a2, a3⟩ ⟨b1, b2, b3⟩
    simp only [along] at *
    have k2 := affine_between (f := 1 - x.1 - x.2) (d := -v.1 - v.2) h1 h2 (by linarith)
      (by linarith)
    exact ⟨affine_between h1 h2 a1 b1, affine_between h1 h2 a2 b2, by simp only; linarith⟩
  · intro x v m hm
    refine lines_sound (nf v) (0, 0) _ unitTriangleSides ?_ x v m hm
    intro e he
    simp only [List.mem_cons, List.not_mem_nil, or_false] at he
    rcases he with rfl | rfl | rfl <;>
    · rintro y ⟨s, s0, s1, rfl⟩
      simp [along, unitTriangleSides, s0, s1]
  · intro x v m hm hx
    have := C26_triangle_distance (nf v) (0, 0) q hdet l0 l1 l2 x v m hm (by rw [hC]; exact hx)
    rw [hC] at this
    simpa [Quad.distance, hq, baseTriangle, triangleEdges] using this
  · intro x v hx h1
    have := C24_triangle_enter (fun w => w) ((0, 0) : K × K) q hdet 0 0 0 x v
      (by
        rw [← Bool.not_eq_true, C28_triangle_inside q hdet, hB]; exact hx)
      (by
        rw [C28_triangle_inside q hdet, hB]; simpa [along] using h1)
    rw [hC] at this
    exact ⟨_, this⟩
  · intro x v hx hxC h1
    have := C24_triangle_leave (fun w => w) ((0, 0) : K × K) q hdet 0 0 0 x v
      (by rw [C28_triangle_inside q hdet, hB]; exact hx) (by rw [hC]; exact hxC)
      (by
        rw [← Bool.not_eq_true, C28_triangle_inside q hdet, hB]; simpa [along] using h1)
    rw [hC] at this
    exact ⟨_, this⟩

/-- The unit disc and circle. -/
theorem baseDisc_ok (l0 : Int) : (baseDisc l0).OK (disc (0, 0) 1) (circle (0, 0) 1) := by
  set e : Ellipse := ⟨(0, 0), (1, 0), (0, 1)⟩ with he
  have hdet : e.v1.1 * e.v2.2 - e.v1.2 * e.v2.1 ≠ 0 := by simp [he]
  have hB : ∀ y, e.inside y = true ↔ y ∈ disc (0, 0) 1 := by
    intro y
    rw [C28_ellipse_inside e hdet]
    simp only [ellipse, disc, comb2, he, Set.mem_ofPred_eq]
    constructor
    · rintro ⟨a, b, h, rfl⟩; simpa using h
    · intro h; exact ⟨y.1, y.2, by simpa using h, by simp⟩
  have hC : ellipseCurve e.center e.v1 e.v2 = circle (0, 0) 1 := by
    ext y
    simp only [ellipseCurve, circle, comb2, he, Set.mem_ofPred_eq]
    constructor
    · rintro ⟨a, b, h, rfl⟩; simpa using h
    · intro h; exact ⟨y.1, y.2, by simpa using h, by simp⟩
  have hal : ∀ x v d, ((baseDisc l0).dist x v d).alpha = e.alpha x v d := by
    intro x v d
    simp only [baseDisc]
    split_ifs <;> rfl
  apply Base.ok_of_distance
  · intro y
    simp [baseDisc, disc]
  · exact fun y h => le_of_eq h
  · intro x v s1 s s2 h1 h2 ha hb
    simp only [along, disc, Set.mem_ofPred_eq, sub_zero, one_pow] at *
    -- convexity of the square of the distance
    rcases eq_or_lt_of_le h1 with rfl | h1
    · exact ha
    have hd : 0 < s2 - s1 := by linarith
    have key : (s2 - s1) * ((x.1 + s * v.1) ^ 2 + (x.2 + s * v.2) ^ 2) =
        (s2 - s) * ((x.1 + s1 * v.1) ^ 2 + (x.2 + s1 * v.2) ^ 2) +
        (s - s1) * ((x.1 + s2 * v.1) ^ 2 + (x.2 + s2 * v.2) ^ 2) -
        (s2 - s) * (s - s1) * (s2 - s1) * (v.1 ^ 2 + v.2 ^ 2) := by ring
    have e1 : 0 ≤ (s2 - s) * (s - s1) * (s2 - s1) * (v.1 ^ 2 + v.2 ^ 2) :=
      mul_nonneg (mul_nonneg (mul_nonneg (by linarith) (by linarith)) hd.le) (by positivity)
    have e2 := mul_le_mul_of_nonneg_left ha (sub_nonneg.2 h2)
    have e3 := mul_le_mul_of_nonneg_left hb (sub_nonneg.2 h1.le)
    apply le_of_mul_le_mul_left _ hd
    linarith
  · intro x v m hm
    rw [hal]
    by_cases hx : x ∈ circle (0, 0) 1
    · left
      by_cases hv : v = 0
      · obtain ⟨a, b, c, h1, h2, h3⟩ := e.along_form x v m
        have ha : a = 0 := by rw [h2, hv]; simp [Ellipse.form]
        rw [h1, ha]
        unfold quadAlpha
        have htg : ¬ (tgv : ℝ) < 0 := by norm_num [tgv]
        have htg2 : ¬ (-1 : ℝ) = tgv := by norm_num [tgv]
        simp only [ne_eq, not_true_eq_false, false_and, if_false, htg, min_self]
        by_cases hd : b ^ 2 - 4 * 0 * c ≥ 0
        · rw [if_pos hd]; norm_num
        · rw [if_neg hd, if_neg htg2]; norm_num
      · exact C27_ellipse_on_curve e hdet x v hv m (by rw [hC]; exact hx)
    · have := C27_ellipse_partial e hdet x v m hm (by rw [hC]; exact hx)
      rw [hC] at this
      rcases this with h | h
      · exact Or.inr h.1
      · exact Or.inl h.2
  · intro x v m hm hx
    rw [hal]
    have := C27_ellipse_partial e hdet x v m hm (by rw [hC]; exact hx)
    rwa [hC] at this
  · intro x v hx h1
    have := C24_ellipse_enter e hdet x v
      (by rw [← Bool.not_eq_true, hB]; exact hx)
      (by rw [hB]; simpa [along] using h1)
    rw [hC] at this
    exact ⟨_, this⟩
  · intro x v hx hxC h1
    have := C24_ellipse_links e hdet x v (by rw [hC]; exact hxC) (by
      rw [(hB _).2 hx]
      have : e.inside (x.1 + v.1, x.2 + v.2) = false := by
        rw [← Bool.not_eq_true, hB]; simpa [along] using h1
      rw [this]; simp)
    rw [hC] at this
    exact ⟨_, this⟩

/-! ### The cylinders of the library -/

/-- C28 (`CylinderCircle`, `CylinderEllipse`). -/
theorem C28_cylinder_disc_inside (c : Cyl ℝ) (l0 : Int) (hb : c.base = baseDisc l0)
    (hc : inner3 c.v1 (cross c.v2 c.w) ≠ 0) (y : ℝ × ℝ × ℝ) :
    c.inside y = true ↔ ∃ a b d, a ^ 2 + b ^ 2 ≤ 1 ∧ (-1 ≤ d ∧ d ≤ 1) ∧
      y = comb3 c.center c.v1 c.v2 c.w a b d := by
  rw [C28_cylinder_inside c hc _ _ (hb ▸ baseDisc_ok l0)]
  simp [cylinder, disc]

/-- C28 (`CylinderTriangle`). -/
theorem C28_cylinder_triangle_inside (c : Cyl K) (nf : V2 K → V2 K → V2 K) (l0 l1 l2 : Int)
    (hb : c.base = baseTriangle nf l0 l1 l2) (hc : inner3 c.v1 (cross c.v2 c.w) ≠ 0)
    (y : K × K × K) :
    c.inside y = true ↔ ∃ a b d, (0 ≤ a ∧ 0 ≤ b ∧ a + b ≤ 1) ∧ (-1 ≤ d ∧ d ≤ 1) ∧
      y = comb3 c.center c.v1 c.v2 c.w a b d := by
  rw [C28_cylinder_inside c hc _ _ (hb ▸ baseTriangle_ok nf l0 l1 l2)]
  simp [cylinder, unitTriangle]

theorem parallelepiped_det (nf : V2 K → V2 K → V2 K) (p v0 v1 v2 : K × K × K)
    (l0 l1 l2 l3 lb lt : Int) (h : inner3 v0 (cross v1 v2) ≠ 0) :
    inner3 (parallelepiped nf p v0 v1 v2 l0 l1 l2 l3 lb lt).v1
      (cross (parallelepiped nf p v0 v1 v2 l0 l1 l2 l3 lb lt).v2
        (parallelepiped nf p v0 v1 v2 l0 l1 l2 l3 lb lt).w) ≠ 0 := by
  have : inner3 (parallelepiped nf p v0 v1 v2 l0 l1 l2 l3 lb lt).v1
      (cross (parallelepiped nf p v0 v1 v2 l0 l1 l2 l3 lb lt).v2
        (parallelepiped nf p v0 v1 v2 l0 l1 l2 l3 lb lt).w) =
      1 / 2 * inner3 v0 (cross v1 v2) := by
    unfold parallelepiped inner3 cross; simp only; ring
  rw [this]
  exact mul_ne_zero (by norm_num) h

/-- C28 (`Parallelepiped`): the points `p + a v0 + b v1 + d v2`, `a`, `b`, `d` in `[0, 1]`. -/
theorem C28_parallelepiped_inside (nf : V2 K → V2 K → V2 K) (p v0 v1 v2 : K × K × K)
    (l0 l1 l2 l3 lb lt : Int) (h : inner3 v0 (cross v1 v2) ≠ 0) (y : K × K × K) :
    (parallelepiped nf p v0 v1 v2 l0 l1 l2 l3 lb lt).inside y = true ↔ y ∈ box p v0 v1 v2 := by
  rw [C28_cylinder_inside _ (parallelepiped_det nf p v0 v1 v2 l0 l1 l2 l3 lb lt h) _ _
    (baseParallelogram_ok nf l0 l1 l2 l3)]
  unfold cylinder box parallelepiped comb3
  simp only [unitSquare, Set.mem_ofPred_eq]
  constructor
  · rintro ⟨a, b, d, ⟨h1, h2⟩, h3, rfl⟩
    refine ⟨a, b, (1 + d) / 2, h1, h2, ⟨by linarith, by linarith⟩, ?_⟩
    simp only [Prod.mk.injEq]
    refine ⟨?_, ?_, ?_⟩ <;> ring
  · rintro ⟨a, b, d, h1, h2, h3, rfl⟩
    refine ⟨a, b, 2 * d - 1, ⟨h1, h2⟩, ⟨by linarith, by linarith⟩, ?_⟩
    simp only [Prod.mk.injEq]
    refine ⟨?_, ?_, ?_⟩ <;> ring

/-- C24 (`CylinderCircle`, `CylinderEllipse`). -/
theorem C24_cylinder_disc_enter (c : Cyl ℝ) (l0 : Int) (hb : c.base = baseDisc l0)
    (hc : inner3 c.v1 (cross c.v2 c.w) ≠ 0) (x v : ℝ × ℝ × ℝ) (hout : c.inside x = false)
    (hin : c.inside (x.1 + v.1, x.2.1 + v.2.1, x.2.2 + v.2.2) = true) :
    0 < (c.distance x v 1).alpha ∧ (c.distance x v 1).alpha ≤ 1 ∧
      along3 x v (c.distance x v 1).alpha ∈
        cylinderSurface c.center c.v1 c.v2 c.w (disc (0, 0) 1) (circle (0, 0) 1) :=
  C24_cylinder_enter c hc _ _ (hb ▸ baseDisc_ok l0) x v hout hin

/-- C24 (`Parallelepiped`): the hit is a point of the box with one parameter 0 or 1. -/
theorem C24_parallelepiped_enter (nf : V2 K → V2 K → V2 K) (p v0 v1 v2 : K × K × K)
    (l0 l1 l2 l3 lb lt : Int) (h : inner3 v0 (cross v1 v2) ≠ 0) (x v : K × K × K)
    (hout : (parallelepiped nf p v0 v1 v2 l0 l1 l2 l3 lb lt).inside x = false)
    (hin : (parallelepiped nf p v0 v1 v2 l0 l1 l2 l3 lb lt).inside
      (x.1 + v.1, x.2.1 + v.2.1, x.2.2 + v.2.2) = true) :
    let alpha := ((parallelepiped nf p v0 v1 v2 l0 l1 l2 l3 lb lt).distance x v 1).alpha
    0 < alpha ∧ alpha ≤ 1 ∧ ∃ a b d, (0 ≤ a ∧ a ≤ 1) ∧ (0 ≤ b ∧ b ≤ 1) ∧ (0 ≤ d ∧ d ≤ 1) ∧
      (a = 0 ∨ a = 1 ∨ b = 0 ∨ b = 1 ∨ d = 0 ∨ d = 1) ∧
      along3 x v alpha = comb3 p v0 v1 v2 a b d := by
  obtain ⟨h1, h2, a, b, d, h3, h4⟩ := C24_cylinder_enter _
    (parallelepiped_det nf p v0 v1 v2 l0 l1 l2 l3 lb lt h) _ _
    (baseParallelogram_ok nf l0 l1 l2 l3) x v hout hin
  refine ⟨h1, h2, a, b, (1 + d) / 2, ?_⟩
  have hy : along3 x v ((parallelepiped nf p v0 v1 v2 l0 l1 l2 l3 lb lt).distance x v 1).alpha =
      comb3 p v0 v1 v2 a b ((1 + d) / 2) := by
    rw [h4]
    unfold parallelepiped comb3
    simp only [Prod.mk.injEq]
    refine ⟨?_, ?_, ?_⟩ <;> ring
  rcases h3 with ⟨⟨⟨h5, h6⟩, h7⟩, h8⟩ | ⟨⟨h5, h6⟩, h8⟩
  · refine ⟨h5, h6, ⟨by linarith, by linarith⟩, ?_, hy⟩
    simp only at h7; tauto
  · refine ⟨h5, h6, ?_, ?_, hy⟩
    · rcases h8 with h8 | h8 <;> rw [h8] <;> norm_num
    · rcases h8 with h8 | h8 <;> rw [h8] <;> norm_num

/-- A slanted parallelepiped and a link entering it. -/
example : ∃ c : Cyl ℚ, c = parallelepiped (fun _ w => w) (0, 0, 0) (2, 0, 0) (1, 2, 0) (1, 1, 2)
      0 1 2 3 4 5 ∧ c.inside (1, 1, -1) = false ∧ c.inside (1 + 1, 1 + 1, -1 + 2) = true ∧
      (c.distance (1, 1, -1) (1, 1, 2) 1).alpha = 1 / 2 ∧
      (c.distance (1, 1, -1) (1, 1, 2) 1).border = 4 :=
  ⟨_, rfl, by decide +kernel⟩

/-! ### C29: bounds of the cylinders -/

/-- The largest of the four corner values is that of a corner. -/
theorem max_corner (x s t : K) : ∃ a b : K, (0 ≤ a ∧ a ≤ 1) ∧ (0 ≤ b ∧ b ≤ 1) ∧
    max (max (max x (x + s)) (x + s + t)) (x + t) = x + a * s + b * t := by
  rcases max_choice (max (max x (x + s)) (x + s + t)) (x + t) with h | h
  · rcases max_choice (max x (x + s)) (x + s + t) with h1 | h1
    · rcases max_choice x (x + s) with h2 | h2
      · exact ⟨0, 0, by simp, by simp, by rw [h, h1, h2]; ring⟩
      · exact ⟨1, 0, by simp, by simp, by rw [h, h1, h2]; ring⟩
    · exact ⟨1, 1, by simp, by simp, by rw [h, h1]; ring⟩
  · exact ⟨0, 1, by simp, by simp, by rw [h]; ring⟩

/-- The smallest of the four corner values is that of a corner. -/
theorem min_corner (x s t : K) : ∃ a b : K, (0 ≤ a ∧ a ≤ 1) ∧ (0 ≤ b ∧ b ≤ 1) ∧
    min (min (min x (x + s)) (x + s + t)) (x + t) = x + a * s + b * t := by
  rcases min_choice (min (min x (x + s)) (x + s + t)) (x + t) with h | h
  · rcases min_choice (min x (x + s)) (x + s + t) with h1 | h1
    · rcases min_choice x (x + s) with h2 | h2
      · exact ⟨0, 0, by simp, by simp, by rw [h, h1, h2]; ring⟩
      · exact ⟨1, 0, by simp, by simp, by rw [h, h1, h2]; ring⟩
    · exact ⟨1, 1, by simp, by simp, by rw [h, h1]; ring⟩
  · exact ⟨0, 1, by simp, by simp, by rw [h]; ring⟩

/-- One coordinate of the corners of a parallelepiped, and its bounds. -/
theorem corner_out (p s t u : K) (hu : u ≠ 0) : ∃ a b d : K, (0 ≤ a ∧ a ≤ 1) ∧ (0 ≤ b ∧ b ≤ 1) ∧
    (0 ≤ d ∧ d ≤ 1) ∧
    ¬ (min (min (min (p + 1 / 2 * u) (p + 1 / 2 * u + s)) (p + 1 / 2 * u + s + t))
          (p + 1 / 2 * u + t) - 1 / 2 * |1 / 2 * u| ≤ p + a * s + b * t + d * u ∧
        p + a * s + b * t + d * u ≤ max (max (max (p + 1 / 2 * u) (p + 1 / 2 * u + s))
          (p + 1 / 2 * u + s + t)) (p + 1 / 2 * u + t) + 1 / 2 * |1 / 2 * u|) := by
  rcases lt_or_gt_of_ne hu with hu | hu
  · obtain ⟨a, b, ha, hb, h⟩ := min_corner (p + 1 / 2 * u) s t
    refine ⟨a, b, 1, ha, hb, by simp, fun h1 => ?_⟩
    have := h1.1
    rw [h, abs_of_neg (by linarith)] at this
    linarith
  · obtain ⟨a, b, ha, hb, h⟩ := max_corner (p + 1 / 2 * u) s t
    refine ⟨a, b, 1, ha, hb, by simp, fun h1 => ?_⟩
    have := h1.2
    rw [h, abs_of_pos (by linarith)] at this
    linarith

/-- C29 is false for the parallelepipeds: the height is added by half twice (`w` is already half of
the third vector).  Every parallelepiped has points which are not in its bounds. -/
theorem C29_parallelepiped_bounds_negation (nf : V2 K → V2 K → V2 K) (p v0 v1 v2 : K × K × K)
    (l0 l1 l2 l3 lb lt : Int) (h : inner3 v0 (cross v1 v2) ≠ 0) :
    let c := parallelepiped nf p v0 v1 v2 l0 l1 l2 l3 lb lt
    ∃ y, c.inside y = true ∧ ¬ InBox3 (c.bounds c.cornerBounds) y := by
  intro c
  have hin : ∀ a b d, (0 ≤ a ∧ a ≤ 1) → (0 ≤ b ∧ b ≤ 1) → (0 ≤ d ∧ d ≤ 1) →
      c.inside (comb3 p v0 v1 v2 a b d) = true := fun a b d ha hb hd =>
    (C28_parallelepiped_inside nf p v0 v1 v2 l0 l1 l2 l3 lb lt h _).2 ⟨a, b, d, ha, hb, hd, rfl⟩
  have hz : v2.1 ≠ 0 ∨ v2.2.1 ≠ 0 ∨ v2.2.2 ≠ 0 := by
    by_contra hz
    push Not at hz
    apply h; unfold inner3 cross; rw [hz.1, hz.2.1, hz.2.2]; ring
  rcases hz with hz | hz | hz
  · obtain ⟨a, b, d, ha, hb, hd, hn⟩ := corner_out p.1 v0.1 v1.1 v2.1 hz
    exact ⟨_, hin a b d ha hb hd, fun hbox => hn ⟨hbox.1, hbox.2.1⟩⟩
  · obtain ⟨a, b, d, ha, hb, hd, hn⟩ := corner_out p.2.1 v0.2.1 v1.2.1 v2.2.1 hz
    exact ⟨_, hin a b d ha hb hd, fun hbox => hn ⟨hbox.2.2.1, hbox.2.2.2.1⟩⟩
  · obtain ⟨a, b, d, ha, hb, hd, hn⟩ := corner_out p.2.2 v0.2.2 v1.2.2 v2.2.2 hz
    exact ⟨_, hin a b d ha hb hd, fun hbox => hn ⟨hbox.2.2.2.2.1, hbox.2.2.2.2.2⟩⟩

/-- One coordinate of the points of a triangular cylinder, and its bounds. -/
theorem corner_out_triangle (p s t u : K) (hu : u ≠ 0) : ∃ a b d : K,
    (0 ≤ a ∧ 0 ≤ b ∧ a + b ≤ 1) ∧ (-1 ≤ d ∧ d ≤ 1) ∧
    ¬ (min (min (min p (p + s)) (p + s + t)) (p + t) - 1 / 2 * |u| ≤ p + a * s + b * t + d * u ∧
        p + a * s + b * t + d * u ≤
          max (max (max p (p + s)) (p + s + t)) (p + t) + 1 / 2 * |u|) := by
  obtain ⟨d, hd, hdu⟩ : ∃ d : K, (-1 ≤ d ∧ d ≤ 1) ∧ d * u = |u| := by
    rcases lt_or_gt_of_ne hu with h | h
    · exact ⟨-1, by norm_num, by rw [abs_of_neg h]; ring⟩
    · exact ⟨1, by norm_num, by rw [abs_of_pos h]; ring⟩
  have hpos : 0 < |u| := abs_pos.2 hu
  by_cases hst : 0 < s ∧ 0 < t
  · refine ⟨0, 0, -d, by norm_num, ⟨by linarith [hd.2], by linarith [hd.1]⟩, fun h => ?_⟩
    have h1 := h.1
    rw [min_eq_left (show p ≤ p + s by linarith), min_eq_left (show p ≤ p + s + t by linarith),
      min_eq_left (show p ≤ p + t by linarith)] at h1
    linarith
  · have hmax : ∃ a b : K, (0 ≤ a ∧ 0 ≤ b ∧ a + b ≤ 1) ∧
        max (max (max p (p + s)) (p + s + t)) (p + t) ≤ p + a * s + b * t := by
      rcases le_or_gt s 0 with h1 | h1
      · rcases le_or_gt t 0 with h2 | h2
        · refine ⟨0, 0, by norm_num, ?_⟩
          simp only [max_le_iff]
          refine ⟨⟨⟨?_, ?_⟩, ?_⟩, ?_⟩ <;> linarith
        · refine ⟨0, 1, by norm_num, ?_⟩
          simp only [max_le_iff]
          refine ⟨⟨⟨?_, ?_⟩, ?_⟩, ?_⟩ <;> linarith
      · have h2 : t ≤ 0 := by by_contra h2; exact hst ⟨h1, not_le.1 h2⟩
        refine ⟨1, 0, by norm_num, ?_⟩
        simp only [max_le_iff]
        refine ⟨⟨⟨?_, ?_⟩, ?_⟩, ?_⟩ <;> linarith
    obtain ⟨a, b, hab, hm⟩ := hmax
    refine ⟨a, b, d, hab, hd, fun h => ?_⟩
    linarith [h.2]

/-- C29 is false for the triangular cylinders: every one has points which are not in its bounds. -/
theorem C29_cylinder_triangle_bounds_negation (c : Cyl K) (nf : V2 K → V2 K → V2 K)
    (l0 l1 l2 : Int) (hb : c.base = baseTriangle nf l0 l1 l2)
    (hc : inner3 c.v1 (cross c.v2 c.w) ≠ 0) :
    ∃ y, c.inside y = true ∧ ¬ InBox3 (c.bounds c.cornerBounds) y := by
  have hin : ∀ a b d, (0 ≤ a ∧ 0 ≤ b ∧ a + b ≤ 1) → (-1 ≤ d ∧ d ≤ 1) →
      c.inside (comb3 c.center c.v1 c.v2 c.w a b d) = true := fun a b d hab hd =>
    (C28_cylinder_triangle_inside c nf l0 l1 l2 hb hc _).2 ⟨a, b, d, hab, hd, rfl⟩
  have hz : c.w.1 ≠ 0 ∨ c.w.2.1 ≠ 0 ∨ c.w.2.2 ≠ 0 := by
    by_contra hz
    push Not at hz
    apply hc; unfold inner3 cross; rw [hz.1, hz.2.1, hz.2.2]; ring
  rcases hz with hz | hz | hz
  · obtain ⟨a, b, d, hab, hd, hn⟩ := corner_out_triangle c.center.1 c.v1.1 c.v2.1 c.w.1 hz
    exact ⟨_, hin a b d hab hd, fun hbox => hn ⟨hbox.1, hbox.2.1⟩⟩
  · obtain ⟨a, b, d, hab, hd, hn⟩ := corner_out_triangle c.center.2.1 c.v1.2.1 c.v2.2.1 c.w.2.1 hz
    exact ⟨_, hin a b d hab hd, fun hbox => hn ⟨hbox.2.2.1, hbox.2.2.2.1⟩⟩
  · obtain ⟨a, b, d, hab, hd, hn⟩ := corner_out_triangle c.center.2.2 c.v1.2.2 c.v2.2.2 c.w.2.2 hz
    exact ⟨_, hin a b d hab hd, fun hbox => hn ⟨hbox.2.2.2.2.1, hbox.2.2.2.2.2⟩⟩

/-- A triangular cylinder which is not degenerate. -/
example : ∃ c : Cyl ℚ, c = ⟨(0, 0, 1 / 2), (1, 0, 0), (0, 1, 0), (0, 0, 1),
    baseTriangle (fun _ w => w) 0 1 2, 3, 4⟩ ∧ inner3 c.v1 (cross c.v2 c.w) ≠ 0 ∧
    c.inside (1 / 4, 1 / 4, 3 / 2) = true ∧ (c.bounds c.cornerBounds).2 = (1, 1, 1) :=
  ⟨_, rfl, by decide +kernel⟩

/-- C29 is false for the tall circular cylinders: on a horizontal base of radius `r`, with half
height `h > 2 r`, the centre of the top is inside and not in the bounds (those of
`CylinderEllipse`; `CylinderCircle` has the same with equal half axes). -/
theorem C29_cylinder_disc_bounds_negation (l0 lb lt : Int) (r h : ℝ) (hr : 0 < r) (hh : 2 * r < h) :
    let c : Cyl ℝ := ⟨(0, 0, 0), (r, 0, 0), (0, r, 0), (0, 0, h), baseDisc l0, lb, lt⟩
    ∃ y, c.inside y = true ∧ ¬ InBox3 (c.bounds c.ellipseBounds) y := by
  intro c
  have hdet : inner3 c.v1 (cross c.v2 c.w) ≠ 0 := by
    simp only [c, inner3, cross]
    have : r * (r * h) ≠ 0 := by have : 0 < h := by linarith
                                 positivity
    simpa using this
  refine ⟨comb3 c.center c.v1 c.v2 c.w 0 0 1, (C28_cylinder_disc_inside c l0 rfl hdet _).2
    ⟨0, 0, 1, by norm_num, by norm_num, rfl⟩, ?_⟩
  rintro ⟨_, _, _, _, _, h6⟩
  have e : Real.sqrt (r * r) = r := Real.sqrt_mul_self hr.le
  simp [Cyl.bounds, Cyl.ellipseBounds, comb3, c, inner3, e] at h6
  rw [abs_of_pos (by linarith)] at h6
  linarith

/-- C29 (parallelepipeds and triangular cylinders, the half of the points closest to the plane of
the base frame; the statement for all points is false): points of parameter `|d| ≤ 1/2` are in the
bounds. -/
theorem C29_cylinder_bounds_partial (c : Cyl K) (y : K × K × K) (a b d : K)
    (hy : y = comb3 c.center c.v1 c.v2 c.w a b d) (ha : 0 ≤ a ∧ a ≤ 1) (hb : 0 ≤ b ∧ b ≤ 1)
    (hd : |d| ≤ 1 / 2) : InBox3 (c.bounds c.cornerBounds) y := by
  have hw : ∀ t : K, -(1 / 2 * |t|) ≤ d * t ∧ d * t ≤ 1 / 2 * |t| := by
    intro t
    apply abs_le.1
    rw [abs_mul]
    exact mul_le_mul_of_nonneg_right hd (abs_nonneg t)
  have k1 := between_corners c.center.1 c.v1.1 c.v2.1 a b ha hb
  have k2 := between_corners c.center.2.1 c.v1.2.1 c.v2.2.1 a b ha hb
  have k3 := between_corners c.center.2.2 c.v1.2.2 c.v2.2.2 a b ha hb
  have w1 := hw c.w.1
  have w2 := hw c.w.2.1
  have w3 := hw c.w.2.2
  subst hy
  unfold InBox3 Cyl.bounds Cyl.cornerBounds comb3
  simp only
  refine ⟨?_, ?_, ?_, ?_, ?_, ?_⟩ <;> linarith [k1.1, k1.2, k2.1, k2.2, k3.1, k3.2, w1.1, w1.2,
    w2.1, w2.2, w3.1, w3.2]

/-- C29 (all cylinders on a triangle or a parallelogram): every point inside is in the bounds
enlarged once more by half of `w`, which is what the whole height needs. -/
theorem C29_cylinder_enlarged_partial (c : Cyl K) (hc : inner3 c.v1 (cross c.v2 c.w) ≠ 0)
    (C : Set (K × K)) (hB : c.base.OK unitSquare C ∨ c.base.OK unitTriangle C) (y : K × K × K)
    (h : c.inside y = true) : InBox3 (c.bounds (c.bounds c.cornerBounds)) y := by
  have hy : ∃ a b d, ((0 ≤ a ∧ a ≤ 1) ∧ (0 ≤ b ∧ b ≤ 1)) ∧ (-1 ≤ d ∧ d ≤ 1) ∧
      y = comb3 c.center c.v1 c.v2 c.w a b d := by
    rcases hB with hB | hB
    · obtain ⟨a, b, d, h1, h2, h3⟩ := (C28_cylinder_inside c hc _ _ hB y).1 h
      exact ⟨a, b, d, h1, h2, h3⟩
    · obtain ⟨a, b, d, h1, h2, h3⟩ := (C28_cylinder_inside c hc _ _ hB y).1 h
      simp only [unitTriangle, Set.mem_ofPred_eq] at h1
      exact ⟨a, b, d, ⟨⟨h1.1, by linarith⟩, ⟨h1.2.1, by linarith⟩⟩, h2, h3⟩
  obtain ⟨a, b, d, ⟨ha, hb⟩, hd, rfl⟩ := hy
  have hw : ∀ t : K, -|t| ≤ d * t ∧ d * t ≤ |t| := by
    intro t
    apply abs_le.1
    rw [abs_mul]
    have := mul_le_mul_of_nonneg_right (abs_le.2 hd) (abs_nonneg t)
    linarith
  have k1 := between_corners c.center.1 c.v1.1 c.v2.1 a b ha hb
  have k2 := between_corners c.center.2.1 c.v1.2.1 c.v2.2.1 a b ha hb
  have k3 := between_corners c.center.2.2 c.v1.2.2 c.v2.2.2 a b ha hb
  have w1 := hw c.w.1
  have w2 := hw c.w.2.1
  have w3 := hw c.w.2.2
  unfold InBox3 Cyl.bounds Cyl.cornerBounds comb3
  simp only
  refine ⟨?_, ?_, ?_, ?_, ?_, ?_⟩ <;> linarith [k1.1, k1.2, k2.1, k2.2, k3.1, k3.2, w1.1, w1.2,
    w2.1, w2.2, w3.1, w3.2]

end Pylbm.Geometry
