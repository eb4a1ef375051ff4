import Verif.Domain.MirrorLibrary
import Verif.Domain.Witness
import Verif.Domain.Provenance
/-!
# Mirrored domains: cases of C86, and what the symmetries do not keep
-/
set_option linter.unusedSectionVars false
namespace Pylbm.Domain
open Round Storage DomainSpec Geometry GeometrySpec

variable {K : Type} [Field K] [LinearOrder K] [IsStrictOrderedRing K] [FloorRing K] {nv : Nat}

/-! ## The exchange of the two axes -/

/-- The link of the velocity (1, 1) of the last cell of a box: it goes through the two upper faces at the same point,
and takes the label of the face of the first axis. -/
theorem corner_flag (g : Grid K 2 nv) (hg : g.WF) (h0 : ∀ j, g.r0 j = 0) (h1 : ∀ j, g.r1 j = g.N j)
    (hl : ∀ j, g.userLabel j true ≠ -2) (st : State K 2 nv) (h : build g [] = some st) (k : Fin nv)
    (hk : ∀ j, g.vel k j = 1) (c : Cell 2) (hc : ∀ j, c j = g.h j + g.N j - 1) (hN : ∀ j, 0 < g.N j) :
    (st.link k c).flag = g.userLabel 0 true := by
  have hn : ∀ j, g.n j = g.N j := fun j => by simp [Grid.n, h0, h1]
  have hI : g.Interior c := fun j => by rw [hc, hn]; have := hN j; omega
  have hlab : ∀ j, g.label j true = g.userLabel j true := fun j => by simp [Grid.label, h1]
  have hX : ∀ j, Crosses g.n (g.inner c) (g.vel k) ⟨j, true⟩ (1 / 2 : K) := fun j => by
    refine ⟨by norm_num, by norm_num, ?_⟩
    have : g.inner c j = (g.N j : Int) - 1 := by rw [Grid.inner, hc]; ring
    simp only [this, hk, facePos, if_true, hn]
    push_cast
    ring
  have hA : ∀ j, g.Active ⟨j, true⟩ := fun j => by unfold Grid.Active; rw [hlab]; exact hl j
  have hf := C59_box_links_flagged_partial g hg [] (by simp) st h c hI k (by simp) ⟨0, true⟩ (1 / 2) (hA 0) (hX 0)
  have hne : (st.link k c).dist ≠ 999 := fun h9 => by rw [h9] at hf; linarith [hf.2.2.1]
  rcases C65_same_wall g hg [] (by simp) st h c k hne with ⟨f, ⟨_, hcr, hmin⟩, hfl, _⟩ | ⟨e, he, _⟩
  · have hup : f.upper = true := by
      by_contra hu
      rw [Bool.not_eq_true] at hu
      have h3 := hcr.2.2
      have hi : g.inner c f.ax = (g.N f.ax : Int) - 1 := by rw [Grid.inner, hc]; ring
      simp only [hi, hk, facePos, hu] at h3
      push_cast at h3
      have := hcr.1
      have h4 : (1 : K) ≤ (g.N f.ax : K) := by exact_mod_cast hN f.ax
      norm_num at h3
      linarith
    have hax : f.ax = 0 := by
      rcases hmin ⟨0, true⟩ _ (hA 0) (hX 0) with h5 | ⟨_, h5⟩
      · have h3 := hcr.2.2
        have hi : g.inner c f.ax = (g.N f.ax : Int) - 1 := by rw [Grid.inner, hc]; ring
        simp only [hi, hk, facePos, hup, if_true, hn] at h3
        push_cast at h3
        linarith
      · exact Fin.le_zero_iff.1 h5
    rw [hfl, hup, hax, hlab]
  · simp at he

/-- **C86 does not hold for the exchange of the axes** (nor for the quarter turns): take any square box whose upper
faces have different labels, and the box with the labels of the two axes exchanged. The corner cell and the velocity
(1, 1) are their own images, but the label of the link differs: a link which crosses two faces at the same point takes
the label of the first axis. So for instance the driven cavity with the lid along x and the one with the lid along y
apply different conditions in the corners. -/
theorem C86_turn_negation (g g' : Grid K 2 nv) (hg : g.WF) (hg' : g'.WF) (h0 : ∀ j, g.r0 j = 0)
    (h1 : ∀ j, g.r1 j = g.N j) (h0' : ∀ j, g'.r0 j = 0) (h1' : ∀ j, g'.r1 j = g'.N j)
    (hsq : g.N 0 = g.N 1) (hN : 0 < g.N 0) (hNN : g'.N = g.N) (hhh : g'.h = g.h) (hh : g.h 0 = g.h 1)
    (hvel : g'.vel = g.vel) (hlab : ∀ j side, g'.userLabel j side = g.userLabel (1 - j) side)
    (hl : ∀ j, g.userLabel j true ≠ -2) (hne : g.userLabel 0 true ≠ g.userLabel 1 true)
    (k : Fin nv) (hk : ∀ j, g.vel k j = 1)
    (st st' : State K 2 nv) (h : build g [] = some st) (h' : build g' [] = some st') :
    ∃ c : Cell 2, g.Interior c ∧ (fun j => c (1 - j)) = c ∧ (st'.link k c).flag ≠ (st.link k c).flag := by
  have hsq' : ∀ j, g.N j = g.N 0 := fun j => by fin_cases j <;> simp [hsq]
  have hh' : ∀ j, g.h j = g.h 0 := fun j => by fin_cases j <;> simp [hh]
  refine ⟨fun j => g.h j + g.N j - 1, fun j => ?_, ?_, ?_⟩
  · have hn : g.n j = g.N j := by simp [Grid.n, h0, h1]
    have := hsq' j
    simp only [hn]; omega
  · funext j
    simp only [hsq', hh']
  · rw [corner_flag g hg h0 h1 hl st h k hk _ (fun _ => rfl) (fun j => by rw [hsq']; exact hN),
      corner_flag g' hg' h0' h1' (fun j => by rw [hlab]; exact hl _) st' h' k (fun j => by rw [hvel]; exact hk j) _
        (fun j => by rw [hhh, hNN]) (fun j => by rw [hNN, hsq']; exact hN), hlab]
    simpa using hne.symm

/-- A square cavity whose lid is the upper face of the second axis. -/
def cavity (turned : Bool) : Grid ℚ 2 9 where
  lo := ![0, 0]
  dx := 1
  N := ![3, 3]
  r0 := ![0, 0]
  r1 := ![3, 3]
  h := ![1, 1]
  vel := ![![0, 0], ![1, 0], ![0, 1], ![-1, 0], ![0, -1], ![1, 1], ![-1, 1], ![-1, -1], ![1, -1]]
  userLabel := fun j side => if side && (j = 1) != turned then 1 else 0

/-- A case for `C86_turn_negation`. -/
example : (cavity false).WF ∧ (cavity true).WF ∧
    (∀ j side, (cavity true).userLabel j side = (cavity false).userLabel (1 - j) side) ∧
    (cavity false).userLabel 0 true ≠ (cavity false).userLabel 1 true ∧ (∀ j, (cavity false).vel 5 j = 1) ∧
    (build (cavity false) []).isSome ∧ (build (cavity true) []).isSome :=
  ⟨⟨by decide +kernel, by decide +kernel, by decide +kernel⟩, ⟨by decide +kernel, by decide +kernel, by decide +kernel⟩,
    by decide +kernel, by decide +kernel, by decide +kernel, by decide +kernel, by decide +kernel⟩

/-! ## The construction which fails on one side -/

/-- The mirror image of the rectangle `rect a b c d` of the examples in the box of a grid. -/
def mirRect {nv : Nat} (g : Grid ℚ 2 nv) (fl : Fin 2 → Bool) (a b c d : ℚ) (lab : Int) (fluid : Bool) : Elem ℚ 2 :=
  parallelogramElem (fun _ w => w) ⟨mirP fl (fun j => 2 * g.lo j + g.dx * g.N j) (a, c), mirV fl (b - a, 0),
    mirV fl (0, d - c)⟩ lab lab lab lab fluid

theorem mirRect_mirrored {nv : Nat} (g : Grid ℚ 2 nv) (fl : Fin 2 → Bool) (a b c d : ℚ) (lab : Int) (fluid : Bool) :
    (rect a b c d lab fluid).Mirrored g fl (mirRect g fl a b c d lab fluid) := by
  unfold rect mirRect parallelogramElem
  refine planar_mirror g fl fluid _ _ _ _ _ _ (fun x => ?_) fun x v => ?_
  · unfold parallelogramInside
    have := bary_mirror fl (fun j => 2 * g.lo j + g.dx * g.N j) ⟨(a, c), (b - a, 0), (0, d - c)⟩ x
    simp only at this
    rw [this]
  · unfold Quad.distance
    simp only
    rw [mirP_sub]
    have z : mirV fl ((0 : ℚ), (0 : ℚ)) = (0, 0) := by unfold mirV; simp
    have hE : (parallelogramEdges ⟨(a, c), (b - a, 0), (0, d - c)⟩ lab lab lab lab).map (mirEdge fl) =
        parallelogramEdges ⟨mirP fl (fun j => 2 * g.lo j + g.dx * g.N j) (a, c), mirV fl (b - a, 0),
          mirV fl (0, d - c)⟩ lab lab lab lab := by
      simp only [parallelogramEdges, mirEdge, List.map_cons, List.map_nil, z]
    rw [← hE]
    exact lines_mirror fl (fun _ w => w) (fun _ _ _ => rfl) _ v _ (some 1)

theorem mirRect_sound {nv : Nat} (g : Grid ℚ 2 nv) (fl : Fin 2 → Bool) {a b c d : ℚ} (h1 : a < b) (h2 : c < d)
    (lab : Int) (fluid : Bool) : (mirRect g fl a b c d lab fluid).Sound :=
  parallelogramElem_sound _ _ (by
    have e1 : b - a ≠ 0 := by linarith
    have e2 : d - c ≠ 0 := by linarith
    have e3 : a - b ≠ 0 := by linarith
    have e4 : c - d ≠ 0 := by linarith
    unfold mirV
    cases fl 0 <;> cases fl 1 <;> simp [e1, e2, e3, e4]) _ _ _ _ _

/-- **C86 does not hold for the construction itself**: a rectangle two cells on the left of the box makes the
construction of the domain fail, its mirror image on the right of the box does not. -/
theorem C86_failure_negation : ∃ e e' : Elem ℚ 2, boxGrid.WF ∧ e.Sound ∧ e'.Sound ∧
    e.Mirrored boxGrid ![true, false] e' ∧ build boxGrid [e] = none ∧
    (build (boxGrid.mirror ![true, false]) [e']).isSome = true :=
  ⟨rect (-4) (-5 / 2) 0 3 7 true, mirRect boxGrid ![true, false] (-4) (-5 / 2) 0 3 7 true, boxGrid_wf,
    rect_sound (by norm_num) (by norm_num) _ _, mirRect_sound _ _ (by norm_num) (by norm_num) _ _,
    mirRect_mirrored _ _ _ _ _ _ _ _, Option.isNone_iff_eq_none.1 (by decide +kernel), by decide +kernel⟩

/-- A case for `C86_domain`: the box with a solid square and a fluid one inside the next cells, mirrored in the first
direction; the cell left of the square has the distance 3/4 to the right, its image has it to the left. -/
example : ∃ st st', boxGrid.WF ∧ (∀ k, boxGrid.vel (![0, 3, 2, 1, 4] k) = mirrorVec ![true, false] (boxGrid.vel k)) ∧
    List.Forall₂ (Elem.Mirrored boxGrid ![true, false]) [obstacle, rect (1 / 4) (3 / 4) 0 1 8 true]
      [mirRect boxGrid ![true, false] (5 / 4) (7 / 4) (5 / 4) (7 / 4) 7 false,
        mirRect boxGrid ![true, false] (1 / 4) (3 / 4) 0 1 8 true] ∧
    build boxGrid [obstacle, rect (1 / 4) (3 / 4) 0 1 8 true] = some st ∧
    build (boxGrid.mirror ![true, false]) [mirRect boxGrid ![true, false] (5 / 4) (7 / 4) (5 / 4) (7 / 4) 7 false,
      mirRect boxGrid ![true, false] (1 / 4) (3 / 4) 0 1 8 true] = some st' ∧
    (st.link 1 ![1, 2]).dist = 3 / 4 ∧ boxGrid.mirrorCell ![true, false] ![1, 2] = ![4, 2] ∧
    (st'.link 3 ![4, 2]).dist = 3 / 4 ∧ (st'.link 3 ![4, 2]).flag = 7 := by
  refine ⟨(build boxGrid [obstacle, rect (1 / 4) (3 / 4) 0 1 8 true]).get (by decide +kernel),
    (build (boxGrid.mirror ![true, false]) [mirRect boxGrid ![true, false] (5 / 4) (7 / 4) (5 / 4) (7 / 4) 7 false,
      mirRect boxGrid ![true, false] (1 / 4) (3 / 4) 0 1 8 true]).get (by decide +kernel), boxGrid_wf,
    by decide +kernel, .cons (mirRect_mirrored _ _ _ _ _ _ _ _) (.cons (mirRect_mirrored _ _ _ _ _ _ _ _) .nil),
    (Option.some_get _).symm, (Option.some_get _).symm, ?_⟩
  decide +kernel

end Pylbm.Domain
