import Verif.Boundary.Mass
/-!
# Concrete boundary conditions: cases meeting the hypotheses of C30–C35, and counterexamples
-/
set_option linter.unusedSectionVars false
namespace Pylbm.Boundary
open Domain DomainSpec BoundarySpec

/-- The instances prepared by `prepare_rhs` satisfy `OnDomain`. -/
theorem onDomain_prepareAll {K : Type} [Field K] [LinearOrder K] [IsStrictOrderedRing K]
    [FloorRing K] {dim : Nat} {s : Sten dim} {g : Grid K dim s.nu} {elems : List (Elem K dim)}
    {st : State K dim s.nu} {labels : List Int} {dico : Int → Option (List (Nat × Method dim))}
    (hv : g.vel = s.uvel) (hg : g.WF) (he : ∀ e ∈ elems, e.Sound) (hb : build g elems = some st)
    (hl : labels.Nodup) (hd : ∀ label ms, dico label = some ms → (ms.map Prod.fst).Nodup)
    {insts : List (Method dim × List (Entry K dim s.ns))}
    (h : instances s g.total st.link labels dico = some insts)
    (wall : Int → Option ((Fin dim → K) → Fin s.ns → K)) :
    OnDomain s g elems st labels dico (prepareAll s g wall insts) where
  vel := hv
  wf := hg
  sound := he
  built := hb
  nodup := hl
  dict := hd
  perm := by
    refine ⟨insts, h, ?_⟩
    have : ((flat s (prepareAll s g wall insts)).map fun q => (q.1, q.2.toEntry)) =
        entries s insts := by
      unfold flat prepareAll entries
      rw [List.flatMap_map, List.map_flatMap]
      apply List.flatMap_congr
      intro p _
      simp only [List.map_map]
      apply List.map_congr_left
      intro e _
      rfl
    rw [this]

/-- One scheme with the five velocities of `boxGrid`. -/
def sten25 : Sten 2 where
  nu := 5
  ns := 5
  uvel := ![![0, 0], ![1, 0], ![0, 1], ![-1, 0], ![0, -1]]
  usym := ![0, 3, 4, 1, 2]
  ux := id
  scheme := fun _ => 0
  sym := ![0, 3, 4, 1, 2]

theorem sten25_wf : sten25.WF :=
  ⟨by unfold Function.Injective; decide +kernel, by decide +kernel, by decide +kernel,
    by decide +kernel, by decide +kernel⟩

/-- The domain of `Domain/Witness.lean`: a box with a solid square of label 7. -/
def boxState : State ℚ 2 5 := (build boxGrid [obstacle]).get (by decide +kernel)

theorem boxState_eq : build boxGrid [obstacle] = some boxState := (Option.some_get _).symm

/-- Bounce-back on all the labels. -/
def allBounce : Int → Option (List (Nat × Method 2)) := fun _ => some [(0, .bounceBack)]

def boxInsts : List (Method 2 × List (Entry ℚ 2 5)) :=
  (instances sten25 boxGrid.total boxState.link [1, 2, 3, 4, 7] allBounce).get (by decide +kernel)

theorem boxInsts_eq : instances sten25 boxGrid.total boxState.link [1, 2, 3, 4, 7] allBounce =
    some boxInsts := (Option.some_get _).symm

/-- A wall moving along the face 4, at rest elsewhere. -/
def boxWall : Int → Option ((Fin 2 → ℚ) → Fin 5 → ℚ) := fun label =>
  if label = 4 then some fun x k => (k : ℚ) + x 0 else none

/-- A case for C30, C31, C32: the hypotheses hold on this domain. -/
theorem box_onDomain : OnDomain sten25 boxGrid [obstacle] boxState [1, 2, 3, 4, 7] allBounce
    (prepareAll sten25 boxGrid boxWall boxInsts) :=
  onDomain_prepareAll rfl boxGrid_wf (by
    simp only [List.mem_singleton, forall_eq]
    exact rect_sound (by norm_num) (by norm_num) _ _) boxState_eq (by decide)
    (by rintro _ _ ⟨⟩; simp) boxInsts_eq boxWall

example : (999 : Int) ∉ [(1 : Int), 2, 3, 4, 7] ∧
    (∀ p ∈ prepareAll sten25 boxGrid boxWall boxInsts, OneCell p.1) ∧
    ((prepareAll sten25 boxGrid boxWall boxInsts).map fun p => p.2.length) = [18] := by
  refine ⟨by decide, ?_, by decide +kernel⟩
  intro p hp
  have hp' : p.1 = Method.bounceBack := by
    have : ∀ m ∈ (prepareAll sten25 boxGrid boxWall boxInsts).map Prod.fst,
        m = Method.bounceBack := by decide +kernel
    exact this _ (List.mem_map.2 ⟨p, hp, rfl⟩)
  rw [hp']; trivial

/-- The domain is closed in the sense of C32. -/
example : ∀ c ∈ cells 2 boxGrid.total, ∀ u : Fin 5, boxGrid.Interior c → boxState.ioo c = 999 →
    boxState.ioo (boxGrid.target u c) ≠ 999 →
    (boxState.link u c).flag ∈ [(1 : Int), 2, 3, 4, 7] ∧ (boxState.link u c).flag ≠ -1 ∧
      (boxState.link u c).flag ≠ -2 := by decide +kernel

/-- A one-dimensional grid of `n` cells of size 1, three velocities, labels `a` and `b`. -/
def lineGrid (n : Nat) (a b : Int) : Grid ℚ 1 3 where
  lo := ![0]
  dx := 1
  N := ![n]
  r0 := ![0]
  r1 := ![n]
  h := ![1]
  vel := ![![0], ![1], ![-1]]
  userLabel := fun _ side => if side then b else a

def sten13 : Sten 1 where
  nu := 3
  ns := 3
  uvel := ![![0], ![1], ![-1]]
  usym := ![0, 2, 1]
  ux := id
  scheme := fun _ => 0
  sym := ![0, 2, 1]

theorem sten13_wf : sten13.WF :=
  ⟨by unfold Function.Injective; decide +kernel, by decide +kernel, by decide +kernel,
    by decide +kernel, by decide +kernel⟩

/-- C30 needs labels other than 999: with the label 999 (which the code uses for "no boundary"), every
link which is not on a boundary is taken as a boundary link, and values of fluid cells are
overwritten. -/
theorem C30_label_999_negation : ∃ (st : State ℚ 1 3)
    (insts : List (Method 1 × List (Entry ℚ 1 3))), build (lineGrid 3 999 0) [] = some st ∧
    instances sten13 (lineGrid 3 999 0).total st.link [0, 999]
      (fun _ => some [(0, .bounceBack)]) = some insts ∧
    ∃ p ∈ insts, ∃ e ∈ p.2, (lineGrid 3 999 0).Interior e.cell ∧ st.ioo e.cell = 999 := by
  refine ⟨(build (lineGrid 3 999 0) []).get (by decide +kernel),
    (instances sten13 (lineGrid 3 999 0).total
      ((build (lineGrid 3 999 0) []).get (by decide +kernel)).link [0, 999]
      (fun _ => some [(0, .bounceBack)])).get (by decide +kernel), (Option.some_get _).symm,
    (Option.some_get _).symm, ?_⟩
  have h : ((instances sten13 (lineGrid 3 999 0).total
      ((build (lineGrid 3 999 0) []).get (by decide +kernel)).link [0, 999]
      (fun _ => some [(0, .bounceBack)])).get (by decide +kernel)).any (fun p => p.2.any fun e =>
      decide (1 ≤ e.cell 0 ∧ e.cell 0 < 4) && decide
        (((build (lineGrid 3 999 0) []).get (by decide +kernel)).ioo e.cell = 999)) = true := by
    decide +kernel
  simp only [List.any_eq_true, Bool.and_eq_true, decide_eq_true_iff] at h
  obtain ⟨p, hp, e, he, h1, h2⟩ := h
  refine ⟨p, hp, e, he, fun j => ?_, h2⟩
  fin_cases j
  exact h1

/-- An item of `sten13` on the left of the cell 1. -/
def leftItem (d : ℚ) (feq : Fin 3 → ℚ) : Item ℚ 1 3 := ⟨⟨1, ![0], 0, d⟩, feq⟩
/-- An item of `sten13` on the right of the cell 1. -/
def rightItem (d : ℚ) (feq : Fin 3 → ℚ) : Item ℚ 1 3 := ⟨⟨2, ![2], 0, d⟩, feq⟩

/-- C33 is false for the interpolated bounce-back with distance larger than 1/2: a moving wall at
distance 1 disturbs its own uniform equilibrium. -/
theorem C33_bouzidi_negation : ∃ it : Item ℚ 1 3, 0 < it.dist ∧ it.dist ≤ 1 ∧
    value sten13 .bouzidiBounceBack (fun k _ => it.feq k) (fun k _ => it.feq k) it ≠ it.feq it.k :=
  ⟨leftItem 1 ![0, 1, 2], by decide +kernel⟩

/-- C33 is false for the interpolated anti bounce-back, already at distance 1/4 and 1, with equal
populations. -/
theorem C33_bouzidi_anti_negation : ∀ d ∈ [(1 / 4 : ℚ), 1],
    value sten13 .bouzidiAntiBounceBack (fun _ _ => 1) (fun _ _ => 1) (leftItem d ![1, 1, 1]) ≠ 1 := by
  decide +kernel

/-- C35 is false for the interpolated anti bounce-back: in a channel of one cell, each of the two
links reads the ghost value written by the other one, and the order of the links changes the result;
the vectorised loop gives a third one. -/
theorem C35_bouzidi_anti_negation :
    let a := leftItem (1 / 4) ![0, 0, 0]
    let b := rightItem (1 / 4) ![0, 0, 0]
    let f : Dist ℚ 1 3 := fun k c => if c = ![1] then (if k = 1 then 1 else 2) else 0
    ([a, b].map fun it => (it.k, it.cell)).Nodup ∧
    update sten13 .bouzidiAntiBounceBack [a, b] f ≠ update sten13 .bouzidiAntiBounceBack [b, a] f ∧
    update sten13 .bouzidiAntiBounceBack [a, b] f ≠
      updateVector sten13 .bouzidiAntiBounceBack [a, b] f := by
  intro a b f
  refine ⟨by decide +kernel, fun h => ?_, fun h => ?_⟩
  · have h1 := congrFun (congrFun h (2 : Fin 3)) ![2]
    revert h1; decide +kernel
  · have h1 := congrFun (congrFun h (2 : Fin 3)) ![2]
    revert h1; decide +kernel

/-- The same two links with the interpolated bounce-back satisfy the hypotheses of C35. -/
example : ([leftItem (1 / 4) ![0, 0, 0], rightItem (1 / 4) ![0, 0, 0]].map
    fun it => (it.k, it.cell)).Nodup := by decide +kernel

/-- A case for C33: distance 1/4, unequal populations. -/
example : (leftItem (1 / 4) ![0, 1, 2]).dist < 1 / 2 := by decide +kernel

end Pylbm.Boundary
