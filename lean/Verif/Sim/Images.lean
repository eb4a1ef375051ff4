import Verif.Sim.Line
import Verif.Sim.Symmetry
/-!
# C114: walls are mirrors

A box without element whose populations move along the axes by at most one cell (D1Q2, D1Q3, D2Q4, D2Q5, D3Q6, D3Q7 and the
vectorial schemes made of them). A wall with bounce-back or anti bounce-back acts like a mirror: the simulation is the one
of the periodic box which is twice as long along the axes with walls, with the mirror image of the data in its second half.
-/

set_option linter.unusedSectionVars false

namespace Pylbm.Sim
open Scheme Halo SchemeSpec Matrix HaloSpec Mpi Boundary

/-! ## Specification -/

section spec
variable {K : Type} [Field K] {dim : Nat}

/-- The coordinate `x` of the periodic box of length `2 N` seen in the mirrors: its image in `0, …, N - 1`. -/
def tent (N : Nat) (x : ℤ) : ℤ := if x % (2 * N) < N then x % (2 * N) else 2 * N - 1 - x % (2 * N)

/-- The coordinate is in the second half, behind the mirror. -/
def behind (N : Nat) (x : ℤ) : Bool := decide ((N : ℤ) ≤ x % (2 * N))

/-- The image of a cell: `W` are the axes with walls, the other ones are periodic. -/
def fold (W : Fin dim → Bool) (N : Fin dim → Nat) (y : Cell dim) : Cell dim :=
  fun i => if W i = true then tent (N i) (y i) else y i % N i

/-- The axes along which the cell is behind the mirror. -/
def turned (W : Fin dim → Bool) (N : Fin dim → Nat) (y : Cell dim) : Fin dim → Bool :=
  fun i => W i && behind (N i) (y i)

/-- The sizes of the box with the images. -/
def doubled (W : Fin dim → Bool) (N : Fin dim → Nat) : Fin dim → Nat := fun i => if W i = true then 2 * N i else N i

/-- The image of a velocity in the mirrors across the axes `A`, for velocities along the axes. -/
def mirrored (s : Sten dim) (A : Fin dim → Bool) (j : Fin s.ns) : Fin s.ns :=
  if ∃ i, A i = true ∧ s.vel j i ≠ 0 then s.sym j else j

/-- The sign which the mirrors across the axes `A` give to the population `j`; `e i j` is the one of the axis `i`. -/
def signs {n : Nat} (e : Fin dim → Fin n → K) (A : Fin dim → Bool) (j : Fin n) : K := ∏ i, if A i = true then e i j else 1

/-- The populations of a cell seen in the mirrors across the axes `A`. -/
def reflectCell (s : Sten dim) (e : Fin dim → Fin s.ns → K) (A : Fin dim → Bool) (f : Fin s.ns → K) : Fin s.ns → K :=
  fun j => signs e A j * f (mirrored s A j)

/-- The array with its images. -/
def images (s : Sten dim) (e : Fin dim → Fin s.ns → K) (W : Fin dim → Bool) (N : Fin dim → Nat) (G : Arr K s.ns dim) :
    Arr K s.ns dim :=
  fun y => reflectCell s e (turned W N y) (G (fold W N y))

end spec

/-! ## The mirrors -/

section mirror
variable {K : Type} [Field K] {dim : Nat}

theorem emod_near (M r v : ℤ) (hM : 2 ≤ M) (hr : 0 ≤ r ∧ r < M) (hv : -1 ≤ v ∧ v ≤ 1) :
    (r - v) % M = if r - v = -1 then M - 1 else if r - v = M then 0 else r - v := by
  split_ifs with h1 h2
  · rw [h1, show (-1 : ℤ) = M - 1 + M * (-1) by ring, Int.add_mul_emod_self_left]
    exact Int.emod_eq_of_lt (by omega) (by omega)
  · rw [h2]; exact Int.emod_self
  · exact Int.emod_eq_of_lt (by omega) (by omega)

/-- One step along an axis with walls: inside of the box the image moves with the image of the velocity; at a wall it stays,
on the other side of the mirror. -/
theorem tent_step (N : Nat) (hN : 0 < N) (x v : ℤ) (hv : -1 ≤ v ∧ v ≤ 1) :
    (let v' := if behind N x = true then -v else v
     (0 ≤ tent N x - v' ∧ tent N x - v' < N ∧ behind N (x - v) = behind N x ∧ tent N (x - v) = tent N x - v') ∨
      (¬ (0 ≤ tent N x - v' ∧ tent N x - v' < N) ∧ behind N (x - v) = !behind N x ∧ tent N (x - v) = tent N x)) := by
  have e : (x - v) % (2 * (N : ℤ)) = (x % (2 * N) - v) % (2 * N) := (Int.emod_sub_emod x (2 * N) v).symm
  have hr : 0 ≤ x % (2 * (N : ℤ)) ∧ x % (2 * (N : ℤ)) < 2 * N :=
    ⟨Int.emod_nonneg _ (by omega), Int.emod_lt_of_pos _ (by omega)⟩
  unfold behind tent
  rw [e, emod_near _ _ _ (by omega) hr hv]
  generalize x % (2 * (N : ℤ)) = r at *
  simp only [decide_eq_true_eq]
  by_cases h1 : r < N
  · have h2 : ¬ (N : ℤ) ≤ r := by omega
    simp only [h1, h2, if_true, if_false, decide_false, Bool.not_false, decide_eq_false_iff_not, decide_eq_true_eq]
    split_ifs <;> omega
  · have h2 : (N : ℤ) ≤ r := by omega
    simp only [h1, h2, if_true, if_false, decide_true, Bool.not_true, decide_eq_false_iff_not, decide_eq_true_eq]
    split_ifs <;> omega

theorem tent_range (N : Nat) (hN : 0 < N) (x : ℤ) : 0 ≤ tent N x ∧ tent N x < N := by
  have hr : 0 ≤ x % (2 * (N : ℤ)) ∧ x % (2 * (N : ℤ)) < 2 * N :=
    ⟨Int.emod_nonneg _ (by omega), Int.emod_lt_of_pos _ (by omega)⟩
  unfold tent
  split_ifs <;> omega

theorem fold_box (W : Fin dim → Bool) (N : Fin dim → Nat) (hN : ∀ i, 0 < N i) (y : Cell dim) : fold W N y ∈ box N := by
  rw [mem_box]
  intro i
  unfold fold
  split_ifs
  · exact tent_range _ (hN i) _
  · have := hN i
    exact ⟨Int.emod_nonneg _ (by omega), Int.emod_lt_of_pos _ (by omega)⟩

/-- In the first half the images are the array. -/
theorem fold_id (W : Fin dim → Bool) (N : Fin dim → Nat) {y : Cell dim} (hy : y ∈ box N) :
    fold W N y = y ∧ turned W N y = fun _ => false := by
  rw [mem_box] at hy
  constructor
  · funext i
    have := hy i
    unfold fold tent
    rw [Int.emod_eq_of_lt this.1 this.2, Int.emod_eq_of_lt this.1 (by omega : y i < 2 * (N i : ℤ)), if_pos this.2, ite_self]
  · funext i
    have := hy i
    unfold turned behind
    rw [Int.emod_eq_of_lt this.1 (by omega : y i < 2 * (N i : ℤ)), decide_eq_false (by omega), Bool.and_false]

theorem mod_doubled (W : Fin dim → Bool) (N : Fin dim → Nat) (y : Cell dim) :
    fold W N (fun i => y i % doubled W N i) = fold W N y ∧ turned W N (fun i => y i % doubled W N i) = turned W N y := by
  constructor
  · funext i
    unfold fold doubled
    by_cases h : W i = true
    · simp only [h, if_true]; unfold tent; push_cast; rw [Int.emod_emod]
    · simp only [h, if_false, Bool.false_eq_true]; exact Int.emod_emod _ _
  · funext i
    unfold turned doubled
    cases h : W i
    · rfl
    · simp only [h, if_true, Bool.true_and]
      unfold behind
      push_cast
      rw [Int.emod_emod]

/-- The images are periodic in the box with the images. -/
theorem periodic_images (s : Sten dim) (e : Fin dim → Fin s.ns → K) (W : Fin dim → Bool) (N : Fin dim → Nat)
    (G : Arr K s.ns dim) (y : Cell dim) : periodic (doubled W N) (images s e W N G) y = images s e W N G y := by
  unfold periodic images
  obtain ⟨h1, h2⟩ := mod_doubled W N y
  rw [h1, h2]

theorem reflect_none (s : Sten dim) (e : Fin dim → Fin s.ns → K) (f : Fin s.ns → K) :
    reflectCell s e (fun _ => false) f = f := by
  funext j
  simp [reflectCell, signs, mirrored]

/-- The velocities are along the axes, by at most one cell. -/
structure Axial (s : Sten dim) : Prop where
  unit : ∀ j i, |s.uvel j i| ≤ 1
  single : ∀ j i i', s.uvel j i ≠ 0 → s.uvel j i' ≠ 0 → i = i'

variable {s : Sten dim}

theorem mirrored_along (hax : Axial s) (A : Fin dim → Bool) {j : Fin s.ns} {i : Fin dim} (hi : s.vel j i ≠ 0) :
    mirrored s A j = if A i = true then s.sym j else j := by
  unfold mirrored
  congr 1
  apply propext
  constructor
  · rintro ⟨i', h1, h2⟩
    rwa [hax.single _ i i' hi h2]
  · intro h
    exact ⟨i, h, hi⟩

theorem mirrored_rest (A : Fin dim → Bool) {j : Fin s.ns} (hi : ∀ i, s.vel j i = 0) : mirrored s A j = j := by
  unfold mirrored
  rw [if_neg]
  rintro ⟨i, -, h⟩
  exact h (hi i)

theorem signs_update {n : Nat} (e : Fin dim → Fin n → K) (A : Fin dim → Bool) (i : Fin dim) (j : Fin n) :
    signs e (Function.update A i true) j = e i j * signs e (Function.update A i false) j := by
  unfold signs
  rw [← Finset.mul_prod_erase Finset.univ _ (Finset.mem_univ i),
    ← Finset.mul_prod_erase Finset.univ (fun a => if Function.update A i false a = true then e a j else 1)
      (Finset.mem_univ i)]
  simp only [Function.update_self, if_true, Bool.false_eq_true, if_false, one_mul]
  congr 1
  refine Finset.prod_congr rfl fun a ha => ?_
  rw [Function.update_of_ne (Finset.ne_of_mem_erase ha), Function.update_of_ne (Finset.ne_of_mem_erase ha)]

/-- The collision sees the mirrors of several axes when it sees those of each axis. -/
theorem reflect_commute (hs : s.WF) (hax : Axial s) (e : Fin dim → Fin s.ns → K)
    (hsym : ∀ i j, e i (s.sym j) = e i j) (W : Fin dim → Bool)
    (φ : (Fin s.ns → K) → Fin s.ns → K)
    (hφ : ∀ i, W i = true → ∀ f, φ (reflectCell s e (fun a => decide (a = i)) f) =
      reflectCell s e (fun a => decide (a = i)) (φ f)) (A : Fin dim → Bool) (hA : ∀ i, A i = true → W i = true)
    (f : Fin s.ns → K) : φ (reflectCell s e A f) = reflectCell s e A (φ f) := by
  have hone : ∀ i j, signs e (fun a => decide (a = i)) j = e i j := by
    intro i j
    unfold signs
    rw [Finset.prod_eq_single i]
    · simp
    · intro b _ hb; simp [hb]
    · intro h; exact absurd (Finset.mem_univ i) h
  have hs0 : ∀ B j, signs e B (s.sym j) = signs e B j := by
    intro B j
    unfold signs
    exact Finset.prod_congr rfl fun i _ => by rw [hsym]
  have hcomp : ∀ (B : Fin dim → Bool) i f, B i = false →
      reflectCell s e (Function.update B i true) f =
        reflectCell s e (fun a => decide (a = i)) (reflectCell s e B f) := by
    intro B i f hB
    have hBf : Function.update B i false = B := by rw [← hB, Function.update_eq_self]
    funext j
    unfold reflectCell
    rw [signs_update, hBf, hone, mul_assoc]
    congr 1
    by_cases hj : s.vel j i = 0
    · have e1 : mirrored s (fun a => decide (a = i)) j = j := by
        unfold mirrored
        rw [if_neg]
        rintro ⟨i', h1, h2⟩
        simp only [decide_eq_true_eq] at h1
        exact h2 (h1 ▸ hj)
      have e2 : mirrored s (Function.update B i true) j = mirrored s B j := by
        unfold mirrored
        congr 1
        apply propext
        refine exists_congr fun i' => ?_
        by_cases h : i' = i
        · subst h; simp [hj]
        · rw [Function.update_of_ne h]
      rw [e1, e2]
    · have hj' : s.vel (s.sym j) i ≠ 0 := by rw [hs.sym]; omega
      rw [mirrored_along hax _ hj, mirrored_along hax (fun a => decide (a = i)) hj, Function.update_self]
      simp only [if_true, decide_true]
      rw [mirrored_along hax _ hj', hB, hs0]
      simp
  -- one axis after the other
  have key : ∀ (T : Finset (Fin dim)) f, (∀ i ∈ T, W i = true) →
      φ (reflectCell s e (fun a => decide (a ∈ T)) f) = reflectCell s e (fun a => decide (a ∈ T)) (φ f) := by
    intro T
    induction T using Finset.induction_on with
    | empty => intro f _; simp [reflect_none]
    | insert i T hi ih =>
      intro f hT
      have e1 : (fun a => decide (a ∈ insert i T)) = Function.update (fun a => decide (a ∈ T)) i true := by
        funext a
        by_cases h : a = i
        · subst h; simp
        · rw [Function.update_of_ne h]; simp [h]
      rw [e1, hcomp _ _ _ (by simp [hi]), hcomp _ _ _ (by simp [hi]), hφ i (hT i (Finset.mem_insert_self _ _)),
        ih f fun a ha => hT a (Finset.mem_insert_of_mem ha)]
  have := key (Finset.univ.filter fun i => A i = true) f (fun i hi => hA i (Finset.mem_filter.1 hi).2)
  have e1 : (fun a => decide (a ∈ Finset.univ.filter fun i => A i = true)) = A := by
    funext a; simp
  rwa [e1] at this

/-- What arrives in a cell, from the inside or from the walls, has its image as image. -/
theorem images_arrive (hs : s.WF) (hax : Axial s) (e : Fin dim → Fin s.ns → K) (he : ∀ i j, e i j * e i j = 1)
    (hsym : ∀ i j, e i (s.sym j) = e i j) (W : Fin dim → Bool) (N : Fin dim → Nat) (hN : ∀ i, 0 < N i)
    (G : Arr K s.ns dim) (R : Cell dim → Fin s.ns → K)
    (hin : ∀ z ∈ box N, ∀ j, (∀ i, W i = false ∨ 0 ≤ z i - s.vel j i ∧ z i - s.vel j i < N i) →
      R z j = periodic N G (fun i => z i - s.vel j i) j)
    (hout : ∀ z ∈ box N, ∀ j i, W i = true → ¬ (0 ≤ z i - s.vel j i ∧ z i - s.vel j i < N i) →
      R z j = e i j * G z (s.sym j)) (y : Cell dim) (j : Fin s.ns) :
    images s e W N G (fun i => y i - s.vel j i) j = reflectCell s e (turned W N y) (R (fold W N y)) j := by
  have hs0 : ∀ B j, signs e B (s.sym j) = signs e B j := by
    intro B j
    unfold signs
    exact Finset.prod_congr rfl fun i _ => by rw [hsym]
  have hz := fold_box W N hN y
  have hzb := (mem_box N _).1 hz
  set z := fold W N y with hzdef
  set A := turned W N y with hA
  by_cases hrest : ∀ i, s.vel j i = 0
  · -- a population at rest
    have e1 : (fun i => y i - s.vel j i) = y := by funext i; rw [hrest]; ring
    rw [e1]
    unfold images reflectCell
    rw [← hA, ← hzdef, mirrored_rest _ hrest, hin z hz j fun i => Or.inr (by rw [hrest, sub_zero]; exact hzb i)]
    congr 1
    unfold periodic
    congr 1
    funext i
    change z i = (z i - s.vel j i) % N i
    rw [hrest, sub_zero, Int.emod_eq_of_lt (hzb i).1 (hzb i).2]
  push Not at hrest
  obtain ⟨i, hi⟩ := hrest
  have hoth : ∀ i', i' ≠ i → s.vel j i' = 0 := by
    intro i' hne
    by_contra h
    exact hne (hax.single _ i' i h hi)
  have hu := abs_le.1 (hax.unit (s.ux j) i)
  change -1 ≤ s.vel j i ∧ s.vel j i ≤ 1 at hu
  set j' := mirrored s A j with hj'
  have hj'e : j' = if A i = true then s.sym j else j := mirrored_along hax A hi
  have hv' : ∀ a, s.vel j' a = if A i = true then -s.vel j a else s.vel j a := by
    intro a
    rw [hj'e]
    split_ifs
    · exact hs.sym j a
    · rfl
  have hmove : ∀ i', i' ≠ i → fold W N (fun i => y i - s.vel j i) i' = z i' ∧
      turned W N (fun i => y i - s.vel j i) i' = A i' := by
    intro i' hne
    have e1 : y i' - s.vel j i' = y i' := by rw [hoth i' hne, sub_zero]
    constructor
    · rw [hzdef]; simp only [fold, e1]
    · rw [hA]; simp only [turned, e1]
  -- inside of the box
  have inside : turned W N (fun i => y i - s.vel j i) = A →
      (∀ a, fold W N (fun i => y i - s.vel j i) a = (z a - s.vel j' a) % N a) →
      (∀ a, W a = false ∨ 0 ≤ z a - s.vel j' a ∧ z a - s.vel j' a < N a) →
      images s e W N G (fun i => y i - s.vel j i) j = reflectCell s e A (R z) j := by
    intro h1 h2 h3
    unfold images reflectCell
    rw [h1, ← hj', hin z hz j' h3, funext h2]
    rfl
  cases hW : W i
  · have hAi : A i = false := by rw [hA]; unfold turned; rw [hW]; rfl
    have hjj : ∀ a, s.vel j' a = s.vel j a := fun a => by rw [hv', hAi]; simp
    refine inside ?_ ?_ ?_
    · funext i'
      by_cases h : i' = i
      · subst h; rw [hAi]; unfold turned; rw [hW]; rfl
      · exact (hmove i' h).2
    · intro a
      rw [hjj]
      by_cases h : a = i
      · subst h
        rw [hzdef]
        unfold fold
        rw [hW]
        simp only [Bool.false_eq_true, if_false]
        exact (Int.emod_sub_emod (y a) (N a) (s.vel j a)).symm
      · rw [(hmove a h).1, hoth a h, sub_zero, Int.emod_eq_of_lt (hzb a).1 (hzb a).2]
    · intro a
      by_cases h : a = i
      · subst h; exact Or.inl hW
      · right; rw [hjj, hoth a h, sub_zero]; exact hzb a
  · have hAi : A i = behind (N i) (y i) := by rw [hA]; unfold turned; rw [hW, Bool.true_and]
    have hzi : z i = tent (N i) (y i) := by rw [hzdef]; unfold fold; rw [hW]; rfl
    have hfi : fold W N (fun i => y i - s.vel j i) i = tent (N i) (y i - s.vel j i) := by unfold fold; rw [hW]; rfl
    have hti : turned W N (fun i => y i - s.vel j i) i = behind (N i) (y i - s.vel j i) := by
      unfold turned; rw [hW, Bool.true_and]
    have hstep := tent_step (N i) (hN i) (y i) (s.vel j i) hu
    simp only at hstep
    rw [← hAi, ← hzi, ← hv' i, ← hfi, ← hti] at hstep
    rcases hstep with ⟨h1, h2, h3, h4⟩ | ⟨h1, h3, h4⟩
    · refine inside ?_ ?_ ?_
      · funext i'
        by_cases h : i' = i
        · subst h; exact h3
        · exact (hmove i' h).2
      · intro a
        by_cases h : a = i
        · subst h; rw [h4, Int.emod_eq_of_lt h1 h2]
        · rw [(hmove a h).1]
          have : s.vel j' a = 0 := by rw [hv', hoth a h]; simp
          rw [this, sub_zero, Int.emod_eq_of_lt (hzb a).1 (hzb a).2]
      · intro a
        right
        by_cases h : a = i
        · subst h; exact ⟨h1, h2⟩
        · have : s.vel j' a = 0 := by rw [hv', hoth a h]; simp
          rw [this, sub_zero]; exact hzb a
    · -- at a wall
      have hfold : fold W N (fun i => y i - s.vel j i) = z := by
        funext a
        by_cases h : a = i
        · subst h; exact h4
        · exact (hmove a h).1
      have hturn : turned W N (fun i => y i - s.vel j i) = Function.update A i (!A i) := by
        funext a
        by_cases h : a = i
        · subst h; rw [Function.update_self]; exact h3
        · rw [Function.update_of_ne h]; exact (hmove a h).2
      unfold images reflectCell
      rw [hfold, hturn, ← hj', hout z hz j' i hW h1, mirrored_along hax _ hi, Function.update_self, hj'e]
      cases hb : A i
      · have hAf : Function.update A i false = A := by rw [← hb, Function.update_eq_self]
        simp only [Bool.not_false, if_true, Bool.false_eq_true, if_false]
        rw [signs_update, hAf]; ring
      · have hAt : Function.update A i true = A := by rw [← hb, Function.update_eq_self]
        simp only [Bool.not_true, if_true, Bool.false_eq_true, if_false]
        conv_rhs => rw [← hAt]
        rw [signs_update, hsym, hs.sym_sym]
        linear_combination -(signs e (Function.update A i false) j * G z j) * he i j

end mirror

/-! ## The walls -/

section chamber
variable {K : Type} [Field K] [LinearOrder K] [IsStrictOrderedRing K] [FloorRing K] {nc d dim : Nat}

/-- A chamber: a box without element; each axis is periodic or has a wall on both sides. The velocities are along the axes, by
at most one cell. On the walls across the axis `i`, the method of each scheme gives back the population which leaves with the
sign `e i j` (bounce-back: 1, anti bounce-back: -1), and the imposed state adds nothing. -/
structure Chamber {s : Sten dim} (D : WallData K dim s) (N w : Fin dim → Nat) (lo : Fin dim → K) (dx : K)
    (lab : Fin dim → Bool → Int) (ST : Domain.State K dim s.nu) (J : List (Method dim × List (Entry K dim s.ns)))
    (W : Fin dim → Bool) (e : Fin dim → Fin s.ns → K) : Prop where
  wf : D.WF lab
  onGrid : OnGrid D (boxGrid N w lo dx lab s) ST J
  empty : D.elems = []
  els : ∀ l ∈ D.els, l ≠ -1 ∧ l ≠ -2
  axial : Axial s
  walls : ∀ i, W i = true → ∀ side, lab i side ≠ -1 ∧ lab i side ≠ -2
  periods : ∀ i, W i = false → PerAxis lab i
  methods : AllMethods D
  sign : ∀ i j, e i j * e i j = 1
  same : ∀ i j, e i (s.sym j) = e i j
  mirror : ∀ i, W i = true → ∀ side ms, D.dico (lab i side) = some ms → ∀ j m, (s.scheme j, m) ∈ ms → s.vel j i ≠ 0 →
    outPart m = e i j ∧ ∀ t x, x i = (if side = true then lo i + dx * N i else lo i) →
      imposed m (D.ψ (lab i side) t x j) (D.ψ (lab i side) t x (s.sym j)) = 0

section
variable {s : Sten dim} {D : WallData K dim s} {N w : Fin dim → Nat} {lo : Fin dim → K} {dx : K}
  {lab : Fin dim → Bool → Int} {ST : Domain.State K dim s.nu} {J : List (Method dim × List (Entry K dim s.ns))}
  {W : Fin dim → Bool} {e : Fin dim → Fin s.ns → K}

theorem Chamber.per (h : Chamber D N w lo dx lab ST J W e) (i : Fin dim) : PerAxis lab i ↔ W i = false := by
  constructor
  · intro hp
    by_contra hW
    exact (h.walls i (by simpa using hW) true).1 (hp true)
  · exact h.periods i

theorem Chamber.links (h : Chamber D N w lo dx lab ST J W e) : OpenLinks N w (PerAxis lab) ST ∧
    ∀ y ∈ box N, ∀ k, ¬ Open (ST.link k fun i => y i + w i).flag → (ST.link k fun i => y i + w i).dist = 1 / 2 := by
  refine openLinks_box D N w lo dx lab h.wf ST J h.onGrid h.empty h.els h.axial.unit (fun j => ?_)
    (fun k i j hi hj h1 h2 => ?_)
  · cases hW : W j
    · exact Or.inl (h.periods j hW)
    · exact Or.inr (h.walls j hW)
  · rw [h.axial.single k i j h1 h2] at hi
    exact absurd hj hi

/-- The links to the walls. -/
theorem Chamber.wall (h : Chamber D N w lo dx lab ST J W e) (y : Cell dim) (hy : y ∈ box N) (k : Fin s.nu)
    (ho : ¬ Open (ST.link k fun i => y i + w i).flag) : ∃ i side, W i = true ∧
      (ST.link k fun i => y i + w i).flag = lab i side ∧ y i + s.uvel k i = if side = true then (N i : ℤ) else -1 := by
  set g := boxGrid N w lo dx lab s with hg
  have hn : ∀ i, g.n i = N i := fun i => by simp [Domain.Grid.n, hg, boxGrid]
  have hglab : ∀ j side, g.label j side = lab j side := by
    intro j side
    cases side <;> simp [Domain.Grid.label, hg, boxGrid]
  have hinner : g.inner (fun i => y i + w i) = y := by
    funext i; show y i + (w i : Int) - w i = y i; ring
  have hd : (ST.link k fun i => y i + w i).dist ≠ 999 := by
    intro h'
    apply ho
    rw [(Domain.C23_flagged_links g h.onGrid.wf D.elems h.wf.sound ST h.onGrid.built _ (interior_shift hy) k).2 h']
    simp [Open]
  rcases Domain.C65_same_wall g h.onGrid.wf D.elems h.wf.sound ST h.onGrid.built _ k hd with ⟨f, h1, h2, -⟩ | ⟨e, he, -⟩
  · rw [hinner, show g.n = N from funext hn] at h1
    rw [hglab] at h2
    have hnp : ¬ PerAxis lab f.ax := by
      intro hp
      apply ho
      rw [h2, hp f.upper]
      simp [Open]
    have h3 := h1.2.1.2.2
    rw [(crosses_unit N y (s.uvel k) ((mem_box N y).1 hy) (h.axial.unit k) h1.2.1).1] at h3
    obtain ⟨i, side⟩ := f
    simp only at hnp h2
    have h4 : (y i : K) + 1 / 2 * (s.uvel k i : K) = DomainSpec.facePos N ⟨i, side⟩ := h3
    refine ⟨i, side, by simpa using mt (h.per i).2 hnp, h2, ?_⟩
    have hyb := (mem_box N y).1 hy i
    have hu := abs_le.1 (h.axial.unit k i)
    cases side
    · simp only [DomainSpec.facePos, Bool.false_eq_true, if_false] at h4 ⊢
      have h5 : (((2 * y i + s.uvel k i : ℤ)) : K) = ((-1 : ℤ) : K) := by
        push_cast
        linarith
      have := Int.cast_injective h5
      omega
    · simp only [DomainSpec.facePos, if_true] at h4 ⊢
      have h5 : (((2 * y i + s.uvel k i : ℤ)) : K) = ((2 * N i - 1 : ℤ) : K) := by
        push_cast
        linarith
      have := Int.cast_injective h5
      omega
  · rw [h.empty] at he; cases he

/-- The link, the label and the method of an item. -/
theorem Chamber.item (h : Chamber D N w lo dx lab ST J W e) {t : K} {m : Method dim} {it : Item K dim s.ns}
    (hq : (m, it) ∈ flat s (withValues s (boxGrid N w lo dx lab s) D.ψ J t)) :
    ∃ y ∈ box N, source s it.toEntry = (fun i => y i + (w i : ℤ)) ∧
      ¬ Open (ST.link (s.ux (s.sym it.k)) fun i => y i + w i).flag ∧ it.dist = 1 / 2 ∧
      (∃ ms, D.dico (ST.link (s.ux (s.sym it.k)) fun i => y i + w i).flag = some ms ∧ (s.scheme it.k, m) ∈ ms) ∧
      it.feq = D.ψ (ST.link (s.ux (s.sym it.k)) fun i => y i + w i).flag t
        (fun i => cellPoint lo dx y i - it.dist * (dx * (s.vel it.k i : K))) := by
  have o := h.onGrid.onDomain h.wf t
  obtain ⟨he, hψ⟩ := (mem_withValues s _ D.ψ J t m it).1 hq
  obtain ⟨label, hl0, hl1, hl2, hms, hlab, -, hflag, hdist⟩ :=
    (mem_entries s _ ST.link h.wf.sten _ D.dico J h.onGrid.insts m it.toEntry).1 he
  obtain ⟨h1, -⟩ := o.item h.wf.sten (no999_list (g := boxGrid N w lo dx lab s) h.wf) hq
  have hn : ∀ i, (boxGrid N w lo dx lab s).n i = N i := fun i => by simp [Domain.Grid.n, boxGrid]
  set y : Cell dim := fun i => source s it.toEntry i - w i with hy
  have hsrc : source s it.toEntry = fun i => y i + (w i : ℤ) := by
    funext i; simp [hy]
  have hyb : y ∈ box N := by
    refine (mem_box N y).2 fun i => ?_
    have := h1 i
    rw [hn] at this
    change (w i : Int) ≤ source s it.toEntry i ∧ source s it.toEntry i < w i + N i at this
    show 0 ≤ source s it.toEntry i - w i ∧ source s it.toEntry i - w i < N i
    omega
  rw [hsrc] at hflag hdist
  have hl3 : label ≠ 999 := fun h' => no999_list (g := boxGrid N w lo dx lab s) h.wf (h' ▸ hl0)
  have ho : ¬ Open (ST.link (s.ux (s.sym it.k)) fun i => y i + w i).flag := by
    rw [hflag]; simp [Open, hl1, hl2, hl3]
  obtain ⟨ms, h4⟩ : ∃ ms, D.dico label = some ms := by
    cases h' : D.dico label with
    | none => rw [h'] at hms; simp at hms
    | some ms => exact ⟨ms, rfl⟩
  rw [h4] at hms
  refine ⟨y, hyb, hsrc, ho, by rw [hdist]; exact h.links.2 y hyb _ ho, ⟨ms, by rw [hflag]; exact h4, hms⟩, ?_⟩
  have hpt : wallPoint s (boxGrid N w lo dx lab s) it.toEntry =
      fun i => cellPoint lo dx y i - it.dist * (dx * (s.vel it.k i : K)) := by
    funext i
    have := o.wall h.wf.sten (no999_list (g := boxGrid N w lo dx lab s) h.wf) hq i
    rw [this]
    simp only [hsrc]
    have e3 : (s.uvel (s.ux (s.sym it.k)) i : K) = -(s.vel it.k i : K) := by
      have := h.wf.sten.sym it.k i
      unfold Sten.vel at this ⊢
      rw [this]; push_cast; ring
    have e4 : (boxGrid N w lo dx lab s).dx = dx := rfl
    have e5 : (boxGrid N w lo dx lab s).cellCentre (fun i => y i + (w i : Int)) i = cellPoint lo dx y i := by
      simp [Domain.Grid.cellCentre, DomainSpec.centre, cellPoint, boxGrid]
    rw [e4, e5, hdist, e3]; ring
  rw [hψ, hlab, hpt, hflag]

/-- The wall of an item, and what its method does. -/
theorem Chamber.itemWall (h : Chamber D N w lo dx lab ST J W e) {t : K} {m : Method dim} {it : Item K dim s.ns}
    (hq : (m, it) ∈ flat s (withValues s (boxGrid N w lo dx lab s) D.ψ J t)) :
    ∃ y ∈ box N, source s it.toEntry = (fun i => y i + (w i : ℤ)) ∧ it.dist = 1 / 2 ∧ ∃ i, W i = true ∧
      ¬ (0 ≤ y i - s.vel it.k i ∧ y i - s.vel it.k i < N i) ∧ outPart m = e i it.k ∧
      imposed m (it.feq it.k) (it.feq (s.sym it.k)) = 0 := by
  obtain ⟨y, hy, hsrc, ho, hd, ⟨ms, hms, hm⟩, hfeq⟩ := h.item hq
  obtain ⟨i, side, hW, hflag, hside⟩ := h.wall y hy _ ho
  have hvel : s.uvel (s.ux (s.sym it.k)) i = -s.vel it.k i := h.wf.sten.sym it.k i
  rw [hvel] at hside
  rw [hflag] at hms hfeq
  have hyb := (mem_box N y).1 hy i
  have hu := abs_le.1 (h.axial.unit (s.ux (s.sym it.k)) i)
  rw [hvel] at hu
  have hne : s.vel it.k i ≠ 0 := by
    intro h0
    rw [h0] at hside
    cases side
    · simp only [Bool.false_eq_true, if_false] at hside; omega
    · simp only [if_true] at hside; omega
  obtain ⟨h1, h2⟩ := h.mirror i hW side ms hms it.k m hm hne
  refine ⟨y, hy, hsrc, hd, i, hW, ?_, h1, ?_⟩
  · cases side
    · simp only [Bool.false_eq_true, if_false] at hside; omega
    · simp only [if_true] at hside; omega
  · rw [hfeq]
    refine h2 t _ ?_
    rw [hd]
    unfold cellPoint
    cases side
    · simp only [Bool.false_eq_true, if_false] at hside ⊢
      have e1 : y i = 0 := by omega
      have e2 : s.vel it.k i = 1 := by omega
      rw [e1, e2]; push_cast; ring
    · simp only [if_true] at hside ⊢
      have e1 : y i = (N i : ℤ) - 1 := by omega
      have e2 : s.vel it.k i = -1 := by omega
      rw [e1, e2]; push_cast; ring

theorem Chamber.simple (h : Chamber D N w lo dx lab ST J W e) {t : K} {m : Method dim} {it : Item K dim s.ns}
    (hq : (m, it) ∈ flat s (withValues s (boxGrid N w lo dx lab s) D.ψ J t)) :
    (∀ a, m ≠ .neumannAxis a) ∧ backPart (K := K) m = 0 := by
  obtain ⟨y, -, -, -, i, -, -, ho, -⟩ := h.itemWall hq
  have he : e i it.k ≠ 0 := by
    intro h0
    have := h.sign i it.k
    rw [h0, mul_zero] at this
    exact zero_ne_one this
  cases m with
  | neumannAxis a => exact absurd ho.symm he
  | neumann => exact absurd ho.symm he
  | _ => exact ⟨fun a => by simp, rfl⟩

/-- On walls halfway between the cells every method reads the cell of the link. -/
theorem Chamber.reads (h : Chamber D N w lo dx lab ST J W e) {t : K} {q : Method dim × Item K dim s.ns}
    (hq : q ∈ flat s (withValues s (boxGrid N w lo dx lab s) D.ψ J t)) {p : Fin s.ns × Cell dim}
    (hp : p ∈ Boundary.reads s q.1 q.2) : p.2 = source s q.2.toEntry := by
  obtain ⟨m, it⟩ := q
  obtain ⟨y, -, -, -, hd, ⟨ms, hms, hm⟩, -⟩ := h.item hq
  have hin : Boundary.inner s 1 it.toEntry = source s it.toEntry := by
    funext j; simp [Boundary.inner, source]
  have hs := (h.simple hq).1
  rw [← hin]
  cases m with
  | neumannAxis a => exact absurd rfl (hs a)
  | bouzidiBounceBack =>
    simp only [Boundary.reads, hd, lt_irrefl, if_false, List.mem_cons, List.not_mem_nil, or_false] at hp
    rcases hp with rfl | rfl <;> rfl
  | bouzidiAntiBounceBack =>
    simp only [Boundary.reads, hd, lt_irrefl, if_false, List.mem_cons, List.not_mem_nil, or_false] at hp
    rcases hp with rfl | rfl <;> rfl
  | _ =>
    simp only [Boundary.reads, List.mem_singleton] at hp
    rw [hp]

theorem Chamber.free (h : Chamber D N w lo dx lab ST J W e) (t : K) :
    Free s (flat s (withValues s (boxGrid N w lo dx lab s) D.ψ J t)) := by
  intro q hq p hp hpos
  have hcell := h.reads hq hp
  have o := h.onGrid.onDomain h.wf t
  obtain ⟨r, hr, hre⟩ := List.mem_map.1 hpos
  have h1 := (o.item h.wf.sten (no999_list (g := boxGrid N w lo dx lab s) h.wf) hq).2.2.1
  have h2 := (o.item h.wf.sten (no999_list (g := boxGrid N w lo dx lab s) h.wf) hr).2.2.2.1
  rw [← hcell] at h1
  rw [show r.2.cell = p.2 from by rw [← hre]] at h2
  rw [h1] at h2
  exact absurd h2 (by norm_num)

theorem Chamber.fluid (h : Chamber D N w lo dx lab ST J W e) (y : Cell dim) (hy : y ∈ box N) : fluidMap w ST y = true := by
  apply decide_eq_true
  rw [Domain.C21_fluid_map _ h.onGrid.wf D.elems h.wf.sound ST h.onGrid.built,
    if_pos ⟨interior_shift hy, by rw [h.empty]; rfl⟩]

theorem Chamber.readsFluid (h : Chamber D N w lo dx lab ST J W e) : ReadsFluid D N w lo dx lab ST J := by
  intro t q hq p hp
  obtain ⟨m, it⟩ := q
  obtain ⟨y, hy, hsrc, -⟩ := h.item hq
  have := h.reads hq hp
  rw [hsrc] at this
  have e : (fun i => p.2 i - (w i : ℤ)) = y := by
    funext i; rw [this]; ring
  rw [e]
  unfold periodic
  have e' : (fun i => y i % (N i : ℤ)) = y := by
    funext i
    have := (mem_box N y).1 hy i
    exact Int.emod_eq_of_lt this.1 this.2
  rw [e']
  exact h.fluid y hy

/-- What arrives in a cell of a chamber. -/
theorem Chamber.bc (h : Chamber D N w lo dx lab ST J W e) (t : K) (G : Arr K s.ns dim) (y : Cell dim) (hy : y ∈ box N)
    (j : Fin s.ns) :
    ((∀ i, W i = false ∨ 0 ≤ y i - s.vel j i ∧ y i - s.vel j i < N i) →
      wallBc D N w lo dx lab J t (periodic N G) (fun i => y i - s.vel j i) j =
        periodic N G (fun i => y i - s.vel j i) j) ∧
    ∀ i, W i = true → ¬ (0 ≤ y i - s.vel j i ∧ y i - s.vel j i < N i) →
      wallBc D N w lo dx lab J t (periodic N G) (fun i => y i - s.vel j i) j = e i j * G y (s.sym j) := by
  have o := h.onGrid.onDomain h.wf t
  have n1 := o.nodup_positions h.wf.sten
  have hvel : ∀ i, s.uvel (s.ux (s.sym j)) i = -s.vel j i := fun i => h.wf.sten.sym j i
  have hyb := (mem_box N y).1 hy
  unfold wallBc
  rw [boundaryCondition_written s _ n1 (h.free t)]
  by_cases hpos : (j, fun i => y i - s.vel j i + (w i : Int)) ∈
      positions s (flat s (withValues s (boxGrid N w lo dx lab s) D.ψ J t))
  · obtain ⟨⟨m, it⟩, hq, hqe⟩ := List.mem_map.1 hpos
    simp only [Prod.mk.injEq] at hqe
    obtain ⟨hk, hcell⟩ := hqe
    subst hk
    have w1 := written_mem s n1 hq (fun k X => periodic N G (fun i => X i - w i) k)
    simp only [hcell] at w1
    rw [w1]
    obtain ⟨y', -, hsrc', hd, i, hW, hout, hm, himp⟩ := h.itemWall hq
    have hsrc : source s it.toEntry = fun i => y i + (w i : Int) := by
      funext i; simp only [source, hcell]; ring
    obtain rfl : y' = y := by
      funext i
      have := congrFun (hsrc'.symm.trans hsrc) i
      simpa using this
    have hself : ∀ k, periodic N G (fun i => y' i + (w i : ℤ) - w i) k = G y' k := by
      intro k
      simp only [add_sub_cancel_right]
      exact congrFun (periodic_box G hy) k
    have hne : s.vel it.k i ≠ 0 := by
      intro h0
      rw [h0, sub_zero] at hout
      exact hout (hyb i)
    refine ⟨fun hall => ?_, fun i' _ hout' => ?_⟩
    · rcases hall i with h' | h'
      · rw [hW] at h'; cases h'
      · exact absurd h' hout
    · have hne' : s.vel it.k i' ≠ 0 := by
        intro h0
        rw [h0, sub_zero] at hout'
        exact hout' (hyb i')
      obtain rfl : i = i' := h.axial.single _ i i' hne hne'
      rw [value_half _ m (h.simple hq).1 it hd, hsrc, hself, hself, himp, hm, (h.simple hq).2]
      ring
  · rw [written_not_mem s hpos]
    have e : (fun i => y i - s.vel j i + (w i : Int) - w i) = fun i => y i - s.vel j i := by funext i; ring
    simp only [e]
    have ho : Open (ST.link (s.ux (s.sym j)) fun i => y i + (w i : Int)).flag := by
      by_contra ho
      apply hpos
      unfold Open at ho
      simp only [List.mem_cons, List.not_mem_nil, or_false, not_or] at ho
      set X : Cell dim := fun i => y i + w i with hX
      have hint : (boxGrid N w lo dx lab s).Interior X := interior_shift hy
      set label := (ST.link (s.ux (s.sym j)) X).flag with hlabel
      have hmem : label ∈ listOfLabels (boxGrid N w lo dx lab s) D.els :=
        h.onGrid.label_mem (g := boxGrid N w lo dx lab s) h.wf hint _ ho.1
      obtain ⟨all, hall, -⟩ := instances_spec s (boxGrid N w lo dx lab s).total ST.link _ D.dico J h.onGrid.insts
      obtain ⟨ms, hms⟩ : ∃ ms, D.dico label = some ms :=
        Option.isSome_iff_exists.1 ((allEntries_spec s _ ST.link _ D.dico all hall).1 label hmem ho.2.1 ho.2.2)
      obtain ⟨m, hm⟩ := h.methods label ms hms j
      let en : Entry K dim s.ns := ⟨j, fun i => y i - s.vel j i + w i, label,
        (ST.link (s.ux (s.sym j)) X).dist⟩
      have hsrc : source s en = X := by
        funext i; simp only [source, en, hX]; ring
      have hen : (m, en) ∈ entries s J := by
        rw [mem_entries s _ ST.link h.wf.sten _ D.dico J h.onGrid.insts]
        refine ⟨label, hmem, ho.2.1, ho.2.2, by rw [hms]; exact hm, rfl, ?_, ?_, ?_⟩
        · rw [hsrc]; exact mem_cells_interior hint
        · rw [hsrc]
        · rw [hsrc]
      refine List.mem_map.2 ⟨(m, ⟨en, D.ψ label t (wallPoint s (boxGrid N w lo dx lab s) en)⟩), ?_, rfl⟩
      rw [mem_withValues]
      exact ⟨hen, rfl⟩
    have h2 : ∀ i, W i = false ∨ 0 ≤ y i - s.vel j i ∧ y i - s.vel j i < N i := by
      intro i
      have := (h.links.1 y hy (h.fluid y hy) _ ho).2 i
      rw [hvel, ← sub_eq_add_neg, h.per] at this
      exact this
    refine ⟨fun _ => trivial, fun i hW hout => ?_⟩
    rcases h2 i with h' | h'
    · rw [hW] at h'; cases h'
    · exact absurd h' hout

/-- The run in the doubled box from the initial values and their images. -/
theorem Chamber.run_images (h : Chamber D N w lo dx lab ST J W e) (hN : ∀ i, 0 < N i) (S : Kernel K s.ns nc d) (alg : Algo)
    (hcol : ∀ i, W i = true → ∀ f, collide S alg (reflectCell s e (fun a => decide (a = i)) f) =
      reflectCell s e (fun a => decide (a = i)) (collide S alg f)) (G : Arr K s.ns dim) (k : Nat) (y : Cell dim) :
    lbmRun (doubled W N) s.vel (collide S alg) (fun _ H => H) S.dt (images s e W N G) k y =
      images s e W N (lbmRun N s.vel (collide S alg) (wallBc D N w lo dx lab J) S.dt G k) y := by
  induction k generalizing y with
  | zero => rfl
  | succ k ih =>
    set H := lbmRun N s.vel (collide S alg) (wallBc D N w lo dx lab J) S.dt G k with hH
    show lbmStep (doubled W N) s.vel (collide S alg) (fun _ H => H) _ _ y =
      reflectCell s e (turned W N y) (lbmStep N s.vel (collide S alg) (wallBc D N w lo dx lab J) _ H
        (fold W N y))
    unfold lbmStep
    rw [← reflect_commute h.wf.sten h.axial e h.same W (collide S alg) hcol _ (fun i hi => by
      unfold turned at hi
      exact (Bool.and_eq_true _ _ ▸ hi).1)]
    congr 1
    funext j
    rw [funext ih]
    show periodic (doubled W N) (images s e W N H) (fun i => y i - s.vel j i) j = _
    rw [periodic_images]
    exact images_arrive h.wf.sten h.axial e h.sign h.same W N hN H
      (fun z j => wallBc D N w lo dx lab J (k * S.dt) (periodic N H) (fun i => z i - s.vel j i) j)
      (fun z hz j => (h.bc _ H z hz j).1) (fun z hz j => (h.bc _ H z hz j).2) y j

end

/-- A chamber and its periodic box of images: `g` and `Q` are the processes of the simulation with walls, `g'` and `Q'` those
of the periodic simulation in the doubled box; the same scheme. -/
structure Mirrors {s : Sten dim} (D : WallData K dim s) (lo : Fin dim → K) (dx : K) (lab : Fin dim → Bool → Int)
    (ST : Domain.State K dim s.nu) (J : List (Method dim × List (Entry K dim s.ns))) (W : Fin dim → Bool)
    (e : Fin dim → Fin s.ns → K) (S : Kernel K s.ns nc d) (alg : Algo)
    (g : Grid dim) (Q : Proc g → Setup K s.ns nc d dim) (g' : Grid dim) (Q' : Proc g' → Setup K s.ns nc d dim) : Prop where
  chamber : Chamber D g.N g.w lo dx lab ST J W e
  front : ∀ j, (S.consm j : Nat) < nc
  run : FluidRun D g lo dx lab S alg Q
  sizes : g'.N = doubled W g.N
  large : ∀ c i, g'.w i ≤ size g' c i
  halo : ∀ j i, |s.vel j i| ≤ g'.w i
  uniform : Uniform g' S s.vel alg Q'
  noBc : ∀ c t A, (Q' c).bc t A = A
  /-- the collision does not see the mirrors -/
  collision : ∀ i, W i = true → ∀ f, collide S alg (reflectCell s e (fun a => decide (a = i)) f) =
    reflectCell s e (fun a => decide (a = i)) (collide S alg f)

/-- Two states of the processes: the second one is the first one with its images. -/
def HasImages {s : Sten dim} (W : Fin dim → Bool) (e : Fin dim → Fin s.ns → K) (g : Grid dim)
    (A : Proc g → Arr K s.ns dim) (g' : Grid dim) (A' : Proc g' → Arr K s.ns dim) : Prop :=
  ∀ c x c' x', Owned (size g c) g.w x → Owned (size g' c') g'.w x' →
    globalPos (first g c) g.w x = fold W g.N (globalPos (first g' c') g'.w x') →
    A' c' x' = reflectCell s e (turned W g.N (globalPos (first g' c') g'.w x')) (A c x)

/-- **C114, walls are mirrors.** A simulation in a chamber with bounce-back or anti bounce-back walls is, after any number of
steps, the restriction of the periodic simulation of the doubled box started from the initial values and their images; any
collision which respects the mirrors (nonlinear equilibria, several schemes), any process grids. -/
theorem C114_images (hdim : dim ≤ 3) {s : Sten dim} {D : WallData K dim s} {lo : Fin dim → K} {dx : K}
    {lab : Fin dim → Bool → Int} {ST : Domain.State K dim s.nu} {J : List (Method dim × List (Entry K dim s.ns))}
    {W : Fin dim → Bool} {e : Fin dim → Fin s.ns → K} {S : Kernel K s.ns nc d} {alg : Algo}
    {g : Grid dim} {Q : Proc g → Setup K s.ns nc d dim} {g' : Grid dim} {Q' : Proc g' → Setup K s.ns nc d dim}
    (R : Mirrors D lo dx lab ST J W e S alg g Q g' Q')
    (σ₀ : Proc g → Simu K s.ns d dim) (h0 : ∀ c, (σ₀ c).Start (Q c))
    (σ₀' : Proc g' → Simu K s.ns d dim) (h0' : ∀ c, (σ₀' c).Start (Q' c))
    (hinit : HasImages W e g (fun c => (σ₀ c).arr) g' fun c => (σ₀' c).arr)
    (k : Nat) (σ : Proc g → Simu K s.ns d dim) (hr : PRun g Q σ₀ k σ)
    (σ' : Proc g' → Simu K s.ns d dim) (hr' : PRun g' Q' σ₀' k σ') :
    HasImages W e g (fun c => (σ c).arr) g' fun c => (σ' c).arr := by
  obtain ⟨h, hfront, hQ, hsizes, hlarge', hv', hQ', hQb', hcol⟩ := R
  intro c x c' x' hx hx' hpos
  have hN : ∀ i, 0 < g.N i := by
    intro i
    have := (mem_box _ _).1 (owned_box g hx) i
    omega
  obtain ⟨G, hG⟩ := C15_global_array_exists g fun c => (σ₀ c).arr
  have hfb := fluidBoundary_walls D g.N g.w lo dx lab h.wf ST J h.onGrid h.free (allLinks_of_open h.links.1) h.methods
    h.readsFluid
  obtain ⟨_, h2⟩ := C73_fluid_cells hdim g hQ.walls.large S hfront s.vel alg _ Q (hQ.uniform h.wf ST h.onGrid.built) _
    (sameBoundary_walls D g lo dx lab h.wf Q hQ.walls ST J h.onGrid h.free) hfb σ₀ h0 G (fun c x hx _ => hG c x hx) k σ hr
  obtain ⟨_, h2'⟩ := C42_global_partial hdim g' hlarge' S hfront s.vel alg Q' hQ' _
    (sameBoundary_periodic g' s.vel hv' Q' hQb') σ₀' h0' (images s e W g.N G) (fun c' x' hx' => by
      obtain ⟨c, x, hx, he⟩ := exists_owned g _ (fold_box W g.N hN (globalPos (first g' c') g'.w x'))
      have h1 := hinit c x c' x' hx hx' he
      simp only at h1
      rw [h1, hG c x hx, he]
      rfl) k σ' hr'
  show (σ' c').arr x' = reflectCell s e (turned W g.N (globalPos (first g' c') g'.w x')) ((σ c).arr x)
  rw [h2' c' x' hx', hsizes, h.run_images hN S alg hcol, h2 c x hx (h.fluid _ (owned_box g hx)), hpos]
  rfl

/-- **C114, the first half.** In the cells of the chamber the two simulations hold the same populations. -/
theorem C114_restriction (hdim : dim ≤ 3) {s : Sten dim} {D : WallData K dim s} {lo : Fin dim → K} {dx : K}
    {lab : Fin dim → Bool → Int} {ST : Domain.State K dim s.nu} {J : List (Method dim × List (Entry K dim s.ns))}
    {W : Fin dim → Bool} {e : Fin dim → Fin s.ns → K} {S : Kernel K s.ns nc d} {alg : Algo}
    {g : Grid dim} {Q : Proc g → Setup K s.ns nc d dim} {g' : Grid dim} {Q' : Proc g' → Setup K s.ns nc d dim}
    (R : Mirrors D lo dx lab ST J W e S alg g Q g' Q')
    (σ₀ : Proc g → Simu K s.ns d dim) (h0 : ∀ c, (σ₀ c).Start (Q c))
    (σ₀' : Proc g' → Simu K s.ns d dim) (h0' : ∀ c, (σ₀' c).Start (Q' c))
    (hinit : HasImages W e g (fun c => (σ₀ c).arr) g' fun c => (σ₀' c).arr)
    (k : Nat) (σ : Proc g → Simu K s.ns d dim) (hr : PRun g Q σ₀ k σ)
    (σ' : Proc g' → Simu K s.ns d dim) (hr' : PRun g' Q' σ₀' k σ')
    (c : Proc g) (x : Cell dim) (hx : Owned (size g c) g.w x) (c' : Proc g') (x' : Cell dim)
    (hx' : Owned (size g' c') g'.w x') (he : globalPos (first g' c') g'.w x' = globalPos (first g c) g.w x) :
    (σ' c').arr x' = (σ c).arr x := by
  obtain ⟨h1, h2⟩ := fold_id W g.N (owned_box g hx)
  have h := C114_images hdim R σ₀ h0 σ₀' h0' hinit k σ hr σ' hr' c x c' x' hx hx' (by rw [he, h1])
  simp only at h
  rw [h, he, h2, reflect_none]

/-- The collision does not see the mirror across an axis: `E` is the action of the mirror on the moments. -/
theorem C114_collision {n : Nat} (S : Kernel K n nc d) (hEQ : ∀ j w, S.EQ (S.consm j) w = w j)
    (hM : S.invM * S.M = 1) (hS : ∀ i, S.source i = none) (hrel : S.relVel = none) (a : Algo)
    (P : Matrix (Fin n) (Fin n) K) (E : Matrix (Fin n) (Fin n) K) (hE : S.M * P = E * S.M)
    (heq : ∀ (m : Fin n → K) i, S.EQ i (fun l => (E *ᵥ m) (S.consm l)) =
      ∑ l, E i l * S.EQ l fun q => m (S.consm q))
    (hs : ∀ (m : Fin n → K) i l, E i l ≠ 0 →
      S.s i (fun l => (E *ᵥ m) (S.consm l)) = S.s l fun q => m (S.consm q))
    (f : Fin n → K) : collide S a (P *ᵥ f) = P *ᵥ collide S a f := by
  have hcol : ∀ f, collide S a f = collision S.M S.invM S.consm S.EQ S.s f := by
    intro f
    unfold collide
    rw [prog_eq]
    obtain ⟨h3, h4⟩ := step_collision S hEQ hS f ⟨0, 0, 0⟩
    cases a with
    | base => simp only [hrel, Option.isSome_none]; exact h4
    | pull => simp only [hrel, Option.isSome_none]; exact h3
  have hMf : ∀ f : Fin n → K, S.M *ᵥ (P *ᵥ f) = E *ᵥ (S.M *ᵥ f) := by
    intro f
    rw [Matrix.mulVec_mulVec, Matrix.mulVec_mulVec, hE]
  have hrx : ∀ m : Fin n → K, relaxed S.consm S.EQ S.s (E *ᵥ m) = E *ᵥ relaxed S.consm S.EQ S.s m := by
    intro m
    funext i
    have h1 : S.EQ i ((E *ᵥ m) ∘ S.consm) = ∑ l, E i l * S.EQ l (m ∘ S.consm) := heq m i
    simp only [relaxed, h1]
    simp only [Matrix.mulVec, dotProduct, Finset.mul_sum]
    rw [← Finset.sum_add_distrib]
    refine Finset.sum_congr rfl fun l _ => ?_
    by_cases h : E i l = 0
    · simp [h]
    · have h2 : S.s i ((E *ᵥ m) ∘ S.consm) = S.s l (m ∘ S.consm) := hs m i l h
      rw [h2]; unfold relaxed; ring
  have hM' : S.M * S.invM = 1 := mul_eq_one_comm.1 hM
  rw [hcol, hcol]
  unfold collision
  rw [hMf, hrx]
  have h4 := hMf (S.invM *ᵥ relaxed S.consm S.EQ S.s (S.M *ᵥ f))
  have h5 : S.M *ᵥ S.invM *ᵥ relaxed S.consm S.EQ S.s (S.M *ᵥ f) = relaxed S.consm S.EQ S.s (S.M *ᵥ f) := by
    rw [Matrix.mulVec_mulVec, hM', Matrix.one_mulVec]
  rw [h5] at h4
  rw [← h4, Matrix.mulVec_mulVec, hM, Matrix.one_mulVec]

end chamber

end Pylbm.Sim
