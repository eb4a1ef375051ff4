import Verif.Velocity.Lemmas2D
import Verif.Velocity.Lemmas3D
import Verif.Velocity.Spec
/-!
# Properties C01–C05: velocities
-/

namespace Pylbm.Velocity
open VelocitySpec

/-- **C01.** The 1D numbering is a bijection between `ℕ` and `ℤ`. -/
theorem C01_velocity1d_bijective :
    Bijective (fun _ : Int => True) (fun _ => True) (fun v => some (setNum1 v))
      (fun n => some (setCoord1 n)) where
  num_of_coord n _ := ⟨_, trivial, rfl, by rw [setNum1_setCoord1]⟩
  coord_of_num v _ := by
    refine ⟨(setNum1 v).toNat, trivial, ?_, ?_⟩
    · rw [Int.toNat_of_nonneg (setNum1_nonneg v)]
    · rw [Int.toNat_of_nonneg (setNum1_nonneg v), setCoord1_setNum1]
  num_none _ h := absurd trivial h
  coord_none _ h := absurd trivial h

example : setNum1 (-3) = 6 ∧ setCoord1 6 = -3 ∧ setCoord1 5 = 3 := by decide

/-- **C02.** The 2D numbering is a bijection between `ℕ` and `ℤ × ℤ`. -/
theorem C02_velocity2d_bijective :
    Bijective (fun _ : Int × Int => True) (fun _ => True) (fun v => setNum2 v.1 v.2) setCoord2 where
  num_of_coord n _ := by
    obtain ⟨v, h1, h2⟩ := roundtrip2_num n
    exact ⟨v, trivial, h1, h2⟩
  coord_of_num v _ := by
    obtain ⟨n, hn⟩ := setCoord2_surj v.1 v.2
    obtain ⟨w, h1, h2⟩ := roundtrip2_num n
    obtain rfl : w = v := by rw [hn] at h1; simpa using h1.symm
    exact ⟨n, trivial, h2, hn⟩
  num_none _ h := absurd trivial h
  coord_none _ h := absurd trivial h

example : setCoord2 43 = some (-2, 3) ∧ setNum2 (-2) 3 = some 43 := by decide +kernel

/-- **C03.** The 3D numbering is a bijection between the numbers below `199 ^ 3` and the cube of
coordinates of absolute value below `100`, and is undefined elsewhere. -/
theorem C03_velocity3d_bijective :
    Bijective
      (fun v : Int × Int × Int => v.1.natAbs < 100 ∧ v.2.1.natAbs < 100 ∧ v.2.2.natAbs < 100)
      (fun n => n < 199 ^ 3) (fun v => (setNum3 v).map Int.ofNat) setCoord3 := by
  have hnd := enum3_nodup K3
  have hlen : (enum3 K3).length = 199 ^ 3 := enum3_length 99
  have hmem : ∀ v, v ∈ enum3 K3 ↔ _ := fun v => mem_enum3 (K := K3) (v := v)
  have key : ∀ n (hn : n < (enum3 K3).length), setNum3 (enum3 K3)[n] = some n := by
    intro n hn
    unfold setNum3
    rw [List.findIdx?_eq_some_iff_getElem]
    refine ⟨hn, by simp, fun j hj => ?_⟩
    have hne : (enum3 K3)[j]'(by omega) ≠ (enum3 K3)[n] := by
      intro h
      have := (List.Nodup.getElem_inj_iff hnd).1 h
      omega
    simpa using hne
  constructor
  · intro n hn
    have hn' : n < (enum3 K3).length := by rw [hlen]; exact hn
    refine ⟨(enum3 K3)[n], (hmem _).1 (List.getElem_mem hn'), ?_, ?_⟩
    · unfold setCoord3; exact List.getElem?_eq_getElem hn'
    · simp [key n hn']
  · intro v hv
    obtain ⟨n, hn, rfl⟩ := List.getElem_of_mem ((hmem v).2 hv)
    refine ⟨n, by rw [← hlen]; exact hn, by simp [key n hn], ?_⟩
    unfold setCoord3; exact List.getElem?_eq_getElem hn
  · intro v hv
    have : v ∉ enum3 K3 := fun h => hv ((hmem v).1 h)
    simp only [setNum3, Option.map_eq_none_iff, List.findIdx?_eq_none_iff, beq_eq_false_iff_ne]
    rintro w hw rfl
    exact this hw
  · intro n hn
    unfold setCoord3
    exact List.getElem?_eq_none (by rw [hlen]; omega)

/-- Non trivial instance of C03: the corner of the cube is numbered, its neighbour is not. -/
example : (∃ n, n < 199 ^ 3 ∧ setCoord3 n = some (99, -99, 0)) ∧ setNum3 (100, 0, 0) = none := by
  refine ⟨?_, ?_⟩
  · obtain ⟨n, h1, _, h2⟩ := C03_velocity3d_bijective.coord_of_num (99, -99, 0) (by decide)
    exact ⟨n, h1, h2⟩
  · have := C03_velocity3d_bijective.num_none (100, 0, 0) (by decide)
    simpa using this

/-- The class level statement of C01–C03: a velocity built from its number has that number. -/
theorem C03_velocity_number_roundtrip (dim n : Nat) (v : Vel) (h : ofNum dim n = some v) :
    v.dim = dim ∧ v.num = some (n : Int) := by
  unfold ofNum at h
  split at h
  · obtain rfl : _ = v := by simpa using h
    rename_i hd
    subst hd
    exact ⟨rfl, by simp [Vel.num, setNum1_setCoord1]⟩
  · split at h
    · rename_i _ hd
      subst hd
      obtain ⟨w, h1, h2⟩ := roundtrip2_num n
      rw [h1] at h
      obtain rfl : _ = v := by simpa using h
      exact ⟨rfl, by simpa [Vel.num] using h2⟩
    · split at h
      · rename_i _ _ hd
        subst hd
        by_cases hn : n < 199 ^ 3
        · obtain ⟨w, _, h1, h2⟩ := C03_velocity3d_bijective.num_of_coord n hn
          rw [h1] at h
          obtain rfl : _ = v := by simpa using h
          exact ⟨rfl, by simpa [Vel.num] using h2⟩
        · rw [C03_velocity3d_bijective.coord_none n hn] at h
          simp at h
      · simp at h

example : ofNum 2 8 = some (.v2 1 (-1)) := by decide +kernel

/-- **C04.** `permute_in_place` yields exactly the distinct rearrangements, each once, in
increasing lexicographic order. -/
theorem C04_permute_in_place {α : Type*} [LinearOrder α] [Inhabited α] (l : List α) :
    Arrangements l (permuteInPlace l).1 :=
  ⟨(permuteInPlace_spec l).1, (permuteInPlace_spec l).2.1⟩

/-- **C04.** It starts from the sorted list. -/
theorem C04_permute_first_sorted {α : Type*} [LinearOrder α] [Inhabited α] (l : List α) :
    ∃ a, (permuteInPlace l).1.head? = some a ∧ a.Perm l ∧ a.Pairwise (· ≤ ·) := by
  refine ⟨_, (permuteInPlace_spec l).2.2.2, List.mergeSort_perm l _, ?_⟩
  have := List.pairwise_mergeSort (le := fun a b : α => decide (a ≤ b))
    (by intro a b c; simpa using le_trans) (by intro a b; simpa using le_total a b) l
  simpa using this

/-- **C04.** The generator terminates (the fuel of the model is never exhausted) and leaves the
list sorted. -/
theorem C04_permute_terminates {α : Type*} [LinearOrder α] [Inhabited α] (l : List α) :
    ∃ e, (permuteInPlace l).2 = some e ∧ e.Perm l ∧ e.Pairwise (· ≤ ·) :=
  (permuteInPlace_spec l).2.2.1

example : (permuteInPlace [1, 0, 0]).1 = [[0, 0, 1], [0, 1, 0], [1, 0, 0]] := by
  simp [permuteInPlace, permLoop, nextPerm, findI, findJ, List.mergeSort,
    List.MergeSort.Internal.splitInTwo, Nat.factorial]

/-- Components of a velocity (`v`, stencil.py 212-217). -/
def Vel.comps : Vel → List Int
  | .v1 x => [x]
  | .v2 x y => [x, y]
  | .v3 x y z => [x, y, z]

/-- **C05.** With an admissible axis the symmetric velocity has the documented components. -/
theorem C05_symmetric_components (v : Vel) (axis : Option Int) (h : ValidAxis v.dim axis) :
    ∃ w, v.getSymmetric axis = some w ∧ w.dim = v.dim ∧ w.comps = symmetric axis v.comps := by
  cases axis with
  | none => cases v <;> exact ⟨_, rfl, rfl, rfl⟩
  | some a =>
    obtain ⟨h0, h1⟩ := h
    cases v with
    | v1 x =>
      obtain rfl : a = 0 := by simp only [Vel.dim] at h1; omega
      exact ⟨_, rfl, rfl, rfl⟩
    | v2 x y =>
      have : a = 0 ∨ a = 1 := by simp only [Vel.dim] at h1; omega
      rcases this with rfl | rfl <;> exact ⟨_, rfl, rfl, rfl⟩
    | v3 x y z =>
      have : a = 0 ∨ a = 1 ∨ a = 2 := by simp only [Vel.dim] at h1; omega
      rcases this with rfl | rfl | rfl <;> exact ⟨_, rfl, rfl, rfl⟩

/-- **C05.** An error is raised exactly for inadmissible axes. -/
theorem C05_symmetric_error_iff (v : Vel) (axis : Option Int) :
    v.getSymmetric axis = none ↔ ¬ ValidAxis v.dim axis := by
  constructor
  · intro h hv
    obtain ⟨w, hw, _⟩ := C05_symmetric_components v axis hv
    rw [hw] at h; simp at h
  · intro h
    cases axis with
    | none => exact absurd trivial h
    | some a =>
      have : a ≥ v.dim ∨ a < 0 := by
        simp only [ValidAxis, not_and_or] at h; omega
      simp only [Vel.getSymmetric, this, if_true]

/-- **C05.** The symmetric of the symmetric is the velocity itself. -/
theorem C05_symmetric_involutive (v w : Vel) (axis : Option Int)
    (h : v.getSymmetric axis = some w) : w.getSymmetric axis = some v := by
  have hv : ValidAxis v.dim axis := by
    by_contra hn
    rw [(C05_symmetric_error_iff v axis).2 hn] at h; simp at h
  cases axis with
  | none => cases v <;> (obtain rfl := Option.some.inj h; simp [Vel.getSymmetric])
  | some a =>
    obtain ⟨h0, h1⟩ := hv
    cases v with
    | v1 x =>
      obtain rfl : a = 0 := by simp only [Vel.dim] at h1; omega
      obtain rfl := Option.some.inj h; simp [Vel.getSymmetric, Vel.dim]
    | v2 x y =>
      have : a = 0 ∨ a = 1 := by simp only [Vel.dim] at h1; omega
      rcases this with rfl | rfl <;> obtain rfl := Option.some.inj h <;>
        simp [Vel.getSymmetric, Vel.dim]
    | v3 x y z =>
      have : a = 0 ∨ a = 1 ∨ a = 2 := by simp only [Vel.dim] at h1; omega
      rcases this with rfl | rfl | rfl <;> obtain rfl := Option.some.inj h <;>
        simp [Vel.getSymmetric, Vel.dim]

/-- **C05.** In terms of numbers (1D and 2D): the number of the symmetric velocity determines the
number of the velocity, whatever the way the velocities are created. -/
theorem C05_symmetric_number (v w u : Vel) (axis : Option Int)
    (h : v.getSymmetric axis = some w) (h' : w.getSymmetric axis = some u) : u.num = v.num := by
  rw [C05_symmetric_involutive v w axis h] at h'
  rw [Option.some.inj h']

example : (Vel.v3 1 (-2) 3).getSymmetric (some 1) = some (.v3 (-1) (-2) (-3)) ∧
    (Vel.v2 1 2).getSymmetric (some 2) = none ∧ ValidAxis (Vel.v3 1 (-2) 3).dim (some 1) := by
  refine ⟨by decide, by decide, by decide, by decide⟩

end Pylbm.Velocity
