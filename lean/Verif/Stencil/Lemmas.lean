import Verif.Stencil.Model
import Verif.Velocity.Props
import Verif.Common.List
/-! Helper lemmas for `Stencil`. -/

namespace Pylbm.Sten
open Velocity ListAux

theorem sorted_union1d (a b : List Nat) : (union1d a b).Pairwise (· < ·) := by
  have hs := List.pairwise_insertionSort (fun a b : Nat => a ≤ b) (a ++ b).dedup
  have hn : (union1d a b).Nodup :=
    (List.perm_insertionSort _ _).nodup_iff.2 (List.nodup_dedup _)
  have := List.Pairwise.and hs (List.nodup_iff_pairwise_ne.1 hn)
  refine this.imp ?_
  intro x y h
  have := h.1
  have := h.2
  omega

theorem mem_union1d (a b : List Nat) (x : Nat) : x ∈ union1d a b ↔ x ∈ a ∨ x ∈ b := by
  unfold union1d
  rw [List.mem_insertionSort, List.mem_dedup, List.mem_append]

theorem sorted_unique (schemes : List (List Nat)) :
    (schemes.foldl union1d []).Pairwise (· < ·) := by
  have : ∀ (l : List (List Nat)) (a : List Nat), a.Pairwise (· < ·) →
      (l.foldl union1d a).Pairwise (· < ·) := by
    intro l
    induction l with
    | nil => intro a ha; exact ha
    | cons b l ih => intro a _; exact ih _ (sorted_union1d a b)
  exact this _ _ List.Pairwise.nil

theorem mem_unique (schemes : List (List Nat)) (x : Nat) :
    x ∈ schemes.foldl union1d [] ↔ ∃ s ∈ schemes, x ∈ s := by
  have : ∀ (l : List (List Nat)) (a : List Nat), x ∈ l.foldl union1d a ↔ x ∈ a ∨ ∃ s ∈ l, x ∈ s := by
    intro l
    induction l with
    | nil => intro a; simp
    | cons b l ih =>
      intro a
      simp only [List.foldl_cons, ih, mem_union1d, List.mem_cons, exists_eq_or_imp, or_assoc]
  simpa using this schemes []

/-- The velocity object of a number. -/
def mkV (dim n : Nat) : V := ⟨n, (ofNum dim n).getD (.v1 0)⟩

@[simp] theorem mkV_num (dim n : Nat) : (mkV dim n).num = n := rfl

/-- All the numbers have coordinates. -/
def ValidNums (dim : Nat) (schemes : List (List Nat)) : Prop :=
  ∀ s ∈ schemes, ∀ n ∈ s, (ofNum dim n).isSome

/-- Prefix sums. -/
def prefixes : Nat → List (List Nat) → List Nat
  | _, [] => []
  | p, s :: l => (p + s.length) :: prefixes (p + s.length) l

theorem prefixes_getElem? : ∀ (l : List (List Nat)) (p n : Nat), n < l.length →
    (prefixes p l)[n]? = some (p + offset l (n + 1))
  | [], _, _, h => by simp at h
  | s :: l, p, 0, _ => by simp [prefixes]
  | s :: l, p, n + 1, h => by
    simp only [prefixes, List.getElem?_cons_succ, offset_cons_succ]
    rw [prefixes_getElem? l _ n (by simpa using h)]
    congr 1; omega

theorem length_prefixes : ∀ (l : List (List Nat)) (p : Nat), (prefixes p l).length = l.length
  | [], _ => rfl
  | s :: l, p => by simp [prefixes, length_prefixes l]

theorem fill_eq (dim : Nat) (u : List Nat) (hu : u.Pairwise (· < ·)) :
    ∀ (l : List (List Nat)) (p : Nat), (∀ s ∈ l, ∀ n ∈ s, n ∈ u) →
      fill (u.map (mkV dim)) l p =
        some (l.map (·.map (mkV dim)), l.map List.length, prefixes p l)
  | [], _, _ => rfl
  | s :: l, p, h => by
    unfold fill
    have hm : (u.map (mkV dim)).map V.num = u := by simp [Function.comp_def]
    rw [hm]
    have h1 : (s.map (searchLeft u)).mapM (fun i => (u.map (mkV dim))[i]?) =
        some (s.map (mkV dim)) := by
      rw [mapM_eq_some_iff]
      refine ⟨by simp, fun i hi => ?_⟩
      simp only [List.length_map] at hi
      have := getElem?_countP_lt hu (h s (by simp) s[i] (List.getElem_mem hi))
      simp only [List.getElem_map, searchLeft, List.getElem?_map, this]
      simp [hi]
    simp only [h1]
    simp only [Option.bind_eq_bind, Option.bind_some]
    rw [fill_eq dim u hu l (p + s.length) (fun t ht => h t (by simp [ht]))]
    rfl

theorem build_eq (dim : Nat) (schemes : List (List Nat)) (h0 : schemes ≠ []) (h1 : [] ∉ schemes)
    (hv : ValidNums dim schemes) :
    build dim schemes = some
      { dim := dim
        uvel := (schemes.foldl union1d []).map (mkV dim)
        v := schemes.map (·.map (mkV dim))
        nv := schemes.map List.length
        nvPtr := 0 :: prefixes 0 schemes
        num2index := schemes.flatten
        unum2index := mkUnum2index (schemes.foldl union1d []) } := by
  unfold build
  rw [if_neg (by simp [h0, h1])]
  have hu : (schemes.foldl union1d []).mapM (fun i => (ofNum dim i).map (V.mk i)) =
      some ((schemes.foldl union1d []).map (mkV dim)) := by
    apply mapM_eq_map
    intro n hn
    obtain ⟨s, hs, hns⟩ := (mem_unique schemes n).1 hn
    obtain ⟨w, hw⟩ := Option.isSome_iff_exists.1 (hv s hs n hns)
    simp [mkV, hw]
  simp only [hu, Option.bind_eq_bind, Option.bind_some, Option.pure_def]
  rw [fill_eq dim _ (sorted_unique schemes) schemes 0
    (fun s hs n hn => (mem_unique schemes n).2 ⟨s, hs, hn⟩)]
  simp only [Option.bind_some]
  congr 2
  · simp [Function.comp_def, List.flatMap_def]
  · simp [Function.comp_def]

theorem build_none_of_invalid (dim : Nat) (schemes : List (List Nat))
    (h : schemes = [] ∨ [] ∈ schemes ∨ ¬ ValidNums dim schemes) : build dim schemes = none := by
  unfold build
  by_cases hc : schemes = [] ∨ [] ∈ schemes
  · rw [if_pos hc]
  · rw [if_neg hc]
    have hv : ¬ ValidNums dim schemes := by tauto
    have : (schemes.foldl union1d []).mapM (fun i => (ofNum dim i).map (V.mk i)) = none := by
      rw [mapM_eq_none_iff]
      unfold ValidNums at hv
      push Not at hv
      obtain ⟨s, hs, n, hn, hw⟩ := hv
      refine ⟨n, (mem_unique schemes n).2 ⟨s, hs, hn⟩, ?_⟩
      simpa using hw
    simp [this]

theorem nvPtr_getElem? (schemes : List (List Nat)) (n : Nat) (h : n ≤ schemes.length) :
    (0 :: prefixes 0 schemes)[n]? = some (offset schemes n) := by
  cases n with
  | zero => simp
  | succ n =>
    rw [List.getElem?_cons_succ, prefixes_getElem? schemes 0 n (by omega)]; simp

theorem offset_lt_of_lt (schemes : List (List Nat)) (h1 : [] ∉ schemes) {n m : Nat} (h : n < m)
    (hm : m ≤ schemes.length) : offset schemes n < offset schemes m := by
  have hn : n < schemes.length := by omega
  have h2 := offset_succ schemes n hn
  have h3 := offset_mono schemes (show n + 1 ≤ m by omega)
  have : 0 < schemes[n].length := by
    rw [List.length_pos_iff]; rintro h
    exact h1 (h ▸ List.getElem_mem hn)
  omega

theorem searchRight_nvPtr (schemes : List (List Nat)) (n i : Nat)
    (hn : n < schemes.length) (hi : i < schemes[n].length) :
    searchRight (0 :: prefixes 0 schemes) (offset schemes n + i) = n + 1 := by
  unfold searchRight
  have hl : (0 :: prefixes 0 schemes).length = schemes.length + 1 := by simp [length_prefixes]
  have hg : ∀ m (h : m < (0 :: prefixes 0 schemes).length),
      (0 :: prefixes 0 schemes)[m] = offset schemes m := by
    intro m h
    have := nvPtr_getElem? schemes m (by omega)
    rw [List.getElem?_eq_getElem h] at this
    simpa using this
  refine countP_eq_of_split _ _ _ (by omega) ?_ ?_
  · intro m hm
    rw [hg]
    have := offset_mono schemes (show m ≤ n by omega)
    simp; omega
  · intro m hm h
    rw [hg]
    have := offset_mono schemes hm
    rw [offset_succ schemes n hn] at this
    simp; omega

theorem num_eq_iff (dim m : Nat) (w : Vel) (hd : w.dim = dim) :
    w.num = some (m : Int) ↔ ofNum dim m = some w := by
  constructor
  · intro h
    cases w with
    | v1 x =>
      obtain rfl : dim = 1 := by simp only [Vel.dim] at hd; omega
      obtain ⟨n, _, h1, h2⟩ := C01_velocity1d_bijective.coord_of_num x trivial
      simp only [Vel.num] at h
      rw [h] at h1
      obtain rfl : m = n := by simpa using h1
      simpa [ofNum] using h2
    | v2 x y =>
      obtain rfl : dim = 2 := by simp only [Vel.dim] at hd; omega
      obtain ⟨n, _, h1, h2⟩ := C02_velocity2d_bijective.coord_of_num (x, y) trivial
      simp only [Vel.num] at h
      simp only at h1
      rw [h] at h1
      obtain rfl : m = n := by simpa using h1
      simp [ofNum, h2]
    | v3 x y z =>
      obtain rfl : dim = 3 := by simp only [Vel.dim] at hd; omega
      by_cases hP : x.natAbs < 100 ∧ y.natAbs < 100 ∧ z.natAbs < 100
      · obtain ⟨n, _, h1, h2⟩ := C03_velocity3d_bijective.coord_of_num (x, y, z) hP
        simp only [Vel.num] at h
        rw [h] at h1
        obtain rfl : m = n := by simpa using h1
        simp [ofNum, h2]
      · have := C03_velocity3d_bijective.num_none (x, y, z) hP
        simp only [Vel.num] at h
        rw [this] at h; simp at h
  · intro h; exact (C03_velocity_number_roundtrip dim m w h).2

/-- The symmetric of a numbered velocity is numbered. -/
theorem sym_num_isSome (dim m : Nat) (v w : Vel) (axis : Option Int) (hv : ofNum dim m = some v)
    (hw : v.getSymmetric axis = some w) : w.dim = dim ∧ ∃ k : Nat, w.num = some (k : Int) := by
  have hd := (C03_velocity_number_roundtrip dim m v hv).1
  have hnum := (C03_velocity_number_roundtrip dim m v hv).2
  have hva : VelocitySpec.ValidAxis v.dim axis := by
    by_contra hn
    rw [(C05_symmetric_error_iff v axis).2 hn] at hw; simp at hw
  obtain ⟨w', hw', hwd, hwc⟩ := C05_symmetric_components v axis hva
  obtain rfl : w' = w := by rw [hw] at hw'; simpa using hw'.symm
  refine ⟨by rw [hwd, hd], ?_⟩
  have hlen := congrArg List.length hwc
  simp only [VelocitySpec.symmetric, List.length_mapIdx] at hlen
  cases w' with
  | v1 x =>
    obtain ⟨n, _, h1, h2⟩ := C01_velocity1d_bijective.coord_of_num x trivial
    exact ⟨n, h1⟩
  | v2 x y =>
    obtain ⟨n, _, h1, h2⟩ := C02_velocity2d_bijective.coord_of_num (x, y) trivial
    exact ⟨n, h1⟩
  | v3 x y z =>
    cases v with
    | v1 _ => simp [Vel.comps] at hlen
    | v2 _ _ => simp [Vel.comps] at hlen
    | v3 a b c =>
      have hP : a.natAbs < 100 ∧ b.natAbs < 100 ∧ c.natAbs < 100 := by
        by_contra hP
        have := C03_velocity3d_bijective.num_none (a, b, c) hP
        simp only [Vel.num] at hnum
        rw [this] at hnum; simp at hnum
      have habs : x.natAbs = a.natAbs ∧ y.natAbs = b.natAbs ∧ z.natAbs = c.natAbs := by
        simp only [Vel.comps, VelocitySpec.symmetric, List.mapIdx_cons, List.mapIdx_nil,
          List.cons.injEq, and_true] at hwc
        obtain ⟨e1, e2, e3⟩ := hwc
        refine ⟨?_, ?_, ?_⟩
        · rw [e1]; split <;> simp
        · rw [e2]; split <;> simp
        · rw [e3]; split <;> simp
      obtain ⟨n, _, h1, h2⟩ := C03_velocity3d_bijective.coord_of_num (x, y, z)
        (by simp only [habs]; exact hP)
      exact ⟨n, h1⟩

theorem foldl_set_length (l : List (Nat × Nat)) (t : List Int) :
    (l.foldl (fun (t : List Int) (p : Nat × Nat) => t.set p.1 (p.2 : Int)) t).length = t.length := by
  induction l generalizing t with
  | nil => rfl
  | cons p l ih => simp [ih]

theorem foldl_set_other (l : List Nat) (k : Nat) (t : List Int) (n : Nat) (h : n ∉ l) :
    ((l.zipIdx k).foldl (fun (t : List Int) (p : Nat × Nat) => t.set p.1 (p.2 : Int)) t)[n]? =
      t[n]? := by
  induction l generalizing t k with
  | nil => rfl
  | cons a l ih =>
    simp only [List.zipIdx_cons, List.foldl_cons]
    simp only [List.mem_cons, not_or] at h
    rw [ih _ _ h.2, List.getElem?_set_ne (by omega)]

theorem foldl_set_mem (l : List Nat) (hl : l.Nodup) (k : Nat) (t : List Int) (i : Nat)
    (hi : i < l.length) (ht : l[i] < t.length) :
    ((l.zipIdx k).foldl (fun (t : List Int) (p : Nat × Nat) => t.set p.1 (p.2 : Int)) t)[l[i]]? =
      some ((k + i : Nat) : Int) := by
  induction l generalizing t k i with
  | nil => simp at hi
  | cons a l ih =>
    simp only [List.zipIdx_cons, List.foldl_cons]
    rw [List.nodup_cons] at hl
    cases i with
    | zero =>
      simp only [List.getElem_cons_zero] at ht ⊢
      rw [foldl_set_other _ _ _ _ hl.1, List.getElem?_set_self ht]
      simp
    | succ i =>
      simp only [List.getElem_cons_succ] at ht ⊢
      rw [ih hl.2 (k + 1) _ i (by simpa using hi) (by simpa using ht)]
      congr 2; omega

theorem le_foldl_max (l : List Nat) (b : Nat) : b ≤ l.foldl max b ∧ ∀ n ∈ l, n ≤ l.foldl max b := by
  induction l generalizing b with
  | nil => simp
  | cons a l ih =>
    simp only [List.foldl_cons]
    have := ih (max b a)
    refine ⟨by omega, ?_⟩
    intro n hn
    rcases List.mem_cons.1 hn with rfl | hn
    · omega
    · exact this.2 n hn

end Pylbm.Sten
