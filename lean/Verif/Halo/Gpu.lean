import Verif.Halo.Props
import Verif.Boundary.Lemmas
import Mathlib.Data.List.FinRange
import Mathlib.Tactic.Linarith
import Mathlib.Tactic.FinCases

/-!
# The halo update of the Loopy backend (C84)

With `gpu_support`, `Array.update` (storage.py 307-330) does not exchange messages: it calls the generated kernels
`update_x`, `update_y` and `update_z`, written by `Array.generate` (storage.py 370-420).
-/

namespace Pylbm.Halo.Gpu
open Halo HaloSpec

variable {dim nv : Nat} {K : Type}

/-- An array with its halo: the value of each velocity at each cell. The order of the axes in memory (`set_order`,
storage.py 376-382) is that of the storage (C13) and is dropped. -/
abbrev Arr (nv dim : Nat) (K : Type) := Fin nv × Cell dim → K

/-- One assignment: the position written and the position read. -/
abbrev Move (nv dim : Nat) := (Fin nv × Cell dim) × (Fin nv × Cell dim)

/-- The assignments of one pass of the loop of the kernel of the direction `d`, storage.py 394-399, 404-410 and 414-420:
`f[0] = f[n - 2]` and `f[n - 1] = f[1]` on this axis. -/
def pair (n : Fin dim → Nat) (d : Fin dim) (k : Fin nv) (y : Cell dim) : List (Move nv dim) :=
  [((k, Function.update y d 0), (k, Function.update y d ((n d : Int) - 2))),
   ((k, Function.update y d ((n d : Int) - 1)), (k, Function.update y d 1))]

/-- All the assignments of the kernel of the direction `d`: the loop is on the velocities and on the whole other axes
(storage.py 400, 411, 421). -/
def moves (n : Fin dim → Nat) (d : Fin dim) : List (Move nv dim) :=
  (List.finRange nv).flatMap fun k =>
    (Boundary.cells dim fun i => if i = d then 1 else n i).flatMap fun y => pair n d k y

/-- Execution of assignments. -/
def exec (A : Arr nv dim K) (mv : Move nv dim) : Arr nv dim K := fun p => if p = mv.1 then A mv.2 else A p

/-- One kernel: the passes of the loop are distributed over the work items of the device and the two assignments of a
pass have no dependency, so that any order is possible. -/
def Pass (n : Fin dim → Nat) (d : Fin dim) (A A' : Arr nv dim K) : Prop :=
  ∃ order : List (Move nv dim), order.Perm (moves n d) ∧ A' = order.foldl exec A

/-- The kernels one after the other. -/
inductive Passes (n : Fin dim → Nat) : List (Fin dim) → Arr nv dim K → Arr nv dim K → Prop
  | nil (A) : Passes n [] A A
  | cons {d l A B C} : Pass n d A B → Passes n l B C → Passes n (d :: l) A C

/-- `Array.update` with `gpu_support`, storage.py 311-330, on an array of shape `n` (with halo). -/
def Update (n : Fin dim → Nat) (A A' : Arr nv dim K) : Prop := Passes n (List.finRange dim) A A'

/-! ## Lemmas -/

/-- Assignments with different targets which read no target: the result does not depend on the order. -/
theorem foldl_exec (l : List (Move nv dim)) (hd : (l.map Prod.fst).Nodup) (hs : ∀ a ∈ l, ∀ b ∈ l, a.2 ≠ b.1)
    (A : Arr nv dim K) :
    (∀ a ∈ l, l.foldl exec A a.1 = A a.2) ∧ ∀ p, (∀ a ∈ l, p ≠ a.1) → l.foldl exec A p = A p := by
  induction l generalizing A with
  | nil => exact ⟨fun a h => by simp at h, fun p _ => rfl⟩
  | cons b l ih =>
    rw [List.map_cons, List.nodup_cons] at hd
    obtain ⟨h1, h2⟩ := ih hd.2 (fun x hx y hy => hs x (List.mem_cons_of_mem _ hx) y (List.mem_cons_of_mem _ hy))
      (exec A b)
    have hb : ∀ a ∈ l, b.1 ≠ a.1 := fun a ha he => hd.1 (he ▸ List.mem_map_of_mem ha)
    constructor
    · intro a ha
      rw [List.foldl_cons]
      rcases List.mem_cons.1 ha with rfl | ha'
      · rw [h2 _ hb]; simp [exec]
      · rw [h1 a ha']
        simp only [exec]
        rw [if_neg (hs a ha b List.mem_cons_self)]
    · intro p hp
      rw [List.foldl_cons, h2 p fun a ha => hp a (List.mem_cons_of_mem _ ha)]
      simp only [exec]
      rw [if_neg (hp b List.mem_cons_self)]

theorem mem_moves {n : Fin dim → Nat} {d : Fin dim} {a : Move nv dim} :
    a ∈ moves n d ↔ ∃ k y, (∀ j, 0 ≤ y j ∧ y j < ((if j = d then 1 else n j : Nat) : Int)) ∧ a ∈ pair n d k y := by
  simp only [moves, List.mem_flatMap, List.mem_finRange, true_and, Boundary.mem_cells]

/-- Targets and sources of a kernel. -/
theorem move_cases {n : Fin dim → Nat} {d : Fin dim} {a : Move nv dim} (h : a ∈ moves n d) :
    (a.1.2 d = 0 ∧ a.2 = (a.1.1, Function.update a.1.2 d ((n d : Int) - 2)) ∨
      a.1.2 d = (n d : Int) - 1 ∧ a.2 = (a.1.1, Function.update a.1.2 d 1)) ∧
    ∀ j, j ≠ d → 0 ≤ a.1.2 j ∧ a.1.2 j < n j := by
  obtain ⟨k, y, hy, ha⟩ := mem_moves.1 h
  simp only [pair, List.mem_cons, List.not_mem_nil, or_false] at ha
  rcases ha with rfl | rfl
  · refine ⟨Or.inl ⟨by simp, by simp⟩, fun j hj => ?_⟩
    have := hy j
    rw [if_neg hj] at this
    simpa [hj] using this
  · refine ⟨Or.inr ⟨by simp, by simp⟩, fun j hj => ?_⟩
    have := hy j
    rw [if_neg hj] at this
    simpa [hj] using this

theorem low_mem (n : Fin dim → Nat) (d : Fin dim) (k : Fin nv) (x : Cell dim)
    (hx : ∀ j, j ≠ d → 0 ≤ x j ∧ x j < n j) (h : x d = 0) :
    ((k, x), (k, Function.update x d ((n d : Int) - 2))) ∈ moves n d := by
  refine mem_moves.2 ⟨k, x, fun j => ?_, ?_⟩
  · by_cases hj : j = d
    · subst hj; simp [h]
    · simpa [hj] using hx j hj
  · simp only [pair, List.mem_cons]
    left
    rw [← h, Function.update_eq_self]

theorem high_mem (n : Fin dim → Nat) (d : Fin dim) (k : Fin nv) (x : Cell dim)
    (hx : ∀ j, j ≠ d → 0 ≤ x j ∧ x j < n j) (h : x d = (n d : Int) - 1) :
    ((k, x), (k, Function.update x d 1)) ∈ moves n d := by
  refine mem_moves.2 ⟨k, Function.update x d 0, fun j => ?_, ?_⟩
  · by_cases hj : j = d
    · subst hj; simp
    · simpa [hj] using hx j hj
  · simp only [pair, List.mem_cons]
    right; left
    rw [Function.update_idem, Function.update_idem, ← h, Function.update_eq_self]

theorem pair_targets_nodup (n : Fin dim → Nat) (d : Fin dim) (hn : 3 ≤ n d) :
    ((moves (nv := nv) n d).map Prod.fst).Nodup := by
  simp only [moves, List.map_flatMap]
  rw [List.nodup_flatMap]
  refine ⟨fun k _ => ?_, ?_⟩
  · rw [List.nodup_flatMap]
    refine ⟨fun y _ => ?_, ?_⟩
    · simp only [pair, List.map_cons, List.map_nil, List.nodup_cons, List.mem_singleton, Prod.mk.injEq, true_and,
        List.not_mem_nil, not_false_eq_true, List.nodup_nil, and_true]
      intro h
      have := congrFun h d
      simp only [Function.update_self] at this
      omega
    · refine List.Pairwise.imp_of_mem ?_ (Boundary.cells_nodup _)
      intro y z hy hz hne
      rw [Function.onFun, List.disjoint_left]
      intro p hp hq
      rw [Boundary.mem_cells] at hy hz
      have hyd := hy d
      have hzd := hz d
      simp only [if_true] at hyd hzd
      apply hne
      funext j
      by_cases hj : j = d
      · subst hj; omega
      · have key : ∀ (u : Cell dim), p ∈ ((pair n d k u).map Prod.fst) → p.2 j = u j := by
          intro u hu
          simp only [pair, List.map_cons, List.map_nil, List.mem_cons, List.not_mem_nil, or_false] at hu
          rcases hu with rfl | rfl <;> simp [hj]
        rw [← key y hp, ← key z hq]
  · refine List.Pairwise.imp ?_ (List.nodup_finRange nv)
    intro k k' hne
    rw [Function.onFun, List.disjoint_left]
    intro p hp hq
    apply hne
    have key : ∀ k, p ∈ (List.flatMap (fun y => (pair n d k y).map Prod.fst)
        (Boundary.cells dim fun i => if i = d then 1 else n i)) → p.1 = k := by
      intro k hk
      obtain ⟨y, -, hy⟩ := List.mem_flatMap.1 hk
      simp only [pair, List.map_cons, List.map_nil, List.mem_cons, List.not_mem_nil, or_false] at hy
      rcases hy with rfl | rfl <;> rfl
    rw [← key k hp, ← key k' hq]

/-- What a kernel does, in any order. -/
theorem pass_spec {n : Fin dim → Nat} {d : Fin dim} (hn : 3 ≤ n d) {A A' : Arr nv dim K} (h : Pass n d A A') (k : Fin nv)
    (x : Cell dim) (hx : ∀ j, j ≠ d → 0 ≤ x j ∧ x j < n j) :
    (x d = 0 → A' (k, x) = A (k, Function.update x d ((n d : Int) - 2))) ∧
    (x d = (n d : Int) - 1 → A' (k, x) = A (k, Function.update x d 1)) ∧
    (x d ≠ 0 → x d ≠ (n d : Int) - 1 → A' (k, x) = A (k, x)) := by
  obtain ⟨order, hp, rfl⟩ := h
  have hd : (order.map Prod.fst).Nodup := (hp.map Prod.fst).nodup_iff.2 (pair_targets_nodup n d hn)
  have hs : ∀ a ∈ order, ∀ b ∈ order, a.2 ≠ b.1 := by
    intro a ha b hb he
    have h1 := (move_cases (hp.subset ha)).1
    have h2 := (move_cases (hp.subset hb)).1
    rw [← he] at h2
    rcases h1 with ⟨-, h1⟩ | ⟨-, h1⟩ <;> rw [h1] at h2 <;> simp only [Function.update_self] at h2 <;>
      rcases h2 with ⟨h2, -⟩ | ⟨h2, -⟩ <;> omega
  obtain ⟨h1, h2⟩ := foldl_exec order hd hs A
  refine ⟨fun h0 => h1 _ (hp.symm.subset (low_mem n d k x hx h0)),
    fun h0 => h1 _ (hp.symm.subset (high_mem n d k x hx h0)), fun h0 h0' => h2 _ ?_⟩
  intro a ha he
  have hc := (move_cases (hp.subset ha)).1
  rw [← he] at hc
  rcases hc with ⟨h, -⟩ | ⟨h, -⟩
  · exact h0 h
  · exact h0' h

theorem pass_exists (n : Fin dim → Nat) (d : Fin dim) (A : Arr nv dim K) : ∃ A', Pass n d A A' :=
  ⟨_, _, List.Perm.refl _, rfl⟩

theorem update_exists (n : Fin dim → Nat) (A : Arr nv dim K) : ∃ A', Update n A A' := by
  have : ∀ (l : List (Fin dim)) (A : Arr nv dim K), ∃ A', Passes n l A A' := by
    intro l
    induction l with
    | nil => exact fun A => ⟨A, .nil A⟩
    | cons d l ih =>
      intro A
      obtain ⟨B, hB⟩ := pass_exists n d A
      obtain ⟨C, hC⟩ := ih B
      exact ⟨C, .cons hB hC⟩
  exact this _ A

/-- The values on the cells which are owned in the directions not yet updated. -/
def Filled (N : Fin dim → Nat) (G : Fin nv → Cell dim → K) (D : Fin dim → Prop) (A : Arr nv dim K) : Prop :=
  ∀ (k : Fin nv) (x : Cell dim), (∀ i, 0 ≤ x i ∧ x i < ((N i + 2 : Nat) : Int)) → (∀ i, ¬ D i → 1 ≤ x i ∧ x i ≤ N i) →
    A (k, x) = G k fun i => (x i - 1) % N i

theorem pass_filled {N : Fin dim → Nat} (hN : ∀ i, 1 ≤ N i) (G : Fin nv → Cell dim → K) (D : Fin dim → Prop)
    (d : Fin dim) {A A' : Arr nv dim K} (h : Pass (fun i => N i + 2) d A A') (hA : Filled N G D A) :
    Filled N G (fun i => D i ∨ i = d) A' := by
  intro k x hx hown
  obtain ⟨h1, h2, h3⟩ := pass_spec (by have := hN d; omega) h k x (fun j _ => hx j)
  have hup : ∀ v : Int, 1 ≤ v → v ≤ N d → A (k, Function.update x d v) = G k fun i => (Function.update x d v i - 1) % N i := by
    intro v hv1 hv2
    refine hA k _ (fun i => ?_) (fun i hi => ?_)
    · by_cases hid : i = d
      · subst hid; simp only [Function.update_self]; omega
      · rw [Function.update_of_ne hid]; exact hx i
    · by_cases hid : i = d
      · subst hid; simp only [Function.update_self]; omega
      · rw [Function.update_of_ne hid]; exact hown i (by tauto)
  have hNd := hN d
  have hxd := hx d
  have hmod : ∀ v : Int, (v - 1) % N d = (x d - 1) % N d →
      (G k fun i => (Function.update x d v i - 1) % N i) = G k fun i => (x i - 1) % N i := by
    intro v hv
    congr 1
    funext i
    by_cases hid : i = d
    · subst hid; simpa using hv
    · rw [Function.update_of_ne hid]
  by_cases h0 : x d = 0
  · rw [h1 h0, show ((N d + 2 : Nat) : Int) - 2 = N d by omega, hup _ (by omega) (by omega)]
    refine hmod _ ?_
    rw [h0, show (0 : Int) - 1 = (N d - 1 : Int) - N d by ring, Int.sub_emod_right]
  · by_cases h0' : x d = (N d : Int) + 1
    · rw [h2 (by omega), hup _ (by omega) (by omega)]
      refine hmod _ ?_
      rw [h0', show (N d : Int) + 1 - 1 = (1 - 1 : Int) + N d by ring, Int.add_emod_right]
    · rw [h3 h0 (by omega)]
      have := hup (x d) (by omega) (by omega)
      rwa [Function.update_eq_self] at this

theorem passes_filled {N : Fin dim → Nat} (hN : ∀ i, 1 ≤ N i) (G : Fin nv → Cell dim → K) (l : List (Fin dim))
    (D : Fin dim → Prop) {A A' : Arr nv dim K} (h : Passes (fun i => N i + 2) l A A') (hA : Filled N G D A) :
    Filled N G (fun i => D i ∨ i ∈ l) A' := by
  induction h generalizing D with
  | nil A => simpa using hA
  | cons hp _ ih =>
    have := ih _ (pass_filled hN G D _ hp hA)
    simpa only [or_assoc, List.mem_cons] using this

/-! ## Properties -/

/-- **C84 (partial).** On one process with halos of one cell in every direction, whatever the order in which the device
executes the assignments of each kernel, `update` fills the whole array (faces, edges and corners) with the periodic
extension, and keeps the owned cells. What is missing is false: see the negations. -/
theorem C84_update_partial (N w : Fin dim → Nat) (hN : ∀ i, 1 ≤ N i) (hw : ∀ i, w i = 1) (G : Fin nv → Cell dim → K)
    (A A' : Arr nv dim K) (hA : ∀ k x, Owned N w x → A (k, x) = G k (globalPos (fun _ => 0) w x))
    (h : Update (fun i => N i + 2 * w i) A A') (k : Fin nv) (x : Cell dim) (hx : InLocal N w x) :
    A' (k, x) = periodic N (G k) (globalPos (fun _ => 0) w x) ∧ (Owned N w x → A' (k, x) = A (k, x)) := by
  obtain rfl : w = fun _ => 1 := funext hw
  have h0 : Filled N G (fun _ => False) A := by
    intro k x hx hown
    rw [hA k x fun i => by have := hown i not_false; simp only [Nat.cast_one]; omega]
    congr 1
    funext i
    have := hown i not_false
    rw [globalPos, Int.emod_eq_of_lt (by omega) (by omega)]
    simp
  have h1 := passes_filled hN G _ _ h h0 k x (fun i => by have := hx i; simp only at this; push_cast; omega)
    (fun i hi => absurd (Or.inr (List.mem_finRange i)) hi)
  have h2 : (fun i => (x i - 1) % (N i : Int)) = fun i => globalPos (fun _ => 0) (fun _ => 1) x i % N i := by
    funext i
    simp [globalPos]
  refine ⟨by rw [h1, h2]; rfl, fun ho => ?_⟩
  rw [h1, hA k x ho]
  congr 1
  funext i
  have := ho i
  simp only [Nat.cast_one] at this
  rw [globalPos, Int.emod_eq_of_lt (by omega) (by omega)]
  simp

/-- Cells which are neither first nor last on any axis are never written. -/
theorem passes_inside {n : Fin dim → Nat} (l : List (Fin dim)) {A A' : Arr nv dim K} (h : Passes n l A A') (k : Fin nv)
    (x : Cell dim) (hx : ∀ d ∈ l, x d ≠ 0 ∧ x d ≠ (n d : Int) - 1) : A' (k, x) = A (k, x) := by
  induction h with
  | nil A => rfl
  | @cons d l A B C hp _ ih =>
    rw [ih fun j hj => hx j (List.mem_cons_of_mem _ hj)]
    obtain ⟨order, hperm, rfl⟩ := hp
    have : ∀ (o : List (Move nv dim)), (∀ a ∈ o, a ∈ moves n d) → ∀ A : Arr nv dim K, o.foldl exec A (k, x) = A (k, x) := by
      intro o
      induction o with
      | nil => exact fun _ A => rfl
      | cons a o iho =>
        intro ho A
        rw [List.foldl_cons, iho (fun b hb => ho b (List.mem_cons_of_mem _ hb))]
        simp only [exec]
        rw [if_neg]
        intro he
        have hc := (move_cases (ho a List.mem_cons_self)).1
        rw [← he] at hc
        have := hx d List.mem_cons_self
        rcases hc with ⟨hc, -⟩ | ⟨hc, -⟩
        · exact this.1 hc
        · exact this.2 hc
    exact this order (fun a ha => hperm.subset ha) A

/-- **C84 is false for velocities longer than one**: whatever the sizes, in a direction with a halo of at least two cells,
the inner layers of the halo are never written. An array which holds another value there keeps it. -/
theorem C84_wide_negation (N w : Fin dim → Nat) (hN : ∀ i, 1 ≤ N i) (hw1 : ∀ i, 1 ≤ w i) (d : Fin dim) (hw : 2 ≤ w d)
    (k : Fin nv) (G : Fin nv → Cell dim → K) [Nontrivial K] :
    ∃ A : Arr nv dim K, (∀ k x, Owned N w x → A (k, x) = G k (globalPos (fun _ => 0) w x)) ∧
      ∀ A', Update (fun i => N i + 2 * w i) A A' → ∃ x, InLocal N w x ∧
        A' (k, x) ≠ periodic N (G k) (globalPos (fun _ => 0) w x) := by
  classical
  let x : Cell dim := fun i => if i = d then 1 else w i
  obtain ⟨v, hv⟩ := exists_ne (periodic N (G k) (globalPos (fun _ => 0) w x))
  refine ⟨fun p => if p.2 = x then v else G p.1 (globalPos (fun _ => 0) w p.2), ?_, ?_⟩
  · intro k y hy
    have : y ≠ x := by
      rintro rfl
      have := (hy d).1
      simp only [x, if_true] at this
      omega
    simp only [if_neg this]
  · intro A' hA'
    refine ⟨x, fun i => ?_, ?_⟩
    · simp only [x]
      have := hN i
      have := hw1 i
      split <;> constructor <;> omega
    · rw [passes_inside _ hA' k x fun i _ => ?_]
      · simpa using hv
      · simp only [x]
        have := hN i
        have := hw1 i
        by_cases hid : i = d
        · subst hid
          rw [if_pos rfl]
          push_cast
          refine ⟨trivial, ?_⟩
          omega
        · rw [if_neg hid]
          push_cast
          constructor <;> omega

/-- In the direction `d`, the cells which are neither first nor last hold `v`; the first ones as well if `b`. -/
def Same (n : Fin dim → Nat) (d : Fin dim) (v : K) (b : Prop) (A : Arr nv dim K) : Prop :=
  ∀ (k : Fin nv) (x : Cell dim), (∀ i, 0 ≤ x i ∧ x i < n i) → x d ≠ (n d : Int) - 1 → (x d = 0 → b) → A (k, x) = v

theorem pass_same {n : Fin dim → Nat} (hn : ∀ i, 3 ≤ n i) (d e : Fin dim) (v : K) (b : Prop) {A A' : Arr nv dim K}
    (h : Pass n e A A') (hA : Same n d v b A) : Same n d v (b ∨ e = d) A' := by
  intro k x hx hl hb
  obtain ⟨h1, h2, h3⟩ := pass_spec (hn e) h k x (fun j _ => hx j)
  have hne := hn e
  have hbox : ∀ u : Int, 0 ≤ u → u < n e → ∀ i, 0 ≤ Function.update x e u i ∧ Function.update x e u i < n i := by
    intro u hu hu' i
    by_cases hi : i = e
    · subst hi; simpa using ⟨hu, hu'⟩
    · rw [Function.update_of_ne hi]; exact hx i
  have hcopy : ∀ u : Int, 1 ≤ u → u ≤ n e - 2 → A (k, Function.update x e u) = v := by
    intro u hu hu'
    refine hA k _ (hbox u (by omega) (by omega)) ?_ ?_
    · by_cases hi : d = e
      · subst hi; simp only [Function.update_self]; omega
      · rw [Function.update_of_ne hi]; exact hl
    · by_cases hi : d = e
      · subst hi; simp only [Function.update_self]; omega
      · rw [Function.update_of_ne hi]
        intro h0
        rcases hb h0 with h | h
        · exact h
        · exact absurd h.symm hi
  by_cases h0 : x e = 0
  · rw [h1 h0]
    exact hcopy _ (by omega) (by omega)
  · by_cases h0' : x e = (n e : Int) - 1
    · rw [h2 h0']
      exact hcopy _ (by omega) (by omega)
    · rw [h3 h0 h0']
      refine hA k x hx hl fun hz => ?_
      rcases hb hz with h | h
      · exact h
      · subst h; exact absurd hz h0

theorem passes_same {n : Fin dim → Nat} (hn : ∀ i, 3 ≤ n i) (d : Fin dim) (v : K) (l : List (Fin dim)) (b : Prop)
    {A A' : Arr nv dim K} (h : Passes n l A A') (hA : Same n d v b A) : Same n d v (b ∨ d ∈ l) A' := by
  induction h generalizing b with
  | nil A => simpa using hA
  | @cons e l A B C hp _ ih =>
    have := ih _ (pass_same hn d e v b hp hA)
    simpa only [or_assoc, List.mem_cons, eq_comm (a := e)] using this

/-- **C84 is false for a direction without velocities along it** (no halo): whatever the sizes, if they leave at least
three cells on each axis, the update overwrites the first owned cell with the last but one. -/
theorem C84_flat_negation (N w : Fin dim → Nat) (hN : ∀ i, 3 ≤ N i) (d : Fin dim) (hw : w d = 0) (k : Fin nv)
    [Nontrivial K] : ∃ A : Arr nv dim K, ∀ A', Update (fun i => N i + 2 * w i) A A' →
      ∃ x, Owned N w x ∧ A' (k, x) ≠ A (k, x) := by
  classical
  obtain ⟨v, v', hv⟩ := exists_pair_ne K
  refine ⟨fun p => if p.2 d = 0 then v' else v, fun A' hA' => ?_⟩
  have h0 : Same (nv := nv) (fun i => N i + 2 * w i) d v False
      (fun p => if p.2 d = 0 then v' else v) := by
    intro k x _ _ hb
    exact if_neg hb
  have h1 := passes_same (fun i => by have := hN i; omega) d v _ _ hA' h0
  have hNd := hN d
  refine ⟨fun i => w i, fun i => ?_, ?_⟩
  · have := hN i
    beta_reduce
    constructor <;> omega
  · rw [h1 k (fun i => w i) (fun i => by have := hN i; beta_reduce; push_cast; omega)
      (by push_cast; omega) (fun _ => Or.inr (List.mem_finRange d))]
    simpa [hw] using hv

/-- **C84 is false on several processes**: whatever the cut, if the block of the process is not the whole domain in some
direction, the first layer of the halo in this direction is filled with the process' own cells. -/
theorem C84_parallel_negation (M N first w : Fin dim → Nat) (hN : ∀ i, 1 ≤ N i) (hw : ∀ i, w i = 1)
    (hM : ∀ i, first i + N i ≤ M i) (d : Fin dim) (hd : N d < M d) (k : Fin nv) [Nontrivial K] :
    ∃ G : Fin nv → Cell dim → K, ∀ A A' : Arr nv dim K,
      (∀ k x, Owned N w x → A (k, x) = G k (globalPos first w x)) → Update (fun i => N i + 2 * w i) A A' →
      ∃ x, InLocal N w x ∧ A' (k, x) ≠ periodic M (G k) (globalPos first w x) := by
  classical
  obtain ⟨v, v', hv⟩ := exists_pair_ne K
  let x : Cell dim := fun i => if i = d then 0 else 1
  have hx : InLocal N w x := by
    intro i
    have := hN i
    rw [hw i]
    simp only [x]
    split <;> constructor <;> omega
  refine ⟨fun _ y => if y d = first d + N d - 1 then v else v', fun A A' hA h => ⟨x, hx, ?_⟩⟩
  have h1 := (C84_update_partial N w hN hw
    (fun _ y => if (fun i => (first i : Int) + y i) d = first d + N d - 1 then v else v') A A' (fun k x hx => ?_) h k x hx).1
  · rw [h1]
    have hNd := hN d
    have hMd := hM d
    have e1 : (-1 : Int) % (N d : Int) = N d - 1 := by
      rw [show (-1 : Int) = (N d - 1 : Int) - N d by ring, Int.sub_emod_right, Int.emod_eq_of_lt] <;> omega
    have e2 : ((first d : Int) - 1) % (M d : Int) ≠ first d + N d - 1 := by
      intro he
      have h2 : ((first d : Int) - 1) % (M d : Int) = ((first d : Int) + N d - 1) % (M d : Int) := by
        rw [he, Int.emod_eq_of_lt] <;> omega
      have h4 : (M d : Int) ∣ N d := by
        have := Int.dvd_of_emod_eq_zero (Int.emod_eq_emod_iff_emod_sub_eq_zero.1 h2.symm)
        rwa [show (first d : Int) + N d - 1 - (first d - 1) = N d by ring] at this
      have := Int.le_of_dvd (by omega) h4
      omega
    simp only [periodic, globalPos, x, hw, if_true]
    have e3 : ((first d : Int) + (((0 : Nat) : Int) + 0 - ((1 : Nat) : Int)) % (N d : Int)) = first d + N d - 1 := by
      rw [show (((0 : Nat) : Int) + 0 - ((1 : Nat) : Int)) = -1 by rfl, e1]; ring
    rw [if_pos e3, if_neg]
    · exact hv
    · simpa using e2
  · rw [hA k x hx]
    simp [globalPos, add_sub_assoc]

/-- Seven cells, one velocity: the hypotheses of `C84_update_partial` are met by an execution. -/
example (G : Fin 1 → Cell 2 → Nat) : ∃ A A' : Arr 1 2 Nat,
    (∀ k x, Owned ![7, 4] ![1, 1] x → A (k, x) = G k (globalPos (fun _ => 0) ![1, 1] x)) ∧
      Update (fun i => (![7, 4] : Fin 2 → Nat) i + 2 * (![1, 1] : Fin 2 → Nat) i) A A' := by
  refine ⟨fun p => G p.1 (globalPos (fun _ => 0) ![1, 1] p.2), ?_⟩
  obtain ⟨A', h⟩ := update_exists (nv := 1) (K := Nat) (fun i => (![7, 4] : Fin 2 → Nat) i + 2 * (![1, 1] : Fin 2 → Nat) i)
    (fun p => G p.1 (globalPos (fun _ => 0) ![1, 1] p.2))
  exact ⟨A', fun _ _ _ => rfl, h⟩

end Pylbm.Halo.Gpu
