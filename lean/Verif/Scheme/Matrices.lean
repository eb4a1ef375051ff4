import Verif.Scheme.Permute
/-!
# C37: the global matrices, `f2m` and `m2f`
-/
namespace Pylbm.Scheme
open Matrix SchemeSpec
set_option linter.unusedSectionVars false

/-! ## The filling loops -/

section fill
variable {K : Type} [Field K]

/-- Start of the scheme `k`: `nv_ptr[k]`. -/
def ptr (nv : List Nat) (k : Nat) : Nat := (nv.take k).sum

theorem ptr_succ (nv : List Nat) (k : Nat) (hk : k < nv.length) :
    ptr nv (k + 1) = ptr nv k + nv[k] := by
  unfold ptr
  rw [List.take_succ_eq_append_getElem hk, List.sum_append]
  simp

theorem ptr_mono (nv : List Nat) {k k' : Nat} (h : k ≤ k') : ptr nv k ≤ ptr nv k' := by
  induction k' with
  | zero => obtain rfl : k = 0 := by omega
            exact le_rfl
  | succ k' ih =>
    by_cases hk : k = k' + 1
    · rw [hk]
    · refine (ih (by omega)).trans ?_
      by_cases hl : k' < nv.length
      · rw [ptr_succ nv k' hl]; omega
      · unfold ptr
        rw [List.take_of_length_le (by omega), List.take_of_length_le (by omega)]

theorem ptr_length (nv : List Nat) : ptr nv nv.length = nv.sum := by simp [ptr]

/-- Every global index belongs to a scheme. -/
theorem exists_ptr (nv : List Nat) (a : Nat) (h : a < nv.sum) :
    ∃ k, ∃ hk : k < nv.length, ∃ i, i < nv[k] ∧ a = ptr nv k + i := by
  have key : ∀ m, m ≤ nv.length → a < ptr nv m →
      ∃ k, ∃ hk : k < nv.length, ∃ i, i < nv[k] ∧ a = ptr nv k + i := by
    intro m
    induction m with
    | zero => intro _ h; simp [ptr] at h
    | succ m ih =>
      intro hm h
      by_cases hlt : a < ptr nv m
      · exact ih (by omega) hlt
      · rw [ptr_succ nv m (by omega)] at h
        exact ⟨m, by omega, a - ptr nv m, by omega, by omega⟩
  exact key nv.length le_rfl (by rwa [ptr_length])

/-- The block of an index is unique. -/
theorem ptr_unique (nv : List Nat) {k k' i i' : Nat} (hk : k < nv.length) (hk' : k' < nv.length)
    (hi : i < nv[k]) (hi' : i' < nv[k']) (h : ptr nv k + i = ptr nv k' + i') : k = k' ∧ i = i' := by
  have h1 := ptr_succ nv k hk
  have h2 := ptr_succ nv k' hk'
  rcases Nat.lt_trichotomy k k' with hlt | rfl | hlt
  · have := ptr_mono nv (show k + 1 ≤ k' by omega); omega
  · exact ⟨rfl, by omega⟩
  · have := ptr_mono nv (show k' + 1 ≤ k by omega); omega

theorem fill_j (B : Nat → K) (p i m : Nat) (A : Nat → Nat → K) :
    (List.range m).foldl (fun A j => fun a b => if a = p + i ∧ b = p + j then B j else A a b) A =
      fun a b => if a = p + i ∧ p ≤ b ∧ b < p + m then B (b - p) else A a b := by
  induction m with
  | zero => funext a b; rw [if_neg (by omega)]; rfl
  | succ m ih =>
    rw [List.range_succ, List.foldl_append, ih]
    funext a b
    simp only [List.foldl_cons, List.foldl_nil]
    by_cases ha : a = p + i
    · by_cases hb : b = p + m
      · subst hb; simp [ha]
      · have : (p ≤ b ∧ b < p + (m + 1)) ↔ (p ≤ b ∧ b < p + m) := by omega
        simp [ha, hb, this]
    · simp [ha]

theorem fill_i (B : Nat → Nat → K) (p m q : Nat) (A : Nat → Nat → K) :
    (List.range q).foldl (fun A i => (List.range m).foldl (fun A j =>
        fun a b => if a = p + i ∧ b = p + j then B i j else A a b) A) A =
      fun a b => if (p ≤ a ∧ a < p + q) ∧ p ≤ b ∧ b < p + m then B (a - p) (b - p) else A a b := by
  induction q with
  | zero => funext a b; rw [if_neg (by omega)]; rfl
  | succ q ih =>
    rw [List.range_succ, List.foldl_append, ih]
    simp only [List.foldl_cons, List.foldl_nil]
    rw [fill_j (B q) p q m]
    funext a b
    by_cases ha : a = p + q
    · subst ha
      by_cases hb : p ≤ b ∧ b < p + m <;> simp [hb]
    · have : (p ≤ a ∧ a < p + (q + 1)) ↔ (p ≤ a ∧ a < p + q) := by omega
      simp [ha, this]

/-- The entries after the loops. -/
theorem fillBlocks_spec (nv : List Nat) (B : Nat → Nat → Nat → K) (A : Nat → Nat → K) :
    (∀ k (hk : k < nv.length) i j, i < nv[k] → j < nv[k] →
      fillBlocks nv B A (ptr nv k + i) (ptr nv k + j) = B k i j) ∧
    (∀ a b, (∀ k (hk : k < nv.length) i j, i < nv[k] → j < nv[k] →
      ¬ (a = ptr nv k + i ∧ b = ptr nv k + j)) → fillBlocks nv B A a b = A a b) := by
  have key : ∀ q, q ≤ nv.length →
      (∀ k (hk : k < nv.length) i j, k < q → i < nv[k] → j < nv[k] →
        ((List.range q).foldl (fun A k =>
          (List.range (nv[k]?.getD 0)).foldl (fun A i =>
            (List.range (nv[k]?.getD 0)).foldl (fun A j =>
              fun a b => if a = ptr nv k + i ∧ b = ptr nv k + j then B k i j else A a b) A) A) A)
          (ptr nv k + i) (ptr nv k + j) = B k i j) ∧
      (∀ a b, (∀ k (hk : k < nv.length) i j, i < nv[k] → j < nv[k] →
          ¬ (a = ptr nv k + i ∧ b = ptr nv k + j)) →
        ((List.range q).foldl (fun A k =>
          (List.range (nv[k]?.getD 0)).foldl (fun A i =>
            (List.range (nv[k]?.getD 0)).foldl (fun A j =>
              fun a b => if a = ptr nv k + i ∧ b = ptr nv k + j then B k i j else A a b) A) A) A)
          a b = A a b) := by
    intro q
    induction q with
    | zero => intro _; exact ⟨fun k _ _ _ h => by omega, fun _ _ _ => rfl⟩
    | succ q ih =>
      intro hq
      obtain ⟨h1, h2⟩ := ih (by omega)
      have hql : q < nv.length := by omega
      have hget : nv[q]?.getD 0 = nv[q] := by simp [hql]
      rw [List.range_succ]
      simp only [List.foldl_append, List.foldl_cons, List.foldl_nil, hget]
      rw [fill_i (B q) (ptr nv q) nv[q] nv[q]]
      beta_reduce
      refine ⟨fun k hk i j hkq hi hj => ?_, fun a b hab => ?_⟩
      · by_cases hkq' : k = q
        · subst hkq'
          rw [if_pos ⟨⟨by omega, by omega⟩, by omega, by omega⟩]
          simp
        · rw [if_neg]
          · exact h1 k hk i j (by omega) hi hj
          · rintro ⟨⟨h3, h4⟩, _⟩
            have := (ptr_unique nv hk hql hi (show ptr nv k + i - ptr nv q < nv[q] by omega)
              (by omega)).1
            exact hkq' this
      · rw [if_neg]
        · exact h2 a b hab
        · rintro ⟨⟨h3, h4⟩, h5, h6⟩
          exact hab q hql (a - ptr nv q) (b - ptr nv q) (by omega) (by omega)
            ⟨by omega, by omega⟩
  obtain ⟨h1, h2⟩ := key nv.length le_rfl
  exact ⟨fun k hk i j hi hj => h1 k hk i j hk hi hj, h2⟩

/-- The product of two block matrices filled from zeros is the block matrix of the products. -/
theorem fillBlocks_mul (nv : List Nat) (L R : Nat → Nat → Nat → K) (k : Nat) (hk : k < nv.length)
    (i : Nat) (hi : i < nv[k]) (c : Nat) :
    ∑ b ∈ Finset.range nv.sum, fillBlocks nv L (fun _ _ => 0) (ptr nv k + i) b *
        fillBlocks nv R (fun _ _ => 0) b c =
      ∑ j ∈ Finset.range nv[k], L k i j * fillBlocks nv R (fun _ _ => 0) (ptr nv k + j) c := by
  have hsub : (Finset.range nv[k]).image (fun j => ptr nv k + j) ⊆ Finset.range nv.sum := by
    intro b hb
    obtain ⟨j, hj, rfl⟩ := Finset.mem_image.1 hb
    have h1 := ptr_succ nv k hk
    have h2 := ptr_mono nv (show k + 1 ≤ nv.length by omega)
    rw [ptr_length] at h2
    have := Finset.mem_range.1 hj
    exact Finset.mem_range.2 (by omega)
  rw [← Finset.sum_subset hsub]
  · rw [Finset.sum_image (fun a _ b _ h => by omega)]
    apply Finset.sum_congr rfl
    intro j hj
    rw [(fillBlocks_spec nv L _).1 k hk i j hi (Finset.mem_range.1 hj)]
  · intro b _ hb
    rw [(fillBlocks_spec nv L _).2, zero_mul]
    rintro k' hk' i' j' hi' hj' ⟨ha, rfl⟩
    obtain ⟨rfl, rfl⟩ := ptr_unique nv hk hk' hi hi' ha
    exact hb (Finset.mem_image.2 ⟨j', Finset.mem_range.2 hj', rfl⟩)

/-- Global inverse from the inverses of the schemes. -/
theorem toMatrix_inverse (nv : List Nat) (L R : Nat → Nat → Nat → K)
    (h : ∀ k (hk : k < nv.length) i l, i < nv[k] → l < nv[k] →
      ∑ j ∈ Finset.range nv[k], L k i j * R k j l = if i = l then 1 else 0) :
    toMatrix nv.sum (fillBlocks nv L fun _ _ => 0) * toMatrix nv.sum (fillBlocks nv R fun _ _ => 0)
      = 1 := by
  ext a c
  rw [Matrix.mul_apply]
  simp only [toMatrix, Matrix.of_apply]
  rw [← Finset.sum_range (fun b => fillBlocks nv L (fun _ _ => 0) a b *
    fillBlocks nv R (fun _ _ => 0) b c)]
  obtain ⟨k, hk, i, hi, ha⟩ := exists_ptr nv a a.2
  obtain ⟨k', hk', l, hl, hc⟩ := exists_ptr nv c c.2
  rw [ha, fillBlocks_mul nv L R k hk i hi, Matrix.one_apply]
  by_cases hkk : k = k'
  · subst hkk
    rw [hc]
    rw [Finset.sum_congr rfl fun j hj => by
      rw [(fillBlocks_spec nv R fun _ _ => 0).1 k hk j l (Finset.mem_range.1 hj) hl]]
    rw [h k hk i l hi hl]
    by_cases hil : i = l
    · subst hil
      rw [if_pos rfl, if_pos (Fin.ext (by omega))]
    · rw [if_neg hil, if_neg (fun e => hil (by have := congrArg Fin.val e; omega))]
  · rw [if_neg (fun e => hkk (ptr_unique nv hk hk' hi hl (by have := congrArg Fin.val e; omega)).1)]
    apply Finset.sum_eq_zero
    intro j hj
    rw [(fillBlocks_spec nv R fun _ _ => 0).2, mul_zero]
    rintro k2 hk2 i2 j2 hi2 hj2 ⟨h1, h2⟩
    have e1 := ptr_unique nv hk hk2 (Finset.mem_range.1 hj) hi2 h1
    have e2 := ptr_unique nv hk' hk2 hl hj2 (by rw [← hc]; exact h2)
    exact hkk (e1.1.trans e2.1.symm)

end fill

/-! ## The property -/

section C37
variable {K : Type} [Field K] {n nc d : Nat}

/-- The elementary schemes: number of velocities and moment matrix of each. -/
structure Elementary (K : Type) where
  size : Nat
  M : Matrix (Fin size) (Fin size) K

/-- Entry of a block, 0 outside of it. -/
def entry {size : Nat} (A : Matrix (Fin size) (Fin size) K) (i j : Nat) : K :=
  if h : i < size ∧ j < size then A ⟨i, h.1⟩ ⟨j, h.2⟩ else 0

/-- `_create_moments_matrices`, scheme.py 464-532, as far as `M` and `invM` are concerned; `none` when one
of the blocks is not invertible. -/
noncomputable def globalMatrices (l : List (Elementary K)) :
    Option (Matrix (Fin (l.map Elementary.size).sum) (Fin (l.map Elementary.size).sum) K ×
      Matrix (Fin (l.map Elementary.size).sum) (Fin (l.map Elementary.size).sum) K) :=
  open Classical in
  if ∀ e ∈ l, (inv e.M).isSome then
    some (toMatrix _ (fillBlocks (l.map Elementary.size)
        (fun k => match l[k]? with | none => fun _ _ => 0 | some e => entry e.M) fun _ _ => 0),
      toMatrix _ (fillBlocks (l.map Elementary.size)
        (fun k => match l[k]? with
          | none => fun _ _ => 0
          | some e => entry ((inv e.M).getD 0)) fun _ _ => 0))
  else none

theorem inv_spec {m : Nat} {A B : Matrix (Fin m) (Fin m) K} (h : inv A = some B) :
    A * B = 1 ∧ B * A = 1 := by
  unfold inv at h
  split_ifs at h with hd
  obtain rfl := Option.some.inj h
  exact ⟨Matrix.mul_nonsing_inv A (isUnit_iff_ne_zero.2 hd),
    Matrix.nonsing_inv_mul A (isUnit_iff_ne_zero.2 hd)⟩

/-- **C37, construction.** The construction succeeds exactly when all the elementary matrices are
invertible, and the global matrices are then inverse of each other. -/
theorem C37_global_inverse (l : List (Elementary K)) :
    ((globalMatrices l).isSome ↔ ∀ e ∈ l, e.M.det ≠ 0) ∧
    ∀ M invM, globalMatrices l = some (M, invM) → M * invM = 1 ∧ invM * M = 1 := by
  have hisSome : ∀ e : Elementary K, (inv e.M).isSome ↔ e.M.det ≠ 0 := by
    intro e
    unfold inv
    split_ifs with h <;> simp [h]
  refine ⟨?_, ?_⟩
  · unfold globalMatrices
    split_ifs with h
    · simp only [Option.isSome_some, true_iff]
      exact fun e he => (hisSome e).1 (h e he)
    · simp only [Option.isSome_none, Bool.false_eq_true, false_iff]
      exact fun hc => h fun e he => (hisSome e).2 (hc e he)
  · intro M invM hg
    unfold globalMatrices at hg
    split_ifs at hg with h
    obtain ⟨rfl, rfl⟩ := Prod.mk.inj (Option.some.inj hg)
    have key : ∀ (k : Nat) (hk : k < l.length) (B : Matrix (Fin l[k].size) (Fin l[k].size) K),
        inv l[k].M = some B → ∀ (X Y : Matrix (Fin l[k].size) (Fin l[k].size) K), X * Y = 1 →
        ∀ i j, i < l[k].size → j < l[k].size →
        ∑ b ∈ Finset.range l[k].size, entry X i b * entry Y b j = if i = j then 1 else 0 := by
      intro k hk B _ X Y hXY i j hi hj
      have := congrFun (congrFun hXY ⟨i, hi⟩) ⟨j, hj⟩
      rw [Matrix.mul_apply, Matrix.one_apply] at this
      simp only [Fin.mk.injEq] at this
      rw [← this, Finset.sum_range]
      apply Finset.sum_congr rfl
      intro b _
      simp [entry, hi, hj]
    have hB : ∀ k (hk : k < l.length), ∃ B, inv l[k].M = some B := fun k hk =>
      Option.isSome_iff_exists.1 (h _ (List.getElem_mem hk))
    constructor
    · apply toMatrix_inverse
      intro k hk i j hi hj
      have hk' : k < l.length := by simpa using hk
      simp only [List.getElem_map] at hi hj ⊢
      obtain ⟨B, hB'⟩ := hB k hk'
      simp only [List.getElem?_eq_getElem hk', hB', Option.getD_some]
      exact key k hk' B hB' _ _ (inv_spec hB').1 i j hi hj
    · apply toMatrix_inverse
      intro k hk i j hi hj
      have hk' : k < l.length := by simpa using hk
      simp only [List.getElem_map] at hi hj ⊢
      obtain ⟨B, hB'⟩ := hB k hk'
      simp only [List.getElem?_eq_getElem hk', hB', Option.getD_some]
      exact key k hk' B hB' _ _ (inv_spec hB').2 i j hi hj

/-- **C37, blocks.** The moments of a scheme are computed from the distribution functions of this scheme
with its own matrix. -/
theorem C37_blocks (l : List (Elementary K)) (M invM) (h : globalMatrices l = some (M, invM))
    (k : Nat) (hk : k < l.length) (i : Fin l[k].size)
    (a : Fin (l.map Elementary.size).sum)
    (ha : (a : Nat) = ((l.map Elementary.size).take k).sum + i)
    (f : Fin (l.map Elementary.size).sum → K) (g : Fin l[k].size → K)
    (hg : ∀ (j : Fin l[k].size) (b : Fin (l.map Elementary.size).sum),
      (b : Nat) = ((l.map Elementary.size).take k).sum + j → f b = g j) :
    (M *ᵥ f) a = (l[k].M *ᵥ g) i := by
  unfold globalMatrices at h
  split_ifs at h with hs
  obtain ⟨rfl, -⟩ := Prod.mk.inj (Option.some.inj h)
  have hk' : k < (l.map Elementary.size).length := by simpa using hk
  have hik : (i : Nat) < (l.map Elementary.size)[k] := by simp
  have hlt : ∀ j : Fin l[k].size, ptr (l.map Elementary.size) k + j < (l.map Elementary.size).sum := by
    intro j
    have h1 := ptr_succ (l.map Elementary.size) k hk'
    have h2 := ptr_mono (l.map Elementary.size) (show k + 1 ≤ _ from hk')
    rw [ptr_length] at h2
    have : (l.map Elementary.size)[k] = l[k].size := by simp
    have := j.2
    omega
  simp only [Matrix.mulVec, dotProduct, toMatrix, Matrix.of_apply]
  have hinj : Function.Injective fun j : Fin l[k].size => (⟨_, hlt j⟩ : Fin _) := by
    intro x y hxy
    have := congrArg Fin.val hxy
    simp only at this
    exact Fin.ext (by omega)
  symm
  rw [← Finset.sum_subset (Finset.subset_univ (Finset.univ.image
    fun j : Fin l[k].size => (⟨_, hlt j⟩ : Fin _)))]
  · rw [Finset.sum_image (fun x _ y _ h => hinj h)]
    apply Finset.sum_congr rfl
    intro j _
    rw [hg j ⟨_, hlt j⟩ rfl, ha]
    have := (fillBlocks_spec (l.map Elementary.size)
      (fun k => match l[k]? with | none => fun _ _ => 0 | some e => entry e.M)
      (fun _ _ => 0)).1 k hk' i j hik (by simp)
    unfold ptr at this ⊢
    rw [this, List.getElem?_eq_getElem hk]
    simp [entry]
  · intro b _ hb
    rw [(fillBlocks_spec (l.map Elementary.size) _ (fun _ _ => 0)).2, zero_mul]
    rintro k2 hk2 i2 j2 hi2 hj2 ⟨h1, h2⟩
    obtain ⟨rfl, rfl⟩ := ptr_unique _ hk' hk2 hik hi2 (by rw [← h1, ha]; rfl)
    apply hb
    rw [Finset.mem_image]
    exact ⟨⟨j2, by simpa using hj2⟩, Finset.mem_univ _, Fin.ext h2.symm⟩

/-- **C37, reordering.** The reordered matrices are still inverse of each other. -/
theorem C37_permuted_inverse (h : nc ≤ n) (D : Data K n nc d) (h1 : D.M * D.invM = 1) :
    (D.permute h).M * (D.permute h).invM = 1 ∧ (D.permute h).invM * (D.permute h).M = 1 := by
  have : (D.permute h).M * (D.permute h).invM = 1 := by
    rw [permute_eq]
    ext a b
    have := congrFun (congrFun h1 (rho h D.consm nc a)) (rho h D.consm nc b)
    rw [Matrix.mul_apply] at this ⊢
    simp only [Matrix.of_apply]
    rw [this, Matrix.one_apply, Matrix.one_apply]
    simp
  exact ⟨this, mul_eq_one_comm.1 this⟩

/-- **C37.** The generated statements of `f2m` followed by those of `m2f` give the distribution functions
back; `m2f` followed by `f2m` gives the moments back. -/
theorem C37_f2m_m2f (S : Kernel K n nc d) (h : S.M * S.invM = 1) (f : Fin n → K) (x : Local K n d) :
    (S.run f x (f2mLocal n nc d false false ++ m2fLocal n d false)).fnew = f ∧
    (S.run f x (m2fLocal n d false ++ f2mLocal n nc d true false)).m = x.m := by
  have h' : S.invM * S.M = 1 := mul_eq_one_comm.1 h
  constructor
  · rw [run_append, run_f2m, run_back]
    simp [Matrix.mulVec_mulVec, h']
  · rw [run_append, run_back, run_f2m]
    simp [Matrix.mulVec_mulVec, h]

/-- Two schemes: a D1Q2 and a D1Q1. -/
example : ∀ e ∈ [(⟨2, !![1, 1; 1, -1]⟩ : Elementary ℚ), ⟨1, !![3]⟩], e.M.det ≠ 0 := by
  simp only [List.mem_cons, List.not_mem_nil, or_false, forall_eq_or_imp, forall_eq]
  constructor
  · rw [Matrix.det_fin_two]; norm_num
  · rw [Matrix.det_fin_one]; norm_num

end C37

end Pylbm.Scheme
