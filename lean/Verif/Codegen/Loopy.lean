import Mathlib.Data.Nat.Digits.Defs
import Mathlib.Data.List.Perm.Basic
import Mathlib.Data.List.Nodup
import Mathlib.Data.List.GetD
import Mathlib.Tactic.FinCases
import Verif.Scheme.Model
import Verif.Scheme.Props

/-!
# The order of the instructions of a Loopy kernel (C83)

Loopy does not execute the instructions of a kernel in the order of the text: it may take any order which respects the
declared dependencies. The printer gives the instructions of the `k`-th equation the prefix `inst_k` and makes them
depend on `inst_{k-1}*`.
-/

namespace Pylbm.Loopy

open Pylbm.Scheme Pylbm.SchemeSpec

/-! ## The printer -/

section printer
variable {α : Type}

/-- The number as printed by `%d`. -/
def dec (k : Nat) : List Char := Nat.toDigits 10 k

/-- `"inst_%d"`. -/
def prefixOf (k : Nat) : List Char := "inst_".toList ++ dec k

/-- The lines of a kernel: `with {id_prefix=…}` or `with {id_prefix=…, dep=…}`, a statement, `end`. The lines of `for`
and `if`, which enclose all the others, are not kept. -/
inductive Line (α : Type)
  | begin (idPrefix : List Char) (dep : Option (List Char))
  | stmt (a : α)
  | fin

/-- `LoopyCodePrinter.doprint` of an equation, generator/printing/loopy.py 105-193: `instr` is the number of equations
printed so far, `block` is the list of the scalar assignments which `_print_Assignment` (loopy.py 316-342) writes, one per
component which is not of the form `m[i] = m[i]`. -/
def doprint (instr : Nat) (block : List α) : List (Line α) :=
  (if instr = 0 then Line.begin (prefixOf instr) none
    else Line.begin (prefixOf instr) (some (prefixOf (instr - 1) ++ ['*'])))
  :: block.map Line.stmt ++ [Line.fin]

/-- The equations of the body of a loop, one after the other: `_print_For` and `_print_If`, loopy.py 283-314. The counter
is reset at the opening of the routine (codegen.py 1346) and is an attribute of the printer, which goes on from one loop
to the next. -/
def printFrom : Nat → List (List α) → List (Line α)
  | _, [] => []
  | k, b :: l => doprint k b ++ printFrom (k + 1) l

def printKernel (blocks : List (List α)) : List (Line α) := printFrom 0 blocks

/-! ## Loopy, as documented

This part is not in the repository: the reading of the lines by `loopy.make_kernel`. -/

/-- An instruction, with its name and the patterns of the names on which it depends. -/
structure Instr (α : Type) where
  id : List Char
  deps : List (List Char)
  act : α
  deriving DecidableEq

/-- Names made from a prefix: `p`, `p_0`, `p_1`, … -/
def nameOf (p : List Char) : Nat → List Char
  | 0 => p
  | k + 1 => p ++ '_' :: dec k

/-- Reading the lines: `cur` is the prefix and the dependencies of the current block, with the number of instructions
already named. -/
def readLines : Option (List Char × List (List Char) × Nat) → List (Line α) → List (Instr α)
  | _, [] => []
  | _, .begin p d :: l => readLines (some (p, d.toList, 0)) l
  | some (p, d, k), .stmt a :: l => ⟨nameOf p k, d, a⟩ :: readLines (some (p, d, k + 1)) l
  | none, .stmt _ :: l => readLines none l
  | _, .fin :: l => readLines none l

/-- Shell patterns (`fnmatch`) with `*` only. -/
def glob : List Char → List Char → Bool
  | [], s => s.isEmpty
  | p :: ps, s =>
    if p = '*' then
      s.tails.any fun t => glob ps t
    else match s with
      | [] => false
      | c :: cs => c == p && glob ps cs

/-- `j` is among the declared dependencies of `i`. -/
def Instr.needs (i j : Instr α) : Prop := ∃ d ∈ i.deps, glob d j.id = true

/-- An order of execution that Loopy may take: all the instructions, each one after those on which it depends. -/
structure Schedule (kernel order : List (Instr α)) : Prop where
  perm : order.Perm kernel
  deps : ∀ l₁ i l₂, order = l₁ ++ i :: l₂ → ∀ j ∈ kernel, i.needs j → j ∈ l₁

/-- What the device executes: `order` is a possible order of the kernel printed for `blocks`. -/
def Possible (blocks : List (List α)) (order : List α) : Prop :=
  ∃ s, Schedule (readLines none (printKernel blocks)) s ∧ order = s.map Instr.act

end printer

/-! ## Lemmas -/

section lemmas
variable {α : Type}

/-- The instructions of a block. -/
def instrs (k j : Nat) : List α → List (Instr α)
  | [] => []
  | a :: b => ⟨nameOf (prefixOf k) j, if k = 0 then [] else [prefixOf (k - 1) ++ ['*']], a⟩ :: instrs k (j + 1) b

/-- The instructions of the kernel. -/
def kernelFrom : Nat → List (List α) → List (Instr α)
  | _, [] => []
  | k, b :: l => instrs k 0 b ++ kernelFrom (k + 1) l

theorem readLines_block (p : List Char) (d : List (List Char)) (k : Nat) (hd : d = if k = 0 then [] else
    [prefixOf (k - 1) ++ ['*']]) (hp : p = prefixOf k) (b : List α) (l : List (Line α)) (j : Nat) :
    readLines (some (p, d, j)) (b.map Line.stmt ++ (Line.fin :: l)) = instrs k j b ++ readLines none l := by
  induction b generalizing j with
  | nil => simp [readLines, instrs]
  | cons a b ih => simp only [List.map_cons, List.cons_append, readLines, instrs, ih]; rw [hd, hp]

theorem readLines_printFrom (k : Nat) (blocks : List (List α)) :
    readLines none (printFrom k blocks) = kernelFrom k blocks := by
  induction blocks generalizing k with
  | nil => rfl
  | cons b l ih =>
    by_cases hk : k = 0
    · simp only [printFrom, doprint, hk, if_true, List.cons_append, List.append_assoc, List.nil_append, readLines,
        kernelFrom]
      rw [readLines_block _ _ 0 (by simp) rfl, ih]
    · simp only [printFrom, doprint, hk, if_false, List.cons_append, List.append_assoc, List.nil_append, readLines,
        kernelFrom]
      rw [readLines_block _ _ k (by simp [hk]) rfl, ih]

theorem mem_instrs {k j : Nat} {b : List α} {i : Instr α} (h : i ∈ instrs k j b) :
    i.act ∈ b ∧ (∃ n, i.id = nameOf (prefixOf k) n) ∧ i.deps = if k = 0 then [] else [prefixOf (k - 1) ++ ['*']] := by
  induction b generalizing j with
  | nil => simp [instrs] at h
  | cons a b ih =>
    rcases List.mem_cons.1 h with rfl | h
    · exact ⟨List.mem_cons_self, ⟨j, rfl⟩, rfl⟩
    · obtain ⟨h1, h2⟩ := ih h
      exact ⟨List.mem_cons_of_mem _ h1, h2⟩

theorem mem_kernelFrom {k : Nat} {blocks : List (List α)} {i : Instr α} (h : i ∈ kernelFrom k blocks) :
    ∃ n b, blocks[n]? = some b ∧ i ∈ instrs (k + n) 0 b := by
  induction blocks generalizing k with
  | nil => simp [kernelFrom] at h
  | cons b l ih =>
    rcases List.mem_append.1 h with h | h
    · exact ⟨0, b, rfl, h⟩
    · obtain ⟨n, b', h1, h2⟩ := ih h
      refine ⟨n + 1, b', h1, ?_⟩
      rwa [show k + (n + 1) = k + 1 + n by omega]

theorem instrs_mem_kernelFrom {k n : Nat} {blocks : List (List α)} {b : List α} (hb : blocks[n]? = some b)
    {i : Instr α} (hi : i ∈ instrs (k + n) 0 b) : i ∈ kernelFrom k blocks := by
  induction blocks generalizing k n with
  | nil => simp at hb
  | cons c l ih =>
    cases n with
    | zero =>
      simp only [List.getElem?_cons_zero, Option.some.injEq] at hb
      subst hb
      exact List.mem_append_left _ hi
    | succ n =>
      simp only [List.getElem?_cons_succ] at hb
      refine List.mem_append_right _ (ih (k := k + 1) hb ?_)
      rwa [show k + 1 + n = k + (n + 1) by omega]

theorem instrs_ne_nil {k j : Nat} {b : List α} (hb : b ≠ []) : ∃ i, i ∈ instrs k j b := by
  cases b with
  | nil => exact absurd rfl hb
  | cons a b => exact ⟨_, List.mem_cons_self⟩

theorem map_act_instrs (k j : Nat) (b : List α) : (instrs k j b).map Instr.act = b := by
  induction b generalizing j with
  | nil => rfl
  | cons a b ih => simp [instrs, ih]

theorem map_act_kernelFrom (k : Nat) (blocks : List (List α)) :
    (kernelFrom k blocks).map Instr.act = blocks.flatten := by
  induction blocks generalizing k with
  | nil => rfl
  | cons b l ih => simp [kernelFrom, map_act_instrs, ih]

theorem glob_prefix (p s : List Char) (hp : '*' ∉ p) : glob (p ++ ['*']) s = true ↔ p <+: s := by
  induction p generalizing s with
  | nil =>
    simp only [List.nil_append, glob, if_true, List.any_eq_true, List.nil_prefix, iff_true]
    exact ⟨[], by simp, rfl⟩
  | cons c p ih =>
    have hc : c ≠ '*' := fun h => hp (by simp [h])
    have hp' : '*' ∉ p := fun h => hp (List.mem_cons_of_mem _ h)
    cases s with
    | nil => simp [glob, hc]
    | cons d s =>
      simp only [List.cons_append, glob, hc, if_false, Bool.and_eq_true, beq_iff_eq, ih s hp', List.cons_prefix_cons]
      exact and_congr_left fun _ => eq_comm

theorem dec_digit (k : Nat) : ∀ c ∈ dec k, c.isDigit = true := fun c hc => Nat.isDigit_of_mem_toDigits (by omega) (by omega) hc

theorem star_notMem (k : Nat) : '*' ∉ prefixOf k := by
  intro h
  rcases List.mem_append.1 h with h | h
  · revert h; decide
  · have := dec_digit k _ h
    revert this; decide

/-- The dependency on `inst_a*` is met by the instructions of the block `c` exactly when the digits of `a` begin those
of `c`. -/
theorem glob_name (a c n : Nat) : glob (prefixOf a ++ ['*']) (nameOf (prefixOf c) n) = true ↔ dec a <+: dec c := by
  rw [glob_prefix _ _ (star_notMem a)]
  cases n with
  | zero => simp [nameOf, prefixOf]
  | succ n =>
    simp only [nameOf, prefixOf, List.append_assoc, List.prefix_append_right_inj]
    constructor
    · intro h
      rcases List.prefix_or_prefix_of_prefix h (List.prefix_append (dec c) ('_' :: dec n)) with h' | ⟨t, ht⟩
      · exact h'
      · cases t with
        | nil => rw [← ht]; simp
        | cons x t =>
          rw [← ht, List.prefix_append_right_inj, List.cons_prefix_cons] at h
          have := dec_digit a '_' (by rw [← ht, ← h.1]; simp)
          exact absurd this (by decide)
    · intro h
      exact h.trans (List.prefix_append _ _)

theorem dec_prefix_small {a c : Nat} (ha : a < 10) (hc : c < 10) : dec a <+: dec c ↔ a = c := by
  have h : ∀ a < 10, ∀ c < 10, (dec a).isPrefixOf (dec c) = decide (a = c) := by decide
  rw [← List.isPrefixOf_iff_prefix, h a ha c hc, decide_eq_true_eq]

/-- The block of an instruction, read on its name (correct for the ten first blocks). -/
def blk (i : Instr α) : Nat := (i.id.getD 5 '0').toNat - 48

theorem blk_instrs {k j : Nat} (hk : k < 10) {b : List α} {i : Instr α} (h : i ∈ instrs k j b) : blk i = k := by
  obtain ⟨-, ⟨n, hn⟩, -⟩ := mem_instrs h
  have hd : ∀ k < 10, ∀ t : List Char, ((prefixOf k ++ t).getD 5 '0').toNat - 48 = k := by
    intro k hk t
    have hl : ∀ k < 10, (prefixOf k).length = 6 ∧ ((prefixOf k).getD 5 '0').toNat - 48 = k := by decide
    rw [List.getD_append _ _ _ _ (by rw [(hl k hk).1]; omega)]
    exact (hl k hk).2
  unfold blk
  rw [hn]
  cases n with
  | zero => simpa [nameOf] using hd k hk []
  | succ n => exact hd k hk _

/-- With at most ten blocks the dependencies are those meant: the instructions of a block need those of the block
before, and nothing else. -/
theorem needs_iff {blocks : List (List α)} (hlen : blocks.length ≤ 10) {i j : Instr α} (hi : i ∈ kernelFrom 0 blocks)
    (hj : j ∈ kernelFrom 0 blocks) : i.needs j ↔ blk i = blk j + 1 := by
  obtain ⟨a, b, hb, hi⟩ := mem_kernelFrom hi
  obtain ⟨c, b', hb', hj⟩ := mem_kernelFrom hj
  rw [Nat.zero_add] at hi hj
  have ha : a < 10 := lt_of_lt_of_le (List.getElem?_eq_some_iff.1 hb).1 hlen
  have hc : c < 10 := lt_of_lt_of_le (List.getElem?_eq_some_iff.1 hb').1 hlen
  rw [blk_instrs ha hi, blk_instrs hc hj]
  obtain ⟨-, -, hd⟩ := mem_instrs hi
  obtain ⟨-, ⟨n, hn⟩, -⟩ := mem_instrs hj
  unfold Instr.needs
  rw [hd, hn]
  by_cases h0 : a = 0
  · simp [h0]
  · simp only [h0, if_false, List.mem_singleton, exists_eq_left, glob_name]
    rw [dec_prefix_small (by omega) hc]
    omega

theorem blk_lt {k : Nat} {blocks : List (List α)} (hlen : k + blocks.length ≤ 10) {i : Instr α}
    (hi : i ∈ kernelFrom k blocks) : k ≤ blk i := by
  obtain ⟨a, b, hb, hi⟩ := mem_kernelFrom hi
  have ha := (List.getElem?_eq_some_iff.1 hb).1
  rw [blk_instrs (by omega) hi]
  omega

theorem kernel_sorted {k : Nat} {blocks : List (List α)} (hlen : k + blocks.length ≤ 10) :
    (kernelFrom k blocks).Pairwise fun i j => blk i ≤ blk j := by
  induction blocks generalizing k with
  | nil => exact List.Pairwise.nil
  | cons b l ih =>
    simp only [List.length_cons] at hlen
    refine List.pairwise_append.2 ⟨?_, ih (by omega), ?_⟩
    · exact List.pairwise_of_forall_mem_list fun x hx y hy => by
        rw [blk_instrs (by omega) hx, blk_instrs (by omega) hy]
    · intro x hx y hy
      rw [blk_instrs (by omega) hx]
      have := blk_lt (by omega) hy
      omega

/-- In a possible order, all the instructions of the blocks before that of `i` are executed before `i`. -/
theorem schedule_before {blocks : List (List α)} (hlen : blocks.length ≤ 10) (hne : ∀ b ∈ blocks, b ≠ [])
    {s : List (Instr α)} (h : Schedule (kernelFrom 0 blocks) s) (d : Nat) (l₁ : List (Instr α)) (i : Instr α)
    (l₂ : List (Instr α)) (hs : s = l₁ ++ i :: l₂) (j : Instr α) (hj : j ∈ kernelFrom 0 blocks)
    (hd : blk i = blk j + 1 + d) : j ∈ l₁ := by
  have hi : i ∈ kernelFrom 0 blocks := h.perm.subset (by rw [hs]; simp)
  induction d generalizing l₁ i l₂ with
  | zero => exact h.deps l₁ i l₂ hs j hj ((needs_iff hlen hi hj).2 hd)
  | succ d ih =>
    obtain ⟨a, b, hb, hi'⟩ := mem_kernelFrom hi
    rw [Nat.zero_add] at hi'
    have ha := (List.getElem?_eq_some_iff.1 hb).1
    rw [blk_instrs (by omega) hi'] at hd
    have hb' : blocks[a - 1]? = some (blocks[a - 1]'(by omega)) := List.getElem?_eq_getElem _
    obtain ⟨i', hi''⟩ := instrs_ne_nil (k := a - 1) (j := 0) (hne _ (List.mem_of_getElem? hb'))
    have hik : i' ∈ kernelFrom 0 blocks := instrs_mem_kernelFrom hb' (by rwa [Nat.zero_add])
    have hbi : blk i' = a - 1 := blk_instrs (by omega) hi''
    have hin : i' ∈ l₁ := h.deps l₁ i l₂ hs i' hik
      ((needs_iff hlen hi hik).2 (by rw [blk_instrs (by omega) hi', hbi]; omega))
    obtain ⟨u, v, rfl⟩ := List.append_of_mem hin
    refine List.mem_append_left _ (ih u i' (v ++ i :: l₂) (by rw [hs]; simp) (by rw [hbi]; omega) hik)

theorem dec_injective : Function.Injective dec := fun a b h => by
  have := congrArg (fun t => Nat.ofDigitChars 10 t 0) h
  simpa [dec, Nat.ofDigitChars_ten_toDigits] using this

theorem nameOf_injective (p : List Char) : Function.Injective (nameOf p) := by
  intro a b h
  cases a <;> cases b <;> simp only [nameOf, List.append_cancel_left_eq, List.cons.injEq, true_and] at h
  · rfl
  · exact absurd (congrArg List.length h) (by simp)
  · exact absurd (congrArg List.length h) (by simp)
  · rw [dec_injective h]

theorem instrs_nodup (k j : Nat) (b : List α) : ((instrs k j b).map Instr.id).Nodup ∧
    ∀ i ∈ instrs k j b, ∃ n, j ≤ n ∧ i.id = nameOf (prefixOf k) n := by
  induction b generalizing j with
  | nil => exact ⟨List.nodup_nil, fun i hi => by simp [instrs] at hi⟩
  | cons a b ih =>
    obtain ⟨h1, h2⟩ := ih (j + 1)
    refine ⟨List.nodup_cons.2 ⟨?_, h1⟩, ?_⟩
    · intro h
      obtain ⟨i, hi, he⟩ := List.mem_map.1 h
      obtain ⟨n, hn, h'⟩ := h2 i hi
      rw [h'] at he
      have := nameOf_injective _ he
      omega
    · intro i hi
      rcases List.mem_cons.1 hi with rfl | hi
      · exact ⟨j, le_refl _, rfl⟩
      · obtain ⟨n, hn, h'⟩ := h2 i hi
        exact ⟨n, by omega, h'⟩

theorem kernel_nodup {k : Nat} {blocks : List (List α)} (hlen : k + blocks.length ≤ 10) :
    (kernelFrom k blocks).Nodup := by
  induction blocks generalizing k with
  | nil => exact List.nodup_nil
  | cons b l ih =>
    simp only [List.length_cons] at hlen
    refine List.nodup_append'.2 ⟨List.Nodup.of_map _ (instrs_nodup k 0 b).1, ih (by omega), ?_⟩
    intro x hx hy
    have h1 := blk_instrs (by omega) hx
    have h2 := blk_lt (by omega) hy
    omega

theorem schedule_sorted {blocks : List (List α)} (hlen : blocks.length ≤ 10) (hne : ∀ b ∈ blocks, b ≠ [])
    {s : List (Instr α)} (h : Schedule (kernelFrom 0 blocks) s) : s.Pairwise fun i j => blk i ≤ blk j := by
  have hnd : s.Nodup := h.perm.nodup_iff.2 (kernel_nodup (by omega))
  rw [List.pairwise_iff_forall_sublist]
  intro i j hij
  by_contra hlt
  have hj : j ∈ kernelFrom 0 blocks := h.perm.subset (hij.subset (by simp))
  obtain ⟨u, v, hs, hu, hv⟩ := List.cons_sublist_iff.1 hij
  obtain ⟨u1, u2, rfl⟩ := List.append_of_mem hu
  have hjv : j ∈ v := hv.subset (by simp)
  have hju := schedule_before hlen hne h (blk i - blk j - 1) u1 i (u2 ++ v) (by rw [hs]; simp) j hj (by omega)
  rw [hs] at hnd
  exact (List.nodup_append'.1 hnd).2.2 (List.mem_append_left _ hju) hjv

/-- Two orders of the same instructions, sorted by blocks, have the same effect when the instructions of a block
commute. -/
theorem foldl_sorted {σ ι : Type} (g : σ → ι → σ) (key : ι → Nat) (l₁ l₂ : List ι) (hp : l₁.Perm l₂)
    (h₁ : l₁.Pairwise fun a b => key a ≤ key b) (h₂ : l₂.Pairwise fun a b => key a ≤ key b)
    (hc : ∀ a ∈ l₁, ∀ b ∈ l₁, key a = key b → ∀ z, g (g z a) b = g (g z b) a) (z : σ) :
    l₁.foldl g z = l₂.foldl g z := by
  induction l₁ generalizing l₂ z with
  | nil => rw [List.nil_perm.1 hp]
  | cons a t ih =>
    obtain ⟨u, v, rfl⟩ := List.append_of_mem (hp.subset List.mem_cons_self)
    rw [List.pairwise_cons] at h₁
    have hmid : (a :: (u ++ v)).Perm (u ++ a :: v) := List.perm_middle.symm
    have hp' : t.Perm (u ++ v) := (List.perm_cons a).1 (hp.trans hmid.symm)
    have h2' : (u ++ v).Pairwise fun a b => key a ≤ key b :=
      h₂.sublist (List.Sublist.append_left (List.sublist_cons_self a v) u)
    have hu : ∀ x ∈ u, x ∈ a :: t ∧ key x = key a := by
      intro x hx
      have hxt : x ∈ t := hp'.symm.subset (List.mem_append_left _ hx)
      refine ⟨List.mem_cons_of_mem _ hxt, le_antisymm ?_ (h₁.1 x hxt)⟩
      exact (List.pairwise_append.1 h₂).2.2 x hx a List.mem_cons_self
    rw [List.foldl_cons, ih (u ++ v) hp' h₁.2 h2' (fun x hx y hy => hc x (List.mem_cons_of_mem _ hx) y
      (List.mem_cons_of_mem _ hy)), List.foldl_append, List.foldl_append, List.foldl_cons]
    congr 1
    clear ih hp hp' h₂ h2' hmid
    induction u generalizing z with
    | nil => rfl
    | cons x u ihu =>
      rw [List.foldl_cons, List.foldl_cons]
      obtain ⟨hx, hk⟩ := hu x List.mem_cons_self
      rw [hc a List.mem_cons_self x hx hk.symm]
      exact ihu (g z x) fun y hy => hu y (List.mem_cons_of_mem _ hy)

end lemmas

/-! ## Properties -/

section props
variable {α σ : Type}

/-- The assignments of a block may be exchanged. -/
def Commute (exec : σ → α → σ) (b : List α) : Prop :=
  ∀ x ∈ b, ∀ y ∈ b, ∀ z, exec (exec z x) y = exec (exec z y) x

/-- **C83, order.** A kernel of at most ten equations, none of which is printed without any assignment, and whose
assignments for one equation may be exchanged: Loopy may execute it (the order of the text is possible), and whatever
order it takes, the result is that of the assignments one after the other. -/
theorem C83_order (exec : σ → α → σ) (blocks : List (List α)) (hlen : blocks.length ≤ 10)
    (hne : ∀ b ∈ blocks, b ≠ []) (hc : ∀ b ∈ blocks, Commute exec b) :
    Possible blocks blocks.flatten ∧
    ∀ order, Possible blocks order → ∀ z, order.foldl exec z = blocks.flatten.foldl exec z := by
  have hk : readLines none (printKernel blocks) = kernelFrom 0 blocks := readLines_printFrom 0 blocks
  refine ⟨⟨kernelFrom 0 blocks, ?_, (map_act_kernelFrom 0 blocks).symm⟩, ?_⟩
  · rw [hk]
    refine ⟨List.Perm.refl _, ?_⟩
    intro l₁ i l₂ hs j hj hn
    have hi : i ∈ kernelFrom 0 blocks := by rw [hs]; simp
    have hb := (needs_iff hlen hi hj).1 hn
    have hsort := kernel_sorted (k := 0) (blocks := blocks) (by omega)
    rw [hs] at hsort hj
    rcases List.mem_append.1 hj with hj | hj
    · exact hj
    · exfalso
      rcases List.mem_cons.1 hj with rfl | hj
      · omega
      · have := (List.pairwise_cons.1 (List.pairwise_append.1 hsort).2.1).1 j hj
        omega
  · rintro order ⟨s, hs, rfl⟩ z
    rw [hk] at hs
    rw [← map_act_kernelFrom 0 blocks, List.foldl_map, List.foldl_map]
    refine foldl_sorted _ blk _ _ hs.perm (schedule_sorted hlen hne hs) (kernel_sorted (by omega)) ?_ z
    intro i hi j hj hij z
    obtain ⟨a, b, hb, hi⟩ := mem_kernelFrom (hs.perm.subset hi)
    obtain ⟨c, b', hb', hj⟩ := mem_kernelFrom (hs.perm.subset hj)
    have ha := (List.getElem?_eq_some_iff.1 hb).1
    have hc' := (List.getElem?_eq_some_iff.1 hb').1
    rw [blk_instrs (by omega) hi, blk_instrs (by omega) hj] at hij
    obtain rfl : a = c := by omega
    rw [hb] at hb'
    obtain rfl := Option.some.inj hb'
    exact hc b (List.mem_of_getElem? hb) _ (mem_instrs hi).1 _ (mem_instrs hj).1 z

/-- **C83 is false beyond ten equations**: `inst_1*` is also the pattern of `inst_10`, `inst_11`, …, hence the
dependencies are circular and no order is possible. -/
theorem C83_eleven_negation (blocks : List (List α)) (hlen : 10 < blocks.length) (hne : ∀ b ∈ blocks, b ≠ []) :
    ¬ ∃ order, Possible blocks order := by
  rintro ⟨_, s, hs, -⟩
  rw [show readLines none (printKernel blocks) = kernelFrom 0 blocks from readLines_printFrom 0 blocks] at hs
  have hex : ∀ k, 2 ≤ k → k ≤ 10 → ∃ i, i ∈ kernelFrom 0 blocks ∧ (∃ n, i.id = nameOf (prefixOf k) n) ∧
      i.deps = [prefixOf (k - 1) ++ ['*']] := by
    intro k h2 h10
    have hb : blocks[k]? = some (blocks[k]'(by omega)) := List.getElem?_eq_getElem _
    obtain ⟨i, hi⟩ := instrs_ne_nil (k := k) (j := 0) (hne _ (List.mem_of_getElem? hb))
    obtain ⟨-, hid, hd⟩ := mem_instrs hi
    exact ⟨i, instrs_mem_kernelFrom hb (by rwa [Nat.zero_add]), hid, by rw [hd, if_neg (by omega)]⟩
  have key : ∀ n k, 2 ≤ k → k ≤ 10 → ∀ i l₁ l₂, s = l₁ ++ i :: l₂ → l₁.length = n →
      i.deps = [prefixOf (k - 1) ++ ['*']] → False := by
    intro n
    induction n using Nat.strong_induction_on with
    | _ n ih =>
      intro k h2 h10 i l₁ l₂ hsp hn hd
      let k' := if k = 2 then 10 else k - 1
      have hk2 : 2 ≤ k' := by simp only [k']; split <;> omega
      have hk10 : k' ≤ 10 := by simp only [k']; split <;> omega
      obtain ⟨j, hj, ⟨m, hm⟩, hjd⟩ := hex k' hk2 hk10
      have hneed : i.needs j := by
        refine ⟨_, by rw [hd]; exact List.mem_singleton_self _, ?_⟩
        rw [hm, glob_name]
        simp only [k']
        split
        · subst k; decide
        · exact List.prefix_refl _
      obtain ⟨u, v, rfl⟩ := List.append_of_mem (hs.deps l₁ i l₂ hsp j hj hneed)
      exact ih u.length (by rw [← hn]; simp) k' hk2 hk10 j u (v ++ i :: l₂) (by rw [hsp]; simp) rfl hjd
  obtain ⟨i, hi, -, hd⟩ := hex 2 (le_refl _) (by omega)
  obtain ⟨u, v, huv⟩ := List.append_of_mem (hs.perm.symm.subset hi)
  exact key u.length 2 (le_refl _) (by omega) i u v huv rfl hd

end props

/-! ## The kernel `one_time_step` -/

section step
variable {K : Type} [Field K] {n nc d : Nat}

/-- The equations of `f2m_local`, algorithm/base.py 298-333. -/
def f2mBlocks (n nc d : Nat) (fromNew rel : Bool) : List (List (Stmt n d)) :=
  if rel then
    [(front n nc).map (.mom fromNew false)] ++ (List.finRange d).map (fun k => [.vel k])
      ++ [(backIdx n nc).map (.mom fromNew true)]
  else [(List.finRange n).map (.mom fromNew false)]

/-- The equations of `one_time_step_local`: algorithm/base.py 506-549, or pull.py 11-59 (`pull`); `rel` for a relative
velocity, `src` when there are source terms (`if self.source_eq`). -/
def stepBlocks (n nc d : Nat) (pull rel src : Bool) : List (List (Stmt n d)) :=
  let source := if src then [sourceLocal n d] else []
  if pull then
    f2mBlocks n nc d false rel ++ source ++ [relaxLocal n d rel]
      ++ (if rel then [restoreLocal n nc d] else []) ++ source ++ [m2fLocal n d rel]
  else
    [transportLocal n d] ++ f2mBlocks n nc d true rel ++ source ++ [relaxLocal n d rel]
      ++ source ++ [m2fLocal n d rel]

/-- `_print_Assignment`, loopy.py 322-342: the assignments `m[i] = m[i]` are not printed. Which ones are of this form
after the simplifications of SymPy is an input (`same`). -/
def printed (same : Stmt n d → Bool) (blocks : List (List (Stmt n d))) : List (List (Stmt n d)) :=
  blocks.map fun b => b.filter fun st => !same st

/-- The assignments one after the other (`baseStep` and `pullStep`, as in the Cython and NumPy kernels). -/
def stepText (n nc d : Nat) (pull rel : Bool) : List (Stmt n d) :=
  if pull then pullStep n nc d rel else baseStep n nc d rel

/-- No source term uses another moment which has a source term. -/
def Decoupled (S : Fin n → Option ((Fin n → K) → K)) : Prop :=
  ∀ i r, S i = some r → ∀ m m' : Fin n → K, (∀ j, (j = i ∨ S j = none) → m j = m' j) → r m = r m'

theorem stepBlocks_length (hd : d ≤ 3) (pull rel src : Bool) : (stepBlocks n nc d pull rel src).length ≤ 10 := by
  cases pull <;> cases rel <;> cases src <;> simp [stepBlocks, f2mBlocks] <;> omega

theorem run_filter (S : Kernel K n nc d) (same : Stmt n d → Bool) (hsame : ∀ st, same st = true → ∀ f x, S.exec f x st = x)
    (f : Fin n → K) (l : List (Stmt n d)) (x : Local K n d) :
    S.run f x (l.filter fun st => !same st) = S.run f x l := by
  induction l generalizing x with
  | nil => rfl
  | cons a l ih =>
    by_cases ha : same a = true
    · rw [List.filter_cons_of_neg (by simp [ha])]
      simp only [Kernel.run, List.foldl_cons, hsame a ha] at ih ⊢
      exact ih x
    · rw [List.filter_cons_of_pos (by simp [ha])]
      simp only [Kernel.run, List.foldl_cons] at ih ⊢
      exact ih _

theorem printed_flatten (same : Stmt n d → Bool) (blocks : List (List (Stmt n d))) :
    (printed same blocks).flatten = blocks.flatten.filter fun st => !same st := by
  simp [printed, List.filter_flatten]

theorem run_source_none (S : Kernel K n nc d) (hS : ∀ i, S.source i = none) (f : Fin n → K) (x : Local K n d) :
    S.run f x (sourceLocal n d) = x := by
  have : ∀ l : List (Fin n), S.run f x (l.map .src) = x := by
    intro l
    induction l with
    | nil => rfl
    | cons a l ih =>
      simp only [Kernel.run, List.map_cons, List.foldl_cons] at ih ⊢
      rw [show S.exec f x (.src a) = x by simp [Kernel.exec, hS a], ih]
  exact this _

theorem stepBlocks_run (S : Kernel K n nc d) (pull rel src : Bool) (hsrc : src = false → ∀ i, S.source i = none)
    (f : Fin n → K) (x : Local K n d) :
    S.run f x (stepBlocks n nc d pull rel src).flatten = S.run f x (stepText n nc d pull rel) := by
  have happ : ∀ (a b : List (Stmt n d)) (y : Local K n d), S.run f y (a ++ b) = S.run f (S.run f y a) b :=
    fun a b y => List.foldl_append
  have hf : ∀ b : Bool, (f2mBlocks n nc d b rel).flatten = f2mLocal n nc d b rel := by
    intro b
    cases rel <;> simp [f2mBlocks, f2mLocal, ← List.flatMap_def, ← List.map_eq_flatMap]
  cases src with
  | true => cases pull <;> cases rel <;> simp [stepBlocks, stepText, pullStep, baseStep, hf]
  | false =>
    have h0 := fun y => run_source_none S (hsrc rfl) f y
    cases pull <;> cases rel <;> simp [stepBlocks, stepText, pullStep, baseStep, hf, happ, h0]

omit [Field K] in
theorem update_comm' {ι : Type} [DecidableEq ι] (g : ι → K) {i j : ι} (h : i ≠ j) (a b : K) :
    Function.update (Function.update g i a) j b = Function.update (Function.update g j b) i a :=
  Function.update_comm h _ _ _

/-- The relaxation of a conserved moment does nothing. -/
theorem relax_conserved (S : Kernel K n nc d) (rel : Bool) (hEQ : ∀ j w, S.EQ (S.consm j) w = w j)
    (hs : rel = true → ∀ j w, S.s (S.consm j) w = 0) (f : Fin n → K) (x : Local K n d) (j : Fin nc) :
    S.exec f x (.relax rel (S.consm j)) = x := by
  have : (1 - S.s (S.consm j) (S.cons x.m)) * x.m (S.consm j) + S.s (S.consm j) (S.cons x.m) *
      (if rel then Kernel.dot (S.Tu x.u) (S.consm j) (fun k => S.EQ k (S.cons x.m))
        else S.EQ (S.consm j) (S.cons x.m)) = x.m (S.consm j) := by
    cases rel with
    | true => rw [hs rfl]; ring
    | false => simp only [Bool.false_eq_true, if_false, hEQ, Kernel.cons]; ring
  simp only [Kernel.exec]
  rw [this, Function.update_eq_self]

theorem stepBlocks_commute (S : Kernel K n nc d) (pull rel src : Bool) (hEQ : ∀ j w, S.EQ (S.consm j) w = w j)
    (hs : rel = true → ∀ j w, S.s (S.consm j) w = 0) (hdec : Decoupled S.source) (f : Fin n → K) :
    ∀ b ∈ stepBlocks n nc d pull rel src, Commute (S.exec f) b := by
  have hmom : ∀ (fn r : Bool) (l : List (Fin n)), Commute (S.exec f) (l.map (.mom fn r)) := by
    intro fn r l x hx y hy z
    obtain ⟨i, -, rfl⟩ := List.mem_map.1 hx
    obtain ⟨j, -, rfl⟩ := List.mem_map.1 hy
    by_cases hij : i = j
    · rw [hij]
    · simp only [Kernel.exec]
      rw [update_comm' _ hij]
  have hshift : Commute (S.exec f) (transportLocal n d) := by
    intro x hx y hy z
    obtain ⟨i, -, rfl⟩ := List.mem_map.1 hx
    obtain ⟨j, -, rfl⟩ := List.mem_map.1 hy
    by_cases hij : i = j
    · rw [hij]
    · simp only [Kernel.exec]
      rw [update_comm' _ hij]
  have hback : Commute (S.exec f) (m2fLocal n d rel) := by
    intro x hx y hy z
    obtain ⟨i, -, rfl⟩ := List.mem_map.1 hx
    obtain ⟨j, -, rfl⟩ := List.mem_map.1 hy
    by_cases hij : i = j
    · rw [hij]
    · simp only [Kernel.exec]
      rw [update_comm' _ hij]
  have hrelax : Commute (S.exec f) (relaxLocal n d rel) := by
    intro x hx y hy z
    obtain ⟨i, -, rfl⟩ := List.mem_map.1 hx
    obtain ⟨j, -, rfl⟩ := List.mem_map.1 hy
    by_cases hi : ∃ k, S.consm k = i
    · obtain ⟨k, rfl⟩ := hi
      rw [relax_conserved S rel hEQ hs, relax_conserved S rel hEQ hs]
    by_cases hj : ∃ k, S.consm k = j
    · obtain ⟨k, rfl⟩ := hj
      rw [relax_conserved S rel hEQ hs, relax_conserved S rel hEQ hs]
    by_cases hij : i = j
    · rw [hij]
    · have hc : ∀ (m : Fin n → K) (k : Fin n) (a : K), (¬ ∃ l, S.consm l = k) →
          S.cons (Function.update m k a) = S.cons m := by
        intro m k a hk
        funext l
        exact Function.update_of_ne (fun h => hk ⟨l, h⟩) _ _
      simp only [Kernel.exec, hc _ _ _ hi, hc _ _ _ hj, Function.update_of_ne hij, Function.update_of_ne (Ne.symm hij)]
      rw [update_comm' _ hij]
  have hsource : Commute (S.exec f) (sourceLocal n d) := by
    intro x hx y hy z
    obtain ⟨i, -, rfl⟩ := List.mem_map.1 hx
    obtain ⟨j, -, rfl⟩ := List.mem_map.1 hy
    by_cases hij : i = j
    · rw [hij]
    rcases hi : S.source i with _ | r
    · simp [Kernel.exec, hi]
    rcases hj : S.source j with _ | q
    · simp [Kernel.exec, hj]
    have hr : ∀ (m : Fin n → K) a, r (Function.update m j a) = r m := fun m a =>
      hdec i r hi _ _ fun k hk => Function.update_of_ne (by rintro rfl; rcases hk with rfl | hk <;> simp_all) _ _
    have hq : ∀ (m : Fin n → K) a, q (Function.update m i a) = q m := fun m a =>
      hdec j q hj _ _ fun k hk => Function.update_of_ne (by rintro rfl; rcases hk with rfl | hk <;> simp_all) _ _
    simp only [Kernel.exec, hi, hj, hr, hq, Function.update_of_ne hij, Function.update_of_ne (Ne.symm hij)]
    rw [update_comm' _ hij]
  have hvel : ∀ k : Fin d, Commute (S.exec f) [Stmt.vel k] := by
    intro k x hx y hy z
    rw [List.mem_singleton.1 hx, List.mem_singleton.1 hy]
  have hf2m : ∀ fn : Bool, ∀ b ∈ f2mBlocks n nc d fn rel, Commute (S.exec f) b := by
    intro fn b hb
    cases rel with
    | false =>
      simp only [f2mBlocks, Bool.false_eq_true, if_false, List.mem_singleton] at hb
      rw [hb]; exact hmom _ _ _
    | true =>
      simp only [f2mBlocks, if_true, List.mem_append, List.mem_singleton, List.mem_map] at hb
      rcases hb with (rfl | ⟨k, -, rfl⟩) | rfl
      · exact hmom _ _ _
      · exact hvel k
      · exact hmom _ _ _
  have hsrcB : ∀ b ∈ (if src then [sourceLocal n d] else []), Commute (S.exec f) b := by
    intro b hb
    cases src with
    | false => simp at hb
    | true =>
      simp only [if_true, List.mem_singleton] at hb
      rw [hb]; exact hsource
  intro b hb
  cases pull with
  | true =>
    simp only [stepBlocks, if_true, List.mem_append, List.mem_singleton] at hb
    rcases hb with ((((hb | hb) | rfl) | hb) | hb) | rfl
    · exact hf2m _ b hb
    · exact hsrcB b hb
    · exact hrelax
    · cases rel with
      | false => simp at hb
      | true =>
        simp only [if_true, List.mem_singleton] at hb
        rw [hb]; exact hmom _ _ _
    · exact hsrcB b hb
    · exact hback
  | false =>
    simp only [stepBlocks, Bool.false_eq_true, if_false, List.mem_append, List.mem_singleton] at hb
    rcases hb with ((((rfl | hb) | hb) | rfl) | hb) | rfl
    · exact hshift
    · exact hf2m _ b hb
    · exact hsrcB b hb
    · exact hrelax
    · exact hsrcB b hb
    · exact hback

/-- **C83, `one_time_step` (partial).** In one, two or three dimensions, with or without relative velocity, for both
algorithms: whatever order Loopy takes, the kernel computes what the assignments compute one after the other. The
hypotheses are that the conserved moments are not relaxed, that no source term uses another moment with a source term,
and that every equation keeps an assignment. What is missing is false: see `C83_coupled_negation` and
`C83_empty_negation`. -/
theorem C83_step_partial (S : Kernel K n nc d) (hd : d ≤ 3) (pull rel src : Bool)
    (hEQ : ∀ j w, S.EQ (S.consm j) w = w j) (hs : rel = true → ∀ j w, S.s (S.consm j) w = 0)
    (hsrc : src = false → ∀ i, S.source i = none) (hdec : Decoupled S.source)
    (same : Stmt n d → Bool) (hsame : ∀ st, same st = true → ∀ f x, S.exec f x st = x)
    (hne : ∀ b ∈ printed same (stepBlocks n nc d pull rel src), b ≠ []) :
    (∃ order, Possible (printed same (stepBlocks n nc d pull rel src)) order) ∧
    ∀ order, Possible (printed same (stepBlocks n nc d pull rel src)) order → ∀ f x,
      S.run f x order = S.run f x (stepText n nc d pull rel) := by
  have hlen : (printed same (stepBlocks n nc d pull rel src)).length ≤ 10 := by
    rw [printed, List.length_map]; exact stepBlocks_length hd pull rel src
  have hc : ∀ f, ∀ b ∈ printed same (stepBlocks n nc d pull rel src), Commute (S.exec f) b := by
    intro f b hb x hx y hy
    obtain ⟨b', hb', rfl⟩ := List.mem_map.1 hb
    exact stepBlocks_commute S pull rel src hEQ hs hdec f b' hb' x (List.mem_of_mem_filter hx) y
      (List.mem_of_mem_filter hy)
  refine ⟨⟨_, (C83_order (S.exec fun _ => 0) _ hlen hne (hc _)).1⟩, ?_⟩
  intro order ho f x
  have := (C83_order (S.exec f) _ hlen hne (hc f)).2 order ho x
  rw [Kernel.run, this, printed_flatten]
  exact (run_filter S same hsame f _ x).trans (stepBlocks_run S pull rel src hsrc f x)

/-- **C83, the result.** Without relative velocity, the distribution functions computed by the Loopy kernel are those of
the collision with two half steps of the source terms. -/
theorem C83_result_partial (S : Kernel K n nc d) (hd : d ≤ 3) (pull src : Bool)
    (hEQ : ∀ j w, S.EQ (S.consm j) w = w j) (hsrc : src = false → ∀ i, S.source i = none)
    (hdec : Decoupled S.source) (same : Stmt n d → Bool) (hsame : ∀ st, same st = true → ∀ f x, S.exec f x st = x)
    (hne : ∀ b ∈ printed same (stepBlocks n nc d pull false src), b ≠ [])
    (order : List (Stmt n d)) (ho : Possible (printed same (stepBlocks n nc d pull false src)) order)
    (f : Fin n → K) (x : Local K n d) :
    (S.run f x order).fnew = sourceCollision S.M S.invM S.consm S.EQ S.s S.dt S.source f := by
  rw [(C83_step_partial S hd pull false src hEQ (by simp) hsrc hdec same hsame hne).2 order ho f x]
  have hT : Triangular S.source := fun i r hr m m' h => hdec i r hr m m' fun j hj =>
    h j (hj.imp (fun e => le_of_eq e.symm) id)
  have := C45_step_partial S hEQ hT f x
  cases pull
  · exact this.2
  · exact this.1

end step

/-! ## Cases -/

section cases
variable {α : Type} [DecidableEq α]

/-- The conditions of `Schedule`, computed. -/
def scheduleOk (kernel order : List (Instr α)) : Bool :=
  decide (order.Perm kernel) && (List.range order.length).all fun k => match order[k]? with
    | none => true
    | some i => kernel.all fun j => !(i.deps.any fun p => glob p j.id) || decide (j ∈ order.take k)

theorem schedule_of_ok {kernel order : List (Instr α)} (h : scheduleOk kernel order = true) : Schedule kernel order := by
  simp only [scheduleOk, Bool.and_eq_true, decide_eq_true_eq, List.all_eq_true, List.mem_range] at h
  refine ⟨h.1, ?_⟩
  intro l₁ i l₂ hs j hj hn
  have := h.2 l₁.length (by rw [hs]; simp)
  rw [show order[l₁.length]? = some i by rw [hs]; simp] at this
  have := List.all_eq_true.1 this j hj
  have hany : (i.deps.any fun p => glob p j.id) = true := List.any_eq_true.2 hn
  rw [hany] at this
  simpa [hs] using this

/-- The order of the kernel given by the positions `l` of the instructions. -/
def reorder (blocks : List (List α)) (l : List Nat) : List (Instr α) :=
  let k := readLines none (printKernel blocks)
  l.filterMap fun i => k[i]?

theorem possible_of_ok {blocks : List (List α)} {l : List Nat}
    (h : scheduleOk (readLines none (printKernel blocks)) (reorder blocks l) = true) :
    Possible blocks ((reorder blocks l).map Instr.act) := ⟨_, schedule_of_ok h, rfl⟩

/-- D1Q3 with the conserved moments `rho`, `q` and source terms. -/
def d1q3src (source : Fin 3 → Option ((Fin 3 → ℚ) → ℚ)) : Kernel ℚ 3 2 0 where
  M := !![1, 1, 1; 0, 1, -1; 0, 1, 1]
  invM := !![1, 0, -1; 0, 1 / 2, 1 / 2; 0, -1 / 2, 1 / 2]
  Tu := fun _ => 1
  Tmu := fun _ => 1
  EQ := ![fun w => w 0, fun w => w 1, fun w => w 0 / 2]
  s := ![fun _ => 0, fun _ => 0, fun _ => 3 / 2]
  consm := ![0, 1]
  relVel := none
  source := source
  dt := 2

/-- The friction `q' = -q`, and a reaction for `rho`. -/
def friction : Fin 3 → Option ((Fin 3 → ℚ) → ℚ) := ![some fun m => m 0 * m 2, some fun m => -m 1, none]

/-- The source terms `rho' = q`, `q' = -rho`. -/
def coupled : Fin 3 → Option ((Fin 3 → ℚ) → ℚ) := ![some fun m => m 1, some fun m => -m 0, none]

/-- What is written `m[i] = m[i]` for these kernels: the moments without source term, the conserved moments in the
relaxation. -/
def same3 : Stmt 3 0 → Bool
  | .src i => i = 2
  | .relax _ i => i ≠ 2
  | _ => false

theorem same3_exec (source : Fin 3 → Option ((Fin 3 → ℚ) → ℚ)) (h2 : source 2 = none) (st : Stmt 3 0)
    (hst : same3 st = true) (f : Fin 3 → ℚ) (x : Local ℚ 3 0) :
    (d1q3src source).exec f x st = x := by
  cases st with
  | src i =>
    have : i = 2 := by simpa [same3] using hst
    subst this
    simp [Kernel.exec, d1q3src, h2]
  | relax rel i =>
    have hi : i = 0 ∨ i = 1 := by
      have : i ≠ 2 := by simpa [same3] using hst
      omega
    rcases hi with rfl | rfl <;>
      · simp only [Kernel.exec, d1q3src]
        simp [Function.update_eq_self]
  | shift k => simp [same3] at hst
  | mom a b i => simp [same3] at hst
  | vel i => simp [same3] at hst
  | eqm i => simp [same3] at hst
  | back a i => simp [same3] at hst

theorem decoupled_friction : Decoupled friction := by
  intro i r hi m m' h
  fin_cases i
  · simp only [friction] at hi
    obtain rfl := Option.some.inj hi
    have h0 := h 0 (Or.inl rfl)
    have h2 := h 2 (Or.inr rfl)
    simp [h0, h2]
  · simp only [friction] at hi
    obtain rfl := Option.some.inj hi
    have h1 := h 1 (Or.inl rfl)
    simp [h1]
  · simp [friction] at hi

theorem d1q3src_EQ (source : Fin 3 → Option ((Fin 3 → ℚ) → ℚ)) (j : Fin 2) (w : Fin 2 → ℚ) :
    (d1q3src source).EQ ((d1q3src source).consm j) w = w j := by
  fin_cases j <;> rfl

/-- The hypotheses hold for the Pull algorithm with friction: five equations, and an order which is not that of the
text (the moments and the sources backwards). -/
example :
    (∀ order, Possible (printed same3 (stepBlocks 3 2 0 true false true)) order → ∀ f x,
      ((d1q3src friction).run f x order).fnew = sourceCollision (d1q3src friction).M (d1q3src friction).invM
        (d1q3src friction).consm (d1q3src friction).EQ (d1q3src friction).s 2 friction f) ∧
    Possible (printed same3 (stepBlocks 3 2 0 true false true))
      ((reorder (printed same3 (stepBlocks 3 2 0 true false true)) [2, 1, 0, 4, 3, 5, 7, 6, 10, 8, 9]).map Instr.act) := by
  refine ⟨fun order ho f x => ?_, possible_of_ok (by decide +kernel)⟩
  exact C83_result_partial (d1q3src friction) (by omega) true true (d1q3src_EQ _) (by simp) decoupled_friction same3
    (fun st h f x => same3_exec _ rfl st h f x) (by decide +kernel) order ho f x

/-- The largest kernel of the two algorithms has ten equations: three dimensions, relative velocity and source terms. -/
example : (stepBlocks 19 4 3 true true true).length = 10 ∧ (stepBlocks 19 4 3 false true true).length = 10 := by
  decide +kernel

/-- One more equation, and no order is possible. -/
example : ¬ ∃ order, Possible ([transportLocal 19 3] ++ stepBlocks 19 4 3 true true true) order :=
  C83_eleven_negation _ (by decide +kernel) (by decide +kernel)

/-- **C83 is false for coupled source terms**: the two updates are in one block without order, and the result depends
on the one taken first. -/
theorem C83_coupled_negation : ∃ (S : Kernel ℚ 3 2 0) (same : Stmt 3 0 → Bool) (o₁ o₂ : List (Stmt 3 0))
    (f : Fin 3 → ℚ) (x : Local ℚ 3 0),
    (∀ j w, S.EQ (S.consm j) w = w j) ∧ (∀ st, same st = true → ∀ f x, S.exec f x st = x) ∧
    Possible (printed same (stepBlocks 3 2 0 true false true)) o₁ ∧
    Possible (printed same (stepBlocks 3 2 0 true false true)) o₂ ∧
    (S.run f x o₁).fnew ≠ (S.run f x o₂).fnew := by
  refine ⟨d1q3src coupled, same3, (reorder (printed same3 (stepBlocks 3 2 0 true false true))
    [0, 1, 2, 3, 4, 5, 6, 7, 8, 9, 10]).map Instr.act, (reorder (printed same3 (stepBlocks 3 2 0 true false true))
    [0, 1, 2, 4, 3, 5, 6, 7, 8, 9, 10]).map Instr.act, ![1, 0, 0], ⟨fun _ => 0, fun _ => 0, fun _ => 0⟩,
    d1q3src_EQ _, fun st h f x => same3_exec _ rfl st h f x, possible_of_ok (by decide +kernel),
    possible_of_ok (by decide +kernel), by decide +kernel⟩

/-- D1Q2 with both moments conserved: the transport along the two velocities. -/
def d1q2free : Kernel ℚ 2 2 0 where
  M := !![1, 1; 1, -1]
  invM := !![1 / 2, 1 / 2; 1 / 2, -1 / 2]
  Tu := fun _ => 1
  Tmu := fun _ => 1
  EQ := fun i w => w i
  s := fun _ _ => 0
  consm := id
  relVel := none
  source := fun _ => none
  dt := 1

/-- The whole relaxation is `m[i] = m[i]`. -/
def same2 : Stmt 2 0 → Bool
  | .relax _ _ => true
  | _ => false

/-- **C83 is false when an equation is printed without any assignment**: all the moments are conserved, the block of the
relaxation is empty, nothing has its prefix, and the next equation depends on nothing. The new distribution functions
may be computed before the moments. -/
theorem C83_empty_negation : ∃ (S : Kernel ℚ 2 2 0) (same : Stmt 2 0 → Bool) (order : List (Stmt 2 0))
    (f : Fin 2 → ℚ) (x : Local ℚ 2 0),
    (∀ j w, S.EQ (S.consm j) w = w j) ∧ (∀ i, S.source i = none) ∧
    (∀ st, same st = true → ∀ f x, S.exec f x st = x) ∧
    Possible (printed same (stepBlocks 2 2 0 true false false)) order ∧
    (S.run f x order).fnew ≠ (S.run f x (stepText 2 2 0 true false)).fnew := by
  refine ⟨d1q2free, same2, (reorder (printed same2 (stepBlocks 2 2 0 true false false)) [2, 3, 0, 1]).map Instr.act,
    ![1, 0], ⟨fun _ => 0, fun _ => 0, fun _ => 0⟩, fun j w => rfl, fun i => rfl, ?_, possible_of_ok (by decide +kernel),
    by decide +kernel⟩
  intro st hst f x
  cases st with
  | relax rel i => simp only [Kernel.exec, d1q2free]; simp [Function.update_eq_self]
  | _ => simp [same2] at hst

end cases

end Pylbm.Loopy
