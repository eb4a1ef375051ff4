import Mathlib.Data.Nat.Digits.Defs
import Mathlib.Data.List.TakeDrop
import Mathlib.Data.List.TakeWhile
import Mathlib.Logic.Function.Basic
/-!
# C122: the files of a series of outputs, `pylbm/hdf5.py`

`H5File(mpi_topo, filename, path, timestep)` chooses the file; the datasets written in it are those of C52. Strings are lists of
characters. The sequence `H5File(…)`, `set_grid`, `add_scalar`, `add_vector`, `save` is one operation which stores the datasets:
two `H5File` open at the same time are not modelled. The time step is a natural number or absent.
-/

namespace Pylbm.Hdf5

variable {α : Type}

/-! ## Model -/

/-- `os.path.splitext` (Python, `genericpath._splitext`): the last dot of the last component, unless only dots precede it. -/
def splitext (p : List Char) : List Char × List Char :=
  match p.reverse.dropWhile (fun c => c != '.' && c != '/') with
  | '.' :: r =>
    if (r.takeWhile (· != '/')).any (· != '.') then
      (r.reverse, '.' :: (p.reverse.takeWhile fun c => c != '.' && c != '/').reverse)
    else (p, [])
  | _ => (p, [])

/-- `prefix`, hdf5.py 25-28. -/
def suffix : Option Nat → List Char
  | some k => '_' :: Nat.toDigits 10 k
  | none => []

/-- `self.filename`, hdf5.py 30-31. -/
def stem (name : List Char) (ts : Option Nat) : List Char := (splitext name).1 ++ suffix ts

/-- `self.h5filename`, hdf5.py 32. -/
def h5filename (name : List Char) (ts : Option Nat) : List Char := stem name ts ++ ".h5".toList

/-- The path of the file of the datasets, hdf5.py 46. -/
def h5path (path name : List Char) (ts : Option Nat) : List Char := path ++ '/' :: h5filename name ts

/-- The path of the description, hdf5.py 257. -/
def xdmfPath (path name : List Char) (ts : Option Nat) : List Char := path ++ '/' :: (stem name ts ++ ".xdmf".toList)

/-- The file which the description refers to, hdf5.py 208, 245 (`self.h5filename`) and 292 (`self.filename + ".h5"`). -/
def reference (name : List Char) (ts : Option Nat) : List Char := stem name ts ++ ".h5".toList

/-- The directories and the files. -/
structure Disk (α : Type) where
  dir : List Char → Bool
  file : List Char → Option α

/-- One output. -/
structure Output (α : Type) where
  path : List Char
  name : List Char
  ts : Option Nat
  data : α

/-- `H5File.__init__` (hdf5.py 42-46: `os.path.exists`, `os.mkdir`, the mode `w` which replaces a file) up to `save`. `mk` tells
if `os.mkdir` succeeds; `none` is the exception. -/
def store (mk : Disk α → List Char → Bool) (w : Disk α) (q : Output α) : Option (Disk α) :=
  if w.dir q.path = true then
    some { w with file := Function.update w.file (h5path q.path q.name q.ts) (some q.data) }
  else if mk w q.path = true then
    some { dir := Function.update w.dir q.path true
           file := Function.update w.file (h5path q.path q.name q.ts) (some q.data) }
  else none

/-- A series of outputs. -/
def storeAll (mk : Disk α → List Char → Bool) (w : Disk α) : List (Output α) → Option (Disk α)
  | [] => some w
  | q :: qs => (store mk w q).bind fun x => storeAll mk x qs

/-! ## Specification -/

/-- A name without dot and slash. -/
def Plain (n : List Char) : Prop := '.' ∉ n ∧ '/' ∉ n

instance (n : List Char) : Decidable (Plain n) := by unfold Plain; infer_instance

/-- What the user stored last under a name and a time step. -/
def latest [DecidableEq α] (qs : List (Output α)) (p n : List Char) (k : Nat) : Option α :=
  (qs.reverse.find? fun q => decide (q.path = p ∧ q.name = n ∧ q.ts = some k)).map Output.data

/-- A relative reference in a file is taken from the directory of the file. -/
def resolve (file ref : List Char) : List Char := (file.reverse.dropWhile (· != '/')).reverse ++ ref

/-! ## Lemmas -/

theorem split_last {c : Char} {a a' d d' : List Char} (h : a ++ c :: d = a' ++ c :: d') (hd : c ∉ d) (hd' : c ∉ d') :
    a = a' ∧ d = d' := by
  rcases List.append_eq_append_iff.1 h with ⟨b, h1, h2⟩ | ⟨b, h1, h2⟩
  · cases b with
    | nil => simp_all
    | cons x b =>
      rw [List.cons_append, List.cons.injEq] at h2
      exact absurd (h2.2 ▸ List.mem_append_right b List.mem_cons_self) hd
  · cases b with
    | nil => simp_all
    | cons x b =>
      rw [List.cons_append, List.cons.injEq] at h2
      exact absurd (h2.2 ▸ List.mem_append_right b List.mem_cons_self) hd'

theorem splitext_plain {p : List Char} (h : '.' ∉ p) : (splitext p).1 = p := by
  unfold splitext
  split
  · rename_i r he
    have : '.' ∈ p.reverse := (List.dropWhile_sublist _).subset (he ▸ List.mem_cons_self)
    exact absurd (List.mem_reverse.1 this) h
  · rfl

theorem splitext_dot {r e : List Char} (hr : ∃ c ∈ r, c ≠ '.') (hr' : '/' ∉ r) (he : Plain e) :
    splitext (r ++ '.' :: e) = (r, '.' :: e) := by
  have e1 : (r ++ '.' :: e).reverse = e.reverse ++ '.' :: r.reverse := by simp
  have h1 : ∀ c ∈ e.reverse, (c != '.' && c != '/') = true := by
    intro c hc
    rw [List.mem_reverse] at hc
    have h1 : c ≠ '.' := fun h => he.1 (h ▸ hc)
    have h2 : c ≠ '/' := fun h => he.2 (h ▸ hc)
    simp [h1, h2]
  have h2 : (e.reverse ++ '.' :: r.reverse).dropWhile (fun c => c != '.' && c != '/') = '.' :: r.reverse := by
    rw [List.dropWhile_append_of_pos h1]
    rfl
  have h3 : (e.reverse ++ '.' :: r.reverse).takeWhile (fun c => c != '.' && c != '/') = e.reverse := by
    rw [List.takeWhile_append_of_pos h1]
    simp
  have h4 : r.reverse.takeWhile (· != '/') = r.reverse := by
    rw [List.takeWhile_eq_self_iff]
    intro c hc
    rw [List.mem_reverse] at hc
    have : c ≠ '/' := fun h => hr' (h ▸ hc)
    simpa using this
  unfold splitext
  rw [e1, h2, h3]
  simp only [h4]
  obtain ⟨c, hc, hne⟩ := hr
  rw [if_pos (List.any_eq_true.2 ⟨c, List.mem_reverse.2 hc, by simpa using hne⟩)]
  simp

theorem digits_no {c : Char} (hc : c.isDigit = false) (k : Nat) : c ∉ Nat.toDigits 10 k := by
  intro h
  rw [Nat.isDigit_of_mem_toDigits (by omega) (by omega) h] at hc
  cases hc

theorem digits_injective : Function.Injective (Nat.toDigits 10) := fun a b h => by
  have := congrArg (fun t => Nat.ofDigitChars 10 t 0) h
  simpa [Nat.ofDigitChars_ten_toDigits] using this

theorem h5filename_slash {n : List Char} (hn : Plain n) (ts : Option Nat) : '/' ∉ h5filename n ts := by
  unfold h5filename stem
  rw [splitext_plain hn.1]
  cases ts with
  | none => simp [suffix, hn.2]
  | some k =>
    have := digits_no (c := '/') rfl k
    simp [suffix, hn.2, this]

theorem h5path_iff {p p' n n' : List Char} (hn : Plain n) (hn' : Plain n') (k k' : Nat) :
    h5path p n (some k) = h5path p' n' (some k') ↔ p = p' ∧ n = n' ∧ k = k' := by
  constructor
  · intro h
    obtain ⟨h1, h2⟩ := split_last h (h5filename_slash hn _) (h5filename_slash hn' _)
    refine ⟨h1, ?_⟩
    unfold h5filename stem at h2
    rw [splitext_plain hn.1, splitext_plain hn'.1] at h2
    have h3 := List.append_cancel_right h2
    obtain ⟨h4, h5⟩ := split_last h3 (digits_no rfl k) (digits_no rfl k')
    exact ⟨h4, digits_injective h5⟩
  · rintro ⟨rfl, rfl, rfl⟩; rfl

theorem store_file {mk : Disk α → List Char → Bool} {w x : Disk α} {q : Output α} (h : store mk w q = some x) :
    x.file = Function.update w.file (h5path q.path q.name q.ts) (some q.data) := by
  unfold store at h
  split_ifs at h <;> cases h <;> rfl

/-! ## Theorems -/

/-- **C122.** After any series of outputs with plain names and time steps, the file of a name and a time step holds what was
stored last under that name and time step, whatever the other outputs; the other files are those of before. -/
theorem C122_series_partial [DecidableEq α] (mk : Disk α → List Char → Bool) (w w' : Disk α) (qs : List (Output α))
    (hq : ∀ q ∈ qs, Plain q.name ∧ q.ts.isSome = true) (h : storeAll mk w qs = some w')
    (p n : List Char) (hn : Plain n) (k : Nat) :
    w'.file (h5path p n (some k)) = (latest qs p n k <|> w.file (h5path p n (some k))) := by
  induction qs generalizing w with
  | nil =>
    cases h
    simp [latest]
  | cons q qs ih =>
    obtain ⟨x, hx, h2⟩ := Option.bind_eq_some_iff.1 h
    rw [ih x (fun r hr => hq r (List.mem_cons_of_mem _ hr)) h2, store_file hx]
    obtain ⟨hpl, hts⟩ := hq q List.mem_cons_self
    obtain ⟨j, hj⟩ := Option.isSome_iff_exists.1 hts
    have e : latest (q :: qs) p n k = (latest qs p n k <|> if q.path = p ∧ q.name = n ∧ q.ts = some k then some q.data else none) := by
      unfold latest
      rw [List.reverse_cons, List.find?_append]
      cases List.find? (fun q => decide (q.path = p ∧ q.name = n ∧ q.ts = some k)) qs.reverse with
      | some r => rfl
      | none =>
        by_cases hc : q.path = p ∧ q.name = n ∧ q.ts = some k
        · simp [hc]
        · rw [if_neg hc, List.find?_cons, decide_eq_false hc]
          rfl
    rw [e]
    cases latest qs p n k with
    | some d => rfl
    | none =>
      show Function.update w.file _ _ _ = _
      by_cases hc : q.path = p ∧ q.name = n ∧ q.ts = some k
      · rw [if_pos hc, hc.1, hc.2.1, hc.2.2, Function.update_self]
        rfl
      · rw [if_neg hc, Function.update_of_ne]
        · rfl
        · rw [hj]
          intro he
          obtain ⟨h1, h3, h4⟩ := (h5path_iff hn hpl k j).1 he
          exact hc ⟨h1.symm, h3.symm, by rw [hj, h4]⟩

/-- The outputs are stored if the directories exist. -/
theorem storeAll_some (mk : Disk α → List Char → Bool) (w : Disk α) (qs : List (Output α))
    (h : ∀ q ∈ qs, w.dir q.path = true) : ∃ w', storeAll mk w qs = some w' := by
  induction qs generalizing w with
  | nil => exact ⟨w, rfl⟩
  | cons q qs ih =>
    have e : store mk w q = some { w with file := Function.update w.file (h5path q.path q.name q.ts) (some q.data) } :=
      if_pos (h q List.mem_cons_self)
    obtain ⟨w', h'⟩ := ih { w with file := Function.update w.file (h5path q.path q.name q.ts) (some q.data) }
      fun r hr => h r (List.mem_cons_of_mem _ hr)
    exact ⟨w', by rw [storeAll, e]; exact h'⟩

/-- **C122, names with a dot.** What follows the last dot of the name is dropped: the output of the second name replaces that of
the first one, whatever the two suffixes. -/
theorem C122_dot_negation (mk : Disk α → List Char → Bool) (w w' : Disk α) (p r e e' : List Char) (ts : Option Nat) (d d' : α)
    (hr : ∃ c ∈ r, c ≠ '.') (hr' : '/' ∉ r) (he : Plain e) (he' : Plain e')
    (h : storeAll mk w [⟨p, r ++ '.' :: e, ts, d⟩, ⟨p, r ++ '.' :: e', ts, d'⟩] = some w') :
    w'.file (h5path p (r ++ '.' :: e) ts) = some d' := by
  obtain ⟨x, hx, h2⟩ := Option.bind_eq_some_iff.1 h
  obtain ⟨y, hy, h3⟩ := Option.bind_eq_some_iff.1 h2
  cases h3
  rw [store_file hy]
  have e0 : h5path p (r ++ '.' :: e) ts = h5path p (r ++ '.' :: e') ts := by
    unfold h5path h5filename stem
    rw [splitext_dot hr hr' he, splitext_dot hr hr' he']
  rw [e0, Function.update_self]

/-- **C122, numbers in names.** A name which ends with an underscore and a number, without time step, is the name of a time
step. -/
theorem C122_number_negation (mk : Disk α → List Char → Bool) (w w' : Disk α) (p n : List Char) (hn : Plain n) (k : Nat) (d d' : α)
    (h : storeAll mk w [⟨p, n, some k, d⟩, ⟨p, n ++ '_' :: Nat.toDigits 10 k, none, d'⟩] = some w') :
    w'.file (h5path p n (some k)) = some d' := by
  obtain ⟨x, hx, h2⟩ := Option.bind_eq_some_iff.1 h
  obtain ⟨y, hy, h3⟩ := Option.bind_eq_some_iff.1 h2
  cases h3
  rw [store_file hy]
  have h1 : '.' ∉ n ++ '_' :: Nat.toDigits 10 k := by
    have := digits_no (c := '.') rfl k
    simp [hn.1, this]
  have e0 : h5path p n (some k) = h5path p (n ++ '_' :: Nat.toDigits 10 k) none := by
    unfold h5path h5filename stem
    rw [splitext_plain hn.1, splitext_plain h1]
    simp [suffix]
  rw [e0, Function.update_self]

/-- **C122, the default path.** The empty path (`path=""`, the default) does not exist and cannot be made (`os.path.exists("")`
is false, `os.mkdir("")` raises): no output is stored. -/
theorem C122_default_path_negation (mk : Disk α → List Char → Bool) (w : Disk α) (h1 : w.dir [] = false) (h2 : mk w [] = false)
    (n : List Char) (ts : Option Nat) (d : α) : store mk w ⟨[], n, ts, d⟩ = none := by
  unfold store
  simp [h1, h2]

theorem dir_append (a b : List Char) : ((a ++ '/' :: b).reverse.dropWhile (· != '/')).reverse =
    a ++ '/' :: (b.reverse.dropWhile (· != '/')).reverse := by
  have e : (a ++ '/' :: b).reverse = b.reverse ++ '/' :: a.reverse := by simp
  rw [e, List.dropWhile_append]
  split_ifs with h
  · rw [List.isEmpty_iff] at h
    rw [h]
    simp
  · simp

theorem dir_nil {b : List Char} : (b.reverse.dropWhile (· != '/')).reverse = [] ↔ '/' ∉ b := by
  rw [List.reverse_eq_nil_iff, List.dropWhile_eq_nil_iff]
  constructor
  · intro h hb
    have := h '/' (List.mem_reverse.2 hb)
    simp at this
  · intro h c hc
    have : c ≠ '/' := fun e => h (e ▸ List.mem_reverse.1 hc)
    simpa using this

theorem splitext_slash (p : List Char) : '/' ∈ (splitext p).1 ↔ '/' ∈ p := by
  unfold splitext
  split
  · rename_i r he
    split_ifs
    · have h1 := List.takeWhile_append_dropWhile (p := fun c => c != '.' && c != '/') (l := p.reverse)
      rw [he] at h1
      have h2 : '/' ∉ p.reverse.takeWhile (fun c => c != '.' && c != '/') := by
        intro h
        have := List.mem_takeWhile_imp h
        simp at this
      rw [List.mem_reverse, ← List.mem_reverse (as := p), ← h1, List.mem_append, List.mem_cons]
      constructor
      · exact fun h => Or.inr (Or.inr h)
      · rintro (h | h | h)
        · exact absurd h h2
        · exact absurd h (by decide)
        · exact h
    · rfl
  · rfl

/-- **C122, the description.** The description written by `save` refers to the file of its own datasets exactly if the name has
no slash. -/
theorem C122_reference (p n : List Char) (ts : Option Nat) :
    resolve (xdmfPath p n ts) (reference n ts) = h5path p n ts ↔ '/' ∉ n := by
  have hs : '/' ∈ stem n ts ++ ".xdmf".toList ↔ '/' ∈ n := by
    unfold stem
    rw [List.mem_append, List.mem_append, splitext_slash]
    have h1 : '/' ∉ suffix ts := by
      cases ts with
      | none => simp [suffix]
      | some k =>
        have := digits_no (c := '/') rfl k
        simp [suffix, this]
    have h2 : '/' ∉ ".xdmf".toList := by decide
    tauto
  rw [← hs, ← dir_nil]
  unfold resolve xdmfPath
  rw [dir_append]
  show _ ++ (stem n ts ++ _) = p ++ '/' :: (stem n ts ++ _) ↔ _
  rw [List.append_assoc, List.append_cancel_left_eq, List.cons_append, List.cons.injEq]
  simp only [true_and]
  constructor
  · intro h
    have := congrArg List.length h
    rw [List.length_append] at this
    exact List.length_eq_zero_iff.1 (by omega)
  · intro h
    rw [h]
    rfl

/-! ## Cases -/

/-- A disk with the directory `out`. -/
def disk : Disk Nat := ⟨fun p => p == "out".toList, fun _ => none⟩

/-- Only the directory `new` can be made. -/
def maker : Disk Nat → List Char → Bool := fun _ p => p == "new".toList

/-- A case for C122: two series with the same time steps, one of them stored twice. -/
def outputs : List (Output Nat) :=
  [⟨"out".toList, "rho".toList, some 1, 10⟩, ⟨"new".toList, "rho".toList, some 1, 11⟩, ⟨"out".toList, "rho".toList, some 11, 12⟩,
    ⟨"out".toList, "rho_1".toList, some 1, 13⟩, ⟨"out".toList, "rho".toList, some 1, 14⟩]

example : ∃ w', storeAll maker disk outputs = some w' ∧ w'.file "out/rho_1.h5".toList = some 14 ∧
    w'.file "new/rho_1.h5".toList = some 11 := by
  obtain ⟨w', h⟩ := Option.isSome_iff_exists.1 (by decide : (storeAll maker disk outputs).isSome = true)
  refine ⟨w', h, ?_, ?_⟩
  · exact (C122_series_partial maker disk w' outputs (by decide) h "out".toList "rho".toList (by decide) 1).trans (by decide)
  · exact (C122_series_partial maker disk w' outputs (by decide) h "new".toList "rho".toList (by decide) 1).trans (by decide)

/-- `rho_0.1` and `rho_0.2` go to the file `rho_0_7.h5`. -/
example : ∃ w', storeAll maker disk [⟨"out".toList, "rho_0.1".toList, some 7, 1⟩, ⟨"out".toList, "rho_0.2".toList, some 7, 2⟩] = some w' ∧
    w'.file "out/rho_0_7.h5".toList = some 2 := by
  obtain ⟨w', h⟩ := storeAll_some maker disk
    [⟨"out".toList, "rho_0.1".toList, some 7, 1⟩, ⟨"out".toList, "rho_0.2".toList, some 7, 2⟩] (by decide)
  exact ⟨w', h, C122_dot_negation maker disk w' "out".toList "rho_0".toList "1".toList "2".toList (some 7) 1 2
    ⟨'r', by decide, by decide⟩ (by decide) (by decide) (by decide) h⟩

/-- `rho_1` without time step replaces the time step 1 of `rho`. -/
example : ∃ w', storeAll maker disk [⟨"out".toList, "rho".toList, some 1, 1⟩, ⟨"out".toList, "rho_1".toList, none, 2⟩] = some w' ∧
    w'.file "out/rho_1.h5".toList = some 2 := by
  obtain ⟨w', h⟩ := storeAll_some maker disk
    [⟨"out".toList, "rho".toList, some 1, 1⟩, ⟨"out".toList, "rho_1".toList, none, 2⟩] (by decide)
  exact ⟨w', h, C122_number_negation maker disk w' "out".toList "rho".toList (by decide) 1 1 2 h⟩

example (n : List Char) (ts : Option Nat) (d : Nat) : store maker disk ⟨[], n, ts, d⟩ = none :=
  C122_default_path_negation maker disk (by decide) (by decide) n ts d

end Pylbm.Hdf5
