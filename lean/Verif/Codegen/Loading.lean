import Mathlib.Logic.Function.Basic
import Mathlib.Data.List.Basic
import Mathlib.Data.List.Perm.Basic
/-!
# C92: the generated module is written, imported and removed

`CodeWrapper` (generator/autowrap.py) writes the generated functions in a directory, imports the module
`wrapped_module_0` and cleans up.  The module is searched by Python along `sys.path`.  The number `_module_counter` is an
attribute of the wrapper, and there is a new wrapper for each simulation (`autowrap`, 174-179), so that the name is always
the same.

The import system of Python is outside of the repository and transcribed from its documentation: `sys.modules` is looked
up first; the directories of `sys.path` are visited in order; in one directory a compiled extension is taken before a
source file; the byte code in `__pycache__` is used when the time (in seconds) and the size of the source recorded in it
are those of the source file.

Not modelled here: other processes which write in the same directory (`Verif.Codegen.Parallel`), the build tool (it rebuilds the extension when the source
is written), the loader of shared libraries.
-/
namespace Pylbm.Loading

variable {D C : Type} [DecidableEq D]

/-- The wrappers, autowrap.py 92-156: Cython builds an extension, NumPy and Loopy write a Python file. -/
inductive Backend
  | python
  | cython
  deriving DecidableEq

/-- A source file, or the byte code with the time and size of its source. -/
structure Source (C : Type) where
  code : C
  time : Nat
  size : Nat
  deriving DecidableEq

/-- What a directory contains for the name `wrapped_module_0`. -/
structure Folder (C : Type) where
  so : Option C
  py : Option (Source C)
  pyc : Option (Source C)

/-- An empty directory. -/
def Folder.nil : Folder C := ⟨none, none, none⟩

/-- The files, `sys.path`, `sys.modules["wrapped_module_0"]`. -/
structure World (D C : Type) where
  folder : D → Option (Folder C)
  path : List D
  loaded : Option C

/-- Import of a source file (Python's `SourceLoader`): what is executed, and the byte code left there. -/
def load (s : Source C) : Option (Source C) → C × Source C
  | some b => if b.time = s.time ∧ b.size = s.size then (b.code, b) else (s.code, s)
  | none => (s.code, s)

/-- The module in one directory (Python's `FileFinder`). -/
def Folder.find (f : Folder C) : Option (C × Folder C) :=
  match f.so, f.py with
  | some c, _ => some (c, f)
  | none, some s => some ((load s f.pyc).1, { f with pyc := some (load s f.pyc).2 })
  | none, none => none

/-- The search along the path (Python's `PathFinder`). -/
def search (w : World D C) : List D → Option (C × World D C)
  | [] => none
  | d :: l => match (w.folder d).bind Folder.find with
    | some (c, f) => some (c, { w with folder := Function.update w.folder d (some f) })
    | none => search w l

/-- What the constructor of a simulation asks for (simulation.py 112-124): the wrapper, the directory of `codegen_option`,
`generate`, the code of its routines; and what the system answers: the directory made by `tempfile.mkdtemp`, the clock, the
success of the build, the presence of the directory above. -/
structure Request (D C : Type) where
  backend : Backend
  dir : Option D
  generate : Bool
  code : C
  size : Nat
  tmp : D
  now : Nat
  builds : Bool
  parent : Bool

inductive Failure
  | fileNotFound
  | build
  | notImported
  deriving DecidableEq

def Request.workdir (r : Request D C) : D := r.dir.getD r.tmp

/-- `CodeWrapper.__init__` (autowrap.py 43: `mkdtemp` creates the directory) and lines 53-54 of `wrap_code`. -/
def mkdir (w : World D C) (r : Request D C) : Option (World D C) :=
  match w.folder r.workdir with
  | some _ => some w
  | none => if r.dir.isNone || r.parent then
      some { w with folder := Function.update w.folder r.workdir (some Folder.nil) } else none

/-- `_generate_code`, `_process_files`, autowrap.py 49-50, 75-89, 132-136: `none` is the `CodeWrapError` of the build. -/
def Folder.write (f : Folder C) (r : Request D C) : Option (Folder C) :=
  match r.backend with
  | .python => some { f with py := some ⟨r.code, r.now, r.size⟩ }
  | .cython => if r.builds then some { f with so := some r.code } else none

/-- The files after `if self.generate:`, autowrap.py 58-61. -/
def emit (w : World D C) (r : Request D C) : Option (World D C) :=
  if r.generate then
    match (w.folder r.workdir).bind (Folder.write · r) with
    | some f => some { w with folder := Function.update w.folder r.workdir (some f) }
    | none => none
  else some w

/-- The import, autowrap.py 62-65: the name is removed from `sys.modules` first. -/
def importModule (w : World D C) : Option (C × World D C) :=
  (search w w.path).map fun x => (x.1, { x.2 with loaded := some x.1 })

/-- The clause `finally`, autowrap.py 66-74: `sys.path.remove` takes away the first occurrence. -/
def cleanup (w : World D C) (r : Request D C) : World D C :=
  { w with
    path := w.path.erase r.workdir
    folder := if r.dir.isNone then Function.update w.folder r.tmp none else w.folder }

/-- `wrap_code`, autowrap.py 52-76: the world afterwards, and the code of the module which is returned. -/
def wrap (w : World D C) (r : Request D C) : World D C × Except Failure C :=
  match mkdir w r with
  | none => (w, .error .fileNotFound)
  | some w₁ =>
    let w₂ : World D C := { w₁ with path := w₁.path ++ [r.workdir] }
    match emit w₂ r with
    | none => (cleanup w₂ r, .error .build)
    | some w₃ => match importModule w₃ with
      | none => (cleanup { w₃ with loaded := none } r, .error .notImported)
      | some (c, w₄) => (cleanup w₄ r, .ok c)

/-- The simulations of one process, in order. -/
def runs (w : World D C) : List (Request D C) → World D C × List (Except Failure C)
  | [] => (w, [])
  | r :: l => ((runs (wrap w r).1 l).1, (wrap w r).2 :: (runs (wrap w r).1 l).2)

/-- A time step of a simulation which exists: its functions are called through `monitor` (symbolic.py 299), and the name of
their module is read in `sys.modules["wrapped_module_0"]` (`inspect.getmodule`, monitoring.py 55): an `AttributeError` when
the name is not there.  The functions themselves are kept by the simulation. -/
def canStep (w : World D C) : Bool := w.loaded.isSome

/-! ## Specification -/

/-- The codes kept on the disk: the last one generated in each directory. -/
abbrev Store (D C : Type) := D → Option C

/-- The code a simulation should run: its own code when it is generated, otherwise the last one of the directory; no code
when the directory cannot be made or the build fails. -/
def intended (s : Store D C) (r : Request D C) : Option C :=
  if r.generate then some r.code else r.dir.bind s

/-- The codes kept after a simulation. -/
def kept (s : Store D C) (r : Request D C) : Store D C :=
  match r.dir with
  | some d => if r.generate then Function.update s d (some r.code) else s
  | none => s

def intendedAll (s : Store D C) : List (Request D C) → List (Option C)
  | [] => []
  | r :: l => intended s r :: intendedAll (kept s r) l

/-- Nothing to be imported in the directory. -/
def Bare (w : World D C) (d : D) : Prop := (w.folder d).bind Folder.find = none

/-! ## Lemmas -/

theorem search_bare (w : World D C) (l l' : List D) (h : ∀ d ∈ l, Bare w d) : search w (l ++ l') = search w l' := by
  induction l with
  | nil => rfl
  | cons a l ih =>
    have ha : (w.folder a).bind Folder.find = none := h a (by simp)
    simp only [List.cons_append, search, ha]
    exact ih fun d hd => h d (by simp [hd])

theorem erase_append_self {l : List D} {d : D} (h : d ∉ l) : (l ++ [d]).erase d = l := by
  rw [List.erase_append_right _ h]; simp

theorem search_path (w : World D C) (l : List D) {x : C × World D C} (h : search w l = some x) : x.2.path = w.path := by
  induction l with
  | nil => cases h
  | cons a l ih =>
    simp only [search] at h
    split at h
    · cases h; rfl
    · exact ih h

theorem mkdir_path (w : World D C) (r : Request D C) {x : World D C} (h : mkdir w r = some x) : x.path = w.path := by
  unfold mkdir at h
  split at h
  · cases h; rfl
  · split at h <;> cases h; rfl

theorem emit_path (w : World D C) (r : Request D C) {x : World D C} (h : emit w r = some x) : x.path = w.path := by
  unfold emit at h
  split at h
  · split at h <;> cases h; rfl
  · cases h; rfl

/-! ## C92 -/

/-- **C92, the search path.**  Whatever happens (also when the directory cannot be made, the build fails or the module is
not found), the search path is as before, or the directory has been moved to its end. -/
theorem C92_path (w : World D C) (r : Request D C) :
    (wrap w r).1.path = w.path ∨ (wrap w r).1.path = w.path.erase r.workdir ++ [r.workdir] := by
  unfold wrap
  cases h : mkdir w r with
  | none => exact .inl rfl
  | some w₁ =>
    have e : ∀ p, p = w.path ++ [r.workdir] → p.erase r.workdir = w.path ∨
        p.erase r.workdir = w.path.erase r.workdir ++ [r.workdir] := by
      rintro p rfl
      by_cases hm : r.workdir ∈ w.path
      · exact .inr (List.erase_append_left _ hm)
      · exact .inl (erase_append_self hm)
    have h1 := mkdir_path w r h
    simp only []
    cases h2 : emit { w₁ with path := w₁.path ++ [r.workdir] } r with
    | none => exact e _ (by rw [h1])
    | some w₃ =>
      have h3 := emit_path _ r h2
      simp only []
      cases h4 : importModule w₃ with
      | none => exact e _ (by simp only [h3, h1])
      | some x =>
        obtain ⟨c, w₄⟩ := x
        obtain ⟨y, hy, e'⟩ : ∃ y, search w₃ w₃.path = some y ∧ (y.1, { y.2 with loaded := some y.1 }) = (c, w₄) := by
          simpa only [importModule, Option.map_eq_some_iff] using h4
        have h5 : w₄.path = y.2.path := by cases e'; rfl
        refine e _ ?_
        show w₄.path = _
        rw [h5, search_path _ _ hy, h3, h1]

/-- **C92, own code.**  A simulation which generates its code runs this code, for any files, any search path and whatever
was imported before, if no directory of the path before its own contains such a module, and, for NumPy and Loopy, its own
directory has no extension and no byte code with the same time and size. -/
theorem C92_own (w : World D C) (r : Request D C) (hg : r.generate = true) (hp : r.dir = none ∨ r.parent = true)
    (hb : r.builds = true) (hpath : ∀ d ∈ w.path, d ≠ r.workdir → Bare w d)
    (hdir : r.backend = .python → ∀ f, w.folder r.workdir = some f → f.so = none ∧
      ∀ b, f.pyc = some b → ¬(b.time = r.now ∧ b.size = r.size)) :
    (wrap w r).2 = .ok r.code := by
  obtain ⟨w₁, f, h1, hf1, hp1, ho1, hso⟩ : ∃ w₁ f, mkdir w r = some w₁ ∧ w₁.folder r.workdir = some f ∧
      w₁.path = w.path ∧ (∀ d, d ≠ r.workdir → w₁.folder d = w.folder d) ∧
      (r.backend = .python → f.so = none ∧ ∀ b, f.pyc = some b → ¬(b.time = r.now ∧ b.size = r.size)) := by
    unfold mkdir
    cases hf : w.folder r.workdir with
    | some f => exact ⟨w, f, rfl, hf, rfl, fun _ _ => rfl, fun h => hdir h f hf⟩
    | none =>
      have : (r.dir.isNone || r.parent) = true := by rcases hp with h | h <;> simp [h]
      simp only [this, if_true]
      exact ⟨_, Folder.nil, rfl, by simp, rfl, fun d hd => by simp [hd],
        fun _ => ⟨rfl, fun b hb => by cases hb⟩⟩
  unfold wrap
  simp only [h1]
  obtain ⟨g, hw, hfind⟩ : ∃ g, Folder.write f r = some g ∧ ∃ g', g.find = some (r.code, g') := by
    unfold Folder.write
    cases hk : r.backend with
    | cython => exact ⟨_, if_pos hb, _, rfl⟩
    | python =>
      obtain ⟨a, b⟩ := hso hk
      refine ⟨_, rfl, { f with py := some ⟨r.code, r.now, r.size⟩, pyc := some ⟨r.code, r.now, r.size⟩ }, ?_⟩
      simp only [Folder.find, a]
      cases hpyc : f.pyc with
      | none => rfl
      | some s =>
        have := b s hpyc
        simp only [load, this, if_false]
  obtain ⟨g', hg'⟩ := hfind
  have hemit : emit { w₁ with path := w₁.path ++ [r.workdir] } r =
      some { w₁ with path := w₁.path ++ [r.workdir], folder := Function.update w₁.folder r.workdir (some g) } := by
    simp only [emit, hg, if_true, hf1, Option.bind_some, hw]
  simp only [hemit]
  set w₃ : World D C := ⟨Function.update w₁.folder r.workdir (some g), w₁.path ++ [r.workdir], w₁.loaded⟩ with hw3
  have hs : ∀ l : List D, (∀ d ∈ l, d ≠ r.workdir → Bare w d) →
      ∃ y, search w₃ (l ++ [r.workdir]) = some (r.code, y) := by
    intro l hl
    induction l with
    | nil =>
      simp only [List.nil_append, search, hw3, Function.update_self, Option.bind_some, hg']
      exact ⟨_, rfl⟩
    | cons a l ih =>
      by_cases ha : a = r.workdir
      · simp only [List.cons_append, search, hw3, ha, Function.update_self, Option.bind_some, hg']
        exact ⟨_, rfl⟩
      · have : (w₃.folder a).bind Folder.find = none := by
          simp only [hw3, Function.update_of_ne ha, ho1 a ha]
          exact hl a (by simp) ha
        simp only [List.cons_append, search, this]
        exact ih fun d hd => hl d (by simp [hd])
  obtain ⟨y, hy⟩ := hs w.path hpath
  have : importModule w₃ = some (r.code, { y with loaded := some r.code }) := by
    have e : w₃.path = w.path ++ [r.workdir] := by simp [hw3, hp1]
    simp only [importModule, e, hy, Option.map_some]
  simp only [this]

/-- **C92, no trace.**  A simulation without `codegen_option` leaves the files and the search path as they were (when no
module is found in the directories of the path and the temporary directory is new). -/
theorem C92_no_trace (w : World D C) (r : Request D C) (hd : r.dir = none) (hb : r.builds = true)
    (hg : r.generate = true) (ht : w.folder r.tmp = none) (htp : r.tmp ∉ w.path) (hpath : ∀ d ∈ w.path, Bare w d) :
    (wrap w r).1 = { w with loaded := some r.code } ∧ (wrap w r).2 = .ok r.code := by
  have hwd : r.workdir = r.tmp := by simp [Request.workdir, hd]
  have hne : ∀ d ∈ w.path, d ≠ r.tmp := fun d h e => htp (e ▸ h)
  unfold wrap mkdir
  simp only [hwd, ht, hd, Option.isNone_none, Bool.true_or, if_true]
  obtain ⟨g, hw, g', hg'⟩ : ∃ g, Folder.write Folder.nil r = some g ∧ ∃ g', g.find = some (r.code, g') := by
    unfold Folder.write
    cases hk : r.backend with
    | cython => exact ⟨_, if_pos hb, _, rfl⟩
    | python => exact ⟨_, rfl, _, rfl⟩
  have hemit : emit { w with path := w.path ++ [r.tmp], folder := Function.update w.folder r.tmp (some Folder.nil) } r =
      some { w with path := w.path ++ [r.tmp], folder := Function.update w.folder r.tmp (some g) } := by
    simp only [emit, hg, if_true, hwd, Function.update_self, Option.bind_some, hw, Function.update_idem]
  simp only [hemit]
  have hs : search { w with path := w.path ++ [r.tmp], folder := Function.update w.folder r.tmp (some g) }
      (w.path ++ [r.tmp]) = some (r.code, ⟨Function.update w.folder r.tmp (some g'), w.path ++ [r.tmp], w.loaded⟩) := by
    rw [search_bare]
    · simp only [search, Function.update_self, Option.bind_some, hg', Function.update_idem]
    · intro d hd
      simp only [Bare, Function.update_of_ne (hne d hd)]
      exact hpath d hd
  simp only [importModule, hs, Option.map_some, cleanup, hwd, hd, Option.isNone_none, if_true,
    Function.update_idem, erase_append_self htp, and_true]
  congr 1
  rw [← ht, Function.update_eq_self]

/-! ### A sequence of simulations -/

/-- Two sources with the same time and size have the same code. -/
def Consistent (G : Source C → Prop) : Prop :=
  ∀ a b, G a → G b → a.time = b.time → a.size = b.size → a.code = b.code

/-- The directory holds the code `c` (and nothing else which could be imported), for the wrapper `k`; the files of Python
are among `G`. -/
def Holds (G : Source C → Prop) (k : Backend) (f : Folder C) (c : Option C) : Prop :=
  match k with
  | .cython => f.so = c ∧ f.py = none
  | .python => f.so = none ∧ f.py.map Source.code = c ∧ (∀ s, f.py = some s → G s) ∧ ∀ s, f.pyc = some s → G s

/-- The disk agrees with the codes which should be kept. -/
def Agrees (G : Source C → Prop) (kind : D → Backend) (w : World D C) (s : Store D C) : Prop :=
  ∀ d, match w.folder d with
    | none => s d = none
    | some f => Holds G (kind d) f (s d)

theorem Holds.find {G : Source C → Prop} (hG : Consistent G) {k : Backend} {f : Folder C} {c : Option C}
    (h : Holds G k f c) : f.find.map Prod.fst = c ∧ ∀ x, f.find = some x → Holds G k x.2 c := by
  obtain ⟨so, py, pyc⟩ := f
  cases k with
  | cython =>
    obtain ⟨h1, h2⟩ := h
    simp only at h1 h2
    subst h1 h2
    cases so with
    | none => exact ⟨rfl, fun x hx => by cases hx⟩
    | some a => exact ⟨rfl, fun x hx => by cases hx; exact ⟨rfl, rfl⟩⟩
  | python =>
    obtain ⟨h1, h2, h3, h4⟩ := h
    simp only at h1 h2 h3 h4
    subst h1 h2
    cases py with
    | none => exact ⟨rfl, fun x hx => by cases hx⟩
    | some a =>
      have hl : (load a pyc).1 = a.code ∧ G (load a pyc).2 := by
        cases pyc with
        | none => exact ⟨rfl, h3 a rfl⟩
        | some b =>
          simp only [load]
          split
          · rename_i hb
            exact ⟨hG b a (h4 b rfl) (h3 a rfl) hb.1 hb.2, h4 b rfl⟩
          · exact ⟨rfl, h3 a rfl⟩
      refine ⟨by simp [Folder.find, hl.1], fun x hx => ?_⟩
      cases hx
      exact ⟨rfl, rfl, h3, fun s hs => by cases hs; exact hl.2⟩

omit [DecidableEq D] in
theorem Holds.write {G : Source C → Prop} {f : Folder C} {c : Option C} {r : Request D C}
    (h : Holds G r.backend f c) (hb : r.builds = true) (hs : r.backend = .python → G ⟨r.code, r.now, r.size⟩) :
    ∃ g, f.write r = some g ∧ Holds G r.backend g (some r.code) := by
  unfold Folder.write
  cases hk : r.backend with
  | cython =>
    rw [hk] at h
    exact ⟨_, if_pos hb, rfl, h.2⟩
  | python =>
    rw [hk] at h
    exact ⟨_, rfl, h.1, rfl, fun s e => by cases e; exact hs hk, h.2.2.2⟩

theorem Holds.nil (G : Source C → Prop) (k : Backend) : Holds G k Folder.nil none := by
  cases k
  · exact ⟨rfl, rfl, fun s h => (by cases h), fun s h => (by cases h)⟩
  · exact ⟨rfl, rfl⟩

/-- What a request has to satisfy: the directory above exists, the build succeeds, the directory is not on the search path
and is always used with the same wrapper, the temporary directory is new. -/
structure Proper (G : Source C → Prop) (kind : D → Backend) (w : World D C) (dirs : D → Prop) (r : Request D C) :
    Prop where
  parent : r.parent = true
  builds : r.builds = true
  fresh : w.folder r.tmp = none
  apart : ¬ dirs r.tmp
  off : r.workdir ∉ w.path
  known : ∀ d, r.dir = some d → dirs d ∧ r.backend = kind d
  source : r.backend = .python → G ⟨r.code, r.now, r.size⟩

/-- One simulation. -/
theorem wrap_agrees {G : Source C → Prop} (hG : Consistent G) {kind : D → Backend} {w : World D C} {s : Store D C}
    {dirs : D → Prop} {r : Request D C} (ha : Agrees G kind w s) (hr : Proper G kind w dirs r)
    (hpath : ∀ d ∈ w.path, Bare w d) :
    (wrap w r).2.toOption = intended s r ∧ Agrees G kind (wrap w r).1 (kept s r) ∧ (wrap w r).1.path = w.path ∧
      ∀ d, r.dir ≠ some d → (wrap w r).1.folder d = w.folder d := by
  have hwne : ∀ d ∈ w.path, d ≠ r.workdir := fun d h e => hr.off (e ▸ h)
  -- the directory
  obtain ⟨f, c, hmk, hc, hd⟩ : ∃ f c, mkdir w r = some { w with folder := Function.update w.folder r.workdir (some f) } ∧
      Holds G r.backend f c ∧ c = r.dir.bind s := by
    unfold mkdir
    cases hdir : r.dir with
    | none =>
      have e : r.workdir = r.tmp := by simp [Request.workdir, hdir]
      exact ⟨Folder.nil, none, by simp [e, hr.fresh], Holds.nil _ _, rfl⟩
    | some d =>
      have e : r.workdir = d := by simp [Request.workdir, hdir]
      have had := ha d
      rw [e, (hr.known d hdir).2]
      cases hf : w.folder d with
      | none =>
        rw [hf] at had
        exact ⟨Folder.nil, none, by simp [hr.parent], Holds.nil _ _, had.symm⟩
      | some f =>
        rw [hf] at had
        refine ⟨f, s d, ?_, had, rfl⟩
        show some w = _
        rw [← hf, Function.update_eq_self]
  -- the files
  obtain ⟨g, hem, hg⟩ : ∃ g,
      emit (⟨Function.update w.folder r.workdir (some f), w.path ++ [r.workdir], w.loaded⟩ : World D C) r =
      some { w with path := w.path ++ [r.workdir], folder := Function.update w.folder r.workdir (some g) } ∧
      Holds G r.backend g (intended s r) := by
    unfold emit intended
    cases hgen : r.generate with
    | false => exact ⟨f, rfl, by simpa [hd] using hc⟩
    | true =>
      obtain ⟨g, h1, h2⟩ := hc.write hr.builds hr.source
      exact ⟨g, by simp [h1], by simpa using h2⟩
  -- the search
  obtain ⟨hf1, hf2⟩ := hg.find hG
  have hs : search { w with path := w.path ++ [r.workdir], folder := Function.update w.folder r.workdir (some g) }
      (w.path ++ [r.workdir]) = g.find.map fun x =>
        (x.1, ⟨Function.update w.folder r.workdir (some x.2), w.path ++ [r.workdir], w.loaded⟩) := by
    rw [search_bare]
    · cases h : g.find <;> simp [search, h]
    · intro d hd
      simp only [Bare, Function.update_of_ne (hwne d hd)]
      exact hpath d hd
  -- what is left
  have hleft : ∀ (g' : Folder C) (l : Option C), Holds G r.backend g' (intended s r) →
      Agrees G kind (cleanup (⟨Function.update w.folder r.workdir (some g'), w.path ++ [r.workdir], l⟩ : World D C) r)
        (kept s r) ∧
      (cleanup (⟨Function.update w.folder r.workdir (some g'), w.path ++ [r.workdir], l⟩ : World D C) r).path = w.path ∧
      ∀ d, r.dir ≠ some d →
        (cleanup (⟨Function.update w.folder r.workdir (some g'), w.path ++ [r.workdir], l⟩ : World D C) r).folder d =
          w.folder d := by
    intro g' l hg'
    refine ⟨?_, erase_append_self hr.off, ?_⟩
    · intro d
      cases hdir : r.dir with
      | none =>
        have e : r.workdir = r.tmp := by simp [Request.workdir, hdir]
        have := ha d
        have e' : Function.update w.folder r.tmp none = w.folder := by rw [← hr.fresh, Function.update_eq_self]
        simpa [cleanup, hdir, kept, e, e'] using this
      | some d' =>
        have e : r.workdir = d' := by simp [Request.workdir, hdir]
        have hk := (hr.known d' hdir).2
        by_cases hdd : d = d'
        · subst hdd
          have hi : intended s r = kept s r d := by
            unfold intended kept
            cases hgen : r.generate <;> simp [hdir]
          simpa [cleanup, hdir, e, ← hk, ← hi] using hg'
        · have := ha d
          have hi : kept s r d = s d := by
            unfold kept
            cases hgen : r.generate <;> simp [hdir, hdd]
          simpa [cleanup, hdir, e, hdd, hi] using this
    · intro d hd
      cases hdir : r.dir with
      | none =>
        have e : r.workdir = r.tmp := by simp [Request.workdir, hdir]
        have e' : Function.update w.folder r.tmp none = w.folder := by rw [← hr.fresh, Function.update_eq_self]
        simp [cleanup, hdir, e, e']
      | some d' =>
        have e : r.workdir = d' := by simp [Request.workdir, hdir]
        have : d ≠ d' := fun h => hd (by rw [hdir, h])
        simp [cleanup, hdir, e, this]
  unfold wrap
  simp only [hmk, hem, importModule, hs]
  cases hfind : g.find with
  | none =>
    rw [hfind] at hf1
    refine ⟨hf1, ?_⟩
    exact hleft g none hg
  | some x =>
    rw [hfind] at hf1
    refine ⟨hf1, ?_⟩
    exact hleft x.2 (some x.1) (hf2 x hfind)

/-- **C92, several simulations.**  In any sequence of simulations (with or without a directory, which generate their code or
use the one of the directory, NumPy, Loopy or Cython), each one runs the code which is intended: its own, or the last one
generated in its directory.  Conditions: the builds succeed; nothing is found in the directories of the search path, and the
chosen directories are not on it; each directory is used with one wrapper; two Python files of the same size written in the
same second have the same code. -/
theorem C92_runs {G : Source C → Prop} (hG : Consistent G) {kind : D → Backend} {dirs : D → Prop} (l : List (Request D C))
    (w : World D C) (s : Store D C) (ha : Agrees G kind w s) (hr : ∀ r ∈ l, Proper G kind w dirs r)
    (hpath : ∀ d ∈ w.path, Bare w d) :
    (runs w l).2.map Except.toOption = intendedAll s l ∧ (runs w l).1.path = w.path ∧
      Agrees G kind (runs w l).1 (l.foldl kept s) ∧ ∀ d, ¬ dirs d → (runs w l).1.folder d = w.folder d := by
  induction l generalizing w s with
  | nil => exact ⟨rfl, rfl, ha, fun _ _ => rfl⟩
  | cons r l ih =>
    have h0 := hr r (by simp)
    obtain ⟨h1, h2, h3, h4⟩ := wrap_agrees hG ha h0 hpath
    have hdirs : ∀ d, ¬ dirs d → (wrap w r).1.folder d = w.folder d :=
      fun d hd => h4 d fun e => hd (h0.known d e).1
    have hpath' : ∀ d ∈ (wrap w r).1.path, Bare (wrap w r).1 d := by
      intro d hd
      rw [h3] at hd
      have : r.dir ≠ some d := fun e => h0.off (by simpa [Request.workdir, e] using hd)
      simp only [Bare, h4 d this]
      exact hpath d hd
    have hr' : ∀ q ∈ l, Proper G kind (wrap w r).1 dirs q := by
      intro q hq
      have := hr q (by simp [hq])
      exact ⟨this.parent, this.builds, by rw [hdirs _ this.apart]; exact this.fresh, this.apart,
        by rw [h3]; exact this.off, this.known, this.source⟩
    obtain ⟨i1, i2, i3, i4⟩ := ih _ _ h2 hr' hpath'
    refine ⟨?_, i2.trans h3, i3, fun d hd => (i4 d hd).trans (hdirs d hd)⟩
    simp only [runs, intendedAll, List.map_cons, h1, i1]

/-! ### Where it fails -/

/-- A request with the usual answers of the system. -/
def usual (b : Backend) (dir : Option D) (code : C) (size : Nat) (tmp : D) (now : Nat) : Request D C :=
  ⟨b, dir, true, code, size, tmp, now, true, true⟩

/-- **C92 is false when the directory is on the search path.**  A first simulation keeps its code in a directory of the
path (such as the one of the script); then a second simulation, which has its own temporary directory, runs the code of
the first one. -/
theorem C92_search_negation (d tmp : D) (hd : d ≠ tmp) (a b : C) (na nb t t' : Nat) (k k' : Backend) :
    (runs (⟨fun x => if x = d then some Folder.nil else none, [d], none⟩ : World D C)
      [usual k (some d) a na tmp t, usual k' none b nb tmp t']).2 = [.ok a, .ok a] := by
  cases k <;> cases k' <;>
    simp [runs, wrap, usual, mkdir, emit, importModule, cleanup, search, Request.workdir, Folder.write, Folder.find,
      Folder.nil, load, Function.update, hd, hd.symm]

/-- **C92, the search path is changed** when the directory is on it: it is moved from its place to the end. -/
theorem C92_path_negation (d : D) (l : List D) (w : World D C) (r : Request D C) (hw : w.path = d :: l)
    (hr : r.dir = some d) (hp : r.parent = true) :
    (wrap w r).1.path = l ++ [d] := by
  have e : r.workdir = d := by simp [Request.workdir, hr]
  have key : ∀ p, p = w.path ++ [r.workdir] → p.erase r.workdir = l ++ [d] := by
    rintro p rfl
    simp [hw, e]
  unfold wrap
  obtain ⟨w₁, h1⟩ : ∃ w₁, mkdir w r = some w₁ := by
    unfold mkdir
    cases w.folder r.workdir with
    | some f => exact ⟨_, rfl⟩
    | none => exact ⟨_, if_pos (by simp [hp])⟩
  have hp1 := mkdir_path w r h1
  simp only [h1]
  cases h2 : emit { w₁ with path := w₁.path ++ [r.workdir] } r with
  | none => exact key _ (by rw [hp1])
  | some w₃ =>
    have h3 := emit_path _ r h2
    simp only []
    cases h4 : importModule w₃ with
    | none => exact key _ (by simp only [h3, hp1])
    | some x =>
      obtain ⟨c, w₄⟩ := x
      obtain ⟨y, hy, e'⟩ : ∃ y, search w₃ w₃.path = some y ∧ (y.1, { y.2 with loaded := some y.1 }) = (c, w₄) := by
        simpa only [importModule, Option.map_eq_some_iff] using h4
      have h5 : w₄.path = y.2.path := by cases e'; rfl
      refine key _ ?_
      show w₄.path = _
      rw [h5, search_path _ _ hy, h3, hp1]

/-- **C92 is false for a directory used with two generators.**  After a simulation with Cython, a simulation with NumPy (or
Loopy) in the same directory runs the code of the first one. -/
theorem C92_backend_negation (d tmp : D) (a b : C) (na nb t t' : Nat) :
    (runs (⟨fun _ => none, [], none⟩ : World D C)
      [usual .cython (some d) a na tmp t, usual .python (some d) b nb tmp t']).2 = [.ok a, .ok a] := by
  simp [runs, wrap, usual, mkdir, emit, importModule, cleanup, search, Request.workdir, Folder.write, Folder.find,
    Folder.nil, Function.update]

/-- **C92 is false for two codes of the same size in the same second** in the same directory (for example two values of a
relaxation parameter with as many digits). -/
theorem C92_second_negation (d tmp : D) (a b : C) (n t : Nat) :
    (runs (⟨fun _ => none, [], none⟩ : World D C)
      [usual .python (some d) a n tmp t, usual .python (some d) b n tmp t]).2 = [.ok a, .ok a] := by
  simp [runs, wrap, usual, mkdir, emit, importModule, cleanup, search, Request.workdir, Folder.write, Folder.find,
    Folder.nil, load, Function.update]

/-- **C92, simulations which exist.**  After a simulation which is built the others still run; after one whose module is not
found (`generate` false and nothing generated before in the directory), caught by the user, no simulation of the process
can make a step. -/
theorem C92_step_negation (w : World D C) (r : Request D C) :
    ((wrap w r).2 = .error .notImported → canStep (wrap w r).1 = false) ∧
      (∀ c, (wrap w r).2 = .ok c → canStep (wrap w r).1 = true) := by
  unfold wrap canStep
  cases mkdir w r with
  | none => exact ⟨fun h => (by cases h), fun c h => by cases h⟩
  | some w₁ =>
    simp only []
    cases emit { w₁ with path := w₁.path ++ [r.workdir] } r with
    | none => exact ⟨fun h => (by cases h), fun c h => by cases h⟩
    | some w₃ =>
      simp only []
      cases h4 : importModule w₃ with
      | none => exact ⟨fun _ => rfl, fun c h => by cases h⟩
      | some x =>
        obtain ⟨c, w₄⟩ := x
        obtain ⟨y, _, e'⟩ : ∃ y, search w₃ w₃.path = some y ∧ (y.1, { y.2 with loaded := some y.1 }) = (c, w₄) := by
          simpa only [importModule, Option.map_eq_some_iff] using h4
        refine ⟨fun h => (by cases h), fun _ _ => ?_⟩
        have : w₄.loaded = some y.1 := by cases e'; rfl
        simp [cleanup, this]

/-- The failure is reachable. -/
example : (runs (⟨fun _ => none, [], none⟩ : World Nat String)
    [usual .cython none "a" 1 0 10, { usual .cython (some 1) "b" 1 0 11 with generate := false }]).2 =
      [.ok "a", .error .notImported] := by
  simp [runs, wrap, usual, mkdir, emit, importModule, cleanup, search, Request.workdir, Folder.write, Folder.find,
    Folder.nil, Function.update]

/-! ### Examples -/

/-- Five simulations: a temporary one, one which writes in the directory 1, one which uses it, one which writes there again
(Python, later), one which uses it. -/
example : (runs (⟨fun _ => none, [], none⟩ : World Nat String)
      [usual .cython none "a" 1 0 10, usual .python (some 1) "b" 1 0 11,
        { usual .python (some 1) "c" 1 0 12 with generate := false }, usual .python (some 1) "d" 1 0 13,
        { usual .python (some 1) "e" 1 0 14 with generate := false }]).2.map Except.toOption =
    [some "a", some "b", some "b", some "d", some "d"] := by
  rw [(C92_runs (G := fun s => s ∈ [⟨"b", 11, 1⟩, ⟨"d", 13, 1⟩, ⟨"c", 12, 1⟩, ⟨"e", 14, 1⟩]) (kind := fun _ => .python)
    (dirs := fun d => d = 1) (by
      intro a b ha hb
      simp only [List.mem_cons, List.not_mem_nil, or_false] at ha hb
      rcases ha with rfl | rfl | rfl | rfl <;> rcases hb with rfl | rfl | rfl | rfl <;> simp)
    _ _ (fun _ => none) (fun _ => rfl) (by
      intro r hr
      simp only [List.mem_cons, List.not_mem_nil, or_false] at hr
      rcases hr with rfl | rfl | rfl | rfl | rfl <;>
        exact ⟨rfl, rfl, rfl, by decide, by simp, by simp [usual], by simp [usual]⟩) (by simp)).1]
  simp [intendedAll, intended, kept, usual]

example : (wrap (⟨fun _ => none, [3], some "old"⟩ : World Nat String) (usual .cython none "a" 1 0 10)).1 =
    ⟨fun _ => none, [3], some "a"⟩ :=
  (C92_no_trace _ _ rfl rfl rfl rfl (by decide) (by intro d _; rfl)).1

end Pylbm.Loading
