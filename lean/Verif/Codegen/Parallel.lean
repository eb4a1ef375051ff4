import Mathlib.Logic.Function.Basic
import Mathlib.Data.List.Basic
import Mathlib.Data.List.Induction
import Mathlib.Order.MinMax
import Mathlib.Tactic.SplitIfs
/-!
# C106: the code is generated on all the processes of a parallel run

Each MPI process constructs its simulation, hence writes and imports its own module (generator/autowrap.py 52-76); nothing
synchronises the processes.  The model executes the system calls of the processes in any order on one file system.

Simplifications: the text is written by any number of system calls (the buffer of `open(..., "w")`), each of which is atomic,
and it is read at once; the build of Cython reads the source and puts the extension in place in one operation; a process
looks for the module in its working directory only (the search path is in `Verif.Codegen.Loading`).
-/
namespace Pylbm.Parallel

set_option linter.unusedSectionVars false

variable {ι D A : Type} [DecidableEq ι] [DecidableEq D] [Inhabited A]

/-! ## Model -/

/-- What a directory contains for the module: the source file and the extension built from a source. -/
structure Folder (A : Type) where
  src : Option (List A)
  so : Option (List A)

/-- An empty directory. -/
def Folder.nil : Folder A := ⟨none, none⟩

/-- The files shared by the processes; `none` is a directory which does not exist. -/
abbrev Files (D A : Type) := D → Option (Folder A)

/-- What a process asks for: its directory, made by `mkdtemp` (`temp`) or given by `codegen_option`; `generate`; Cython
(`compiled`) or NumPy and Loopy; the text of its module, as it is cut by the system calls. -/
structure Job (D A : Type) where
  dir : D
  temp : Bool
  generate : Bool
  compiled : Bool
  chunks : List (List A)

/-- The text of the module. -/
def Job.text (j : Job D A) : List A := j.chunks.flatten

/-- The system calls. -/
inductive Call (A : Type)
  /-- `tempfile.mkdtemp`, autowrap.py 43 -/
  | mkdtemp
  /-- `os.access(self.workdir, os.F_OK)`, autowrap.py 53 -/
  | access
  /-- `os.mkdir(self.workdir)` if the directory was not there, autowrap.py 54 -/
  | mkdir
  /-- `open(filename, "w")`, codegen.py 930 -/
  | openw
  /-- `f.write`, codegen.py 931, 996: one of the writes of the buffer -/
  | write (c : List A)
  /-- `check_output(command)`, autowrap.py 80 -/
  | build
  /-- `importlib.import_module`, autowrap.py 65 -/
  | load
  /-- `shutil.rmtree(self.workdir)`, autowrap.py 69-71 -/
  | rmtree

/-- The calls before the module is built and imported. -/
def Job.before (j : Job D A) : List (Call A) :=
  (if j.temp then [.mkdtemp] else []) ++ [.access, .mkdir] ++
    (if j.generate then .openw :: j.chunks.map .write else [])

/-- The build and the import. -/
def Job.after (j : Job D A) : List (Call A) :=
  (if j.generate && j.compiled then [.build] else []) ++ [.load] ++ (if j.temp then [.rmtree] else [])

/-- `CodeWrapper.__init__` and `wrap_code`, autowrap.py 36-74. -/
def Job.calls (j : Job D A) : List (Call A) := j.before ++ j.after

inductive Failure
  | fileExists
  | fileNotFound
  | build
  | notImported
  deriving DecidableEq

/-- A process: the calls to make, what `os.access` answered, the position in the file, and the text of the module imported
or the exception. -/
structure Proc (A : Type) where
  todo : List (Call A)
  seen : Bool
  off : Nat
  result : Option (Except Failure (List A))

/-- A process before the construction. -/
def Job.start (j : Job D A) : Proc A := ⟨j.calls, false, 0, none⟩

/-- An exception: only the clause `finally` is executed (autowrap.py 66-74; before the `try` nothing). -/
def Proc.fail (p : Proc A) (j : Job D A) (inTry : Bool) (e : Failure) : Proc A :=
  { p with todo := if inTry && j.temp then [.rmtree] else [], result := some (.error e) }

/-- A write at the position `off` of a file (POSIX `write`): a gap is filled with zeros. -/
def overwrite (t : List A) (off : Nat) (c : List A) : List A :=
  t.take off ++ List.replicate (off - t.length) default ++ c ++ t.drop (off + c.length)

/-- The next call of a process. -/
def next (j : Job D A) (fs : Files D A) (p : Proc A) : Files D A × Proc A :=
  match p.todo with
  | [] => (fs, p)
  | .mkdtemp :: l => (Function.update fs j.dir (some Folder.nil), { p with todo := l })
  | .access :: l => (fs, { p with todo := l, seen := (fs j.dir).isSome })
  | .mkdir :: l =>
    if p.seen then (fs, { p with todo := l })
    else if (fs j.dir).isSome then (fs, p.fail j false .fileExists)
    else (Function.update fs j.dir (some Folder.nil), { p with todo := l })
  | .openw :: l => match fs j.dir with
    | none => (fs, p.fail j true .fileNotFound)
    | some f => (Function.update fs j.dir (some { f with src := some [] }), { p with todo := l, off := 0 })
  | .write c :: l => match fs j.dir with
    | some ⟨some t, so⟩ =>
      (Function.update fs j.dir (some ⟨some (overwrite t p.off c), so⟩), { p with todo := l, off := p.off + c.length })
    | _ => (fs, { p with todo := l, off := p.off + c.length })
  | .build :: l => match fs j.dir with
    | some ⟨some t, _⟩ => (Function.update fs j.dir (some ⟨some t, some t⟩), { p with todo := l })
    | _ => (fs, p.fail j true .build)
  | .load :: l => match fs j.dir with
    | some ⟨_, some t⟩ => (fs, { p with todo := l, result := some (.ok t) })
    | some ⟨some t, none⟩ => (fs, { p with todo := l, result := some (.ok t) })
    | _ => (fs, p.fail j true .notImported)
  | .rmtree :: l => (Function.update fs j.dir none, { p with todo := l })

/-- The files and the processes. -/
structure World (ι D A : Type) where
  files : Files D A
  procs : ι → Proc A

/-- The process `i` makes its next call. -/
def World.step (jobs : ι → Job D A) (w : World ι D A) (i : ι) : World ι D A :=
  let r := next (jobs i) w.files (w.procs i)
  ⟨r.1, Function.update w.procs i r.2⟩

/-- A schedule: which process makes the next call. -/
def World.run (jobs : ι → Job D A) (w : World ι D A) (σ : List ι) : World ι D A := σ.foldl (World.step jobs) w

/-- The state before the constructions. -/
def World.init (jobs : ι → Job D A) (fs : Files D A) : World ι D A := ⟨fs, fun i => (jobs i).start⟩

/-! ## Proofs: a process whose directory is its own -/

/-- `k` calls of a process alone. -/
def alone (j : Job D A) : Nat → Files D A × Proc A → Files D A × Proc A
  | 0, x => x
  | k + 1, x => alone j k (next j x.1 x.2)

theorem next_frame (j : Job D A) (fs fs' : Files D A) (p : Proc A) (h : fs j.dir = fs' j.dir) :
    (next j fs p).2 = (next j fs' p).2 ∧ (next j fs p).1 j.dir = (next j fs' p).1 j.dir := by
  unfold next
  split <;> (try simp only [h]) <;> (repeat' split) <;> simp_all

theorem next_other (j : Job D A) (fs : Files D A) (p : Proc A) (d : D) (hd : d ≠ j.dir) : (next j fs p).1 d = fs d := by
  unfold next
  split <;> (repeat' split) <;> simp [Function.update_of_ne hd]

theorem alone_frame (j : Job D A) (k : Nat) (fs fs' : Files D A) (p : Proc A) (h : fs j.dir = fs' j.dir) :
    (alone j k (fs, p)).2 = (alone j k (fs', p)).2 ∧ (alone j k (fs, p)).1 j.dir = (alone j k (fs', p)).1 j.dir := by
  induction k generalizing fs fs' p with
  | zero => exact ⟨rfl, h⟩
  | succ k ih =>
    obtain ⟨h1, h2⟩ := next_frame j fs fs' p h
    simp only [alone]
    have := ih (next j fs p).1 (next j fs' p).1 (next j fs p).2 h2
    rw [h1] at this
    rw [show next j fs p = ((next j fs p).1, (next j fs' p).2) by rw [← h1]]
    exact this

theorem run_alone (jobs : ι → Job D A) (i : ι) (hi : ∀ k, k ≠ i → (jobs k).dir ≠ (jobs i).dir) (w : World ι D A)
    (σ : List ι) :
    (w.run jobs σ).procs i = (alone (jobs i) (σ.count i) (w.files, w.procs i)).2 ∧
    (w.run jobs σ).files (jobs i).dir = (alone (jobs i) (σ.count i) (w.files, w.procs i)).1 (jobs i).dir := by
  induction σ generalizing w with
  | nil => exact ⟨rfl, rfl⟩
  | cons k σ ih =>
    obtain ⟨h1, h2⟩ := ih (w.step jobs k)
    show ((w.step jobs k).run jobs σ).procs i = _ ∧ ((w.step jobs k).run jobs σ).files (jobs i).dir = _
    rw [h1, h2]
    by_cases hk : k = i
    · subst hk
      rw [List.count_cons_self]
      simp [alone, World.step]
    · rw [List.count_cons_of_ne hk]
      have hp : (w.step jobs k).procs i = w.procs i := by
        simp [World.step, Function.update_of_ne (Ne.symm hk)]
      have hf : (w.step jobs k).files (jobs i).dir = w.files (jobs i).dir := by
        simp only [World.step]
        exact next_other _ _ _ _ (Ne.symm (hi k hk))
      rw [hp]
      exact alone_frame (jobs i) _ _ _ _ hf

theorem alone_add (j : Job D A) (a b : Nat) (x : Files D A × Proc A) : alone j (a + b) x = alone j b (alone j a x) := by
  induction a generalizing x with
  | zero => simp [alone]
  | succ a ih => rw [Nat.succ_add]; exact ih _

theorem alone_done (j : Job D A) (k : Nat) (fs : Files D A) (p : Proc A) (h : p.todo = []) :
    alone j k (fs, p) = (fs, p) := by
  induction k with
  | zero => rfl
  | succ k ih =>
    have : next j fs p = (fs, p) := by
      unfold next
      rw [h]
    simp only [alone, this, ih]

theorem overwrite_end (t c : List A) : overwrite t t.length c = t ++ c := by
  simp [overwrite]

/-- The writes of a process alone. -/
theorem alone_writes (j : Job D A) (cs : List (List A)) (l : List (Call A)) (fs : Files D A) (t : List A)
    (so : Option (List A)) (hfs : fs j.dir = some ⟨some t, so⟩) (s : Bool) (r : Option (Except Failure (List A))) :
    alone j cs.length (fs, ⟨cs.map .write ++ l, s, t.length, r⟩) =
      (Function.update fs j.dir (some ⟨some (t ++ cs.flatten), so⟩), ⟨l, s, (t ++ cs.flatten).length, r⟩) := by
  induction cs generalizing fs t with
  | nil =>
    simp only [List.length_nil, alone, List.map_nil, List.nil_append, List.flatten_nil, List.append_nil]
    rw [← hfs, Function.update_eq_self]
  | cons c cs ih =>
    simp only [List.length_cons, alone, List.map_cons, List.cons_append, next, hfs]
    have := ih (Function.update fs j.dir (some ⟨some (overwrite t t.length c), so⟩)) (t ++ c)
      (by simp [overwrite_end])
    rw [show t.length + c.length = (t ++ c).length by simp]
    rw [this]
    simp

/-- The first calls of a process alone in a directory which is there, up to the `r`-th write. -/
theorem alone_part (j : Job D A) (ht : j.temp = false) (hg : j.generate = true) (fs : Files D A) (f : Folder A)
    (hf : fs j.dir = some f) (r : Nat) (hr : r ≤ j.chunks.length) :
    alone j (3 + r) (fs, j.start) =
      (Function.update fs j.dir (some ⟨some (j.chunks.take r).flatten, f.so⟩),
        ⟨(j.chunks.drop r).map .write ++ j.after, true, (j.chunks.take r).flatten.length, none⟩) := by
  rw [alone_add]
  have h3 : alone j 3 (fs, j.start) = (Function.update fs j.dir (some ⟨some [], f.so⟩),
      ⟨j.chunks.map .write ++ j.after, true, 0, none⟩) := by
    simp [alone, Job.start, Job.calls, Job.before, ht, hg, next, hf]
  rw [h3]
  have := alone_writes j (j.chunks.take r) ((j.chunks.drop r).map .write ++ j.after)
    (Function.update fs j.dir (some ⟨some [], f.so⟩)) [] f.so (by simp) true none
  rw [List.length_take, min_eq_left hr, ← List.append_assoc, ← List.map_append, List.take_append_drop] at this
  simpa using this

/-- The build and the import of a process alone. -/
theorem alone_after (j : Job D A) (hg : j.generate = true) (fs : Files D A) (t : List A) (so : Option (List A))
    (hf : fs j.dir = some ⟨some t, so⟩) (hso : j.compiled = false → so = none) (s : Bool) (o : Nat)
    (r : Option (Except Failure (List A))) :
    (alone j j.after.length (fs, ⟨j.after, s, o, r⟩)).2 = ⟨[], s, o, some (.ok t)⟩ ∧
    (j.temp = true → (alone j j.after.length (fs, ⟨j.after, s, o, r⟩)).1 j.dir = none) := by
  cases hc : j.compiled with
  | true => cases ht : j.temp <;> simp [Job.after, hg, hc, ht, alone, next, hf]
  | false =>
    have := hso hc
    subst this
    cases ht : j.temp <;> simp [Job.after, hg, hc, ht, alone, next, hf]

theorem before_length (j : Job D A) (ht : j.temp = false) (hg : j.generate = true) :
    j.before.length = 3 + j.chunks.length := by
  simp [Job.before, ht, hg]; omega

/-! ## The property -/

/-- **C106, own directories.**  A process which generates its code in a directory which no other process uses (in particular
without `codegen_option`) gets its own code and removes its temporary directory, whatever the other processes do and in
whatever order the calls are made. -/
theorem C106_own (jobs : ι → Job D A) (fs : Files D A) (i : ι) (hi : ∀ k, k ≠ i → (jobs k).dir ≠ (jobs i).dir)
    (hg : (jobs i).generate = true)
    (hso : (jobs i).temp = false → (jobs i).compiled = false → ∀ f, fs (jobs i).dir = some f → f.so = none)
    (σ : List ι) (hσ : (jobs i).calls.length ≤ σ.count i) :
    (((World.init jobs fs).run jobs σ).procs i).result = some (.ok (jobs i).text) ∧
    ((jobs i).temp = true → ((World.init jobs fs).run jobs σ).files (jobs i).dir = none) := by
  obtain ⟨h1, h2⟩ := run_alone jobs i hi (World.init jobs fs) σ
  rw [h1, h2]
  set j := jobs i with hj
  have hgen : ∀ (fs' : Files D A) (so : Option (List A)) (b : Bool), fs' j.dir = some ⟨some [], so⟩ →
      (j.compiled = false → so = none) →
      ∃ fs'', alone j (j.chunks.length + j.after.length) (fs', ⟨j.chunks.map .write ++ j.after, b, 0, none⟩) =
        (fs'', ⟨[], b, j.text.length, some (.ok j.text)⟩) ∧ (j.temp = true → fs'' j.dir = none) := by
    intro fs' so b hf hc
    have h4 := alone_writes j j.chunks j.after fs' [] so hf b none
    obtain ⟨h5, h6⟩ := alone_after j hg (Function.update fs' j.dir (some ⟨some j.text, so⟩)) j.text so (by simp)
      hc b j.text.length none
    refine ⟨_, ?_, h6⟩
    rw [alone_add]
    simp only [List.length_nil, List.nil_append] at h4
    rw [h4, ← h5]
    rfl
  have key : ∃ fs' b, alone j j.calls.length (fs, j.start) = (fs', ⟨[], b, j.text.length, some (.ok j.text)⟩) ∧
      (j.temp = true → fs' j.dir = none) := by
    by_cases ht : j.temp = true
    · obtain ⟨fs'', h3, h4⟩ := hgen (Function.update fs j.dir (some ⟨some [], none⟩)) none true (by simp) fun _ => rfl
      refine ⟨fs'', true, ?_, h4⟩
      rw [← h3, show j.calls.length = 4 + (j.chunks.length + j.after.length) by
        simp [Job.calls, Job.before, ht, hg]; omega, alone_add]
      congr 1
      simp [alone, Job.start, Job.calls, Job.before, ht, hg, next, Folder.nil]
    · rw [Bool.not_eq_true] at ht
      have hlen : j.calls.length = 3 + (j.chunks.length + j.after.length) := by
        simp [Job.calls, Job.before, ht, hg]; omega
      cases hf : fs j.dir with
      | some f =>
        obtain ⟨fs'', h3, h4⟩ := hgen (Function.update fs j.dir (some ⟨some [], f.so⟩)) f.so true (by simp)
          fun hc => hso ht hc f hf
        refine ⟨fs'', true, ?_, h4⟩
        rw [← h3, hlen, alone_add]
        congr 1
        simp [alone, Job.start, Job.calls, Job.before, ht, hg, next, hf]
      | none =>
        obtain ⟨fs'', h3, h4⟩ := hgen (Function.update fs j.dir (some ⟨some [], none⟩)) none false (by simp) fun _ => rfl
        refine ⟨fs'', false, ?_, h4⟩
        rw [← h3, hlen, alone_add]
        congr 1
        simp [alone, Job.start, Job.calls, Job.before, ht, hg, next, hf, Folder.nil]
  obtain ⟨fs', b, h3, h4⟩ := key
  obtain ⟨n, hn⟩ := Nat.exists_eq_add_of_le hσ
  show ((alone j (σ.count i) (fs, j.start)).2).result = _ ∧ (_ → (alone j (σ.count i) (fs, j.start)).1 j.dir = none)
  rw [hn, alone_add, h3, alone_done _ _ _ _ rfl]
  exact ⟨rfl, h4⟩

/-- **C106, temporary directories.**  A process with a temporary directory and `generate` false finds no module: it stops with
the error of the import, and its directory is removed all the same, whatever the other processes do. -/
theorem C106_removed (jobs : ι → Job D A) (fs : Files D A) (i : ι) (hi : ∀ k, k ≠ i → (jobs k).dir ≠ (jobs i).dir)
    (ht : (jobs i).temp = true) (hg : (jobs i).generate = false) (σ : List ι) (hσ : 5 ≤ σ.count i) :
    (((World.init jobs fs).run jobs σ).procs i).result = some (.error .notImported) ∧
    ((World.init jobs fs).run jobs σ).files (jobs i).dir = none := by
  obtain ⟨h1, h2⟩ := run_alone jobs i hi (World.init jobs fs) σ
  rw [h1, h2]
  set j := jobs i with hj
  obtain ⟨n, hn⟩ := Nat.exists_eq_add_of_le hσ
  have key : ∃ fs' p, alone j 5 (fs, j.start) = (fs', p) ∧ fs' j.dir = none ∧ p.todo = [] ∧
      p.result = some (.error .notImported) := by
    refine ⟨_, _, rfl, ?_, ?_, ?_⟩ <;>
      simp [alone, Job.start, Job.calls, Job.before, Job.after, ht, hg, next, Folder.nil, Proc.fail]
  obtain ⟨fs', p, h3, h4, h5, h6⟩ := key
  show ((alone j (σ.count i) (fs, j.start)).2).result = _ ∧ (alone j (σ.count i) (fs, j.start)).1 j.dir = none
  rw [hn, alone_add, h3, alone_done _ _ _ _ h5]
  exact ⟨h6, h4⟩

/-! ## A directory which is prepared -/

/-- The module which is found in a directory. -/
def Folder.module (f : Folder A) : Option (List A) := f.so.or f.src

/-- The state of a process which only reads, after `k` calls. -/
def reader (t : List A) : Nat → Proc A
  | 0 => ⟨[.access, .mkdir, .load], false, 0, none⟩
  | 1 => ⟨[.mkdir, .load], true, 0, none⟩
  | 2 => ⟨[.load], true, 0, none⟩
  | _ => ⟨[], true, 0, some (.ok t)⟩

theorem reader_next (j : Job D A) (fs : Files D A) (f : Folder A) (t : List A) (hf : fs j.dir = some f)
    (ht : f.module = some t) (k : Nat) : next j fs (reader t k) = (fs, reader t (k + 1)) := by
  obtain ⟨src, so⟩ := f
  match k with
  | 0 => simp [reader, next, hf]
  | 1 => simp [reader, next]
  | 2 =>
    cases so with
    | some u =>
      have : u = t := by simpa [Folder.module] using ht
      simp [reader, next, hf, this]
    | none =>
      cases src with
      | some u =>
        have : u = t := by simpa [Folder.module] using ht
        simp [reader, next, hf, this]
      | none => simp [Folder.module] at ht
  | k + 3 => simp [reader, next]

/-- **C106, prepared directory.**  When the code has been generated before and all the processes which use the directory have
`generate` false, all of them get this code, in whatever order the calls are made. -/
theorem C106_prepared (jobs : ι → Job D A) (fs : Files D A) (d : D) (f : Folder A) (t : List A) (hf : fs d = some f)
    (ht : f.module = some t) (hj : ∀ i, (jobs i).dir = d → (jobs i).generate = false ∧ (jobs i).temp = false)
    (σ : List ι) (i : ι) (hi : (jobs i).dir = d) (hσ : 3 ≤ σ.count i) :
    (((World.init jobs fs).run jobs σ).procs i).result = some (.ok t) := by
  have key : ∀ (σ : List ι), ((World.init jobs fs).run jobs σ).files d = some f ∧
      ∀ i, (jobs i).dir = d → ((World.init jobs fs).run jobs σ).procs i = reader t (σ.count i) := by
    intro σ
    induction σ using List.reverseRecOn with
    | nil =>
      refine ⟨hf, fun i hi => ?_⟩
      obtain ⟨h1, h2⟩ := hj i hi
      simp [World.run, World.init, Job.start, Job.calls, Job.before, Job.after, h1, h2, reader]
    | append_singleton σ k ih =>
      obtain ⟨ih1, ih2⟩ := ih
      have hrun : (World.init jobs fs).run jobs (σ ++ [k]) = ((World.init jobs fs).run jobs σ).step jobs k := by
        simp [World.run]
      rw [hrun]
      set w := (World.init jobs fs).run jobs σ with hw
      by_cases hk : (jobs k).dir = d
      · have hn := reader_next (jobs k) w.files f t (by rw [hk, ih1]) ht (σ.count k)
        rw [← ih2 k hk] at hn
        refine ⟨by simp only [World.step, hn]; exact ih1, fun i hi => ?_⟩
        simp only [World.step, hn]
        by_cases hik : i = k
        · subst hik
          simp
        · rw [Function.update_of_ne hik, ih2 i hi, List.count_append]
          simp [List.count_cons_of_ne (Ne.symm hik)]
      · refine ⟨?_, fun i hi => ?_⟩
        · simp only [World.step]
          rw [next_other _ _ _ _ (Ne.symm hk)]
          exact ih1
        · have hik : i ≠ k := by rintro rfl; exact hk hi
          simp only [World.step]
          rw [Function.update_of_ne hik, ih2 i hi, List.count_append]
          simp [List.count_cons_of_ne (Ne.symm hik)]
  rw [(key σ).2 i hi]
  obtain ⟨n, hn⟩ := Nat.exists_eq_add_of_le hσ
  rw [hn, Nat.add_comm]
  rfl

/-! ## A directory where several processes write -/

theorem run_append (jobs : ι → Job D A) (w : World ι D A) (σ τ : List ι) :
    w.run jobs (σ ++ τ) = (w.run jobs σ).run jobs τ := by
  simp [World.run]

theorem run_replicate (jobs : ι → Job D A) (w : World ι D A) (i : ι) (n : Nat) :
    w.run jobs (List.replicate n i) = ⟨(alone (jobs i) n (w.files, w.procs i)).1,
      Function.update w.procs i (alone (jobs i) n (w.files, w.procs i)).2⟩ := by
  induction n generalizing w with
  | zero => simp [World.run, alone]
  | succ n ih =>
    show (w.step jobs i).run jobs (List.replicate n i) = _
    rw [ih]
    simp [World.step, alone]

theorem run_done (jobs : ι → Job D A) (w : World ι D A) (i : ι) (h : (w.procs i).todo = []) (σ : List ι) :
    (w.run jobs σ).procs i = w.procs i := by
  induction σ generalizing w with
  | nil => rfl
  | cons k σ ih =>
    have hs : (w.step jobs k).procs i = w.procs i := by
      by_cases hk : i = k
      · subst hk
        simp [World.step, next, h]
      · simp [World.step, Function.update_of_ne hk]
    show ((w.step jobs k).run jobs σ).procs i = _
    rw [ih _ (by rw [hs]; exact h), hs]

/-- **C106 is false for a new directory**: for all codes and whatever happens afterwards, when two processes look for the
directory before one of them makes it, the other one stops with `FileExistsError`. -/
theorem C106_mkdir_negation (jobs : ι → Job D A) (fs : Files D A) (i k : ι) (hik : i ≠ k)
    (hd : (jobs k).dir = (jobs i).dir) (hi : (jobs i).temp = false) (hk : (jobs k).temp = false)
    (hfs : fs (jobs i).dir = none) (τ : List ι) :
    (((World.init jobs fs).run jobs ([i, k, i, k] ++ τ)).procs k).result = some (.error .fileExists) := by
  rw [run_append]
  have h : ((World.init jobs fs).run jobs [i, k, i, k]).procs k = ⟨[], false, 0, some (.error .fileExists)⟩ := by
    simp [World.run, World.step, World.init, Job.start, Job.calls, Job.before, hi, hk, next, hd, hfs,
      Function.update_of_ne hik, Function.update_of_ne hik.symm, Proc.fail]
  rw [run_done _ _ _ (by rw [h]), h]

/-- **C106 is false for a directory where several processes generate the code**: for all codes, a process may import any part
of the text of another one: it has written its file, then another process opens the same file, which empties it, and makes
`r` of its writes. -/
theorem C106_part_negation (jobs : ι → Job D A) (fs : Files D A) (i k : ι) (hik : i ≠ k)
    (hd : (jobs k).dir = (jobs i).dir) (hi : (jobs i).temp = false) (hk : (jobs k).temp = false)
    (hgi : (jobs i).generate = true) (hgk : (jobs k).generate = true) (f : Folder A) (hf : fs (jobs i).dir = some f)
    (hso : (jobs i).compiled = false → f.so = none) (r : Nat) (hr : r ≤ (jobs k).chunks.length) (τ : List ι) :
    (((World.init jobs fs).run jobs (List.replicate (jobs i).before.length i ++ List.replicate (3 + r) k ++
      List.replicate (jobs i).after.length i ++ τ)).procs i).result = some (.ok ((jobs k).chunks.take r).flatten) := by
  rw [run_append, run_append, run_append, run_replicate, run_replicate, run_replicate, before_length _ hi hgi]
  have h1 := alone_part (jobs i) hi hgi fs f hf (jobs i).chunks.length le_rfl
  have h2 := alone_part (jobs k) hk hgk (Function.update fs (jobs i).dir
    (some ⟨some ((jobs i).chunks.take (jobs i).chunks.length).flatten, f.so⟩))
    ⟨some ((jobs i).chunks.take (jobs i).chunks.length).flatten, f.so⟩ (by rw [hd]; simp) r hr
  have e1 : (World.init jobs fs).files = fs := rfl
  have e2 : ∀ x, (World.init jobs fs).procs x = (jobs x).start := fun _ => rfl
  simp only [e1, e2, h1, Function.update_of_ne hik.symm, h2, Function.update_of_ne hik, Function.update_self]
  rw [run_done _ _ _ ?_]
  · simp only [Function.update_self]
    rw [List.drop_length]
    simp only [List.map_nil, List.nil_append]
    rw [(alone_after (jobs i) hgi _ ((jobs k).chunks.take r).flatten f.so (by rw [hd]; simp) hso _ _ _).1]
  · simp only [Function.update_self]
    rw [List.drop_length]
    simp only [List.map_nil, List.nil_append]
    rw [(alone_after (jobs i) hgi _ ((jobs k).chunks.take r).flatten f.so (by rw [hd]; simp) hso _ _ _).1]

/-! ## With a barrier before the import -/

/-- A process has not opened the file yet. -/
def Waiting (j : Job D A) (p : Proc A) : Prop :=
  p.todo = j.calls ∨ (p.todo = .mkdir :: .openw :: (j.chunks.map .write ++ j.after) ∧ p.seen = true) ∨
    p.todo = .openw :: (j.chunks.map .write ++ j.after)

/-- A process is writing: its first writes are done. -/
def Writing (j : Job D A) (p : Proc A) : Prop :=
  ∃ a b, j.chunks = a ++ b ∧ p.todo = b.map .write ++ j.after ∧ p.off = a.flatten.length

/-- The file while the processes write the same text `T`: each place is right, or some process will write it. -/
structure Filling (jobs : ι → Job D A) (d : D) (so : Option (List A)) (T : List A) (w : World ι D A) : Prop where
  here : ∃ src, w.files d = some ⟨src, so⟩ ∧
    ((∃ i, Writing (jobs i) (w.procs i)) → ∃ t, src = some t ∧ t.length ≤ T.length) ∧
    ∀ x < T.length, (∃ t, src = some t ∧ t[x]? = T[x]?) ∨ (∃ i, Writing (jobs i) (w.procs i) ∧ (w.procs i).off ≤ x) ∨
      ∃ i, Waiting (jobs i) (w.procs i)
  procs : ∀ i, Waiting (jobs i) (w.procs i) ∨ Writing (jobs i) (w.procs i)

theorem overwrite_length (t c : List A) (o : Nat) : (overwrite t o c).length = max t.length (o + c.length) := by
  simp only [overwrite, List.length_append, List.length_take, List.length_replicate, List.length_drop]
  omega

theorem overwrite_get (t c : List A) (o x : Nat) (hx : x < t.length ∨ (o ≤ x ∧ x < o + c.length)) :
    (overwrite t o c)[x]? = if o ≤ x ∧ x < o + c.length then c[x - o]? else t[x]? := by
  unfold overwrite
  have hl : (t.take o ++ List.replicate (o - t.length) default).length = o := by
    simp only [List.length_append, List.length_take, List.length_replicate]; omega
  by_cases h1 : x < o
  · have h2 : x < t.length := by omega
    rw [if_neg (by omega), List.append_assoc, List.getElem?_append_left (by rw [hl]; exact h1),
      List.getElem?_append_left (by simp; omega), List.getElem?_take_of_lt h1]
  · by_cases h2 : x < o + c.length
    · rw [if_pos ⟨by omega, h2⟩, List.append_assoc, List.getElem?_append_right (by rw [hl]; omega), hl,
        List.getElem?_append_left (by omega)]
    · rw [if_neg (by omega), List.getElem?_append_right (by rw [List.length_append, hl]; omega), List.length_append, hl,
        List.getElem?_drop]
      congr 1
      omega

section barrier
variable (jobs : ι → Job D A) (d : D) (T : List A) (hdir : ∀ i, (jobs i).dir = d) (htemp : ∀ i, (jobs i).temp = false)
  (hgen : ∀ i, (jobs i).generate = true) (htext : ∀ i, (jobs i).text = T)

include htemp hgen in
theorem calls_eq (i : ι) :
    (jobs i).calls = .access :: .mkdir :: .openw :: ((jobs i).chunks.map .write ++ (jobs i).after) := by
  simp [Job.calls, Job.before, htemp i, hgen i]

include hdir htemp hgen htext in
theorem filling_step (so : Option (List A)) (w : World ι D A) (h : Filling jobs d so T w) (k : ι)
    (hk : (jobs k).after.length < (w.procs k).todo.length) :
    Filling jobs d so T (w.step jobs k) ∧
      ((w.step jobs k).procs k).todo.length + 1 = (w.procs k).todo.length := by
  obtain ⟨⟨src, h1, h2, h3⟩, h4⟩ := h
  have hne : ∀ i, i ≠ k → (w.step jobs k).procs i = w.procs i := by
    intro i hi
    simp [World.step, Function.update_of_ne hi]
  -- a call of a process which has not opened the file and still waits afterwards
  have hwait : ∀ q, next (jobs k) w.files (w.procs k) = (w.files, q) → Waiting (jobs k) q →
      ¬ Writing (jobs k) q → Filling jobs d so T (w.step jobs k) := by
    intro q hq hqw hnq
    have hpk : (w.step jobs k).procs k = q := by simp [World.step, hq]
    have hw : ∀ i, Writing (jobs i) ((w.step jobs k).procs i) → Writing (jobs i) (w.procs i) := by
      intro i hi
      by_cases hik : i = k
      · subst hik; rw [hpk] at hi; exact absurd hi hnq
      · rwa [hne i hik] at hi
    refine ⟨⟨src, ?_, ?_, ?_⟩, ?_⟩
    · simp [World.step, hq, h1]
    · rintro ⟨i, hi⟩; exact h2 ⟨i, hw i hi⟩
    · intro x hx
      exact Or.inr (Or.inr ⟨k, by rw [hpk]; exact hqw⟩)
    · intro i
      by_cases hik : i = k
      · subst hik; rw [hpk]; exact Or.inl hqw
      · rw [hne i hik]; exact h4 i
  rcases h4 k with hW | ⟨a, b, hab, htodo, hoff⟩
  · have hhead : ∀ (q : Proc A) (c : Call A) (l : List (Call A)), q.todo = c :: l →
        (c = .access ∨ c = .mkdir ∨ c = .openw) → ¬ Writing (jobs k) q := by
      rintro q c l hq hc ⟨a, b, -, hb, -⟩
      rw [hq] at hb
      cases b with
      | cons e b =>
        rw [List.map_cons, List.cons_append] at hb
        have := (List.cons.inj hb).1
        rcases hc with rfl | rfl | rfl <;> simp at this
      | nil =>
        simp only [List.map_nil, List.nil_append, Job.after] at hb
        split_ifs at hb <;> (have := (List.cons.inj hb).1; rcases hc with rfl | rfl | rfl <;> simp at this)
    rcases hW with hW | ⟨hW, hs⟩ | hW
    · rw [calls_eq jobs htemp hgen] at hW
      have hn : next (jobs k) w.files (w.procs k) = (w.files, { w.procs k with
          todo := .mkdir :: .openw :: ((jobs k).chunks.map .write ++ (jobs k).after), seen := true }) := by
        unfold next
        rw [hW]
        simp [hdir k, h1]
      refine ⟨hwait _ hn (Or.inr (Or.inl ⟨rfl, rfl⟩)) (hhead _ _ _ rfl (Or.inr (Or.inl rfl))), ?_⟩
      simp [World.step, hn, hW]
    · have hn : next (jobs k) w.files (w.procs k) = (w.files, { w.procs k with
          todo := .openw :: ((jobs k).chunks.map .write ++ (jobs k).after) }) := by
        unfold next
        rw [hW]
        simp [hs]
      refine ⟨hwait _ hn (Or.inr (Or.inr rfl)) (hhead _ _ _ rfl (Or.inr (Or.inr rfl))), ?_⟩
      simp [World.step, hn, hW]
    · have hn : next (jobs k) w.files (w.procs k) = (Function.update w.files d (some ⟨some [], so⟩), { w.procs k with
          todo := (jobs k).chunks.map .write ++ (jobs k).after, off := 0 }) := by
        unfold next
        rw [hW]
        simp [hdir k, h1]
      have hpk : (w.step jobs k).procs k = { w.procs k with
          todo := (jobs k).chunks.map .write ++ (jobs k).after, off := 0 } := by simp [World.step, hn]
      have hwk : Writing (jobs k) ((w.step jobs k).procs k) := by
        rw [hpk]; exact ⟨[], (jobs k).chunks, rfl, rfl, rfl⟩
      refine ⟨⟨⟨some [], by simp [World.step, hn], fun _ => ⟨[], rfl, Nat.zero_le _⟩, fun x _ => ?_⟩, fun i => ?_⟩, ?_⟩
      · exact Or.inr (Or.inl ⟨k, hwk, by rw [hpk]; exact Nat.zero_le _⟩)
      · by_cases hik : i = k
        · subst hik; exact Or.inr hwk
        · rw [hne i hik]; exact h4 i
      · rw [hpk, hW]; simp
  · cases b with
    | nil =>
      rw [htodo] at hk
      simp at hk
    | cons c b =>
      obtain ⟨t, rfl, htl⟩ := h2 ⟨k, a, c :: b, hab, htodo, hoff⟩
      have hTk : T = a.flatten ++ c ++ b.flatten := by
        rw [← htext k, Job.text, hab]; simp
      have hn : next (jobs k) w.files (w.procs k) =
          (Function.update w.files d (some ⟨some (overwrite t a.flatten.length c), so⟩), { w.procs k with
            todo := b.map .write ++ (jobs k).after, off := a.flatten.length + c.length }) := by
        unfold next
        rw [htodo]
        simp [hdir k, h1, hoff]
      have hpk : (w.step jobs k).procs k = { w.procs k with
          todo := b.map .write ++ (jobs k).after, off := a.flatten.length + c.length } := by simp [World.step, hn]
      have hwk : Writing (jobs k) ((w.step jobs k).procs k) := by
        rw [hpk]; exact ⟨a ++ [c], b, by rw [hab]; simp, rfl, by simp⟩
      have hlen : a.flatten.length + c.length ≤ T.length := by rw [hTk]; simp
      refine ⟨⟨⟨some (overwrite t a.flatten.length c), by simp [World.step, hn], fun _ => ⟨_, rfl, ?_⟩, fun x hx => ?_⟩,
        fun i => ?_⟩, ?_⟩
      · rw [overwrite_length]
        exact max_le htl hlen
      · by_cases hin : a.flatten.length ≤ x ∧ x < a.flatten.length + c.length
        · left
          refine ⟨_, rfl, ?_⟩
          rw [overwrite_get _ _ _ _ (Or.inr hin), if_pos hin, hTk, List.append_assoc,
            List.getElem?_append_right hin.1, List.getElem?_append_left (by omega)]
        · rcases h3 x hx with ⟨t', ht', hx'⟩ | ⟨i, hi, hix⟩ | ⟨i, hi⟩
          · left
            have : t' = t := (Option.some.inj ht').symm
            subst this
            have hxt : x < t'.length := by
              rw [List.getElem?_eq_getElem hx] at hx'
              exact (List.getElem?_eq_some_iff.1 hx').1
            refine ⟨_, rfl, ?_⟩
            rw [overwrite_get _ _ _ _ (Or.inl hxt), if_neg hin, hx']
          · right; left
            by_cases hik : i = k
            · subst hik
              refine ⟨i, hwk, ?_⟩
              rw [hpk]
              rw [hoff] at hix
              simp only
              omega
            · exact ⟨i, by rw [hne i hik]; exact ⟨hi, hix⟩⟩
          · right; right
            have hik : i ≠ k := by
              rintro rfl
              rw [Waiting, htodo, calls_eq jobs htemp hgen] at hi
              simp at hi
            exact ⟨i, by rw [hne i hik]; exact hi⟩
      · by_cases hik : i = k
        · subst hik; exact Or.inr hwk
        · rw [hne i hik]; exact h4 i
      · rw [hpk, htodo]; simp

include hdir htemp hgen htext in
/-- All the calls before the build and the import are made, by all the processes, in any order. -/
theorem filled [Nonempty ι] (fs : Files D A) (f : Folder A) (hf : fs d = some f) (σ : List ι)
    (hσ : ∀ i, σ.count i = (jobs i).before.length) :
    ((World.init jobs fs).run jobs σ).files d = some ⟨some T, f.so⟩ ∧
      ∀ i, (((World.init jobs fs).run jobs σ).procs i).todo = (jobs i).after := by
  have key : ∀ σ : List ι, (∀ i, σ.count i ≤ (jobs i).before.length) →
      Filling jobs d f.so T ((World.init jobs fs).run jobs σ) ∧
      ∀ i, (((World.init jobs fs).run jobs σ).procs i).todo.length + σ.count i = (jobs i).calls.length := by
    intro σ
    induction σ using List.reverseRecOn with
    | nil =>
      intro _
      refine ⟨⟨⟨f.src, hf, ?_, fun x _ => Or.inr (Or.inr ⟨Classical.arbitrary ι, Or.inl rfl⟩)⟩, fun i => Or.inl (Or.inl rfl)⟩,
        fun i => rfl⟩
      rintro ⟨i, a, b, -, hb, -⟩
      exfalso
      rw [show ((World.init jobs fs).run jobs []).procs i = (jobs i).start from rfl, Job.start,
        calls_eq jobs htemp hgen] at hb
      cases b with
      | cons e b => simp at hb
      | nil =>
        simp only [List.map_nil, List.nil_append, Job.after] at hb
        split_ifs at hb <;> simp at hb
    | append_singleton σ k ih =>
      intro hc
      have hle : ∀ i, σ.count i ≤ (jobs i).before.length := fun i =>
        le_trans (by rw [List.count_append]; exact Nat.le_add_right _ _) (hc i)
      obtain ⟨h1, h2⟩ := ih hle
      have hrun : (World.init jobs fs).run jobs (σ ++ [k]) = ((World.init jobs fs).run jobs σ).step jobs k := by
        simp [World.run]
      rw [hrun]
      have hck := hc k
      rw [List.count_append, List.count_singleton_self] at hck
      have hlen : (jobs k).calls.length = (jobs k).before.length + (jobs k).after.length := by simp [Job.calls]
      obtain ⟨h3, h4⟩ := filling_step jobs d T hdir htemp hgen htext f.so _ h1 k (by have := h2 k; omega)
      refine ⟨h3, fun i => ?_⟩
      by_cases hik : i = k
      · subst hik
        rw [List.count_append, List.count_singleton_self]
        have := h2 i
        omega
      · have hp : (((World.init jobs fs).run jobs σ).step jobs k).procs i = ((World.init jobs fs).run jobs σ).procs i := by
          simp [World.step, Function.update_of_ne hik]
        rw [hp, List.count_append]
        have := h2 i
        simpa [List.count_cons_of_ne (Ne.symm hik)] using this
  obtain ⟨⟨⟨src, h1, h2, h3⟩, h4⟩, h5⟩ := key σ fun i => (hσ i).le
  set w := (World.init jobs fs).run jobs σ with hw
  have hlen : ∀ i, (w.procs i).todo.length = (jobs i).after.length := by
    intro i
    have := h5 i
    rw [hσ i] at this
    simp only [Job.calls, List.length_append] at this
    omega
  have hnw : ∀ i, ¬ Waiting (jobs i) (w.procs i) := by
    rintro i (h | ⟨h, -⟩ | h)
    · have := hlen i
      rw [h, calls_eq jobs htemp hgen] at this
      simp at this; omega
    · have := hlen i
      rw [h] at this
      simp at this; omega
    · have := hlen i
      rw [h] at this
      simp at this; omega
  have hwr : ∀ i, Writing (jobs i) (w.procs i) ∧ (w.procs i).todo = (jobs i).after ∧ (w.procs i).off = T.length := by
    intro i
    have hi := (h4 i).resolve_left (hnw i)
    obtain ⟨a, b, hab, hb, ho⟩ := hi
    have := hlen i
    rw [hb] at this
    have hb0 : b = [] := by
      cases b with
      | nil => rfl
      | cons e b => simp at this; omega
    subst hb0
    refine ⟨⟨a, [], hab, hb, ho⟩, by simpa using hb, ?_⟩
    rw [ho, ← htext i, Job.text, hab]
    simp
  refine ⟨?_, fun i => (hwr i).2.1⟩
  obtain ⟨t, rfl, htl⟩ := h2 ⟨Classical.arbitrary ι, (hwr _).1⟩
  rw [h1]
  congr 3
  apply List.ext_getElem?
  intro x
  by_cases hx : x < T.length
  · rcases h3 x hx with ⟨t', ht', hx'⟩ | ⟨i, -, hi⟩ | ⟨i, hi⟩
    · rw [Option.some.inj ht']; exact hx'
    · rw [(hwr i).2.2] at hi; omega
    · exact absurd hi (hnw i)
  · rw [List.getElem?_eq_none (by omega), List.getElem?_eq_none (by omega)]

include hdir htemp hgen in
/-- The builds and the imports of a file which is complete. -/
theorem loaded (w : World ι D A) (so : Option (List A)) (hf : w.files d = some ⟨some T, so⟩)
    (hso : ∀ i, (jobs i).compiled = false → so = none) (hw : ∀ i, (w.procs i).todo = (jobs i).after) (σ : List ι) (i : ι)
    (hσ : (jobs i).after.length ≤ σ.count i) : ((w.run jobs σ).procs i).result = some (.ok T) := by
  have key : ∀ σ : List ι, ∃ so', (w.run jobs σ).files d = some ⟨some T, so'⟩ ∧ (so' = so ∨ so' = some T) ∧
      ∀ i, ((w.run jobs σ).procs i).todo = (jobs i).after.drop (σ.count i) ∧
        ((jobs i).compiled = true → 1 ≤ σ.count i → so' = some T) ∧
        (((w.run jobs σ).procs i).todo = [] → ((w.run jobs σ).procs i).result = some (.ok T)) := by
    intro σ
    induction σ using List.reverseRecOn with
    | nil =>
      refine ⟨so, hf, Or.inl rfl, fun i => ⟨by simpa [World.run] using hw i, fun _ h => by simp at h, fun h => ?_⟩⟩
      exfalso
      rw [show (w.run jobs []) = w from rfl, hw i, Job.after] at h
      simp at h
    | append_singleton σ k ih =>
      obtain ⟨so', h1, h2, h3⟩ := ih
      have hrun : w.run jobs (σ ++ [k]) = (w.run jobs σ).step jobs k := by simp [World.run]
      rw [hrun]
      set v := w.run jobs σ with hv
      have hne : ∀ i, i ≠ k → (v.step jobs k).procs i = v.procs i := by
        intro i hi
        simp [World.step, Function.update_of_ne hi]
      have hcn : ∀ i, i ≠ k → (σ ++ [k]).count i = σ.count i := by
        intro i hi
        simp [List.count_append, List.count_cons_of_ne (Ne.symm hi)]
      have hck : (σ ++ [k]).count k = σ.count k + 1 := by simp [List.count_append]
      obtain ⟨h4, h5, h6⟩ := h3 k
      -- the state after the call of `k`
      have hstep : ∃ so'', (v.step jobs k).files d = some ⟨some T, so''⟩ ∧ (so'' = so' ∨ so'' = some T) ∧
          ((v.step jobs k).procs k).todo = (jobs k).after.drop (σ.count k + 1) ∧
          ((jobs k).compiled = true → so'' = some T) ∧
          (((v.step jobs k).procs k).todo = [] → ((v.step jobs k).procs k).result = some (.ok T)) := by
        cases hc : (jobs k).compiled with
        | true =>
          have ha : (jobs k).after = [.build, .load] := by simp [Job.after, hgen k, hc, htemp k]
          rw [ha] at h4 ⊢
          match hn : σ.count k with
          | 0 =>
            rw [hn] at h4
            simp only [List.drop_zero] at h4
            have hnx : next (jobs k) v.files (v.procs k) = (Function.update v.files d (some ⟨some T, some T⟩),
                { v.procs k with todo := [.load] }) := by
              unfold next
              rw [h4]
              simp [hdir k, h1]
            refine ⟨some T, by simp [World.step, hnx], Or.inr rfl, by simp [World.step, hnx], fun _ => rfl, fun h => ?_⟩
            simp [World.step, hnx] at h
          | 1 =>
            rw [hn] at h4
            have hT := h5 hc (by omega)
            subst hT
            have hnx : next (jobs k) v.files (v.procs k) = (v.files,
                { v.procs k with todo := [], result := some (.ok T) }) := by
              unfold next
              rw [h4]
              simp [hdir k, h1]
            refine ⟨some T, by simp [World.step, hnx, h1], Or.inr rfl, by simp [World.step, hnx], fun _ => rfl, fun h => ?_⟩
            simp [World.step, hnx]
          | n + 2 =>
            rw [hn] at h4
            have h4' : (v.procs k).todo = [] := by rw [h4]; simp
            have hT := h5 hc (by omega)
            have hnx : next (jobs k) v.files (v.procs k) = (v.files, v.procs k) := by
              unfold next
              rw [h4']
            refine ⟨so', by simp [World.step, hnx, h1], Or.inl rfl, by simp [World.step, hnx, h4'], fun _ => hT, fun h => ?_⟩
            simp only [World.step, hnx, Function.update_self]
            exact h6 h4'
        | false =>
          have ha : (jobs k).after = [.load] := by simp [Job.after, hc, htemp k]
          rw [ha] at h4 ⊢
          match hn : σ.count k with
          | 0 =>
            rw [hn] at h4
            simp only [List.drop_zero] at h4
            have hnx : next (jobs k) v.files (v.procs k) = (v.files,
                { v.procs k with todo := [], result := some (.ok T) }) := by
              unfold next
              rw [h4]
              rcases h2 with rfl | rfl
              · rw [hso k hc] at h1
                simp [hdir k, h1]
              · simp [hdir k, h1]
            refine ⟨so', by simp [World.step, hnx, h1], Or.inl rfl, by simp [World.step, hnx], fun h => by simp at h, fun h => ?_⟩
            simp [World.step, hnx]
          | n + 1 =>
            rw [hn] at h4
            have h4' : (v.procs k).todo = [] := by rw [h4]; simp
            have hnx : next (jobs k) v.files (v.procs k) = (v.files, v.procs k) := by
              unfold next
              rw [h4']
            refine ⟨so', by simp [World.step, hnx, h1], Or.inl rfl, by simp [World.step, hnx, h4'], fun h => by simp at h, fun h => ?_⟩
            simp only [World.step, hnx, Function.update_self]
            exact h6 h4'
      obtain ⟨so'', g1, g2, g3, g4, g5⟩ := hstep
      refine ⟨so'', g1, ?_, fun i => ?_⟩
      · rcases g2 with rfl | rfl
        · exact h2
        · exact Or.inr rfl
      · by_cases hik : i = k
        · subst hik
          rw [hck]
          exact ⟨g3, fun h _ => g4 h, g5⟩
        · rw [hne i hik, hcn i hik]
          obtain ⟨q1, q2, q3⟩ := h3 i
          refine ⟨q1, fun h h' => ?_, q3⟩
          rcases g2 with rfl | rfl
          · exact q2 h h'
          · rfl
  obtain ⟨so', -, -, h⟩ := key σ
  obtain ⟨h1, -, h2⟩ := h i
  exact h2 (by rw [h1, List.drop_eq_nil_iff]; exact hσ)

include hdir htemp hgen htext in
/-- **C106, with a barrier.**  Several processes which generate the same text in the same directory, cut in any way into
system calls: if every process makes its calls up to the last write before any of them builds or imports the module, all of
them get the whole text, for all the orders of the calls before and after this point. -/
theorem C106_barrier_partial [Nonempty ι] (fs : Files D A) (f : Folder A) (hf : fs d = some f)
    (hso : ∀ i, (jobs i).compiled = false → f.so = none) (σ τ : List ι)
    (hσ : ∀ i, σ.count i = (jobs i).before.length) (i : ι) (hτ : (jobs i).after.length ≤ τ.count i) :
    (((World.init jobs fs).run jobs (σ ++ τ)).procs i).result = some (.ok T) := by
  rw [run_append]
  obtain ⟨h1, h2⟩ := filled jobs d T hdir htemp hgen htext fs f hf σ hσ
  exact loaded jobs d T hdir htemp hgen _ f.so h1 hso h2 τ i hτ

end barrier

/-! ## Cases -/

/-- Two processes which generate the text `1 2 3`, cut differently, in the directory 0. -/
def pair (i : Bool) : Job Nat Nat := ⟨0, false, true, false, if i then [[1, 2], [3]] else [[1], [2, 3]]⟩

/-- The directory 0 exists. -/
def made : Files Nat Nat := fun d => if d = 0 then some ⟨none, none⟩ else none

/-- With a barrier: the second process opens the file after the first write of the first one, which leaves a gap for a while. -/
example : (((World.init pair made).run pair
    [true, true, true, true, false, false, false, true, false, false, true, false]).procs true).result =
      some (.ok [1, 2, 3]) :=
  C106_barrier_partial pair 0 [1, 2, 3] (fun _ => rfl) (fun _ => rfl) (fun _ => rfl) (by decide) made ⟨none, none⟩ rfl
    (fun _ _ => rfl) [true, true, true, true, false, false, false, true, false, false] [true, false] (by decide) true
    (by decide)

/-- Without: the first process imports the text with a gap (0) and the second one the beginning. -/
example :
    let w := (World.init pair made).run pair [true, true, true, true, false, false, false, true, true, false, false, false]
    (w.procs true).result = some (.ok [0, 0, 3]) ∧ (w.procs false).result = some (.ok [1, 2, 3]) := by
  decide

/-- Two processes with temporary directories. -/
def apart (i : Bool) : Job Nat Nat := ⟨if i then 5 else 6, true, true, i, [[1, 2], [if i then 3 else 4]]⟩

example (σ : List Bool) (h : 9 ≤ σ.count true) :
    (((World.init apart made).run apart σ).procs true).result = some (.ok [1, 2, 3]) :=
  (C106_own apart made true (by decide) rfl (by simp [apart]) σ h).1

/-- Without generation. -/
def reading (i : Bool) : Job Nat Nat := { apart i with generate := false }

example (σ : List Bool) (h : 5 ≤ σ.count true) :
    (((World.init reading made).run reading σ).procs true).result = some (.error .notImported) :=
  (C106_removed reading made true (by decide) rfl rfl σ h).1

end Pylbm.Parallel
