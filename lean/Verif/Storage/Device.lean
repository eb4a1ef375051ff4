import Mathlib.Logic.Equiv.Basic
import Mathlib.Algebra.Group.Nat.Even
import Mathlib.Tactic.Common

/-!
# Arrays of the Loopy backend: the device and its mirror (C85)

With `gpu_support`, an `Array` holds the data twice (storage.py 104-119): `array` on the device, which the kernels use,
and `array_cpu`, which `swaparray` is a view of and which the user reads and writes.
-/

namespace Pylbm.Storage.Device

variable {Name Pos K : Type}

/-! ## Specification: the other backends -/

/-- What can be done with the arrays of a simulation (`m`, `F`, `Fnew`). A kernel changes the arrays of `W`; `swap` is
the exchange of names of simulation.py 417; `get` is a read of a whole array by the user, `set` the assignment of some
positions (`sim.F_halo[k] = v`, simulation.py 210-237, 300-309), `view` the assignment of some positions of an array
which a read has returned (`sim.F_halo[k][mask] = v`). -/
inductive Op (Name Pos K : Type)
  | kernel (W : Name → Prop) (g : (Name → Pos → K) → Name → Pos → K)
  | swap (σ : Equiv.Perm Name)
  | get (a : Name)
  | set (a : Name) (w : Pos → Option K)
  | view (a : Name) (w : Pos → Option K)

/-- Assignment of the positions for which a value is given. -/
def put (A : Pos → K) (w : Pos → Option K) : Pos → K := fun p => (w p).getD (A p)

open Classical in
/-- One array per name (Cython backend, where `array` is `array_cpu`, storage.py 105; with NumPy `F` and `Fnew` are one
array, container.py 66). -/
noncomputable def hostStep (s : Name → Pos → K) : Op Name Pos K → Name → Pos → K
  | .kernel W g => fun a => if W a then g s a else s a
  | .swap σ => fun a => s (σ a)
  | .get _ => s
  | .set a w => fun b => if b = a then put (s a) w else s b
  | .view a w => fun b => if b = a then put (s a) w else s b

/-- What the user reads. -/
def hostRead (s : Name → Pos → K) : Op Name Pos K → Option (Pos → K)
  | .get a => some (s a)
  | _ => none

noncomputable def hostRun (s : Name → Pos → K) : List (Op Name Pos K) → (Name → Pos → K) × List (Pos → K)
  | [] => (s, [])
  | o :: l => ((hostRun (hostStep s o) l).1, (hostRead s o).toList ++ (hostRun (hostStep s o) l).2)

/-! ## Model -/

/-- The arrays on the device and their mirrors. -/
structure State (Name Pos K : Type) where
  dev : Name → Pos → K
  cpu : Name → Pos → K

open Classical in
/-- Kernels work on the device (`mm.array`, `container.F.array`, algorithm/base.py 637-654) and an `Array` keeps its
mirror when the names are exchanged. `__getitem__` and `_in` copy the device into the mirror (storage.py 127-128,
153-154). `__setitem__` writes into the mirror and makes a new device array out of it (storage.py 134-145). A view is a
part of the mirror. -/
noncomputable def step (s : State Name Pos K) : Op Name Pos K → State Name Pos K
  | .kernel W g => { s with dev := fun a => if W a then g s.dev a else s.dev a }
  | .swap σ => { dev := fun a => s.dev (σ a), cpu := fun a => s.cpu (σ a) }
  | .get a => { s with cpu := fun b => if b = a then s.dev a else s.cpu b }
  | .set a w =>
    { dev := fun b => if b = a then put (s.cpu a) w else s.dev b
      cpu := fun b => if b = a then put (s.cpu a) w else s.cpu b }
  | .view a w => { s with cpu := fun b => if b = a then put (s.cpu a) w else s.cpu b }

/-- What the user reads: the mirror after the copy. -/
def read (s : State Name Pos K) : Op Name Pos K → Option (Pos → K)
  | .get a => some (s.dev a)
  | _ => none

noncomputable def run (s : State Name Pos K) : List (Op Name Pos K) → State Name Pos K × List (Pos → K)
  | [] => (s, [])
  | o :: l => ((run (step s o) l).1, (read s o).toList ++ (run (step s o) l).2)

/-- `Array.__init__`, storage.py 104-117: zeros, sent to the device. -/
def init [Zero K] : State Name Pos K := { dev := fun _ _ => 0, cpu := fun _ _ => 0 }

/-! ## Properties -/

/-- Histories in which an array is assigned only if no kernel has changed it since the user has last read or assigned it,
and in which the arrays returned by reads are not assigned. `fresh` are the arrays in this situation. -/
def Careful : (Name → Prop) → List (Op Name Pos K) → Prop
  | _, [] => True
  | fresh, .kernel W _ :: l => Careful (fun a => fresh a ∧ ¬ W a) l
  | fresh, .swap σ :: l => Careful (fun a => fresh (σ a)) l
  | fresh, .get a :: l => Careful (fun b => b = a ∨ fresh b) l
  | fresh, .set a _ :: l => fresh a ∧ Careful fresh l
  | _, .view _ _ :: _ => False

theorem run_careful (l : List (Op Name Pos K)) (fresh : Name → Prop) (s : State Name Pos K)
    (hs : ∀ a, fresh a → s.cpu a = s.dev a) (h : Careful fresh l) :
    (run s l).1.dev = (hostRun s.dev l).1 ∧ (run s l).2 = (hostRun s.dev l).2 := by
  induction l generalizing fresh s with
  | nil => exact ⟨rfl, rfl⟩
  | cons o l ih =>
    have key : ∀ fresh', (∀ a, fresh' a → (step s o).cpu a = (step s o).dev a) → Careful fresh' l →
        (step s o).dev = hostStep s.dev o → read s o = hostRead s.dev o →
        (run s (o :: l)).1.dev = (hostRun s.dev (o :: l)).1 ∧ (run s (o :: l)).2 = (hostRun s.dev (o :: l)).2 := by
      intro fresh' h1 h2 h3 h4
      have := ih fresh' (step s o) h1 h2
      rw [h3] at this
      simp only [run, hostRun, h4]
      exact ⟨this.1, by rw [this.2]⟩
    cases o with
    | kernel W g =>
      refine key _ (fun a ha => ?_) h rfl rfl
      simp only [step]
      rw [if_neg ha.2]
      exact hs a ha.1
    | swap σ => exact key _ (fun a ha => hs _ ha) h rfl rfl
    | get a =>
      refine key _ (fun b hb => ?_) h rfl rfl
      simp only [step]
      by_cases hba : b = a
      · rw [if_pos hba, hba]
      · rw [if_neg hba]
        exact hs b (hb.resolve_left hba)
    | set a w =>
      refine key fresh (fun b hb => ?_) h.2 ?_ rfl
      · simp only [step]
        split
        · rfl
        · exact hs b hb
      · simp only [step, hostStep, hs a h.1]
    | view a w => exact h.elim

/-- **C85 (partial).** From the creation of the arrays, whatever the kernels, the exchanges of the names, the reads and
the assignments: if every array is read before it is assigned, the kernels and the user see what they see with the
other backends. What is missing (assignments without a read, writes through views) is false: see the negations. -/
theorem C85_same_partial [Zero K] (l : List (Op Name Pos K)) (h : Careful (fun _ => True) l) :
    (run init l).1.dev = (hostRun (fun _ _ => 0) l).1 ∧ (run init l).2 = (hostRun (fun _ _ => 0) l).2 :=
  run_careful l _ init (fun _ _ => rfl) h

/-- **C85 is false for an assignment which no read precedes**: in any state, whatever the kernel, the values it has
computed in the array are lost wherever the user assigns nothing. -/
theorem C85_stale_negation (s : State Name Pos K) (W : Name → Prop) (g : (Name → Pos → K) → Name → Pos → K) (a : Name)
    (w : Pos → Option K) (p : Pos) (hW : W a) (hp : w p = none) (hg : g s.dev a p ≠ s.cpu a p) :
    (run s [.kernel W g, .set a w]).1.dev a p = s.cpu a p ∧
      (run s [.kernel W g, .set a w]).1.dev a p ≠ (hostRun s.dev [.kernel W g, .set a w]).1 a p := by
  simp only [run, step, hostRun, hostStep, if_true, put, hp, Option.getD_none, if_pos hW, true_and]
  exact fun h => hg h.symm

/-- **C85 is false for assignments of parts of the arrays which are read**: they reach neither the device nor the next
read. -/
theorem C85_view_negation (s : State Name Pos K) (a : Name) (w : Pos → Option K) (p : Pos) (v : K) (hp : w p = some v)
    (hv : v ≠ s.dev a p) :
    (run s [.get a, .view a w, .get a]).1.dev a p = s.dev a p ∧
      (run s [.get a, .view a w, .get a]).2 ≠ (hostRun s.dev [.get a, .view a w, .get a]).2 := by
  refine ⟨rfl, fun h => hv ?_⟩
  simp only [run, step, hostRun, hostStep, read, hostRead, if_true, Option.toList_some, List.singleton_append,
    Option.toList_none, List.nil_append, List.cons.injEq, true_and, and_true] at h
  have := congrFun h p
  simpa [put, hp] using this.symm

/-- The arrays of a simulation. -/
inductive SimName
  | m | F | Fnew
  deriving DecidableEq

/-- A time step: kernels on the device, then the exchange of `F` and `Fnew` (simulation.py 411-417). -/
def timeStep (g : (SimName → Pos → K) → SimName → Pos → K) : List (Op SimName Pos K) :=
  [.kernel (fun _ => True) g, .swap (Equiv.swap .F .Fnew)]

theorem run_append (s : State Name Pos K) (l l' : List (Op Name Pos K)) :
    (run s (l ++ l')).1 = (run (run s l).1 l').1 := by
  induction l generalizing s with
  | nil => rfl
  | cons o l ih => simp only [List.cons_append, run]; exact ih _

theorem steps_cpu (g : (SimName → Pos → K) → SimName → Pos → K) (n : Nat) (s : State SimName Pos K) :
    (run s (List.replicate n (timeStep g)).flatten).1.cpu .F = if Even n then s.cpu .F else s.cpu .Fnew := by
  induction n generalizing s with
  | zero => simp [run]
  | succ n ih =>
    rw [List.replicate_succ, List.flatten_cons, run_append, ih]
    simp only [timeStep, run, step, Equiv.swap_apply_left, Equiv.swap_apply_right, Nat.even_add_one]
    split <;> simp_all

/-- **C85, the time steps.** After any number of steps, what the user reads in `F` is what the kernels of the last step
have computed in `Fnew` out of what was on the device before that step, and the next step gets the former `F` as the
array to fill. -/
theorem C85_read (g : (SimName → Pos → K) → SimName → Pos → K) (n : Nat) (s : State SimName Pos K) :
    (run s ((List.replicate (n + 1) (timeStep g)).flatten ++ [.get .F])).2 =
      [g (run s (List.replicate n (timeStep g)).flatten).1.dev .Fnew] ∧
    (run s (List.replicate (n + 1) (timeStep g)).flatten).1.dev .Fnew =
      g (run s (List.replicate n (timeStep g)).flatten).1.dev .F := by
  induction n generalizing s with
  | zero => simp [timeStep, run, step, read]
  | succ n ih =>
    have h := ih (run s (timeStep g)).1
    rw [List.replicate_succ, List.flatten_cons, List.append_assoc]
    rw [List.replicate_succ (n := n), List.flatten_cons, run_append s (timeStep g) (List.replicate n _).flatten] at *
    rw [run_append s (timeStep g)]
    refine ⟨?_, h.2⟩
    rw [← h.1]
    simp [timeStep, run, read]

/-- What happens in a simulation: the distribution functions are initialised (by assignments `ini`, simulation.py
300-309, or by kernels), copied on the device into `Fnew` (simulation.py 318), any number of time steps is made, and the
user assigns one distribution function. After an odd number of steps, all the other ones become zero on the device,
whatever the scheme and the initial values; after an even number of steps, they go back to their values at the last
assignment of the initialisation. -/
theorem C85_reset_negation [Zero K] (ini : Pos → K) (copy : (SimName → Pos → K) → SimName → Pos → K)
    (g : (SimName → Pos → K) → SimName → Pos → K) (n : Nat) (w : Pos → Option K) (p : Pos) (hp : w p = none) :
    (run init ([.set .F fun q => some (ini q), .kernel (fun a => a = .Fnew) copy] ++
      ((List.replicate n (timeStep g)).flatten ++ [.set .F w]))).1.dev .F p = if Even n then ini p else 0 := by
  rw [run_append, run_append]
  generalize hs : (run (init : State SimName Pos K) [.set .F fun q => some (ini q), .kernel (fun a => a = .Fnew) copy]).1 = s
  have h1 : s.cpu .F = ini := by
    rw [← hs]
    funext q
    simp [run, step, put]
  have h2 : s.cpu .Fnew = fun _ => 0 := by
    rw [← hs]
    simp [run, step, init]
  have h3 := steps_cpu g n s
  simp only [run, step, if_true, put, hp, Option.getD_none]
  rw [h3]
  split
  · rw [h1]
  · rw [h2]

/-- A careful history: initialisation, three time steps, a read, an assignment, two time steps, a read. -/
example (g : (SimName → Nat → Int) → SimName → Nat → Int) : Careful (fun _ => True)
    ([.set .F fun _ => some 1] ++ (List.replicate 3 (timeStep g)).flatten ++ [.get .F, .set .F fun p => if p < 4 then some 2 else none] ++
      (List.replicate 2 (timeStep g)).flatten ++ [.get .F]) := by
  simp [timeStep, List.replicate, Careful]

/-- The hypotheses of `C85_stale_negation`: a kernel which adds one. -/
example : (run (init : State SimName Nat Int)
    [.kernel (fun _ => True) (fun s a p => s a p + 1), .set .F fun p => if p = 0 then some 5 else none]).1.dev .F 1 = 0 :=
  (C85_stale_negation init _ _ _ _ 1 trivial (by simp) (by simp [init])).1

end Pylbm.Storage.Device
