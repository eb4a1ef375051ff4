import Mathlib.Algebra.Order.Field.Basic
import Mathlib.Algebra.Order.BigOperators.Group.Finset
import Mathlib.Algebra.BigOperators.Group.Finset.Piecewise
import Mathlib.Logic.Function.Basic
import Mathlib.Data.Rat.Defs
import Mathlib.Algebra.Order.Ring.Rat
import Mathlib.Tactic.Ring
import Mathlib.Tactic.Linarith
/-!
# C53, C93: the profile printed with `--monitoring`

`monitoring.py`: the decorator `monitor` records the calls of some functions with their times; a table is printed at the
end.  The clock is an input: each call comes with the times of its start and of its end.
-/
namespace Pylbm.Monitor

variable {F K : Type} [DecidableEq F] [Field K]

/-- `PerfMonitor`, monitoring.py 22-26 (`count` is not used by the code); the lists are kept with the last item first. -/
structure Perf (K : Type) where
  total : List K
  self : List K

/-- `Monitoring`, monitoring.py 48-52: `func` (a function which is not registered has empty lists: the registration in
`wrapper` is followed at once by the start), and the times of the nodes from the current one to the root (the names and the
sons of the nodes, 29-42, are never read). -/
structure State (F K : Type) where
  func : F → Perf K
  tree : List K

/-- The state when the module is imported. -/
def State.init : State F K := ⟨fun _ => ⟨[], []⟩, [0]⟩

/-- `l[-1] = f(l[-1])` -/
def modifyLast (g : K → K) : List K → List K
  | [] => []
  | x :: l => g x :: l

/-- `start_timing`, monitoring.py 72-76. -/
def start (s : State F K) (f : F) (t : K) : State F K :=
  ⟨Function.update s.func f ⟨t :: (s.func f).total, 0 :: (s.func f).self⟩, 0 :: s.tree⟩

/-- `stop_timing`, monitoring.py 78-84. -/
def stop (s : State F K) (f : F) (t : K) : State F K :=
  let total := modifyLast (t - ·) (s.func f).total
  let d := total.headD 0
  match s.tree with
  | x :: y :: l => ⟨Function.update s.func f ⟨total, modifyLast (fun _ => d - x) (s.func f).self⟩, (y + d) :: l⟩
  | _ => s

/-- A call of a monitored function: its name, the times of the start and of the end, the calls inside. -/
inductive Call (F K : Type)
  | mk (f : F) (a b : K) (sub : List (Call F K))

mutual
/-- `wrapper`, monitoring.py 124-129. -/
def exec (s : State F K) : Call F K → State F K
  | .mk f a b sub => stop (execAll (start s f a) sub) f b

/-- Calls one after the other. -/
def execAll (s : State F K) : List (Call F K) → State F K
  | [] => s
  | c :: l => execAll (exec s c) l
end

/-! ## Specification -/

/-- The duration of a call. -/
def Call.dur : Call F K → K
  | .mk _ a b _ => b - a

/-- The durations of calls. -/
def durs (l : List (Call F K)) : K := (l.map Call.dur).sum

mutual
/-- All the calls of the function `f`: duration, and time outside of the monitored calls inside. -/
def Call.times (f : F) : Call F K → List (K × K)
  | .mk g a b sub => (if g = f then [(b - a, b - a - durs sub)] else []) ++ timesAll f sub

def timesAll (f : F) : List (Call F K) → List (K × K)
  | [] => []
  | c :: l => Call.times f c ++ timesAll f l
end

mutual
/-- No function calls itself, directly or not. -/
def Call.NonRec : Call F K → Prop
  | .mk f _ _ sub => timesAll f sub = [] ∧ NonRecAll sub

def NonRecAll : List (Call F K) → Prop
  | [] => True
  | c :: l => Call.NonRec c ∧ NonRecAll l
end

mutual
/-- The names of the functions which are called. -/
def Call.names : Call F K → List F
  | .mk f _ _ sub => f :: namesAll sub

def namesAll : List (Call F K) → List F
  | [] => []
  | c :: l => Call.names c ++ namesAll l
end

/-! ## Lemmas -/

omit [DecidableEq F] in
theorem init_func (f : F) : (State.init : State F K).func f = ⟨[], []⟩ := rfl

mutual
theorem exec_spec (c : Call F K) (h : c.NonRec) (s : State F K) (x : K) (l : List K) (hs : s.tree = x :: l) :
    (exec s c).tree = (x + c.dur) :: l ∧ ∀ f,
      (exec s c).func f = ⟨((c.times f).map Prod.fst).reverse ++ (s.func f).total,
        ((c.times f).map Prod.snd).reverse ++ (s.func f).self⟩ := by
  match c, h with
  | .mk g a b sub, h =>
    obtain ⟨hg, hn⟩ := h
    obtain ⟨h1, h2⟩ := execAll_spec sub hn (start s g a) 0 (x :: l) (by simp [start, hs])
    simp only [exec, stop, h1, Call.dur]
    have hst : (start s g a).func g = ⟨a :: (s.func g).total, 0 :: (s.func g).self⟩ := by simp [start]
    have hgg := h2 g
    simp only [hg, List.map_nil, List.reverse_nil, List.nil_append, hst] at hgg
    refine ⟨by simp [hgg, modifyLast], fun f => ?_⟩
    by_cases hf : f = g
    · subst hf
      simp [hgg, modifyLast, Call.times, hg]
    · have := h2 f
      simp only [start, Function.update_of_ne hf] at this
      simp only [Function.update_of_ne hf, Call.times, Ne.symm hf, if_false, List.nil_append]
      exact this

theorem execAll_spec (cs : List (Call F K)) (h : NonRecAll cs) (s : State F K) (x : K) (l : List K)
    (hs : s.tree = x :: l) :
    (execAll s cs).tree = (x + durs cs) :: l ∧ ∀ f,
      (execAll s cs).func f = ⟨((timesAll f cs).map Prod.fst).reverse ++ (s.func f).total,
        ((timesAll f cs).map Prod.snd).reverse ++ (s.func f).self⟩ := by
  match cs, h with
  | [], _ => exact ⟨by simp [execAll, durs, hs], fun f => by simp [execAll, timesAll]⟩
  | c :: cs, h =>
    obtain ⟨h1, h2⟩ := exec_spec c h.1 s x l hs
    obtain ⟨h3, h4⟩ := execAll_spec cs h.2 (exec s c) _ l h1
    refine ⟨by simp [execAll, h3, durs, add_assoc], fun f => ?_⟩
    simp only [execAll, h4 f, h2 f, timesAll, List.map_append, List.reverse_append, List.append_assoc]
end

/-! ## C53 -/

/-- **C53 (partial: false for functions which call themselves and after exceptions).**  For every program whose monitored
functions do not call themselves, the total times and the self times recorded for a function are those of its calls, in the
order of their starts. -/
theorem C53_times_partial (cs : List (Call F K)) (h : NonRecAll cs) (f : F) :
    ((execAll State.init cs).func f).total.reverse = (timesAll f cs).map Prod.fst ∧
    ((execAll State.init cs).func f).self.reverse = (timesAll f cs).map Prod.snd := by
  obtain ⟨_, h2⟩ := execAll_spec cs h State.init 0 [] rfl
  simp [h2 f, init_func]

theorem sums_of_times (cs : List (Call F K)) (h : NonRecAll cs) (f : F) :
    ((execAll State.init cs).func f).total.length = (timesAll f cs).length ∧
    ((execAll State.init cs).func f).total.sum = ((timesAll f cs).map Prod.fst).sum ∧
    ((execAll State.init cs).func f).self.sum = ((timesAll f cs).map Prod.snd).sum := by
  obtain ⟨h1, h2⟩ := C53_times_partial cs h f
  refine ⟨?_, ?_, ?_⟩
  · simpa using congrArg List.length h1
  · rw [← h1, List.sum_reverse]
  · rw [← h2, List.sum_reverse]

/-- **C53, several programs.**  What was recorded before does not matter: the numbers are added. -/
theorem C53_add_partial (cs cs' : List (Call F K)) (h : NonRecAll cs) (h' : NonRecAll cs') (f : F) :
    ((execAll (execAll State.init cs) cs').func f).total.sum =
      ((execAll State.init cs).func f).total.sum + ((execAll State.init cs').func f).total.sum ∧
    ((execAll (execAll State.init cs) cs').func f).self.sum =
      ((execAll State.init cs).func f).self.sum + ((execAll State.init cs').func f).self.sum := by
  obtain ⟨h1, h2⟩ := execAll_spec cs h State.init 0 [] rfl
  obtain ⟨_, h4⟩ := execAll_spec cs' h' _ _ _ h1
  obtain ⟨_, h6⟩ := execAll_spec cs' h' State.init 0 [] rfl
  simp [h4 f, h2 f, h6 f, init_func, List.sum_reverse, add_comm]

mutual
theorem sum_times (S : Finset F) (c : Call F K) (h : ∀ f ∈ c.names, f ∈ S) :
    ∑ f ∈ S, ((c.times f).map Prod.snd).sum = c.dur := by
  match c, h with
  | .mk g a b sub, h =>
    have hs := sum_timesAll S sub fun f hf => h f (by simp [Call.names, hf])
    have hg : g ∈ S := h g (by simp [Call.names])
    have e : ∀ f, ((Call.times f (.mk g a b sub)).map Prod.snd).sum =
        (if g = f then b - a - durs sub else 0) + ((timesAll f sub).map Prod.snd).sum := by
      intro f
      by_cases hf : g = f <;> simp [Call.times, hf]
    simp only [e, Finset.sum_add_distrib, hs, Finset.sum_ite_eq, hg, if_true, Call.dur]
    ring

theorem sum_timesAll (S : Finset F) (cs : List (Call F K)) (h : ∀ f ∈ namesAll cs, f ∈ S) :
    ∑ f ∈ S, ((timesAll f cs).map Prod.snd).sum = durs cs := by
  match cs, h with
  | [], _ => simp [timesAll, durs]
  | c :: cs, h =>
    have h1 := sum_times S c fun f hf => h f (by simp [namesAll, hf])
    have h2 := sum_timesAll S cs fun f hf => h f (by simp [namesAll, hf])
    simp only [timesAll, List.map_append, List.sum_append, Finset.sum_add_distrib, h1, h2, durs, List.map_cons,
      List.sum_cons]
end

/-- **C53, no time is counted twice.**  The sum of the self times of all the functions is the time spent in the outermost
calls. -/
theorem C53_self_times_partial (cs : List (Call F K)) (h : NonRecAll cs) (S : Finset F) (hS : ∀ f ∈ namesAll cs, f ∈ S) :
    ∑ f ∈ S, ((execAll State.init cs).func f).self.sum = durs cs := by
  rw [← sum_timesAll S cs hS]
  exact Finset.sum_congr rfl fun f _ => (sums_of_times cs h f).2.2

section order

variable [LinearOrder K] [IsStrictOrderedRing K]

mutual
/-- The calls follow each other between the times `lo` and `hi`. -/
def Call.Clock (lo hi : K) : Call F K → Prop
  | .mk _ a b sub => lo ≤ a ∧ b ≤ hi ∧ Clocks a b sub

def Clocks (lo hi : K) : List (Call F K) → Prop
  | [] => lo ≤ hi
  | c :: l => ∃ t, Call.Clock lo t c ∧ Clocks t hi l
end

mutual
theorem clock_times (c : Call F K) (lo hi : K) (h : c.Clock lo hi) :
    c.dur ≤ hi - lo ∧ ∀ f, ∀ x ∈ c.times f, 0 ≤ x.2 ∧ x.2 ≤ x.1 := by
  match c, h with
  | .mk g a b sub, h =>
    obtain ⟨h1, h2, h3⟩ := h
    obtain ⟨h4, h5, h6⟩ := clocks_times sub a b h3
    refine ⟨by simp only [Call.dur]; linarith, fun f x hx => ?_⟩
    simp only [Call.times, List.mem_append] at hx
    rcases hx with hx | hx
    · split at hx
      · simp only [List.mem_singleton] at hx
        subst hx
        exact ⟨by linarith, by linarith⟩
      · simp at hx
    · exact h6 f x hx

theorem clocks_times (cs : List (Call F K)) (lo hi : K) (h : Clocks lo hi cs) :
    durs cs ≤ hi - lo ∧ 0 ≤ durs cs ∧ ∀ f, ∀ x ∈ timesAll f cs, 0 ≤ x.2 ∧ x.2 ≤ x.1 := by
  match cs, h with
  | [], h =>
    have h : lo ≤ hi := h
    exact ⟨by simp only [durs, List.map_nil, List.sum_nil]; linarith, by simp [durs], fun f x hx => by simp [timesAll] at hx⟩
  | c :: cs, h =>
    obtain ⟨t, h1, h2⟩ := h
    obtain ⟨a1, a2⟩ := clock_times c lo t h1
    obtain ⟨b1, b2, b3⟩ := clocks_times cs t hi h2
    have hd : 0 ≤ c.dur := by
      match c, h1 with
      | .mk g a b sub, h1 =>
        obtain ⟨_, _, h3⟩ := h1
        have := (clocks_times sub a b h3)
        simp only [Call.dur]
        linarith [this.1, this.2.1]
    have e : durs (c :: cs) = c.dur + durs cs := by simp [durs]
    refine ⟨by rw [e]; linarith, by rw [e]; linarith, fun f x hx => ?_⟩
    simp only [timesAll, List.mem_append] at hx
    rcases hx with hx | hx
    · exact a2 f x hx
    · exact b3 f x hx
end

/-- **C93, the self time** is between 0 and the total time, and the outermost calls take at most the time of the program. -/
theorem C93_bounds (cs : List (Call F K)) (h : NonRecAll cs) (lo hi : K) (hc : Clocks lo hi cs) (f : F) :
    0 ≤ ((execAll State.init cs).func f).self.sum ∧
    ((execAll State.init cs).func f).self.sum ≤ ((execAll State.init cs).func f).total.sum ∧ durs cs ≤ hi - lo := by
  obtain ⟨_, h2, h3⟩ := sums_of_times cs h f
  obtain ⟨c1, _, c3⟩ := clocks_times cs lo hi hc
  rw [h2, h3]
  exact ⟨List.sum_nonneg fun x hx => by
      obtain ⟨y, hy, rfl⟩ := List.mem_map.1 hx
      exact (c3 f y hy).1,
    List.sum_le_sum fun x hx => (c3 f x hx).2, c1⟩

end order

/-! ### The functions of pylbm -/

mutual
theorem times_eq_nil (f : F) (c : Call F K) (h : f ∉ c.names) : c.times f = [] := by
  match c, h with
  | .mk g a b sub, h =>
    simp only [Call.names, List.mem_cons, not_or] at h
    simp [Call.times, Ne.symm h.1, timesAll_eq_nil f sub h.2]

theorem timesAll_eq_nil (f : F) (cs : List (Call F K)) (h : f ∉ namesAll cs) : timesAll f cs = [] := by
  match cs, h with
  | [], _ => rfl
  | c :: cs, h =>
    simp only [namesAll, List.mem_append, not_or] at h
    simp [timesAll, times_eq_nil f c h.1, timesAll_eq_nil f cs h.2]
end

def Call.name : Call F K → F
  | .mk f _ _ _ => f

mutual
/-- Every call is allowed by a table: which functions can be called directly by a function. -/
def Call.Follows (inside : F → F → Prop) : Call F K → Prop
  | .mk f _ _ sub => FollowsAll inside f sub

def FollowsAll (inside : F → F → Prop) (f : F) : List (Call F K) → Prop
  | [] => True
  | c :: l => inside f c.name ∧ Call.Follows inside c ∧ FollowsAll inside f l
end

mutual
theorem names_rank (inside : F → F → Prop) (rank : F → Nat) (hr : ∀ f g, inside f g → rank g < rank f) (c : Call F K)
    (h : c.Follows inside) : c.NonRec ∧ ∀ g ∈ c.names, rank g ≤ rank c.name := by
  match c, h with
  | .mk f a b sub, h =>
    obtain ⟨h1, h2⟩ := namesAll_rank inside rank hr f sub h
    refine ⟨⟨timesAll_eq_nil f sub fun hf => ?_, h1⟩, fun g hg => ?_⟩
    · exact absurd (h2 f hf) (lt_irrefl _)
    · rcases List.mem_cons.1 hg with rfl | hg
      · exact le_refl _
      · exact (h2 g hg).le

theorem namesAll_rank (inside : F → F → Prop) (rank : F → Nat) (hr : ∀ f g, inside f g → rank g < rank f) (f : F)
    (cs : List (Call F K)) (h : FollowsAll inside f cs) : NonRecAll cs ∧ ∀ g ∈ namesAll cs, rank g < rank f := by
  match cs, h with
  | [], _ => exact ⟨trivial, fun g hg => by simp [namesAll] at hg⟩
  | c :: cs, h =>
    obtain ⟨a1, a2⟩ := names_rank inside rank hr c h.2.1
    obtain ⟨b1, b2⟩ := namesAll_rank inside rank hr f cs h.2.2
    refine ⟨⟨a1, b1⟩, fun g hg => ?_⟩
    rcases List.mem_append.1 hg with hg | hg
    · exact lt_of_le_of_lt (a2 g hg) (hr f c.name h.1)
    · exact b2 g hg
end

/-- The functions decorated in pylbm: simulation.py 257, 343, 351, 359, 373, 392, storage.py 306, algorithm/base.py 602, and
the generated functions by their names (symbolic.py 299). -/
inductive Name
  | initialization
  | f2m
  | m2f
  | equilibrium
  | boundaryCondition
  | oneTimeStep
  | update
  | generate
  | generated (s : String)
  deriving DecidableEq

/-- Which monitored functions are called by a monitored function: simulation.py 314-320 (`initialization`), 343-370, 373-390
with `update_feq` (boundary.py 304-311) and `update` (341-355), 392-420 with `_initialize` (155-163) and `prepare_rhs`
(boundary.py 294-295), storage.py 326-331; the functions of the user for the boundary values may read the moments of the
simulation, which calls `f2m` (simulation.py 200-209). -/
inductive Inside : Name → Name → Prop
  | init_equilibrium : Inside .initialization .equilibrium
  | init_m2f : Inside .initialization .m2f
  | init_f2m : Inside .initialization .f2m
  | f2m (s) : Inside .f2m (.generated s)
  | m2f (s) : Inside .m2f (.generated s)
  | equilibrium (s) : Inside .equilibrium (.generated s)
  | bc_update : Inside .boundaryCondition .update
  | bc_equilibrium : Inside .boundaryCondition .equilibrium
  | bc_m2f : Inside .boundaryCondition .m2f
  | bc_f2m : Inside .boundaryCondition .f2m
  | bc (s) : Inside .boundaryCondition (.generated s)
  | step_init : Inside .oneTimeStep .initialization
  | step_equilibrium : Inside .oneTimeStep .equilibrium
  | step_m2f : Inside .oneTimeStep .m2f
  | step_f2m : Inside .oneTimeStep .f2m
  | step_bc : Inside .oneTimeStep .boundaryCondition
  | step (s) : Inside .oneTimeStep (.generated s)
  | update (s) : Inside .update (.generated s)

/-- **C93, pylbm.**  The functions of pylbm do not call themselves, whatever the program does with the simulations; the
numbers of the table are right. -/
theorem C93_pylbm (cs : List (Call Name K)) (h : ∀ c ∈ cs, c.Follows Inside) (f : Name) :
    ((execAll State.init cs).func f).total.length = (timesAll f cs).length ∧
    ((execAll State.init cs).func f).total.sum = ((timesAll f cs).map Prod.fst).sum ∧
    ((execAll State.init cs).func f).self.sum = ((timesAll f cs).map Prod.snd).sum := by
  refine sums_of_times cs ?_ f
  let rank : Name → Nat := fun
    | .oneTimeStep => 3
    | .initialization => 2
    | .boundaryCondition => 2
    | .generated _ => 0
    | _ => 1
  have hr : ∀ f g, Inside f g → rank g < rank f := by
    intro f g h
    cases h <;> simp [rank]
  induction cs with
  | nil => trivial
  | cons c cs ih =>
    exact ⟨(names_rank Inside rank hr c (h c (by simp))).1, ih fun d hd => h d (by simp [hd])⟩

/-! ### The table -/

inductive Exc
  | typeError
  | indexError
  deriving DecidableEq

/-- One line of the table, monitoring.py 104-114. -/
structure Line (K : Type) where
  name : String × String
  percent : K
  ncall : Nat
  total : K
  self : K
  mlups : K

/-- The line of a function: `size` is the number of cells, `top` the largest total time. -/
def line (size : K) (top : K) (n : String × String) (p : Perf K) : Line K :=
  ⟨n, p.total.sum / top * 100, p.total.length, p.total.sum, p.self.sum,
    (p.total.length : K) * size / p.total.sum / 1000000⟩

/-- `information`, monitoring.py 53-60: `None` for an object without `__qualname__` (a Loopy kernel). -/
abbrev Info := Option (String × String)

/-- `print`, monitoring.py 86-114; `sort` is the order given by `argsort`, reversed.  `k[0]` of `None` is a `TypeError`, an
empty table an `IndexError`. -/
def table (sort : List ((String × String) × Perf K) → List ((String × String) × Perf K)) (size : K)
    (func : List (Info × Perf K)) : Except Exc (List (Line K)) :=
  match func.mapM fun p => p.1.map fun n => (n, p.2) with
  | none => .error .typeError
  | some l => match sort l with
    | [] => .error .indexError
    | p :: q => .ok ((p :: q).map fun x => line size p.2.total.sum x.1 x.2)

/-- What `argsort` gives: the same items, the total times decreasing. -/
def Sorts [LinearOrder K] (sort : List ((String × String) × Perf K) → List ((String × String) × Perf K)) : Prop :=
  ∀ l, (sort l).Perm l ∧ (sort l).Pairwise fun a b => b.2.total.sum ≤ a.2.total.sum

omit [Field K] in
theorem mapM_named (l : List ((String × String) × Perf K)) :
    (l.map fun p => ((some p.1 : Info), p.2)).mapM (fun p => p.1.map fun n => (n, p.2)) = some l := by
  induction l with
  | nil => rfl
  | cons a l ih => simp [ih]

/-- **C93, the table.**  With functions of Python or Cython: there is one line per function, in the order of the total times,
the first one has 100 % and the others less; the number of updates of cells is the speed in the last column times the total
time. -/
theorem C93_table [LinearOrder K] [IsStrictOrderedRing K]
    (sort : List ((String × String) × Perf K) → List ((String × String) × Perf K)) (hs : Sorts sort) (size : K)
    (l : List ((String × String) × Perf K)) (hl : l ≠ []) (hpos : ∀ p ∈ l, 0 < p.2.total.sum) :
    ∃ t, table sort size (l.map fun p => (some p.1, p.2)) = .ok t ∧ (t.map Line.name).Perm (l.map Prod.fst) ∧
      (t.head?.map Line.percent = some 100) ∧ (t.Pairwise fun a b => b.percent ≤ a.percent ∧ b.total ≤ a.total) ∧
      ∀ x ∈ t, 0 < x.percent ∧ x.percent ≤ 100 ∧ x.mlups * 1000000 * x.total = x.ncall * size := by
  obtain ⟨h1, h2⟩ := hs l
  unfold table
  rw [mapM_named]
  simp only []
  cases he : sort l with
  | nil =>
    rw [he] at h1
    exact absurd (List.nil_perm.1 h1) hl
  | cons p q =>
    rw [he] at h1 h2
    have hp : 0 < p.2.total.sum := hpos p (h1.mem_iff.1 (by simp))
    have hq : ∀ x ∈ p :: q, 0 < x.2.total.sum ∧ x.2.total.sum ≤ p.2.total.sum := by
      intro x hx
      refine ⟨hpos x (h1.mem_iff.1 hx), ?_⟩
      rcases List.mem_cons.1 hx with rfl | hx
      · exact le_refl _
      · exact (List.pairwise_cons.1 h2).1 x hx
    refine ⟨_, rfl, ?_, ?_, ?_, ?_⟩
    · rw [List.map_map]
      exact h1.map _
    · simp [line, div_self hp.ne']
    · rw [List.pairwise_map]
      refine h2.imp fun {a b} hab => ⟨?_, hab⟩
      simp only [line]
      have := div_le_div_of_nonneg_right hab hp.le
      linarith
    · intro x hx
      obtain ⟨y, hy, rfl⟩ := List.mem_map.1 hx
      obtain ⟨y1, y2⟩ := hq y hy
      simp only [line]
      have a1 : 0 < y.2.total.sum / p.2.total.sum := div_pos y1 hp
      have a2 : y.2.total.sum / p.2.total.sum ≤ 1 := (div_le_one hp).2 y2
      refine ⟨by linarith, by linarith, ?_⟩
      have : (1000000 : K) ≠ 0 := by positivity
      rw [div_mul_cancel₀ _ this, div_mul_cancel₀ _ y1.ne']

/-- **C93 is false with Loopy**: the kernels have no name, and the table is not printed. -/
theorem C93_loopy_negation (sort : List ((String × String) × Perf K) → List ((String × String) × Perf K)) (size : K)
    (func : List (Info × Perf K)) (h : ∃ p ∈ func, p.1 = none) : table sort size func = .error .typeError := by
  have : func.mapM (fun p => p.1.map fun n => (n, p.2)) = none := by
    obtain ⟨p, hp, e⟩ := h
    induction func with
    | nil => simp at hp
    | cons a l ih =>
      rcases List.mem_cons.1 hp with rfl | hp
      · simp [List.mapM_cons, e]
      · have := ih hp
        cases ha : a.1 <;> simp [List.mapM_cons, ha, this]
  simp [table, this]

/-- **C53 is false for a function which calls itself.**  A function called from `a` to `b` which calls itself once from `c`
to `d`: the total is `a + b - (d - c)`, which depends on the origin of the clock. -/
theorem C53_recursion_negation (f : F) (a b c d : K) :
    ((exec State.init (.mk f a b [.mk f c d []])).func f).total.sum = a + b - (d - c) ∧
    (((timesAll f [.mk f a b [.mk f c d []]]).map Prod.fst).sum = (b - a) + (d - c)) := by
  constructor
  · simp [exec, execAll, start, stop, State.init, modifyLast]
    ring
  · simp [timesAll, Call.times]

/-- **C53 is false after an exception.**  A monitored function which raises an exception (caught by the user) at the time of
one of its calls leaves the time of its start among its total times: the recorded sum is that of the other calls, plus this
time. -/
theorem C53_exception_negation (cs sub : List (Call F K)) (f : F) (a : K) (h : NonRecAll cs) (hs : NonRecAll sub)
    (hf : timesAll f sub = []) :
    ((execAll (start (execAll State.init cs) f a) sub).func f).total.sum =
      ((timesAll f cs).map Prod.fst).sum + a := by
  obtain ⟨h1, h2⟩ := execAll_spec cs h State.init 0 [] rfl
  obtain ⟨_, h4⟩ := execAll_spec sub hs (start (execAll State.init cs) f a) 0 _ (by rw [start, h1])
  have e : (start (execAll State.init cs) f a).func f =
      ⟨a :: ((execAll State.init cs).func f).total, 0 :: ((execAll State.init cs).func f).self⟩ := by simp [start]
  simp [h4 f, hf, e, h2 f, init_func, List.sum_reverse, add_comm]

/-! ### Examples -/

/-- Two time steps of a program, with boundary conditions. -/
def twoSteps : List (Call Name ℚ) :=
  [.mk .initialization 0 2 [.mk .equilibrium 0 1 [.mk (.generated "equilibrium") 0 1 []],
      .mk .m2f 1 2 [.mk (.generated "m2f") 1 2 []]],
    .mk .oneTimeStep 2 6 [.mk .boundaryCondition 2 4 [.mk .update 2 3 [], .mk (.generated "bounce_back") 3 4 []],
      .mk (.generated "one_time_step") 4 5 []],
    .mk .oneTimeStep 6 10 [.mk .boundaryCondition 6 8 [.mk .update 6 7 []], .mk (.generated "one_time_step") 8 10 []]]

example : ∀ c ∈ twoSteps, c.Follows Inside := by
  intro c hc
  simp only [twoSteps, List.mem_cons, List.not_mem_nil, or_false] at hc
  rcases hc with rfl | rfl | rfl <;>
    simp [Call.Follows, FollowsAll, Call.name] <;> repeat' constructor

example : Clocks 0 10 twoSteps := by
  simp only [twoSteps, Clocks, Call.Clock]
  refine ⟨2, ⟨le_refl _, le_refl _, 1, ⟨le_refl _, le_refl _, 1, ⟨le_refl _, le_refl _, ?_⟩, ?_⟩, 2,
    ⟨le_refl _, le_refl _, 2, ⟨le_refl _, le_refl _, ?_⟩, ?_⟩, ?_⟩, 6, ⟨le_refl _, le_refl _, 4,
    ⟨le_refl _, le_refl _, 3, ⟨le_refl _, le_refl _, ?_⟩, 4, ⟨le_refl _, le_refl _, ?_⟩, ?_⟩, 5, ⟨le_refl _, le_refl _, ?_⟩,
    ?_⟩, 10, ⟨le_refl _, le_refl _, 8, ⟨le_refl _, le_refl _, 7, ⟨le_refl _, le_refl _, ?_⟩, ?_⟩, 10,
    ⟨le_refl _, le_refl _, ?_⟩, ?_⟩, ?_⟩ <;> decide +kernel

example : ((timesAll .oneTimeStep twoSteps).map Prod.fst).sum = 8 ∧
    ((timesAll .oneTimeStep twoSteps).map Prod.snd).sum = 1 := by
  decide +kernel

end Pylbm.Monitor
