import Verif.Sim.Lemmas
import Verif.Halo.Spec
import Verif.Scheme.Props
/-!
# C39, C40, C43, C44: time steps, loop orders, counters, moments
-/

set_option linter.unusedSectionVars false

namespace Pylbm.Sim
open Scheme Halo SchemeSpec Matrix

variable {K : Type} [Field K] {n nc d dim : Nat}

/-! ## The reads of the inner loops stay in the local array -/

/-- **C39, memory.** The inner loops run over exactly the owned cells, the full loops over the cells of the local
array; when the halo is as wide as the velocities, the inner loops only read cells of the local array. -/
theorem C39_accesses (size w : Fin dim → Nat) (c : Cell dim) :
    (c ∈ inner size w ↔ HaloSpec.Owned size w c) ∧ (c ∈ full size w ↔ HaloSpec.InLocal size w c) ∧
    ∀ vel : Cell dim, (∀ i, |vel i| ≤ w i) → c ∈ inner size w → HaloSpec.InLocal size w fun i => c i - vel i := by
  simp only [inner, full, Fintype.mem_piFinset, Finset.mem_Ico, HaloSpec.Owned, HaloSpec.InLocal]
  refine ⟨trivial, trivial, fun vel hv hc i => ?_⟩
  have := hc i
  have := abs_le.1 (hv i)
  constructor <;> omega

example : (fun _ => 3 : Cell 2) ∈ inner (fun _ => 4) (fun _ => 1) := by decide +kernel

/-! ## C40 -/

section order
variable (S : Kernel K n nc d) (vel : Fin n → Cell dim)

/-- **C40, threads.** The statements of the cells may be interleaved in any way: when each cell has its
own variables and each cell of the loop executes the statements of the step in their order, the new
distribution functions are those of the step at each cell. -/
theorem C40_interleaving (R : Refs dim) (hne : R.f ≠ R.fnew) (hm : Function.Injective R.ma)
    (hu : Function.Injective R.ua) (hfront : ∀ j, (S.consm j : Nat) < nc) (a : Algo)
    (w w' : List (Cell dim × Stmt n d)) (mem : Mem K n d dim) (L : List (Cell dim))
    (hw : ∀ c, (w.filter fun cs => decide (cs.1 = c)).map Prod.snd = if c ∈ L then prog S a else [])
    (hw' : ∀ c, (w'.filter fun cs => decide (cs.1 = c)).map Prod.snd = if c ∈ L then prog S a else []) :
    (w.foldl (execAt S vel R) mem).buf = (w'.foldl (execAt S vel R) mem).buf ∧
    ∀ c ∈ L, ∀ x, (w.foldl (execAt S vel R) mem).buf R.fnew c =
      (S.run (pull vel (mem.buf R.f) c) x (prog S a)).fnew := by
  have key : ∀ w : List (Cell dim × Stmt n d),
      (∀ c, (w.filter fun cs => decide (cs.1 = c)).map Prod.snd = if c ∈ L then prog S a else []) →
      ∀ c, (w.foldl (execAt S vel R) mem).buf R.fnew c = (S.run (pull vel (mem.buf R.f) c) (view R mem c)
        (if c ∈ L then prog S a else [])).fnew := by
    intro w hw c
    have := (schedule_view S vel R hne hm w (Or.inl hu) mem).2 c
    rw [hw c] at this
    rw [← this]; rfl
  constructor
  · funext j
    by_cases hj : j = R.fnew
    · subst hj
      funext c
      rw [key w hw, key w' hw']
    · rw [schedule_buf S vel R w mem j hj, schedule_buf S vel R w' mem j hj]
  · intro c hc x
    rw [key w hw c, if_pos hc]
    exact prog_indep S a hfront _ _ _

/-- **C40, loops.** Nested loops in any order give the same arrays, also when the moments and the
relative velocity are local variables shared by all the iterations. -/
theorem C40_loop_order (R : Refs dim) (hne : R.f ≠ R.fnew) (hfront : ∀ j, (S.consm j : Nat) < nc)
    (a : Algo) (L L' : List (Cell dim)) (hL : L.Nodup) (hLL : L.Perm L') (mem : Mem K n d dim) :
    (cellLoop S vel R L (prog S a) mem).buf = (cellLoop S vel R L' (prog S a) mem).buf := by
  funext j
  by_cases hj : j = R.fnew
  · subst hj
    funext c
    rw [cellLoop_fnew S vel R hne _ (prog_indep S a hfront) L hL mem (view R mem c),
      cellLoop_fnew S vel R hne _ (prog_indep S a hfront) L' (hLL.nodup_iff.1 hL) mem (view R mem c)]
    simp only [hLL.mem_iff]
  · unfold cellLoop
    rw [schedule_buf S vel R _ mem j hj, schedule_buf S vel R _ mem j hj]

/-- **C40 needs two arrays**: with `fnew` and `f` the same array, the scalar loops give different results
in different orders (this is why the C containers allocate `Fnew`). -/
theorem C40_single_array_order :
    ∃ (S : Kernel ℚ 1 0 0) (vel : Fin 1 → Cell 1) (R : Refs 1) (mem : Mem ℚ 1 0 1)
      (L L' : List (Cell 1)), L.Perm L' ∧ R.f = R.fnew ∧
      (cellLoop S vel R L (prog S .pull) mem).buf ≠ (cellLoop S vel R L' (prog S .pull) mem).buf := by
  refine ⟨⟨⟨1, 1, fun _ => 1, fun _ => 1, fun _ _ => 0, fun _ _ => 0, Fin.elim0⟩, none, fun _ => none, 1⟩,
    fun _ _ => 1, npRefs 0 0, ⟨fun _ c _ => (c 0 : ℚ), fun _ _ => 0, fun _ => Fin.elim0⟩,
    [fun _ => 1, fun _ => 2], [fun _ => 2, fun _ => 1], List.Perm.swap _ _ _, rfl, ?_⟩
  intro h
  have := congrFun (congrFun (congrFun h 0) (fun _ => 2)) 0
  revert this
  decide +kernel

end order

/-! ## C39 -/

/-- `F` and `Fnew` are the same array with NumPy and different arrays otherwise. -/
def Containers (P : Setup K n nc d dim) (s : Simu K n d dim) : Prop :=
  match P.backend with
  | .numpy => s.F = s.Fnew
  | .c => s.F ≠ s.Fnew

theorem setF_buf (s : Simu K n d dim) (a : Arr K n dim) : (s.setF a).mem.buf s.F = a := by
  simp [Simu.setF]

theorem foldl_cellLoop (S : Kernel K n nc d) (vel : Fin n → Cell dim) (R : Refs dim) (L : List (Cell dim))
    (g : List (List (Stmt n d))) (mem : Mem K n d dim) :
    g.foldl (fun mem q => cellLoop S vel R L q mem) mem =
      (g.flatMap fun q => L.flatMap fun c => q.map fun s => (c, s)).foldl (execAt S vel R) mem := by
  induction g generalizing mem with
  | nil => rfl
  | cons q g ih =>
    rw [List.foldl_cons, ih, List.flatMap_cons, List.foldl_append]
    rfl

theorem split_filter (L : List (Cell dim)) (hL : L.Nodup) (g : List (List (Stmt n d))) (c : Cell dim) :
    ((g.flatMap fun q => L.flatMap fun c => q.map fun s => (c, s)).filter
      fun cs => decide (cs.1 = c)).map Prod.snd = if c ∈ L then g.flatten else [] := by
  induction g with
  | nil => simp
  | cons q g ih =>
    rw [List.flatMap_cons, List.filter_append, List.map_append, ih]
    have : ((L.flatMap fun c => q.map fun s => (c, s)).filter fun cs => decide (cs.1 = c)).map Prod.snd =
        if c ∈ L then q else [] := by
      clear ih
      induction L with
      | nil => simp
      | cons a L ihL =>
        rw [List.flatMap_cons, List.filter_append, List.map_append, ihL (List.nodup_cons.1 hL).2]
        have ha := (List.nodup_cons.1 hL).1
        by_cases hac : a = c
        · subst hac
          rw [if_neg ha, if_pos (by simp), List.append_nil]
          rw [List.filter_eq_self.2 (by intro cs hcs; obtain ⟨s, _, rfl⟩ := List.mem_map.1 hcs; simp)]
          simp [List.map_map, Function.comp_def]
        · rw [List.filter_eq_nil_iff.2 (by
            intro cs hcs; obtain ⟨s, _, rfl⟩ := List.mem_map.1 hcs; simpa using hac)]
          have : (c ∈ a :: L) ↔ c ∈ L := by
            simp only [List.mem_cons, or_iff_right_iff_imp]
            intro e; exact absurd e.symm hac
          simp [this]
    rw [this]
    split_ifs <;> simp

theorem vel_not_mem (S : Kernel K n nc d) (hr : S.relVel.isSome = false) (a : Algo) :
    ∀ s ∈ prog S a, ∀ i, s ≠ .vel i := by
  intro s hs i hsi
  subst hsi
  rw [prog_eq] at hs
  cases a <;>
    simp [baseStep, pullStep, transportLocal, f2mLocal, sourceLocal, relaxLocal, m2fLocal, hr] at hs

/-- The routine `one_time_step` of every backend, algorithm and setting gives at each cell of the loops
the result of the statements executed alone, and keeps the other cells. Excluded: `split` with a relative
velocity in C. -/
theorem stepRoutine_fnew (S : Kernel K n nc d) (vel : Fin n → Cell dim) (b : Backend) (cfg : Settings)
    (fluid : Cell dim → Bool) (L : List (Cell dim)) (hL : L.Nodup) (F Fnew : Fin 2)
    (hc : b = .c → F ≠ Fnew) (hfront : ∀ j, (S.consm j : Nat) < nc)
    (hsplit : ¬ (b = .c ∧ cfg.split = true ∧ S.relVel.isSome = true))
    (mem : Mem K n d dim) (c : Cell dim) (x : Local K n d) :
    (stepRoutine S vel b cfg fluid L F Fnew mem).buf Fnew c =
      if c ∈ L ∧ (cfg.checkFluid = true → fluid c = true) then
        (S.run (pull vel (mem.buf F) c) x (prog S cfg.algo)).fnew else mem.buf Fnew c := by
  set L' := if cfg.checkFluid then L.filter fluid else L with hL'
  have hmem : ∀ c, c ∈ L' ↔ c ∈ L ∧ (cfg.checkFluid = true → fluid c = true) := by
    intro c
    rw [hL']
    split_ifs with h
    · simp [h]
    · simp [h]
  have hnd : L'.Nodup := by
    rw [hL']; split_ifs
    · exact hL.filter _
    · exact hL
  simp only [← hmem]
  cases b with
  | numpy =>
    obtain ⟨_, h2, _, h4⟩ := vecLoop_view S vel F Fnew L' (prog S cfg.algo) mem
      (Or.inr (noHazard_prog S cfg.algo))
    have e : ∀ mem : Mem K n d dim, mem.buf Fnew c = (view (npRefs F Fnew) mem c).fnew := fun _ => rfl
    have hgoal : stepRoutine S vel .numpy cfg fluid L F Fnew mem =
      vecLoop S vel (npRefs F Fnew) L' (prog S cfg.algo) mem := rfl
    rw [hgoal]
    split_ifs with h
    · rw [e, h4 c h]
      exact prog_indep S cfg.algo hfront _ _ _
    · rw [e, h2 c h]; rfl
  | c =>
    have hne := hc rfl
    have hgoal : stepRoutine S vel .c cfg fluid L F Fnew mem =
        if cfg.split then (groups n nc d S.relVel.isSome cfg.algo).foldl
          (fun mem q => cellLoop S vel (cRefs cfg F Fnew) L' q mem) mem
        else cellLoop S vel (cRefs cfg F Fnew) L' (prog S cfg.algo) mem := rfl
    rw [hgoal]
    by_cases hs : cfg.split = true
    · rw [if_pos hs, foldl_cellLoop]
      have hr : S.relVel.isSome = false := by
        by_contra h
        exact hsplit ⟨rfl, hs, by cases h' : S.relVel.isSome with | false => exact absurd h' h | true => rfl⟩
      have hma : (cRefs (dim := dim) cfg F Fnew).ma = some := by
        simp [cRefs, hs]
      have := (schedule_view S vel (cRefs cfg F Fnew) hne (by rw [hma]; exact Option.some_injective _)
        ((groups n nc d S.relVel.isSome cfg.algo).flatMap fun q => L'.flatMap fun c => q.map fun s => (c, s))
        (Or.inr (by
          intro cs hcs i
          obtain ⟨q, hq, hcs⟩ := List.mem_flatMap.1 hcs
          obtain ⟨c', _, hcs⟩ := List.mem_flatMap.1 hcs
          obtain ⟨s, hs', rfl⟩ := List.mem_map.1 hcs
          exact vel_not_mem S hr cfg.algo s (List.mem_flatten.2 ⟨q, hq, hs'⟩) i)) mem).2 c
      rw [split_filter L' hnd] at this
      have e : ∀ mem : Mem K n d dim, mem.buf Fnew c = (view (cRefs cfg F Fnew) mem c).fnew := fun _ => rfl
      rw [e, this]
      split_ifs with h
      · exact prog_indep S cfg.algo hfront _ _ _
      · rfl
    · rw [if_neg hs]
      exact cellLoop_fnew S vel (cRefs cfg F Fnew) hne _ (prog_indep S cfg.algo hfront) L' hnd mem x c

/-- **C39 (partial), all backends and settings.** After `one_time_step`, `F` holds at each interior cell
(fluid cell with `check_isfluid`) the result of transport, moments, relaxation and inverse moments of the
distribution functions left by `boundary_condition`; NumPy slices on a single array, fused C loops, split
loops, local or global moments all give the same values.  Excluded: relative velocities and sources (see
`C39_step_general` for those), and the literal composition of the public phases (false for the C
backends: `C39_composition_negation`). -/
theorem C39_step_partial (P : Setup K n nc d dim) (s : Simu K n d dim) (hs : Containers P s)
    (hL : P.Lin.Nodup) (hfront : ∀ j, (P.S.consm j : Nat) < nc)
    (hEQ : ∀ j w, P.S.EQ (P.S.consm j) w = w j) (hS : ∀ i, P.S.source i = none)
    (hr : P.S.relVel = none) (c : Cell dim) (hc : c ∈ P.Lin) (hfl : P.cfg.checkFluid = true → P.fluid c = true) :
    (s.apply P .step).mem.buf (s.apply P .step).F c =
      collision P.S.M P.S.invM P.S.consm P.S.EQ P.S.s
        (fun k => P.bc s.t (s.mem.buf s.F) (fun i => c i - P.vel k i) k) := by
  change _ = collision P.S.M P.S.invM P.S.consm P.S.EQ P.S.s (pull P.vel (P.bc s.t (s.mem.buf s.F)) c)
  simp only [Simu.apply]
  have := stepRoutine_fnew P.S P.vel P.backend P.cfg P.fluid P.Lin hL s.F s.Fnew (by
    intro hb; unfold Containers at hs; rw [hb] at hs; exact hs) hfront (by simp [hr])
    ({ s with dirty := true : Simu K n d dim }.setF (P.bc s.t (s.mem.buf s.F))).mem c
      ⟨0, 0, 0⟩
  rw [if_pos ⟨hc, hfl⟩] at this
  refine this.trans ?_
  rw [setF_buf, prog_eq]
  obtain ⟨h1, h2⟩ := step_collision P.S hEQ hS (pull P.vel (P.bc s.t (s.mem.buf s.F)) c) ⟨0, 0, 0⟩
  cases P.cfg.algo with
  | base => simp only [hr, Option.isSome_none]; exact h2
  | pull => simp only [hr, Option.isSome_none]; exact h1

/-- **C39, general kernels.** With sources or a relative velocity: all the backends and settings (but
`split` with a relative velocity) compute the statements of `one_time_step_local` at each cell, from the
distribution functions which reach it.  With NumPy the arrays are separate: a relative velocity which is a
conserved moment itself, and hence a view of the array of the moments, is treated in C69. -/
theorem C39_step_general (P : Setup K n nc d dim) (s : Simu K n d dim) (hs : Containers P s)
    (hL : P.Lin.Nodup) (hfront : ∀ j, (P.S.consm j : Nat) < nc)
    (hsplit : ¬ (P.backend = .c ∧ P.cfg.split = true ∧ P.S.relVel.isSome = true))
    (c : Cell dim) (x : Local K n d) :
    (s.apply P .step).mem.buf (s.apply P .step).F c =
      if c ∈ P.Lin ∧ (P.cfg.checkFluid = true → P.fluid c = true) then
        (P.S.run (fun k => P.bc s.t (s.mem.buf s.F) (fun i => c i - P.vel k i) k) x (prog P.S P.cfg.algo)).fnew
      else (match P.backend with
        | .numpy => P.bc s.t (s.mem.buf s.F) c
        | .c => s.mem.buf s.Fnew c) := by
  change _ = if c ∈ P.Lin ∧ (P.cfg.checkFluid = true → P.fluid c = true) then
        (P.S.run (pull P.vel (P.bc s.t (s.mem.buf s.F)) c) x (prog P.S P.cfg.algo)).fnew
      else (match P.backend with
        | .numpy => P.bc s.t (s.mem.buf s.F) c
        | .c => s.mem.buf s.Fnew c)
  simp only [Simu.apply]
  have := stepRoutine_fnew P.S P.vel P.backend P.cfg P.fluid P.Lin hL s.F s.Fnew (by
    intro hb; unfold Containers at hs; rw [hb] at hs; exact hs) hfront hsplit
    ({ s with dirty := true : Simu K n d dim }.setF (P.bc s.t (s.mem.buf s.F))).mem c x
  refine this.trans ?_
  rw [setF_buf]
  split_ifs with h
  · rfl
  · unfold Containers at hs
    cases hb : P.backend with
    | numpy =>
      rw [hb] at hs
      simp only at hs ⊢
      rw [← hs, setF_buf]
    | c =>
      rw [hb] at hs
      simp only at hs ⊢
      simp only [Simu.setF]
      rw [Function.update_of_ne (Ne.symm hs)]

/-! ### Single routines -/

theorem noHazard_of_reads {p : List (Stmt n d)} (h : ∀ s ∈ p, ∀ k, reads s k = false) : NoHazard p := by
  apply List.Pairwise.imp_of_mem (R := fun _ _ => True)
  · intro s t _ ht _ k _
    exact h t ht k
  · exact List.pairwise_of_forall fun _ _ => trivial

theorem noHazard_of_writes {p : List (Stmt n d)} (h : ∀ s ∈ p, ∀ k, writes s k = false) : NoHazard p := by
  apply List.Pairwise.imp_of_mem (R := fun _ _ => True)
  · intro s t hs _ _ k hk
    rw [h s hs k] at hk
    exact absurd hk (by simp)
  · exact List.pairwise_of_forall fun _ _ => trivial

theorem noHazard_transport : NoHazard (transportLocal n d) := by
  unfold transportLocal NoHazard
  rw [List.pairwise_map]
  refine (List.nodup_finRange n).imp ?_
  intro a b hab k hk
  simp only [writes, decide_eq_true_eq] at hk
  subst hk
  simpa [reads] using hab

/-- A routine which never changes `fnew`, or never reads `f` and does not need other cells, gives at each
cell of the loop the result of its statements; the other cells are kept. -/
theorem loop_view (S : Kernel K n nc d) (b : Backend) (vel : Fin n → Cell dim) (F Fnew : Fin 2)
    (L : List (Cell dim)) (hL : L.Nodup) (p : List (Stmt n d))
    (h : (b = .c → F ≠ Fnew) ∧ NoHazard p ∨ ∀ s ∈ p, ∀ k, reads s k = false) (mem : Mem K n d dim)
    (c : Cell dim) :
    view (npRefs F Fnew) (loop S b vel F Fnew L p mem) c =
      if c ∈ L then S.run (pull vel (mem.buf F) c) (view (npRefs F Fnew) mem c) p
      else view (npRefs F Fnew) mem c := by
  have hnz : NoHazard p := h.elim And.right noHazard_of_reads
  unfold loop
  cases b with
  | numpy =>
    obtain ⟨_, h2, _, h4⟩ := vecLoop_view S vel F Fnew L p mem (Or.inr hnz)
    split_ifs with hc
    · exact h4 c hc
    · exact h2 c hc
  | c =>
    rcases h with ⟨h, _⟩ | h
    · have := (schedule_view S vel (npRefs F Fnew) (h rfl) (Option.some_injective _)
        (L.flatMap fun c => p.map fun s => (c, s)) (Or.inl (Option.some_injective _)) mem).2 c
      have e := split_filter L hL [p] c
      simp only [List.flatMap_cons, List.flatMap_nil, List.append_nil, List.flatten_cons, List.flatten_nil] at e
      rw [e] at this
      simp only [cellLoop]
      rw [this]
      split_ifs <;> rfl
    · -- no read of `f`: each statement only uses the variables of its cell
      simp only [cellLoop]
      have key : ∀ (w : List (Cell dim × Stmt n d)) , (∀ cs ∈ w, ∀ k, reads cs.2 k = false) →
          ∀ f, view (npRefs F Fnew) (w.foldl (execAt S vel (npRefs F Fnew)) mem) c =
          S.run f (view (npRefs F Fnew) mem c) ((w.filter fun cs => decide (cs.1 = c)).map Prod.snd) := by
        intro w hw f
        induction w using List.reverseRecOn with
        | nil => rfl
        | append_singleton w cs ih =>
          rw [List.foldl_append]
          simp only [List.foldl_cons, List.foldl_nil]
          rw [view_execAt S vel _ (Option.some_injective _) _ cs (Or.inl (Option.some_injective _)),
            List.filter_append, List.map_append, run_append, ← ih fun cs' h' => hw cs' (by simp [h'])]
          by_cases hcc : c = cs.1
          · rw [if_pos hcc, List.filter_cons_of_pos (by simp [hcc])]
            exact exec_congr S _ _ _ _ fun k hk => by
              rw [hw cs (by simp) k] at hk; exact absurd hk (by simp)
          · rw [if_neg hcc, List.filter_cons_of_neg (by simpa using fun e => hcc e.symm)]
            rfl
      have e := split_filter L hL [p] c
      simp only [List.flatMap_cons, List.flatMap_nil, List.append_nil, List.flatten_cons, List.flatten_nil] at e
      rw [key _ (by
        intro cs hcs k
        obtain ⟨c', _, hcs⟩ := List.mem_flatMap.1 hcs
        obtain ⟨s, hs', rfl⟩ := List.mem_map.1 hcs
        exact h s hs' k) (pull vel (mem.buf F) c), e]
      split_ifs <;> rfl

theorem loop_buf (S : Kernel K n nc d) (b : Backend) (vel : Fin n → Cell dim) (F Fnew : Fin 2)
    (L : List (Cell dim)) (p : List (Stmt n d)) (mem : Mem K n d dim) (j : Fin 2) (hj : j ≠ Fnew) :
    (loop S b vel F Fnew L p mem).buf j = mem.buf j := by
  unfold loop
  cases b with
  | numpy =>
    simp only [vecLoop]
    induction p using List.reverseRecOn with
    | nil => rfl
    | append_singleton p s ih =>
      rw [List.foldl_append]
      simp only [List.foldl_cons, List.foldl_nil]
      rw [← ih]
      simp only [vecStep, npRefs]
      rw [Function.update_of_ne hj]
  | c =>
    simp only [cellLoop]
    exact schedule_buf S vel (npRefs F Fnew) _ mem j hj

theorem pull_zero (a : Arr K n dim) (c : Cell dim) : pull 0 a c = a c := by
  funext k
  simp [pull]

theorem reads_relax (rel : Bool) : ∀ s ∈ relaxLocal n d rel, ∀ k, reads s k = false := by
  intro s hs k; obtain ⟨_, _, rfl⟩ := List.mem_map.1 hs; rfl

theorem reads_m2f (rel : Bool) : ∀ s ∈ m2fLocal n d rel, ∀ k, reads s k = false := by
  intro s hs k; obtain ⟨_, _, rfl⟩ := List.mem_map.1 hs; rfl

theorem writes_f2m (rel fromNew : Bool) : ∀ s ∈ f2mLocal n nc d fromNew rel, ∀ k, writes s k = false := by
  intro s hs k
  unfold f2mLocal at hs
  split_ifs at hs
  · simp only [List.mem_append, List.mem_map] at hs
    rcases hs with (⟨_, _, rfl⟩ | ⟨_, _, rfl⟩) | ⟨_, _, rfl⟩ <;> rfl
  · obtain ⟨_, _, rfl⟩ := List.mem_map.1 hs; rfl

/-- After `f2m` the array of the moments holds `M F` on all the cells of the array; `F` is kept. -/
theorem f2m_spec (S : Kernel K n nc d) (b : Backend) (L : List (Cell dim)) (hL : L.Nodup) (F Fnew : Fin 2)
    (hb : b = .c → F ≠ Fnew) (mem : Mem K n d dim) :
    (∀ c ∈ L, (f2mRoutine S b L F Fnew mem).m (some c) = S.M *ᵥ (mem.buf F c)) ∧
    (f2mRoutine S b L F Fnew mem).buf F = mem.buf F := by
  have hv := loop_view S b (dim := dim) 0 F Fnew L hL (f2mLocal n nc d false false)
    (Or.inl ⟨hb, noHazard_of_writes (writes_f2m false false)⟩) mem
  constructor
  · intro c hc
    have := hv c
    rw [if_pos hc, run_f2m, pull_zero] at this
    exact congrArg Local.m this
  · by_cases hF : F = Fnew
    · subst hF
      funext c
      have := congrArg Local.fnew (hv c)
      rw [run_f2m] at this
      have e : ∀ mem : Mem K n d dim, mem.buf F c = (view (npRefs F F) mem c).fnew := fun _ => rfl
      rw [e, e mem]
      refine this.trans ?_
      split_ifs <;> rfl
    · exact loop_buf S b 0 F Fnew L _ mem F hF

/-- **C39 (partial), NumPy.** With the NumPy backend, without sources and relative velocity,
`one_time_step` gives on the interior cells the same distribution functions as successively calling
`boundary_condition`, `transport`, `f2m`, `relaxation`, `m2f`. -/
theorem C39_composition_partial (P : Setup K n nc d dim) (s : Simu K n d dim) (hs : Containers P s)
    (hb : P.backend = .numpy) (hL : P.Lin.Nodup) (hLf : P.Lfull.Nodup) (hsub : ∀ c ∈ P.Lin, c ∈ P.Lfull)
    (hfront : ∀ j, (P.S.consm j : Nat) < nc) (hEQ : ∀ j w, P.S.EQ (P.S.consm j) w = w j)
    (hS : ∀ i, P.S.source i = none) (hr : P.S.relVel = none) (c : Cell dim) (hc : c ∈ P.Lin)
    (hfl : P.cfg.checkFluid = true → P.fluid c = true) :
    let s' := s.run P [.boundary, .transport, .f2m, .relaxation, .m2f]
    (s.apply P .step).mem.buf (s.apply P .step).F c = s'.mem.buf s'.F c := by
  intro s'
  rw [C39_step_partial P s hs hL hfront hEQ hS hr c hc hfl]
  have hF : s.Fnew = s.F := by unfold Containers at hs; rw [hb] at hs; exact hs.symm
  have hcf := hsub c hc
  set g := P.bc s.t (s.mem.buf s.F) with hg
  set mem1 := (s.setF g).mem with hm1
  set mem2 := transportRoutine P.S P.vel P.backend P.Lin s.F s.F mem1 with hm2
  set mem3 := f2mRoutine P.S P.backend P.Lfull s.F s.F mem2 with hm3
  set mem4 := relaxRoutine P.S P.backend P.Lfull s.F s.F mem3 with hm4
  set mem5 := m2fRoutine P.S P.backend P.Lfull s.F mem4 with hm5
  have hs' : s'.mem.buf s'.F c = mem5.buf s.F c := by
    simp only [s', Simu.run, List.foldl_cons, List.foldl_nil, Simu.apply]
    simp only [Simu.setF, hF]
    rfl
  rw [hs']
  have hnp : P.backend = .c → s.F ≠ s.F := by intro h; rw [hb] at h; exact absurd h (by decide)
  -- transport
  have e1 : mem1.buf s.F = g := setF_buf s g
  have e2 : mem2.buf s.F c = pull P.vel g c := by
    have := loop_view P.S P.backend P.vel s.F s.F P.Lin hL (transportLocal n d)
      (Or.inl ⟨hnp, noHazard_transport⟩) mem1 c
    rw [if_pos hc, run_transport, e1] at this
    exact congrArg Local.fnew this
  obtain ⟨e3, e3'⟩ := f2m_spec P.S P.backend P.Lfull hLf s.F s.F hnp mem2
  have e4 : view (npRefs s.F s.F) mem4 c = { view (npRefs s.F s.F) mem3 c with
      m := relaxed P.S.consm P.S.EQ P.S.s (mem3.m (some c)) } := by
    have := loop_view P.S P.backend (0 : Fin n → Cell dim) s.F s.F P.Lfull hLf (relaxLocal n d false)
      (Or.inr (reads_relax false)) mem3 c
    rw [if_pos hcf, (C38_relaxation P.S hEQ _ _).1] at this
    exact this
  have e5 : mem5.buf s.F c = P.S.invM *ᵥ (mem4.m (some c)) := by
    have := loop_view P.S P.backend (0 : Fin n → Cell dim) s.F s.F P.Lfull hLf (m2fLocal n d false)
      (Or.inr (reads_m2f false)) mem4 c
    rw [if_pos hcf, run_back] at this
    exact congrArg Local.fnew this
  have e4' : mem4.m (some c) = relaxed P.S.consm P.S.EQ P.S.s (mem3.m (some c)) := congrArg Local.m e4
  rw [e5, e4', e3 c hcf, e2]
  rfl

/-! ## C43 -/

/-- Number of time steps in a sequence of operations. -/
def steps (l : List (Op K n dim)) : Nat := (l.filter fun o => match o with | .step => true | _ => false).length

theorem steps_append (l l' : List (Op K n dim)) : steps (l ++ l') = steps l + steps l' := by
  simp [steps]

theorem getM_frame (P : Setup K n nc d dim) (s : Simu K n d dim) :
    (s.getM P).F = s.F ∧ (s.getM P).Fnew = s.Fnew ∧ (s.getM P).t = s.t ∧ (s.getM P).nt = s.nt := by
  unfold Simu.getM
  split_ifs <;> exact ⟨rfl, rfl, rfl, rfl⟩

/-- **C43.** After any sequence of public operations, `nt` is the number of calls of `one_time_step`,
`t = nt dt`; in C the arrays have been exchanged `nt` times, with NumPy there is still one array; every call
leaves the newest values in `F`. -/
theorem C43_counters (P : Setup K n nc d dim) (s : Simu K n d dim) (hs : s.Start P)
    (l : List (Op K n dim)) :
    (s.run P l).nt = steps l ∧ (s.run P l).t = steps l * P.S.dt ∧ Containers P (s.run P l) ∧
    (s.run P l).F = (if Even (steps l) then s.F else s.Fnew) ∧
    (s.run P l).Fnew = (if Even (steps l) then s.Fnew else s.F) := by
  obtain ⟨h1, _, h3, h4⟩ := hs
  induction l using List.reverseRecOn with
  | nil =>
    have : steps ([] : List (Op K n dim)) = 0 := rfl
    simp only [Simu.run, List.foldl_nil, this]
    refine ⟨h4, by rw [h3]; simp, h1, by simp, by simp⟩
  | append_singleton l o ih =>
    obtain ⟨i1, i2, i3, i4, i5⟩ := ih
    have hrun : s.run P (l ++ [o]) = (s.run P l).apply P o := by
      simp [Simu.run, List.foldl_append]
    rw [hrun, steps_append]
    set r := s.run P l with hr
    by_cases ho : o = .step
    · subst ho
      have : steps ([.step] : List (Op K n dim)) = 1 := rfl
      rw [this]
      simp only [Simu.apply, Simu.setF]
      refine ⟨by rw [i1], ?_, ?_, ?_, ?_⟩
      · rw [i2]; push_cast; ring
      · unfold Containers at i3 ⊢
        cases hb : P.backend <;> simp only [hb] at i3 ⊢
        · exact i3.symm
        · exact Ne.symm i3
      · rw [i5]
        by_cases he : Even (steps l) <;> simp [he, Nat.even_add_one]
      · rw [i4]
        by_cases he : Even (steps l) <;> simp [he, Nat.even_add_one]
    · have h0 : steps [o] = 0 := by
        cases o <;> first | rfl | exact absurd rfl ho
      rw [h0, Nat.add_zero]
      have hf : (r.apply P o).F = r.F ∧ (r.apply P o).Fnew = r.Fnew ∧ (r.apply P o).t = r.t ∧
          (r.apply P o).nt = r.nt := by
        cases o with
        | step => exact absurd rfl ho
        | readM => exact getM_frame P r
        | _ => exact ⟨rfl, rfl, rfl, rfl⟩
      obtain ⟨f1, f2, f3, f4⟩ := hf
      rw [f1, f2, f3, f4]
      refine ⟨i1, i2, ?_, i4, i5⟩
      unfold Containers at i3 ⊢
      rw [f1, f2]; exact i3

/-- **C43, newest values.** The array written by a step is the one called `F` after the step, and the
array read is the one called `Fnew`. -/
theorem C43_newest (P : Setup K n nc d dim) (s : Simu K n d dim) (hs : s.Start P)
    (l : List (Op K n dim)) (hL : P.Lin.Nodup) (hfront : ∀ j, (P.S.consm j : Nat) < nc)
    (hsplit : ¬ (P.backend = .c ∧ P.cfg.split = true ∧ P.S.relVel.isSome = true))
    (c : Cell dim) (hc : c ∈ P.Lin) (hfl : P.cfg.checkFluid = true → P.fluid c = true) (x : Local K n d) :
    let r := s.run P l
    (s.run P (l ++ [.step])).mem.buf (s.run P (l ++ [.step])).F c =
      (P.S.run (fun k => P.bc (steps l * P.S.dt) (r.mem.buf r.F) (fun i => c i - P.vel k i) k) x (prog P.S P.cfg.algo)).fnew := by
  intro r
  have hrun : s.run P (l ++ [.step]) = r.apply P .step := by simp [r, Simu.run, List.foldl_append]
  rw [hrun]
  obtain ⟨_, ht, hcn, _, _⟩ := C43_counters P s hs l
  rw [C39_step_general P r hcn hL hfront hsplit c x, if_pos ⟨hc, hfl⟩, ht]

/-! ## C44 -/

/-- The operation changes the moments by itself. -/
def Op.setsM : Op K n dim → Bool
  | .writeM _ _ => true
  | .relaxation => true
  | .equilibrium => true
  | .source => true
  | _ => false

/-- The operation changes `F` in a way announced to the simulation (time steps and the setter), or makes
`m` and `F` consistent. -/
def Op.syncs : Op K n dim → Bool
  | .step => true
  | .writeF _ _ => true
  | .f2m => true
  | .m2f => true
  | _ => false

/-- The operations which change `F` behind the back of the simulation. -/
def Op.silent : Op K n dim → Bool
  | .writeView _ _ => true
  | .transport => true
  | _ => false

/-- The user has changed the moments since the last change of `F` (or the last `f2m`, `m2f`). -/
def userWrote (l : List (Op K n dim)) : Bool :=
  l.foldl (fun b o => if o.setsM then true else if o.syncs then false else b) false

/-- **C44 (partial).** After any sequence of public operations other than `transport` and writes through the
views returned by `F`, reading `m` gives the moments of the current `F`, unless the user has changed the
moments since the last change of `F`. This holds on every set `D` of cells which `boundary_condition` does
not change (the interior), and on the whole array if `boundary_condition` is not called directly. The
excluded operations are those of the negations in `Verif.Sim.Witness`. -/
theorem C44_read_partial (P : Setup K n nc d dim) (s : Simu K n d dim) (hs : s.Start P)
    (hLf : P.Lfull.Nodup) (hM : P.S.M * P.S.invM = 1)
    (D : Cell dim → Prop) (hD : ∀ c, D c → c ∈ P.Lfull)
    (l : List (Op K n dim)) (hl : ∀ o ∈ l, o.silent = false)
    (hbd : .boundary ∈ l → ∀ t a c, D c → P.bc t a c = a c) (hw : userWrote l = false)
    (c : Cell dim) (hc : D c) :
    let r := (s.run P l).apply P .readM
    r.mem.m (some c) = P.S.M *ᵥ (r.mem.buf r.F c) := by
  -- the invariant
  have inv : ∀ l : List (Op K n dim), (∀ o ∈ l, o.silent = false) →
      (.boundary ∈ l → ∀ t a c, D c → P.bc t a c = a c) → userWrote l = false →
      (s.run P l).dirty = true ∨ ∀ c, D c → (s.run P l).mem.m (some c) =
        P.S.M *ᵥ ((s.run P l).mem.buf (s.run P l).F c) := by
    intro l
    induction l using List.reverseRecOn with
    | nil => intro _ _ _; exact Or.inl hs.2.1
    | append_singleton l o ih =>
      intro hl hbd hbf
      have hrun : s.run P (l ++ [o]) = (s.run P l).apply P o := by simp [Simu.run, List.foldl_append]
      have hcn := (C43_counters P s hs l).2.2.1
      have hnp : P.backend = .c → (s.run P l).F ≠ (s.run P l).Fnew := by
        intro h; unfold Containers at hcn; rw [h] at hcn; exact hcn
      have ih := ih (fun o' h => hl o' (by simp [h])) (fun h => hbd (by simp [h]))
      have hlo := hl o (by simp)
      rw [hrun]
      set r := s.run P l with hr
      rw [userWrote, List.foldl_append] at hbf
      simp only [List.foldl_cons, List.foldl_nil] at hbf
      rw [← userWrote] at hbf
      cases o with
      | step => exact Or.inl rfl
      | readM =>
        have hprev := ih (by simpa [Op.setsM, Op.syncs] using hbf)
        simp only [Simu.apply, Simu.getM]
        split_ifs with hd
        · right
          intro c hc
          obtain ⟨h1, h2⟩ := f2m_spec P.S P.backend P.Lfull hLf r.F r.Fnew hnp r.mem
          simp only
          rw [h1 c (hD c hc), h2]
        · exact hprev
      | readF => exact ih (by simpa [Op.setsM, Op.syncs] using hbf)
      | writeM i v => simp [Op.setsM] at hbf
      | writeF i v => exact Or.inl rfl
      | writeView i v => simp [Op.silent] at hlo
      | transport => simp [Op.silent] at hlo
      | f2m =>
        right
        intro c hc
        obtain ⟨h1, h2⟩ := f2m_spec P.S P.backend P.Lfull hLf r.F r.Fnew hnp r.mem
        simp only [Simu.apply]
        rw [h1 c (hD c hc), h2]
      | m2f =>
        right
        intro c hc
        have := loop_view P.S P.backend (0 : Fin n → Cell dim) r.F r.F P.Lfull hLf (m2fLocal n d false)
          (Or.inr (reads_m2f false)) r.mem c
        rw [if_pos (hD c hc), run_back] at this
        have e1 : (m2fRoutine P.S P.backend P.Lfull r.F r.mem).m (some c) = r.mem.m (some c) :=
          congrArg Local.m this
        have e2 : (m2fRoutine P.S P.backend P.Lfull r.F r.mem).buf r.F c = P.S.invM *ᵥ r.mem.m (some c) :=
          congrArg Local.fnew this
        simp only [Simu.apply]
        rw [e1, e2, Matrix.mulVec_mulVec, hM, Matrix.one_mulVec]
      | relaxation => simp [Op.setsM] at hbf
      | equilibrium => simp [Op.setsM] at hbf
      | source => simp [Op.setsM] at hbf
      | boundary =>
        have hprev := ih (by simpa [Op.setsM, Op.syncs] using hbf)
        rcases hprev with h | h
        · exact Or.inl h
        · right
          intro c hc
          simp only [Simu.apply]
          have e : (r.setF (P.bc r.t (r.mem.buf r.F))).mem.buf r.F = P.bc r.t (r.mem.buf r.F) := setF_buf r _
          have e2 : (r.setF (P.bc r.t (r.mem.buf r.F))).F = r.F := rfl
          rw [e2, e, hbd (by simp) _ _ _ hc]
          exact h c hc
  have hcn := (C43_counters P s hs l).2.2.1
  have hnp : P.backend = .c → (s.run P l).F ≠ (s.run P l).Fnew := by
    intro h; unfold Containers at hcn; rw [h] at hcn; exact hcn
  intro r
  simp only [r, Simu.apply, Simu.getM]
  split_ifs with hd
  · obtain ⟨h1, h2⟩ := f2m_spec P.S P.backend P.Lfull hLf (s.run P l).F (s.run P l).Fnew hnp (s.run P l).mem
    simp only
    rw [h1 c (hD c hc), h2]
  · rcases inv l hl hbd hw with h | h
    · exact absurd h hd
    · exact h c hc

end Pylbm.Sim
