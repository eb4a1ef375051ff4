import Verif.Sim.Global
/-!
# C69: a relative velocity which is itself a conserved moment (NumPy)

`relative_velocity` (algorithm/base.py 251-253) returns `rel_ux = ...`, and the NumPy code of an assignment to
a name is `rel_ux = <expression>` (`_print_Assignment`, pycode.py 1124-1132).  When the expression is only a
conserved moment the right-hand side is a slice `m[1, 1:nx - 1]`, so that `rel_ux` is not a copy but a view of
the array of the moments, and follows the later changes of the moment.  The C code copies the value.
-/

namespace Pylbm.Sim
open Scheme Halo Matrix HaloSpec

variable {K : Type} [Field K] {n nc d dim : Nat}

/-- The relative velocity as the NumPy code sees it: `al i = some j` when the component `i` is a view of the
conserved moment `j`. -/
def aliasView (S : Kernel K n nc d) (al : Fin d → Option (Fin nc)) (x : Local K n d) : Local K n d :=
  { x with u := fun i => match al i with
    | some j => x.m (S.consm j)
    | none => x.u i }

/-- The same for the whole memory. -/
def aliasMem (S : Kernel K n nc d) (al : Fin d → Option (Fin nc)) (mem : Mem K n d dim) : Mem K n d dim :=
  { mem with u := fun a i => match al i with
    | some j => mem.m a (S.consm j)
    | none => mem.u a i }

/-- `For(space_index, body)` of the NumPy code (`_print_For`, pycode.py 1087-1095), with the views. -/
def vecLoopA (S : Kernel K n nc d) (al : Fin d → Option (Fin nc)) (vel : Fin n → Cell dim) (R : Refs dim)
    (L : List (Cell dim)) (p : List (Stmt n d)) (mem : Mem K n d dim) : Mem K n d dim :=
  p.foldl (fun mem s => vecStep S vel R L (aliasMem S al mem) s) mem

/-- `one_time_step` of the Pull algorithm with NumPy (one array `F`). -/
def numpyStepA (S : Kernel K n nc d) (al : Fin d → Option (Fin nc)) (vel : Fin n → Cell dim)
    (L : List (Cell dim)) (F : Fin 2) (mem : Mem K n d dim) : Mem K n d dim :=
  vecLoopA S al vel (npRefs F F) L (prog S .pull) mem

/-- Statements at one cell with the views. -/
def runA (S : Kernel K n nc d) (al : Fin d → Option (Fin nc)) (f : Fin n → K) (x : Local K n d)
    (p : List (Stmt n d)) : Local K n d :=
  p.foldl (fun x s => S.exec f (aliasView S al x) s) x

variable (S : Kernel K n nc d) (al : Fin d → Option (Fin nc)) (vel : Fin n → Cell dim)

theorem runA_append (f : Fin n → K) (x : Local K n d) (p q : List (Stmt n d)) :
    runA S al f x (p ++ q) = runA S al f (runA S al f x p) q := by simp [runA]

theorem vecLoopA_view (F : Fin 2) (L : List (Cell dim)) (p : List (Stmt n d)) (mem : Mem K n d dim)
    (h : NoHazard p) :
    (∀ c, c ∉ L → (vecLoopA S al vel (npRefs F F) L p mem).buf F c = mem.buf F c) ∧
    (∀ c k, (∀ s ∈ p, writes s k = false) →
      (vecLoopA S al vel (npRefs F F) L p mem).buf F c k = mem.buf F c k) ∧
    (∀ c ∈ L, view (npRefs F F) (vecLoopA S al vel (npRefs F F) L p mem) c =
      runA S al (pull vel (mem.buf F) c) (view (npRefs F F) mem c) p) := by
  unfold vecLoopA
  induction p using List.reverseRecOn with
  | nil => exact ⟨fun _ _ => rfl, fun _ _ _ => rfl, fun _ _ => rfl⟩
  | append_singleton p s ih =>
    obtain ⟨i2, i3, i4⟩ := ih (List.pairwise_append.1 h).1
    rw [List.foldl_append]
    simp only [List.foldl_cons, List.foldl_nil]
    set mem1 := p.foldl (fun mem s => vecStep S vel (npRefs F F) L (aliasMem S al mem) s) mem with hmem1
    refine ⟨?_, ?_, ?_⟩
    · intro c hc
      rw [← i2 c hc]
      simp [vecStep, npRefs, hc, aliasMem]
    · intro c k hk
      rw [← i3 c k fun t ht => hk t (by simp [ht])]
      simp only [vecStep, npRefs, Function.update_self]
      split_ifs with hcL
      · exact exec_fnew S _ _ s k (hk s (by simp))
      · rfl
    · intro c hc
      rw [runA_append, ← i4 c hc]
      have e : view (npRefs F F) (vecStep S vel (npRefs F F) L (aliasMem S al mem1) s) c =
          S.exec (pull vel (mem1.buf F) c) (aliasView S al (view (npRefs F F) mem1 c)) s := by
        simp only [view, vecStep, npRefs, hc, if_true, Function.update_self]
        rfl
      rw [e]
      change _ = S.exec _ _ s
      refine exec_congr S _ _ _ s fun k hk => ?_
      simp only [pull]
      apply i3
      intro t ht
      by_contra hw
      have := (List.pairwise_append.1 h).2.2 t ht s (by simp) k (by simpa using hw)
      rw [this] at hk
      exact absurd hk (by simp)

/-! ## When the views do not matter -/

/-- The statement does not use the relative velocity. -/
def noU : Stmt n d → Bool
  | .mom _ rel _ => !rel
  | .vel _ => true
  | _ => false

/-- Same moments and new distribution functions. -/
def Same (x y : Local K n d) : Prop := x.m = y.m ∧ x.fnew = y.fnew

theorem runA_noU (f : Fin n → K) (p : List (Stmt n d)) (hp : ∀ s ∈ p, noU s = true) (x y : Local K n d)
    (h : Same x y) (hu : ∀ i, al i = none → x.u i = y.u i) :
    Same (runA S al f x p) (S.run f y p) ∧
      ∀ i, al i = none → (runA S al f x p).u i = (S.run f y p).u i := by
  induction p generalizing x y with
  | nil => exact ⟨h, hu⟩
  | cons s p ih =>
    refine ih (fun t ht => hp t (by simp [ht])) _ _ ?_ ?_
    · have hs := hp s (by simp)
      obtain ⟨hm, hf⟩ := h
      cases s with
      | mom fromNew rel i =>
        simp only [noU, Bool.not_eq_true'] at hs
        subst hs
        simp only [Kernel.exec, aliasView, hm, hf, Same, Bool.false_eq_true, if_false, true_and, and_self]
      | vel i => exact ⟨hm, hf⟩
      | shift => simp [noU] at hs
      | relax => simp [noU] at hs
      | eqm => simp [noU] at hs
      | src => simp [noU] at hs
      | back => simp [noU] at hs
    · intro i hi
      have hs := hp s (by simp)
      cases s with
      | mom fromNew rel i =>
        simp only [Kernel.exec, aliasView, hi]
        exact hu _ hi
      | vel j =>
        simp only [Kernel.exec]
        cases hv : S.relVel with
        | none => simp only [aliasView, hi]; exact hu i hi
        | some v =>
          simp only
          by_cases hij : i = j
          · subst hij
            simp only [Function.update_self, aliasView, Kernel.cons, h.1]
          · simp only [Function.update_of_ne hij, aliasView, hi]
            exact hu i hi
      | shift => simp [noU] at hs
      | relax => simp [noU] at hs
      | eqm => simp [noU] at hs
      | src => simp [noU] at hs
      | back => simp [noU] at hs

/-- The aliased moments and the relative velocity keep the value of the moments of `f`. -/
def Kept (f : Fin n → K) (x : Local K n d) : Prop :=
  ∀ i j, al i = some j → x.u i = (S.M *ᵥ f) (S.consm j) ∧ x.m (S.consm j) = (S.M *ᵥ f) (S.consm j)

theorem aliasView_of_kept {f : Fin n → K} {x : Local K n d} (h : Kept S al f x) : aliasView S al x = x := by
  unfold aliasView
  congr 1
  funext i
  cases hi : al i with
  | none => rfl
  | some j => exact (h i j hi).2.trans (h i j hi).1.symm

theorem aliasView_idem (x : Local K n d) : aliasView S al (aliasView S al x) = aliasView S al x := by
  unfold aliasView
  simp only
  congr 1
  funext i
  cases hi : al i <;> simp

theorem runA_alias (f : Fin n → K) (x : Local K n d) (p : List (Stmt n d)) :
    (runA S al f x p).fnew = (runA S al f (aliasView S al x) p).fnew := by
  cases p with
  | nil => rfl
  | cons s p =>
    simp only [runA, List.foldl_cons]
    rw [aliasView_idem]

theorem runA_kept (f : Fin n → K) (p : List (Stmt n d))
    (hp : ∀ s ∈ p, ∀ x, Kept S al f x → Kept S al f (S.exec f x s)) (x : Local K n d) (h : Kept S al f x) :
    runA S al f x p = S.run f x p := by
  induction p generalizing x with
  | nil => rfl
  | cons s p ih =>
    simp only [runA, Kernel.run, List.foldl_cons]
    rw [aliasView_of_kept S al h]
    exact ih (fun t ht => hp t (by simp [ht])) _ (hp s (by simp) x h)

/-- **C69 (partial).** With NumPy and the Pull algorithm, without sources: if the components of the relative
velocity which are conserved moments themselves are moments of degree zero (their rows in the translation
matrices are rows of the identity, as for the scalar equations), the step gives on all the cells the result
of the C code. Missing: momenta as relative velocities, and sources, for which this is false
(`C69_momentum_negation`, `C69_source_negation`). -/
theorem C69_views_partial (hfront : ∀ j, (S.consm j : Nat) < nc) (hEQ : ∀ j w, S.EQ (S.consm j) w = w j)
    (v : (Fin nc → K) → Fin d → K) (hv : S.relVel = some v)
    (hal : ∀ i j, al i = some j → ∀ w, v w i = w j)
    (hrow : ∀ i j, al i = some j → ∀ u b, S.Tu u (S.consm j) b = if b = S.consm j then 1 else 0)
    (hS : ∀ i, S.source i = none) (L : List (Cell dim)) (F : Fin 2) (mem : Mem K n d dim) (c : Cell dim)
    (x : Local K n d) :
    (numpyStepA S al vel L F mem).buf F c =
      if c ∈ L then (S.run (pull vel (mem.buf F) c) x (prog S .pull)).fnew else mem.buf F c := by
  obtain ⟨h2, _, h4⟩ := vecLoopA_view S al vel F L (prog S .pull) mem (noHazard_prog S .pull)
  split_ifs with hc
  swap
  · exact h2 c hc
  have e : (numpyStepA S al vel L F mem).buf F c =
      (view (npRefs F F) (numpyStepA S al vel L F mem) c).fnew := rfl
  rw [e, numpyStepA, h4 c hc, ← prog_indep S .pull hfront _ (view (npRefs F F) mem c) x]
  set f := pull vel (mem.buf F) c with hf
  clear_value f
  generalize view (npRefs F F) mem c = y0
  -- the statements before the use of the relative velocity
  have hp : prog S .pull = ((front n nc).map (Stmt.mom false false) ++ (List.finRange d).map Stmt.vel) ++
      ((backIdx n nc).map (.mom false true) ++ sourceLocal n d ++ relaxLocal n d true ++ restoreLocal n nc d ++
        sourceLocal n d ++ m2fLocal n d true) := by
    rw [prog_eq]
    simp [f2mLocal, hv, pullStep]
  rw [hp, runA_append, run_append]
  set p1 := (front n nc).map (Stmt.mom (n := n) (d := d) false false) ++ (List.finRange d).map Stmt.vel with hp1
  obtain ⟨hs1, hu1⟩ := runA_noU S al f p1 (by
    intro s hs
    rcases List.mem_append.1 hs with hs | hs <;> obtain ⟨_, _, rfl⟩ := List.mem_map.1 hs <;> rfl) y0 y0
      ⟨rfl, rfl⟩ fun _ _ => rfl
  have hy1 : S.run f y0 p1 = { y0 with
      m := fun i => if i ∈ front n nc then (S.M *ᵥ f) i else y0.m i
      u := v (S.cons fun i => if i ∈ front n nc then (S.M *ᵥ f) i else y0.m i) } := by
    rw [hp1, run_append, run_mom S f y0 false false (front n nc) ((List.nodup_finRange n).filter _), run_vel S f _ v hv]
    simp
  set y1 := S.run f y0 p1 with hy1'
  have hmem : ∀ j, S.consm j ∈ front n nc := fun j => by simp [front, hfront j]
  have hk : Kept S al f y1 := by
    intro i j hij
    rw [hy1]
    simp only
    rw [hal i j hij]
    simp [Kernel.cons, hmem j]
  have hav : aliasView S al (runA S al f y0 p1) = y1 := by
    obtain ⟨hm, hfn⟩ := hs1
    have : (aliasView S al (runA S al f y0 p1)).u = y1.u := by
      funext i
      simp only [aliasView]
      cases hi : al i with
      | none => exact hu1 i hi
      | some j =>
        simp only
        rw [hm]
        exact (hk i j hi).2.trans (hk i j hi).1.symm
    calc aliasView S al (runA S al f y0 p1)
        = ⟨(runA S al f y0 p1).m, (runA S al f y0 p1).fnew, (aliasView S al (runA S al f y0 p1)).u⟩ := rfl
      _ = y1 := by rw [this, hm, hfn]
  rw [runA_alias, hav, runA_kept S al f _ _ y1 hk]
  -- every other statement keeps the aliased moments
  have hrowM : ∀ i j, al i = some j → ∀ u, (∑ b, (S.Tu u * S.M) (S.consm j) b * f b) = (S.M *ᵥ f) (S.consm j) := by
    intro i j hij u
    have : (∑ b, (S.Tu u * S.M) (S.consm j) b * f b) = ((S.Tu u * S.M) *ᵥ f) (S.consm j) := rfl
    rw [this, ← Matrix.mulVec_mulVec]
    simp [Matrix.mulVec, dotProduct, hrow i j hij u]
  intro s hs z hz
  simp only [List.mem_append] at hs
  rcases hs with ((((hs | hs) | hs) | hs) | hs) | hs
  · obtain ⟨b, hb, rfl⟩ := List.mem_map.1 hs
    intro i j hij
    refine ⟨(hz i j hij).1, ?_⟩
    have hne : S.consm j ≠ b := by
      rintro rfl
      have := hfront j
      simp only [backIdx, List.mem_filter, decide_eq_true_eq] at hb
      omega
    simp only [Kernel.exec, Function.update_of_ne hne]
    exact (hz i j hij).2
  · obtain ⟨b, hb, rfl⟩ := List.mem_map.1 hs
    simpa only [Kernel.exec, hS b] using hz
  · obtain ⟨b, hb, rfl⟩ := List.mem_map.1 hs
    intro i j hij
    refine ⟨(hz i j hij).1, ?_⟩
    simp only [Kernel.exec, if_true]
    by_cases hb : S.consm j = b
    · subst hb
      rw [Function.update_self]
      have : Kernel.dot (S.Tu z.u) (S.consm j) (fun j => S.EQ j (S.cons z.m)) = z.m (S.consm j) := by
        simp only [Kernel.dot, hrow i j hij z.u, ite_mul, one_mul, zero_mul, Finset.sum_ite_eq',
          Finset.mem_univ, if_true]
        exact hEQ j _
      rw [this, ← (hz i j hij).2]
      ring
    · rw [Function.update_of_ne hb]
      exact (hz i j hij).2
  · obtain ⟨b, hb, rfl⟩ := List.mem_map.1 hs
    intro i j hij
    refine ⟨(hz i j hij).1, ?_⟩
    simp only [Kernel.exec, if_true]
    by_cases hb : S.consm j = b
    · subst hb
      rw [Function.update_self]
      exact hrowM i j hij z.u
    · rw [Function.update_of_ne hb]
      exact (hz i j hij).2
  · obtain ⟨b, hb, rfl⟩ := List.mem_map.1 hs
    simpa only [Kernel.exec, hS b] using hz
  · obtain ⟨b, hb, rfl⟩ := List.mem_map.1 hs
    exact hz

/-- The Burgers equation with D1Q3, relative velocity `u` (demo/1D/burgers.py 140-160 with `[U]`). -/
def burgers : Kernel ℚ 3 1 1 where
  M := !![1, 1, 1; 0, 1, -1; 0, 1, 1]
  invM := !![1, 0, -1; 0, 1 / 2, 1 / 2; 0, -1 / 2, 1 / 2]
  Tu := fun u => !![1, 0, 0; -u 0, 1, 0; u 0 ^ 2, -2 * u 0, 1]
  Tmu := fun u => !![1, 0, 0; u 0, 1, 0; u 0 ^ 2, 2 * u 0, 1]
  EQ := ![fun w => w 0, fun w => w 0 ^ 2 / 2, fun w => w 0 / 2]
  s := ![fun _ => 0, fun _ => 3 / 2, fun _ => 3 / 2]
  consm := ![0]
  relVel := some fun w _ => w 0
  source := fun _ => none
  dt := 1

/-- The hypotheses of `C69_views_partial` hold for `burgers`. -/
example : (∀ j, (burgers.consm j : Nat) < 1) ∧ (∀ j w, burgers.EQ (burgers.consm j) w = w j) ∧
    (∀ i j, (fun _ => some 0 : Fin 1 → Option (Fin 1)) i = some j → ∀ u b,
      burgers.Tu u (burgers.consm j) b = if b = burgers.consm j then 1 else 0) ∧
    ∀ i, burgers.source i = none := by
  refine ⟨by decide, ?_, ?_, fun _ => rfl⟩
  · intro j w
    obtain rfl : j = 0 := Subsingleton.elim _ _
    rfl
  · intro i j _ u b
    obtain rfl : j = 0 := Subsingleton.elim _ _
    fin_cases b <;> simp [burgers]

/-- D1Q3 with the relative velocity `q`. -/
def d1q3mom : Kernel ℚ 3 2 1 := { d1q3rel with relVel := some fun w _ => w 1 }

/-- The same distribution functions at all the cells. -/
def uniformMem : Mem ℚ 3 1 1 := ⟨fun _ _ => ![1, 2, 0], fun _ => 0, fun _ => 0⟩

/-- **C69 is false for a momentum**: with the relative velocity `[q]` the NumPy code and the C code give
different distribution functions, and the NumPy code does not conserve the momentum (which the Pull
algorithm does, C46), because `restore_conserved_moments` changes the moment seen through the view. -/
theorem C69_momentum_negation : ∃ mem : Mem ℚ 3 1 1,
    let vel : Fin 3 → Cell 1 := ![fun _ => 0, fun _ => 1, fun _ => -1]
    let L : List (Cell 1) := [fun _ => 1]
    let c : Cell 1 := fun _ => 1
    (numpyStepA d1q3mom (fun _ => some 1) vel L 0 mem).buf 0 c ≠
      (stepRoutine d1q3mom vel .c ⟨.pull, true, false, false⟩ (fun _ => true) L 0 1 mem).buf 1 c ∧
    (d1q3mom.M *ᵥ (numpyStepA d1q3mom (fun _ => some 1) vel L 0 mem).buf 0 c) 1 ≠
      (d1q3mom.M *ᵥ pull vel (mem.buf 0) c) 1 := by
  refine ⟨uniformMem, ?_, ?_⟩
  · intro h
    have := congrFun h 1
    revert this
    decide +kernel
  · decide +kernel

/-- **C69 is false with sources**: in the Burgers scheme with a source for `u`, the first half step of the
source changes the relative velocity of the NumPy code, not the one of the C code. -/
theorem C69_source_negation : ∃ mem : Mem ℚ 3 1 1,
    let S : Kernel ℚ 3 1 1 := { burgers with source := ![some fun _ => 1, none, none] }
    let vel : Fin 3 → Cell 1 := ![fun _ => 0, fun _ => 1, fun _ => -1]
    let L : List (Cell 1) := [fun _ => 1]
    let c : Cell 1 := fun _ => 1
    (numpyStepA S (fun _ => some 0) vel L 0 mem).buf 0 c ≠
      (stepRoutine S vel .c ⟨.pull, true, false, false⟩ (fun _ => true) L 0 1 mem).buf 1 c := by
  refine ⟨uniformMem, ?_⟩
  intro S vel L c h
  have := congrFun h 1
  revert this
  decide +kernel

end Pylbm.Sim
