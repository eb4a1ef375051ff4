import Verif.Sim.Mass
/-!
# C97: the totals of the conserved moments with source terms

`source_term_local` (base.py 439-470) is executed twice in a time step, with half of the time step, before and after
the relaxation (`one_time_step_local`, base.py 506-549 and pull.py 11-59).
-/

set_option linter.unusedSectionVars false

namespace Pylbm.Sim
open Scheme Halo SchemeSpec Matrix HaloSpec Mpi Boundary

/-! ## The source terms of one cell -/

section local_
variable {K : Type} [Field K] {n nc d : Nat}

/-- A part of the loop which does not contain a component does not change it. -/
theorem run_src_not_mem (S : Kernel K n nc d) (f : Fin n → K) (x : Local K n d) (i : Fin n) (l : List (Fin n))
    (h : i ∉ l) : (S.run f x (l.map .src)).m i = x.m i := by
  induction l using List.reverseRecOn with
  | nil => rfl
  | append_singleton l a ih =>
    simp only [List.mem_append, List.mem_singleton, not_or] at h
    rw [List.map_append, run_append]
    simp only [List.map_cons, List.map_nil, Kernel.run, List.foldl_cons, List.foldl_nil]
    rw [← Kernel.run]
    simp only [Kernel.exec]
    cases S.source a with
    | none => exact ih h.1
    | some r =>
      simp only
      rw [Function.update_of_ne h.2]
      exact ih h.1

/-- The new value of a component: its source is computed with the components before it already updated. -/
theorem run_src_split (S : Kernel K n nc d) (f : Fin n → K) (x : Local K n d) (i : Fin n) (r : (Fin n → K) → K)
    (hi : S.source i = some r) (A B : List (Fin n)) (h : (A ++ i :: B).Nodup) :
    (S.run f x ((A ++ i :: B).map .src)).m i = x.m i + S.dt / 2 * r (S.run f x (A.map .src)).m := by
  rw [List.nodup_append, List.nodup_cons] at h
  have hA : i ∉ A := fun hm => h.2.2 i hm i (by simp) rfl
  rw [List.map_append, run_append, List.map_cons]
  set y := S.run f x (A.map .src) with hy
  rw [← List.singleton_append, run_append, run_src_not_mem S f _ i B h.2.1.1]
  simp only [Kernel.run, List.foldl_cons, List.foldl_nil, Kernel.exec, hi, Function.update_self]
  rw [hy, run_src_not_mem S f x i A hA]

/-- The half step of a component whose source only reads this component, whatever the other sources are. -/
theorem run_src_self (S : Kernel K n nc d) (f : Fin n → K) (x : Local K n d) (i : Fin n) (l : List (Fin n))
    (hl : l.Nodup) (hil : i ∈ l) (r : (Fin n → K) → K) (hi : S.source i = some r) (ρ : K → K)
    (hρ : ∀ m, r m = ρ (m i)) : (S.run f x (l.map .src)).m i = x.m i + S.dt / 2 * ρ (x.m i) := by
  obtain ⟨A, B, rfl⟩ := List.append_of_mem hil
  rw [run_src_split S f x i r hi A B hl, hρ, run_src_not_mem S f x i A]
  rw [List.nodup_append] at hl
  exact fun hm => hl.2.2 i hm i (by simp) rfl

theorem run_source_self (S : Kernel K n nc d) (f : Fin n → K) (x : Local K n d) (i : Fin n)
    (r : (Fin n → K) → K) (hi : S.source i = some r) (ρ : K → K) (hρ : ∀ m, r m = ρ (m i)) :
    (S.run f x (sourceLocal n d)).m i = x.m i + S.dt / 2 * ρ (x.m i) :=
  run_src_self S f x i _ (List.nodup_finRange n) (List.mem_finRange i) r hi ρ hρ

/-- The half step of a component whose source reads one component before it. -/
theorem run_source_before (S : Kernel K n nc d) (f : Fin n → K) (x : Local K n d) (i l : Fin n) (hil : i < l)
    (r : (Fin n → K) → K) (hi : S.source i = some r) (ρ : K → K) (hρ : ∀ m, r m = ρ (m i))
    (r' : (Fin n → K) → K) (hl : S.source l = some r') (ρ' : K → K) (hρ' : ∀ m, r' m = ρ' (m i)) :
    (S.run f x (sourceLocal n d)).m l = x.m l + S.dt / 2 * ρ' (x.m i + S.dt / 2 * ρ (x.m i)) := by
  have hlen : (l : Nat) < (List.finRange n).length := by simp
  have hsplit : List.finRange n = (List.finRange n).take l ++ l :: (List.finRange n).drop (l + 1) := by
    have h := List.cons_getElem_drop_succ (h := hlen)
    simp only [List.getElem_finRange, Fin.cast_mk, Fin.eta] at h
    rw [h, List.take_append_drop]
  have hnd := List.nodup_finRange n
  unfold sourceLocal
  rw [hsplit] at hnd ⊢
  rw [run_src_split S f x l r' hl _ _ hnd, hρ', run_src_self S f x i _ (List.nodup_append.1 hnd).1 ?_ r hi ρ hρ]
  rw [List.mem_take_iff_getElem]
  exact ⟨i, by simp [hil], by simp⟩

/-- The sequence of the moments in a step without relative velocity: half step of the sources, relaxation, half
step of the sources; the algorithms differ by the place of the transport. -/
theorem collide_moments (S : Kernel K n nc d) (hM : S.M * S.invM = 1) (hrel : S.relVel = none) (a : Algo)
    (f : Fin n → K) : ∃ y : Local K n d, y.m = S.M *ᵥ f ∧
      S.M *ᵥ collide S a f =
        (S.run f (S.run f (S.run f y (sourceLocal n d)) (relaxLocal n d false)) (sourceLocal n d)).m := by
  unfold collide
  rw [prog_eq]
  cases a with
  | base =>
    simp only [hrel, Option.isSome_none]
    unfold baseStep
    rw [run_append, run_append, run_append, run_append, run_append, run_transport, run_f2m, run_back]
    refine ⟨⟨S.M *ᵥ f, f, 0⟩, rfl, ?_⟩
    simp only [Bool.false_eq_true, if_false]
    rw [Matrix.mulVec_mulVec, hM, Matrix.one_mulVec]
    rfl
  | pull =>
    simp only [hrel, Option.isSome_none]
    unfold pullStep
    rw [run_append, run_append, run_append, run_append, run_append, run_f2m, run_back]
    refine ⟨⟨S.M *ᵥ f, 0, 0⟩, rfl, ?_⟩
    simp only [Bool.false_eq_true, if_false, run_nil]
    rw [Matrix.mulVec_mulVec, hM, Matrix.one_mulVec]

/-- A conserved moment whose source only reads this moment. -/
theorem collide_self (S : Kernel K n nc d) (hEQ : ∀ j w, S.EQ (S.consm j) w = w j) (hM : S.M * S.invM = 1)
    (hrel : S.relVel = none) (a : Algo) (j : Fin nc) (r : (Fin n → K) → K) (hr : S.source (S.consm j) = some r)
    (ρ : K → K) (hρ : ∀ m, r m = ρ (m (S.consm j))) (f : Fin n → K) :
    (S.M *ᵥ collide S a f) (S.consm j) =
      (fun v => v + S.dt / 2 * ρ v)^[2] ((S.M *ᵥ f) (S.consm j)) := by
  obtain ⟨y, hy, h⟩ := collide_moments S hM hrel a f
  rw [h, run_source_self S f _ _ r hr ρ hρ, (C38_relaxation S hEQ f _).2.1, run_source_self S f _ _ r hr ρ hρ, hy]
  rfl

/-- A conserved moment without source, whatever the sources of the other moments are. -/
theorem collide_none (S : Kernel K n nc d) (hEQ : ∀ j w, S.EQ (S.consm j) w = w j) (hM : S.M * S.invM = 1)
    (hrel : S.relVel = none) (a : Algo) (j : Fin nc) (hj : S.source (S.consm j) = none) (f : Fin n → K) :
    (S.M *ᵥ collide S a f) (S.consm j) = (S.M *ᵥ f) (S.consm j) := by
  obtain ⟨y, hy, h⟩ := collide_moments S hM hrel a f
  rw [h, C45_no_source S f _ _ hj, (C38_relaxation S hEQ f _).2.1, C45_no_source S f _ _ hj, hy]

/-- The conserved moments with triangular sources: two half steps. -/
theorem collide_euler (S : Kernel K n nc d) (hEQ : ∀ j w, S.EQ (S.consm j) w = w j) (hM : S.M * S.invM = 1)
    (hrel : S.relVel = none) (hT : Triangular S.source) (a : Algo) (f : Fin n → K) :
    ∃ m : Fin n → K, (∀ j, m (S.consm j) = euler S.dt S.source (S.M *ᵥ f) (S.consm j)) ∧
      S.M *ᵥ collide S a f = euler S.dt S.source m := by
  obtain ⟨y, hy, h⟩ := collide_moments S hM hrel a f
  refine ⟨(S.run f (S.run f y (sourceLocal n d)) (relaxLocal n d false)).m, fun j => ?_, ?_⟩
  · rw [(C38_relaxation S hEQ f _).2.1, run_source S _ _ hT, hy]
  · rw [h, run_source S _ _ hT]

/-- With a relative velocity and the Pull algorithm, a moment which does not depend on the frame (the mass): only the
half step after the relaxation counts. -/
theorem collide_relative (S : Kernel K n nc d) (hM : S.M * S.invM = 1) (hrel : S.relVel.isSome = true)
    (i : Fin n) (hi : (i : Nat) < nc) (hTu : ∀ u, S.Tu u i = Pi.single i 1) (hTmu : ∀ u, S.Tmu u i = Pi.single i 1)
    (r : (Fin n → K) → K) (hr : S.source i = some r) (ρ : K → K) (hρ : ∀ m, r m = ρ (m i)) (f : Fin n → K) :
    (S.M *ᵥ collide S .pull f) i = (S.M *ᵥ f) i + S.dt / 2 * ρ ((S.M *ᵥ f) i) := by
  unfold collide
  rw [prog_eq]
  simp only [hrel]
  unfold pullStep
  rw [run_append, run_append, run_append, run_append, run_append, run_back]
  simp only [if_true]
  set z := S.run f (S.run f (S.run f ⟨0, 0, 0⟩ (f2mLocal n nc d false true)) (sourceLocal n d))
    (relaxLocal n d true) with hz
  clear_value z
  have hrow : ∀ (T : Matrix (Fin n) (Fin n) K) (v : Fin n → K), T i = Pi.single i 1 → (T *ᵥ v) i = v i := by
    intro T v hT
    show T i ⬝ᵥ v = v i
    rw [hT, single_one_dotProduct]
  have h1 : (S.run f z (restoreLocal n nc d)).m i = (S.M *ᵥ f) i := by
    unfold restoreLocal
    rw [run_mom S f z false true (front n nc) ((List.nodup_finRange n).filter _)]
    simp only [if_true, Bool.false_eq_true, if_false]
    rw [if_pos (by simp [front, hi]), ← Matrix.mulVec_mulVec, hrow _ _ (hTu _)]
  rw [Matrix.mulVec_mulVec, ← Matrix.mul_assoc, hM, Matrix.one_mul, hrow _ _ (hTmu _),
    run_source_self S f _ _ r hr ρ hρ, h1]

end local_

/-! ## The totals -/

section totals
variable {K : Type} [Field K] {n nc d dim p : Nat}

/-- The total over all the processes of the linear form `w` of the distribution functions. -/
def total (g : Grid dim) (w : Fin n → K) (σ : Proc g → Simu K n d dim) : K :=
  ∑ c : Proc g, ∑ x ∈ inner (size g c) g.w, w ⬝ᵥ (σ c).arr x

theorem card_box (N : Fin dim → Nat) : (box N).card = ∏ i, N i := by
  simp [box]

/-- The totals of linear forms on which the collision is affine, on a periodic domain. -/
theorem totals_periodic (hdim : dim ≤ 3) (g : Grid dim) (hlarge : ∀ c i, g.w i ≤ size g c i)
    (S : Kernel K n nc d) (hfront : ∀ j, (S.consm j : Nat) < nc)
    (vel : Fin n → Cell dim) (a : Algo) (hv : ∀ j i, |vel j i| ≤ g.w i)
    (Q : Proc g → Setup K n nc d dim) (hQ : Uniform g S vel a Q) (hQb : ∀ c t A, (Q c).bc t A = A)
    (σ₀ : Proc g → Simu K n d dim) (h0 : ∀ c, (σ₀ c).Start (Q c))
    (k : Nat) (σ : Proc g → Simu K n d dim) (hr : PRun g Q σ₀ k σ)
    (W : Fin p → Fin n → K) (A : Matrix (Fin p) (Fin p) K) (b : Fin p → K)
    (hφ : ∀ f q, W q ⬝ᵥ collide S a f = (A *ᵥ fun q' => W q' ⬝ᵥ f) q + b q) :
    (fun q => total g (W q) σ) =
      (fun T => A *ᵥ T + ((∏ i, g.N i : Nat) : K) • b)^[k] fun q => total g (W q) σ₀ := by
  have hown : ∀ c x, x ∈ inner (size g c) g.w ↔ Owned (size g c) g.w x := by
    intro c x
    simp [inner, Owned]
  obtain ⟨G, hG⟩ := C15_global_array_exists g fun c => (σ₀ c).arr
  obtain ⟨_, h2⟩ := C42_global_partial hdim g hlarge S hfront vel a Q hQ _
    (sameBoundary_periodic g vel hv Q hQb) σ₀ h0 G hG k σ hr
  have hsum : ∀ k, (fun q => ∑ y ∈ box g.N, W q ⬝ᵥ
      lbmRun g.N vel (collide S a) (fun _ H => H) S.dt G k y) =
      (fun T => A *ᵥ T + ((∏ i, g.N i : Nat) : K) • b)^[k] fun q => ∑ y ∈ box g.N, W q ⬝ᵥ G y := by
    intro k
    induction k with
    | zero => rfl
    | succ k ih =>
      rw [Function.iterate_succ_apply', ← ih]
      funext q
      set G' := lbmRun g.N vel (collide S a) (fun _ H => H) S.dt G k with hG'
      have e : ∀ y, W q ⬝ᵥ lbmRun g.N vel (collide S a) (fun _ H => H) S.dt G (k + 1) y =
          (∑ q', A q q' * W q' ⬝ᵥ lbmStep g.N vel id (fun _ H => H) (k * S.dt) G' y) + b q :=
        fun y => hφ _ q
      rw [Finset.sum_congr rfl fun y _ => e y, Finset.sum_add_distrib, Finset.sum_comm, Finset.sum_const, card_box,
        nsmul_eq_mul]
      simp only [Pi.add_apply, Pi.smul_apply, smul_eq_mul]
      congr 1
      refine Finset.sum_congr rfl fun q' _ => ?_
      rw [← Finset.mul_sum, sum_lbmStep g.N vel id (W q') (fun _ => rfl)]
  have e1 : ∀ q, total g (W q) σ =
      ∑ y ∈ box g.N, W q ⬝ᵥ lbmRun g.N vel (collide S a) (fun _ H => H) S.dt G k y := by
    intro q
    rw [← sum_owned g fun y => W q ⬝ᵥ lbmRun g.N vel (collide S a) (fun _ H => H) S.dt G k y]
    refine Finset.sum_congr rfl fun c _ => Finset.sum_congr rfl fun x hx => ?_
    rw [h2 c x ((hown c x).1 hx)]
  have e2 : ∀ q, total g (W q) σ₀ = ∑ y ∈ box g.N, W q ⬝ᵥ G y := by
    intro q
    rw [← sum_owned g fun y => W q ⬝ᵥ G y]
    refine Finset.sum_congr rfl fun c _ => Finset.sum_congr rfl fun x hx => ?_
    have := hG c x ((hown c x).1 hx)
    rw [← this]
  simp only [e1, e2]
  exact hsum k

/-- One linear form. -/
theorem total_periodic (hdim : dim ≤ 3) (g : Grid dim) (hlarge : ∀ c i, g.w i ≤ size g c i)
    (S : Kernel K n nc d) (hfront : ∀ j, (S.consm j : Nat) < nc)
    (vel : Fin n → Cell dim) (a : Algo) (hv : ∀ j i, |vel j i| ≤ g.w i)
    (Q : Proc g → Setup K n nc d dim) (hQ : Uniform g S vel a Q) (hQb : ∀ c t A, (Q c).bc t A = A)
    (σ₀ : Proc g → Simu K n d dim) (h0 : ∀ c, (σ₀ c).Start (Q c))
    (k : Nat) (σ : Proc g → Simu K n d dim) (hr : PRun g Q σ₀ k σ)
    (w : Fin n → K) (α β : K) (hφ : ∀ f, w ⬝ᵥ collide S a f = α * w ⬝ᵥ f + β) :
    total g w σ = (fun T => α * T + ((∏ i, g.N i : Nat) : K) * β)^[k] (total g w σ₀) := by
  have h := totals_periodic hdim g hlarge S hfront vel a hv Q hQ hQb σ₀ h0 k σ hr (p := 1) (fun _ => w)
    (fun _ _ => α) (fun _ => β) (fun f q => by rw [hφ]; simp [Matrix.mulVec, dotProduct])
  have hs : Function.Semiconj (fun T : Fin 1 → K => T 0)
      (fun T => (fun _ _ => α : Matrix (Fin 1) (Fin 1) K) *ᵥ T + ((∏ i, g.N i : Nat) : K) • fun _ => β)
      (fun T => α * T + ((∏ i, g.N i : Nat) : K) * β) := by
    intro T
    simp [Matrix.mulVec, dotProduct]
  have := (hs.iterate_right k) fun _ => total g w σ₀
  rw [← h] at this
  exact this

/-- **C97, no source.** On a fully periodic domain the total of a conserved moment which has no source is the same
after any number of time steps, whatever the sources of the other moments are (nonlinear and coupled ones, which
read this moment): every process grid and every schedule of the messages, Base and Pull, all backends, nonlinear
equilibria, no relative velocity. -/
theorem C97_no_source (hdim : dim ≤ 3) (g : Grid dim) (hlarge : ∀ c i, g.w i ≤ size g c i)
    (S : Kernel K n nc d) (hfront : ∀ j, (S.consm j : Nat) < nc) (hEQ : ∀ j w, S.EQ (S.consm j) w = w j)
    (hM : S.M * S.invM = 1) (hrel : S.relVel = none)
    (vel : Fin n → Cell dim) (a : Algo) (hv : ∀ j i, |vel j i| ≤ g.w i)
    (Q : Proc g → Setup K n nc d dim) (hQ : Uniform g S vel a Q) (hQb : ∀ c t A, (Q c).bc t A = A)
    (σ₀ : Proc g → Simu K n d dim) (h0 : ∀ c, (σ₀ c).Start (Q c))
    (k : Nat) (σ : Proc g → Simu K n d dim) (hr : PRun g Q σ₀ k σ)
    (j : Fin nc) (hj : S.source (S.consm j) = none) :
    total g (S.M (S.consm j)) σ = total g (S.M (S.consm j)) σ₀ := by
  have h := total_periodic hdim g hlarge S hfront vel a hv Q hQ hQb σ₀ h0 k σ hr (S.M (S.consm j)) 1 0
    (fun f => by
      rw [one_mul, add_zero]
      exact collide_none S hEQ hM hrel a j hj f)
  simp only [one_mul, mul_zero, add_zero] at h
  exact h.trans (congrFun (Function.iterate_id k) _)

/-- **C97, production and decay.** When the source of a conserved moment is `λ m + b`, the total of this moment is,
after `k` time steps, the result of `2 k` half steps of the explicit Euler method for `T' = λ T + (number of cells) b`:
each time step integrates the source on the whole time step. The sources of the other moments are arbitrary. -/
theorem C97_rate (hdim : dim ≤ 3) (g : Grid dim) (hlarge : ∀ c i, g.w i ≤ size g c i)
    (S : Kernel K n nc d) (hfront : ∀ j, (S.consm j : Nat) < nc) (hEQ : ∀ j w, S.EQ (S.consm j) w = w j)
    (hM : S.M * S.invM = 1) (hrel : S.relVel = none)
    (vel : Fin n → Cell dim) (a : Algo) (hv : ∀ j i, |vel j i| ≤ g.w i)
    (Q : Proc g → Setup K n nc d dim) (hQ : Uniform g S vel a Q) (hQb : ∀ c t A, (Q c).bc t A = A)
    (σ₀ : Proc g → Simu K n d dim) (h0 : ∀ c, (σ₀ c).Start (Q c))
    (k : Nat) (σ : Proc g → Simu K n d dim) (hr : PRun g Q σ₀ k σ)
    (j : Fin nc) (lam b : K) (r : (Fin n → K) → K) (hj : S.source (S.consm j) = some r)
    (hlin : ∀ m, r m = lam * m (S.consm j) + b) :
    total g (S.M (S.consm j)) σ =
      (fun T => T + S.dt / 2 * (lam * T + ((∏ i, g.N i : Nat) : K) * b))^[2 * k]
        (total g (S.M (S.consm j)) σ₀) := by
  have h := total_periodic hdim g hlarge S hfront vel a hv Q hQ hQb σ₀ h0 k σ hr (S.M (S.consm j))
    ((1 + S.dt / 2 * lam) * (1 + S.dt / 2 * lam)) ((1 + S.dt / 2 * lam) * (S.dt / 2 * b) + S.dt / 2 * b)
    (fun f => by
      refine (collide_self S hEQ hM hrel a j r hj (fun v => lam * v + b) hlin f).trans ?_
      simp only [Function.iterate_succ, Function.iterate_zero, Function.comp_apply, id]
      show _ = _ * (S.M *ᵥ f) (S.consm j) + _
      ring)
  rw [h, Function.iterate_mul]
  congr 1
  funext T
  simp only [Function.iterate_succ, Function.iterate_zero, Function.comp_apply, id]
  ring

/-- A constant source: the total grows by `b dt` per cell and per time step. -/
theorem C97_constant [CharZero K] (hdim : dim ≤ 3) (g : Grid dim) (hlarge : ∀ c i, g.w i ≤ size g c i)
    (S : Kernel K n nc d) (hfront : ∀ j, (S.consm j : Nat) < nc) (hEQ : ∀ j w, S.EQ (S.consm j) w = w j)
    (hM : S.M * S.invM = 1) (hrel : S.relVel = none)
    (vel : Fin n → Cell dim) (a : Algo) (hv : ∀ j i, |vel j i| ≤ g.w i)
    (Q : Proc g → Setup K n nc d dim) (hQ : Uniform g S vel a Q) (hQb : ∀ c t A, (Q c).bc t A = A)
    (σ₀ : Proc g → Simu K n d dim) (h0 : ∀ c, (σ₀ c).Start (Q c))
    (k : Nat) (σ : Proc g → Simu K n d dim) (hr : PRun g Q σ₀ k σ)
    (j : Fin nc) (b : K) (r : (Fin n → K) → K) (hj : S.source (S.consm j) = some r) (hb : ∀ m, r m = b) :
    total g (S.M (S.consm j)) σ =
      total g (S.M (S.consm j)) σ₀ + (k * S.dt) * (((∏ i, g.N i : Nat) : K) * b) := by
  rw [C97_rate hdim g hlarge S hfront hEQ hM hrel vel a hv Q hQ hQb σ₀ h0 k σ hr j 0 b r hj
    (fun m => by rw [hb]; ring)]
  simp only [zero_mul, zero_add]
  have : ∀ l : Nat, ∀ T c : K, (fun T : K => T + c)^[l] T = T + l * c := by
    intro l
    induction l with
    | zero => intro T c; simp
    | succ l ih =>
      intro T c
      rw [Function.iterate_succ_apply', ih]
      push_cast
      ring
  rw [this]
  push_cast
  ring

/-- **C97, linear systems of sources** (partial: the sources are triangular in the sense of `C45_step_partial`; the
other moments may have any triangular source). When the sources of the conserved moments are affine functions of the
conserved moments (`q' = A q + b`; a row of zeros for a moment without source), the vector of the totals is the result
of `2 k` half steps of the explicit Euler method for `T' = A T + (number of cells) b`. -/
theorem C97_linear_partial (hdim : dim ≤ 3) (g : Grid dim) (hlarge : ∀ c i, g.w i ≤ size g c i)
    (S : Kernel K n nc d) (hfront : ∀ j, (S.consm j : Nat) < nc) (hEQ : ∀ j w, S.EQ (S.consm j) w = w j)
    (hM : S.M * S.invM = 1) (hrel : S.relVel = none) (hT : Triangular S.source)
    (vel : Fin n → Cell dim) (a : Algo) (hv : ∀ j i, |vel j i| ≤ g.w i)
    (Q : Proc g → Setup K n nc d dim) (hQ : Uniform g S vel a Q) (hQb : ∀ c t A, (Q c).bc t A = A)
    (σ₀ : Proc g → Simu K n d dim) (h0 : ∀ c, (σ₀ c).Start (Q c))
    (k : Nat) (σ : Proc g → Simu K n d dim) (hr : PRun g Q σ₀ k σ)
    (A : Matrix (Fin nc) (Fin nc) K) (b : Fin nc → K)
    (hlin : ∀ j m, ((S.source (S.consm j)).getD fun _ => 0) m = (A *ᵥ fun l => m (S.consm l)) j + b j) :
    (fun j => total g (S.M (S.consm j)) σ) =
      (fun T => T + (S.dt / 2) • (A *ᵥ T + ((∏ i, g.N i : Nat) : K) • b))^[2 * k]
        fun j => total g (S.M (S.consm j)) σ₀ := by
  have he : ∀ m j, euler S.dt S.source m (S.consm j) =
      m (S.consm j) + S.dt / 2 * ((A *ᵥ fun l => m (S.consm l)) j + b j) := by
    intro m j
    have := hlin j m
    unfold euler
    cases h : S.source (S.consm j) with
    | none => rw [h] at this; simp only [Option.getD_none] at this; rw [← this]; simp
    | some r => rw [h] at this; simp only [Option.getD_some] at this; simp only [this]
  set B : Matrix (Fin nc) (Fin nc) K := 1 + (S.dt / 2) • A with hB
  have hBm : ∀ v : Fin nc → K, B *ᵥ v = v + (S.dt / 2) • (A *ᵥ v) := by
    intro v
    rw [hB, Matrix.add_mulVec, Matrix.one_mulVec, Matrix.smul_mulVec]
  have h := totals_periodic hdim g hlarge S hfront vel a hv Q hQ hQb σ₀ h0 k σ hr (fun j => S.M (S.consm j))
    (B * B) (B *ᵥ ((S.dt / 2) • b) + (S.dt / 2) • b) (fun f j => by
      obtain ⟨m, hm, hc⟩ := collide_euler S hEQ hM hrel hT a f
      have e1 : (fun l => m (S.consm l)) = B *ᵥ (fun l => (S.M *ᵥ f) (S.consm l)) + (S.dt / 2) • b := by
        funext l
        rw [hm, he, hBm]
        simp only [Pi.add_apply, Pi.smul_apply, smul_eq_mul]
        ring
      have e2 : (S.M *ᵥ collide S a f) (S.consm j) = (B *ᵥ (fun l => m (S.consm l))) j + S.dt / 2 * b j := by
        rw [hc, he, hBm]
        simp only [Pi.add_apply, Pi.smul_apply, smul_eq_mul]
        ring
      refine e2.trans ?_
      rw [e1, Matrix.mulVec_add, Matrix.mulVec_mulVec]
      simp only [Pi.add_apply, Pi.smul_apply, smul_eq_mul]
      rw [add_assoc]
      rfl)
  rw [h, Function.iterate_mul]
  congr 1
  funext T
  set N : K := ((∏ i, g.N i : Nat) : K)
  have hF : ∀ T, T + (S.dt / 2) • (A *ᵥ T + N • b) = B *ᵥ T + N • ((S.dt / 2) • b) := by
    intro T
    rw [hBm, smul_add, smul_comm N, add_assoc]
  simp only [Function.iterate_succ, Function.iterate_zero, Function.comp_apply, id, hF]
  rw [Matrix.mulVec_add, Matrix.mulVec_mulVec, smul_add, add_assoc]
  simp only [Matrix.mulVec_smul]

/-- **C97, exchanges** (partial: triangular sources). When the sources of the conserved moments compensate each other,
`∑ j, α j * source j = 0`, the total `∑ j, α j * T j` does not change; the sources may be nonlinear. -/
theorem C97_exchange_partial (hdim : dim ≤ 3) (g : Grid dim) (hlarge : ∀ c i, g.w i ≤ size g c i)
    (S : Kernel K n nc d) (hfront : ∀ j, (S.consm j : Nat) < nc) (hEQ : ∀ j w, S.EQ (S.consm j) w = w j)
    (hM : S.M * S.invM = 1) (hrel : S.relVel = none) (hT : Triangular S.source)
    (vel : Fin n → Cell dim) (a : Algo) (hv : ∀ j i, |vel j i| ≤ g.w i)
    (Q : Proc g → Setup K n nc d dim) (hQ : Uniform g S vel a Q) (hQb : ∀ c t A, (Q c).bc t A = A)
    (σ₀ : Proc g → Simu K n d dim) (h0 : ∀ c, (σ₀ c).Start (Q c))
    (k : Nat) (σ : Proc g → Simu K n d dim) (hr : PRun g Q σ₀ k σ)
    (α : Fin nc → K) (hbal : ∀ m, ∑ j, α j * ((S.source (S.consm j)).getD fun _ => 0) m = 0) :
    ∑ j, α j * total g (S.M (S.consm j)) σ = ∑ j, α j * total g (S.M (S.consm j)) σ₀ := by
  have he : ∀ m, ∑ j, α j * euler S.dt S.source m (S.consm j) = ∑ j, α j * m (S.consm j) := by
    intro m
    have : ∀ j, α j * euler S.dt S.source m (S.consm j) =
        α j * m (S.consm j) + S.dt / 2 * (α j * ((S.source (S.consm j)).getD fun _ => 0) m) := by
      intro j
      unfold euler
      cases h : S.source (S.consm j) with
      | none => simp
      | some r => simp only [Option.getD_some]; ring
    rw [Finset.sum_congr rfl fun j _ => this j, Finset.sum_add_distrib, ← Finset.mul_sum, hbal, mul_zero, add_zero]
  set w : Fin n → K := ∑ j, α j • S.M (S.consm j) with hw
  have hdot : ∀ f, w ⬝ᵥ f = ∑ j, α j * (S.M *ᵥ f) (S.consm j) := by
    intro f
    rw [hw, sum_dotProduct]
    refine Finset.sum_congr rfl fun j _ => ?_
    rw [smul_dotProduct, smul_eq_mul]
    rfl
  have htot : ∀ τ : Proc g → Simu K n d dim, ∑ j, α j * total g (S.M (S.consm j)) τ = total g w τ := by
    intro τ
    unfold total
    simp only [hdot, Finset.mul_sum]
    rw [Finset.sum_comm]
    refine Finset.sum_congr rfl fun c _ => ?_
    rw [Finset.sum_comm]
    rfl
  have h := total_periodic hdim g hlarge S hfront vel a hv Q hQ hQb σ₀ h0 k σ hr w 1 0
    (fun f => by
      obtain ⟨m, hm, hc⟩ := collide_euler S hEQ hM hrel hT a f
      rw [one_mul, add_zero, hdot, hdot, hc, he, Finset.sum_congr rfl fun j _ => by rw [hm], he])
  simp only [one_mul, mul_zero, add_zero] at h
  rw [htot, htot]
  exact h.trans (congrFun (Function.iterate_id k) _)

/-- **C97 is false with a relative velocity** (Pull algorithm): `restore_conserved_moments` (base.py 255-263,
pull.py 51-53) computes the conserved moments again from the distribution functions after the relaxation, so that the
half step of the source before the relaxation is lost. For every such kernel, the total of a conserved moment which
does not depend on the frame (the mass), with the source `λ m + b`, is the result of `k` half steps instead of
`2 k`: half of the source is integrated. -/
theorem C97_relative_negation (hdim : dim ≤ 3) (g : Grid dim) (hlarge : ∀ c i, g.w i ≤ size g c i)
    (S : Kernel K n nc d) (hfront : ∀ j, (S.consm j : Nat) < nc)
    (hM : S.M * S.invM = 1) (hrel : S.relVel.isSome = true)
    (vel : Fin n → Cell dim) (hv : ∀ j i, |vel j i| ≤ g.w i)
    (Q : Proc g → Setup K n nc d dim) (hQ : Uniform g S vel .pull Q) (hQb : ∀ c t A, (Q c).bc t A = A)
    (σ₀ : Proc g → Simu K n d dim) (h0 : ∀ c, (σ₀ c).Start (Q c))
    (k : Nat) (σ : Proc g → Simu K n d dim) (hr : PRun g Q σ₀ k σ)
    (j : Fin nc) (hTu : ∀ u, S.Tu u (S.consm j) = Pi.single (S.consm j) 1)
    (hTmu : ∀ u, S.Tmu u (S.consm j) = Pi.single (S.consm j) 1)
    (lam b : K) (r : (Fin n → K) → K) (hj : S.source (S.consm j) = some r)
    (hlin : ∀ m, r m = lam * m (S.consm j) + b) :
    total g (S.M (S.consm j)) σ =
      (fun T => T + S.dt / 2 * (lam * T + ((∏ i, g.N i : Nat) : K) * b))^[k] (total g (S.M (S.consm j)) σ₀) := by
  have h := total_periodic hdim g hlarge S hfront vel .pull hv Q hQ hQb σ₀ h0 k σ hr (S.M (S.consm j))
    (1 + S.dt / 2 * lam) (S.dt / 2 * b)
    (fun f => by
      refine (collide_relative S hM hrel _ (hfront j) hTu hTmu r hj (fun v => lam * v + b) hlin f).trans ?_
      show _ = _ * (S.M *ᵥ f) (S.consm j) + _
      ring)
  rw [h]
  congr 1
  funext T
  ring

/-- **C97 is false for exchanges in the other order** (the sources are not triangular): a substance declared first
decays, `q_0' = -κ q_0`, and becomes a substance declared after, `q_1' = κ q_0`. The second source is computed with the
first moment already updated (`C45_coupled_negation`): for every kernel the sum of the two totals changes in each time
step by `-(κ dt / 2)² (2 - κ dt / 2) T_0`. -/
theorem C97_order_negation (hdim : dim ≤ 3) (g : Grid dim) (hlarge : ∀ c i, g.w i ≤ size g c i)
    (S : Kernel K n nc d) (hfront : ∀ j, (S.consm j : Nat) < nc) (hEQ : ∀ j w, S.EQ (S.consm j) w = w j)
    (hM : S.M * S.invM = 1) (hrel : S.relVel = none)
    (vel : Fin n → Cell dim) (a : Algo) (hv : ∀ j i, |vel j i| ≤ g.w i)
    (Q : Proc g → Setup K n nc d dim) (hQ : Uniform g S vel a Q) (hQb : ∀ c t A, (Q c).bc t A = A)
    (σ₀ : Proc g → Simu K n d dim) (h0 : ∀ c, (σ₀ c).Start (Q c))
    (σ : Proc g → Simu K n d dim) (hr : PRun g Q σ₀ 1 σ)
    (j l : Fin nc) (hjl : S.consm j < S.consm l) (κ : K)
    (hj : S.source (S.consm j) = some fun m => -κ * m (S.consm j))
    (hl : S.source (S.consm l) = some fun m => κ * m (S.consm j)) :
    total g (S.M (S.consm j)) σ + total g (S.M (S.consm l)) σ =
      total g (S.M (S.consm j)) σ₀ + total g (S.M (S.consm l)) σ₀ -
        (κ * S.dt / 2) ^ 2 * (2 - κ * S.dt / 2) * total g (S.M (S.consm j)) σ₀ := by
  have hsrc : ∀ (f : Fin n → K) (x : Local K n d), (S.run f x (sourceLocal n d)).m (S.consm l) =
      x.m (S.consm l) + S.dt / 2 * (κ * (x.m (S.consm j) + S.dt / 2 * (-κ * x.m (S.consm j)))) := by
    intro f x
    exact run_source_before S f x _ _ hjl _ hj (fun v => -κ * v) (fun _ => rfl) _ hl (fun v => κ * v) fun _ => rfl
  have hself : ∀ (f : Fin n → K) (x : Local K n d), (S.run f x (sourceLocal n d)).m (S.consm j) =
      x.m (S.consm j) + S.dt / 2 * (-κ * x.m (S.consm j)) := fun f x =>
    run_source_self S f x _ _ hj (fun v => -κ * v) fun _ => rfl
  set e : K := κ * S.dt / 2 with he
  have h := totals_periodic hdim g hlarge S hfront vel a hv Q hQ hQb σ₀ h0 1 σ hr
    ![S.M (S.consm j), S.M (S.consm l)] !![(1 - e) ^ 2, 0; e * (1 - e) + e * (1 - e) ^ 2, 1] ![0, 0] (fun f q => by
      obtain ⟨y, hy, hc⟩ := collide_moments S hM hrel a f
      fin_cases q
      · show (S.M *ᵥ collide S a f) (S.consm j) = _
        rw [hc, hself, (C38_relaxation S hEQ f _).2.1, hself, hy]
        simp [Matrix.mulVec, dotProduct, Fin.sum_univ_two]
        show _ = (1 - e) ^ 2 * (S.M (S.consm j) ⬝ᵥ f)
        simp only [dotProduct]
        rw [he]; ring
      · show (S.M *ᵥ collide S a f) (S.consm l) = _
        rw [hc, hsrc, (C38_relaxation S hEQ f _).2.1, (C38_relaxation S hEQ f _).2.1, hself, hsrc, hy]
        simp [Matrix.mulVec, dotProduct, Fin.sum_univ_two]
        show _ = (e * (1 - e) + e * (1 - e) ^ 2) * (S.M (S.consm j) ⬝ᵥ f) + S.M (S.consm l) ⬝ᵥ f
        simp only [dotProduct]
        rw [he]; ring)
  have h1 := congrFun h 0
  have h2 := congrFun h 1
  simp [dotProduct, Fin.sum_univ_two] at h1 h2
  rw [h1, h2]
  ring

end totals

section walls
variable {K : Type} [Field K] [LinearOrder K] [IsStrictOrderedRing K] [FloorRing K] {nc d dim : Nat}

/-- The total over the fluid cells of all the processes of the linear form `w` of the distribution functions. -/
def fluidTotal {s : Sten dim} (ST : Domain.State K dim s.nu) (g : Grid dim) (w : Fin s.ns → K)
    (σ : Proc g → Simu K s.ns d dim) : K :=
  ∑ c : Proc g, ∑ x ∈ inner (size g c) g.w with fluidMap g.w ST (globalPos (first g c) g.w x) = true,
    w ⬝ᵥ (σ c).arr x

/-- The number of fluid cells of the domain. -/
def fluidCells {s : Sten dim} (ST : Domain.State K dim s.nu) (g : Grid dim) : Nat :=
  ((box g.N).filter fun y => fluidMap g.w ST y = true).card

/-- The totals over the fluid cells of a linear form on which the collision is affine, walls at rest. -/
theorem total_walls (hdim : dim ≤ 3) {s : Sten dim} (D : WallData K dim s) (lo : Fin dim → K) (dx : K)
    (lab : Fin dim → Bool → Int) (hD : D.WF lab) (g : Grid dim)
    (ST : Domain.State K dim s.nu) (J : List (Method dim × List (Entry K dim s.ns)))
    (hJ : OnGrid D (boxGrid g.N g.w lo dx lab s) ST J)
    (hfree : ∀ t, Free s (flat s (withValues s (boxGrid g.N g.w lo dx lab s) D.ψ J t)))
    (hseal : Sealed g.N g.w ST) (hmeth : AllMethods D) (hreads : ReadsFluid D g.N g.w lo dx lab ST J)
    (S : Kernel K s.ns nc d) (hfront : ∀ j, (S.consm j : Nat) < nc) (a : Algo)
    (w : Fin s.ns → K) (heven : Even w) (hrest : AtRest D w)
    (α β : K) (hφ : ∀ f, w ⬝ᵥ collide S a f = α * w ⬝ᵥ f + β)
    (Q : Proc g → Setup K s.ns nc d dim) (hQ : FluidRun D g lo dx lab S a Q)
    (σ₀ : Proc g → Simu K s.ns d dim) (h0 : ∀ c, (σ₀ c).Start (Q c))
    (k : Nat) (σ : Proc g → Simu K s.ns d dim) (hr : PRun g Q σ₀ k σ) :
    fluidTotal ST g w σ = (fun T => α * T + (fluidCells ST g : K) * β)^[k] (fluidTotal ST g w σ₀) := by
  have hown : ∀ c x, x ∈ inner (size g c) g.w ↔ Owned (size g c) g.w x := by
    intro c x
    simp [inner, Owned]
  have hlinks : AllLinks g.N g.w ST := by
    intro y hy hyf u
    by_cases h : Open (ST.link u (fun i => y i + g.w i)).flag
    · exact Or.inl (hseal y hy hyf u (s.usym u) (hD.sten.usym u) h).1
    · exact Or.inr h
  obtain ⟨G, hG⟩ := C15_global_array_exists g fun c => (σ₀ c).arr
  obtain ⟨_, h2⟩ := C73_fluid_cells hdim g hQ.walls.large S hfront s.vel a _ Q (hQ.uniform hD ST hJ.built) _
    (sameBoundary_walls D g lo dx lab hD Q hQ.walls ST J hJ hfree)
    (fluidBoundary_walls D g.N g.w lo dx lab hD ST J hJ hfree hlinks hmeth hreads) σ₀ h0 G
    (fun c x hx _ => hG c x hx) k σ hr
  have hsum : ∀ k, ∑ y ∈ box g.N with fluidMap g.w ST y = true, w ⬝ᵥ
      lbmRun g.N s.vel (collide S a) (wallBc D g.N g.w lo dx lab J) S.dt G k y =
      (fun T => α * T + (fluidCells ST g : K) * β)^[k]
        (∑ y ∈ box g.N with fluidMap g.w ST y = true, w ⬝ᵥ G y) := by
    intro k
    induction k with
    | zero => rfl
    | succ k ih =>
      rw [Function.iterate_succ_apply', ← ih]
      set G' := lbmRun g.N s.vel (collide S a) (wallBc D g.N g.w lo dx lab J) S.dt G k with hG'
      have e : ∀ y, w ⬝ᵥ lbmRun g.N s.vel (collide S a) (wallBc D g.N g.w lo dx lab J) S.dt G (k + 1) y =
          α * w ⬝ᵥ lbmStep g.N s.vel id (wallBc D g.N g.w lo dx lab J) (k * S.dt) G' y + β :=
        fun y => hφ _
      rw [Finset.sum_congr rfl fun y _ => e y, Finset.sum_add_distrib, ← Finset.mul_sum, Finset.sum_const,
        nsmul_eq_mul, sum_walls hD hJ hfree hmeth hseal w heven hrest id (fun _ => rfl)]
      rfl
  have key : ∀ (τ : Proc g → Simu K s.ns d dim) (H : Arr K s.ns dim),
      (∀ c x, Owned (size g c) g.w x → fluidMap g.w ST (globalPos (first g c) g.w x) = true →
        (τ c).arr x = H (globalPos (first g c) g.w x)) →
      fluidTotal ST g w τ = ∑ y ∈ box g.N with fluidMap g.w ST y = true, w ⬝ᵥ H y := by
    intro τ H hH
    unfold fluidTotal
    rw [Finset.sum_filter, ← sum_owned g fun y => if fluidMap g.w ST y = true then w ⬝ᵥ H y else 0]
    refine Finset.sum_congr rfl fun c _ => ?_
    rw [Finset.sum_filter]
    refine Finset.sum_congr rfl fun x hx => ?_
    split_ifs with h
    · rw [hH c x ((hown c x).1 hx) h]
    · rfl
  rw [key σ _ h2, key σ₀ G fun c x hx _ => hG c x hx]
  exact hsum k

/-- **C97, no source, walls.** In a domain without holes, with bounce-back and a fluid at rest on the walls and
obstacles (C78), the total over the fluid cells of a conserved moment which does not see the sign of the velocities
and has no source does not change, whatever the sources of the other moments are (gravity does not change the
mass). -/
theorem C97_no_source_walls (hdim : dim ≤ 3) {s : Sten dim} (D : WallData K dim s) (lo : Fin dim → K) (dx : K)
    (lab : Fin dim → Bool → Int) (hD : D.WF lab) (g : Grid dim)
    (ST : Domain.State K dim s.nu) (J : List (Method dim × List (Entry K dim s.ns)))
    (hJ : OnGrid D (boxGrid g.N g.w lo dx lab s) ST J)
    (hfree : ∀ t, Free s (flat s (withValues s (boxGrid g.N g.w lo dx lab s) D.ψ J t)))
    (hseal : Sealed g.N g.w ST) (hmeth : AllMethods D) (hreads : ReadsFluid D g.N g.w lo dx lab ST J)
    (S : Kernel K s.ns nc d) (hfront : ∀ j, (S.consm j : Nat) < nc)
    (hEQ : ∀ j w, S.EQ (S.consm j) w = w j) (hM : S.M * S.invM = 1) (hrel : S.relVel = none) (a : Algo)
    (l : Fin nc) (heven : Even (S.M (S.consm l))) (hrest : AtRest D (S.M (S.consm l)))
    (hl : S.source (S.consm l) = none)
    (Q : Proc g → Setup K s.ns nc d dim) (hQ : FluidRun D g lo dx lab S a Q)
    (σ₀ : Proc g → Simu K s.ns d dim) (h0 : ∀ c, (σ₀ c).Start (Q c))
    (k : Nat) (σ : Proc g → Simu K s.ns d dim) (hr : PRun g Q σ₀ k σ) :
    fluidTotal ST g (S.M (S.consm l)) σ = fluidTotal ST g (S.M (S.consm l)) σ₀ := by
  have h := total_walls hdim D lo dx lab hD g ST J hJ hfree hseal hmeth hreads S hfront a _ heven hrest 1 0
    (fun f => by
      rw [one_mul, add_zero]
      exact collide_none S hEQ hM hrel a l hl f) Q hQ σ₀ h0 k σ hr
  simp only [one_mul, mul_zero, add_zero] at h
  exact h.trans (congrFun (Function.iterate_id k) _)

/-- **C97, production and decay, walls.** With the source `λ m + b` the total over the fluid cells is the result of
`2 k` half steps of the explicit Euler method for `T' = λ T + (number of fluid cells) b`: nothing is produced in the
solid. -/
theorem C97_rate_walls (hdim : dim ≤ 3) {s : Sten dim} (D : WallData K dim s) (lo : Fin dim → K) (dx : K)
    (lab : Fin dim → Bool → Int) (hD : D.WF lab) (g : Grid dim)
    (ST : Domain.State K dim s.nu) (J : List (Method dim × List (Entry K dim s.ns)))
    (hJ : OnGrid D (boxGrid g.N g.w lo dx lab s) ST J)
    (hfree : ∀ t, Free s (flat s (withValues s (boxGrid g.N g.w lo dx lab s) D.ψ J t)))
    (hseal : Sealed g.N g.w ST) (hmeth : AllMethods D) (hreads : ReadsFluid D g.N g.w lo dx lab ST J)
    (S : Kernel K s.ns nc d) (hfront : ∀ j, (S.consm j : Nat) < nc)
    (hEQ : ∀ j w, S.EQ (S.consm j) w = w j) (hM : S.M * S.invM = 1) (hrel : S.relVel = none) (a : Algo)
    (l : Fin nc) (heven : Even (S.M (S.consm l))) (hrest : AtRest D (S.M (S.consm l)))
    (lam b : K) (r : (Fin s.ns → K) → K) (hl : S.source (S.consm l) = some r)
    (hlin : ∀ m, r m = lam * m (S.consm l) + b)
    (Q : Proc g → Setup K s.ns nc d dim) (hQ : FluidRun D g lo dx lab S a Q)
    (σ₀ : Proc g → Simu K s.ns d dim) (h0 : ∀ c, (σ₀ c).Start (Q c))
    (k : Nat) (σ : Proc g → Simu K s.ns d dim) (hr : PRun g Q σ₀ k σ) :
    fluidTotal ST g (S.M (S.consm l)) σ =
      (fun T => T + S.dt / 2 * (lam * T + (fluidCells ST g : K) * b))^[2 * k]
        (fluidTotal ST g (S.M (S.consm l)) σ₀) := by
  have h := total_walls hdim D lo dx lab hD g ST J hJ hfree hseal hmeth hreads S hfront a _ heven hrest
    ((1 + S.dt / 2 * lam) * (1 + S.dt / 2 * lam)) ((1 + S.dt / 2 * lam) * (S.dt / 2 * b) + S.dt / 2 * b)
    (fun f => by
      refine (collide_self S hEQ hM hrel a l r hl (fun v => lam * v + b) hlin f).trans ?_
      simp only [Function.iterate_succ, Function.iterate_zero, Function.comp_apply, id]
      show _ = _ * (S.M *ᵥ f) (S.consm l) + _
      ring) Q hQ σ₀ h0 k σ hr
  rw [h, Function.iterate_mul]
  congr 1
  funext T
  simp only [Function.iterate_succ, Function.iterate_zero, Function.comp_apply, id]
  ring

end walls

end Pylbm.Sim
