import Verif.Sim.Witness
import Verif.Halo.Props
import Mathlib.Algebra.BigOperators.Ring.Finset
/-!
# C41, C42: decomposed runs and global conservation
-/

set_option linter.unusedSectionVars false

namespace Pylbm.Sim
open Scheme Halo SchemeSpec Matrix HaloSpec Mpi

variable {K : Type} [Field K] {n nc d dim : Nat}

/-! ## Specification: the scheme on the global array -/

/-- One step on the global array `G` of sizes `N`: periodic extension, boundary conditions `bc` at the time
`t`, transport and collision `φ`. -/
def lbmStep (N : Fin dim → Nat) (vel : Fin n → Cell dim) (φ : (Fin n → K) → Fin n → K)
    (bc : K → Arr K n dim → Arr K n dim) (t : K) (G : Arr K n dim) : Arr K n dim :=
  fun y => φ fun j => bc t (periodic N G) (fun i => y i - vel j i) j

/-- `k` steps from `G`. -/
def lbmRun (N : Fin dim → Nat) (vel : Fin n → Cell dim) (φ : (Fin n → K) → Fin n → K)
    (bc : K → Arr K n dim → Arr K n dim) (dt : K) (G : Arr K n dim) : Nat → Arr K n dim
  | 0 => G
  | k + 1 => lbmStep N vel φ bc (k * dt) (lbmRun N vel φ bc dt G k)

/-! ## Model of a parallel run -/

/-- The array `F` of a simulation. -/
def Simu.arr (s : Simu K n d dim) : Arr K n dim := s.mem.buf s.F

/-- Executions of `k` time steps on all the processes: in each step the halos are exchanged (`f.update()`,
simulation.py 385, any complete execution of the messages), then each process applies its boundary
conditions and does its step. -/
inductive PRun (g : Grid dim) (Q : Proc g → Setup K n nc d dim) (σ₀ : Proc g → Simu K n d dim) :
    Nat → (Proc g → Simu K n d dim) → Prop
  | init : PRun g Q σ₀ 0 σ₀
  | step (k : Nat) (σ : Proc g → Simu K n d dim) (eager : Proc g → Fin dim → Bool → Prop) (e : Nat)
      (s : State g (Fin n → K)) : PRun g Q σ₀ k σ → Reach g eager (fun c => (σ c).arr) e s → s.Done →
      PRun g Q σ₀ (k + 1) fun c => (σ c).apply { Q c with bc := fun t _ => (Q c).bc t (s.arr c) } .step

/-- All the processes use the same scheme and algorithm; their loops run over the owned cells. Backends
and other settings are free. -/
structure Uniform (g : Grid dim) (S : Kernel K n nc d) (vel : Fin n → Cell dim) (a : Algo)
    (Q : Proc g → Setup K n nc d dim) : Prop where
  scheme : ∀ c, (Q c).S = S
  vel : ∀ c, (Q c).vel = vel
  algo : ∀ c, (Q c).cfg.algo = a
  all : ∀ c, (Q c).cfg.checkFluid = false
  nodup : ∀ c, (Q c).Lin.Nodup
  loops : ∀ c x, x ∈ (Q c).Lin ↔ Owned (size g c) g.w x
  split : ∀ c, ¬ ((Q c).backend = .c ∧ (Q c).cfg.split = true ∧ S.relVel.isSome = true)

/-- The collision of the scheme at one cell. -/
def collide (S : Kernel K n nc d) (a : Algo) (f : Fin n → K) : Fin n → K :=
  (S.run f ⟨0, 0, 0⟩ (prog S a)).fnew

/-- The boundary conditions of the processes are those of the global array `bc`, for the values which are
used: those at `y - vel j` for the owned cells `y`. -/
def SameBoundary (g : Grid dim) (vel : Fin n → Cell dim) (Q : Proc g → Setup K n nc d dim)
    (bc : K → Arr K n dim → Arr K n dim) : Prop :=
  ∀ (c : Proc g) (t : K) (A H : Arr K n dim),
    (∀ x, InLocal (size g c) g.w x → A x = H (globalPos (first g c) g.w x)) →
    ∀ y, Owned (size g c) g.w y → ∀ j : Fin n,
      (Q c).bc t A (fun i => y i - vel j i) j =
        bc t H (fun i => globalPos (first g c) g.w y i - vel j i) j

/-- **C42 (partial), with boundary conditions.** After `k` time steps, for every process grid and every
schedule of the messages, each process holds on its owned cells the values of the scheme on the global
array, if the boundary conditions of the processes agree with those of the global array
(`SameBoundary`). For the periodic conditions see `C42_periodic`, for the methods of `boundary.py` see
`C42_walls_partial`; `SameBoundary` is false for obstacles near the interfaces, because of C62. -/
theorem C42_global_partial (hdim : dim ≤ 3) (g : Grid dim) (hlarge : ∀ c i, g.w i ≤ size g c i)
    (S : Kernel K n nc d) (hfront : ∀ j, (S.consm j : Nat) < nc) (vel : Fin n → Cell dim) (a : Algo)
    (Q : Proc g → Setup K n nc d dim) (hQ : Uniform g S vel a Q)
    (bc : K → Arr K n dim → Arr K n dim) (hbc : SameBoundary g vel Q bc)
    (σ₀ : Proc g → Simu K n d dim) (h0 : ∀ c, (σ₀ c).Start (Q c)) (G : Arr K n dim)
    (hG : ∀ c x, Owned (size g c) g.w x → (σ₀ c).arr x = G (globalPos (first g c) g.w x))
    (k : Nat) (σ : Proc g → Simu K n d dim) (hr : PRun g Q σ₀ k σ) :
    (∀ c, Containers (Q c) (σ c) ∧ (σ c).t = k * S.dt ∧ (σ c).nt = k) ∧
    ∀ c x, Owned (size g c) g.w x →
      (σ c).arr x = lbmRun g.N vel (collide S a) bc S.dt G k (globalPos (first g c) g.w x) := by
  induction hr with
  | init =>
    refine ⟨fun c => ⟨(h0 c).1, ?_, (h0 c).2.2.2⟩, hG⟩
    rw [(h0 c).2.2.1]; simp
  | step k σ eager e s _ hreach hdone ih =>
    obtain ⟨ih1, ih2⟩ := ih
    refine ⟨fun c => ?_, fun c x hx => ?_⟩
    · obtain ⟨h1, h2, h3⟩ := ih1 c
      refine ⟨?_, ?_, ?_⟩
      · simp only [Simu.apply, Simu.setF]
        unfold Containers at h1 ⊢
        cases hb : (Q c).backend <;> simp only [hb] at h1 ⊢
        · exact h1.symm
        · exact Ne.symm h1
      · simp only [Simu.apply, Simu.setF]
        rw [h2, hQ.scheme c]; push_cast; ring
      · simp only [Simu.apply, Simu.setF]
        rw [h3]
    · set P : Setup K n nc d dim := { Q c with bc := fun t _ => (Q c).bc t (s.arr c) } with hP
      have hstep := C39_step_general P (σ c) (ih1 c).1 (hQ.nodup c)
        (by intro j; have e : P.S = S := hQ.scheme c; revert j; rw [e]; exact hfront)
        (by
          have e : P.S = S := hQ.scheme c
          rw [e]; exact hQ.split c) x ⟨0, 0, 0⟩
      rw [if_pos ⟨(hQ.loops c x).2 hx, by
        intro h; have := hQ.all c; rw [show P.cfg = (Q c).cfg from rfl, this] at h
        exact absurd h (by simp)⟩] at hstep
      have e1 : P.S = S := hQ.scheme c
      have e2 : P.vel = vel := hQ.vel c
      have e3 : P.cfg.algo = a := hQ.algo c
      rw [e1, e2, e3] at hstep
      show (Simu.apply P (σ c) .step).mem.buf (Simu.apply P (σ c) .step).F x = _
      rw [hstep]
      have hper := fun x (hx : InLocal (size g c) g.w x) =>
        (C15_halo_update_periodic hdim g hlarge eager (fun c => (σ c).arr) _ ih2 e s hreach hdone c x hx).1
      simp only [lbmRun, lbmStep, collide]
      congr 2
      funext j
      have := hbc c (σ c).t (s.arr c) _ hper x hx j
      rw [(ih1 c).2.1] at this
      rw [← this, (ih1 c).2.1]

/-- Without boundary conditions other than the periodic ones, the boundary conditions always agree. -/
theorem sameBoundary_periodic (g : Grid dim) (vel : Fin n → Cell dim) (hv : ∀ j i, |vel j i| ≤ g.w i)
    (Q : Proc g → Setup K n nc d dim) (hQ : ∀ c t A, (Q c).bc t A = A) :
    SameBoundary g vel Q fun _ H => H := by
  intro c t A H hA y hy j
  rw [hQ c t A, hA]
  · congr 1
    funext i
    simp only [globalPos]; omega
  · intro i
    have h1 := hy i
    have h2 := abs_le.1 (hv j i)
    show 0 ≤ y i - vel j i ∧ y i - vel j i < _
    constructor <;> omega

/-- **C42, periodic domains.** On periodic domains two runs of the same scheme from the same initial values
agree after any number of steps, for any two process grids (in particular against a single process), any
schedules of the messages, any backends and settings. -/
theorem C42_periodic (hdim : dim ≤ 3) (g g' : Grid dim) (hN : g.N = g'.N)
    (hlarge : ∀ c i, g.w i ≤ size g c i) (hlarge' : ∀ c i, g'.w i ≤ size g' c i)
    (S : Kernel K n nc d) (hfront : ∀ j, (S.consm j : Nat) < nc) (vel : Fin n → Cell dim) (a : Algo)
    (hv : ∀ j i, |vel j i| ≤ g.w i) (hv' : ∀ j i, |vel j i| ≤ g'.w i)
    (Q : Proc g → Setup K n nc d dim) (hQ : Uniform g S vel a Q) (hQb : ∀ c t A, (Q c).bc t A = A)
    (Q' : Proc g' → Setup K n nc d dim) (hQ' : Uniform g' S vel a Q') (hQb' : ∀ c t A, (Q' c).bc t A = A)
    (σ₀ : Proc g → Simu K n d dim) (h0 : ∀ c, (σ₀ c).Start (Q c))
    (σ₀' : Proc g' → Simu K n d dim) (h0' : ∀ c, (σ₀' c).Start (Q' c)) (G : Arr K n dim)
    (hG : ∀ c x, Owned (size g c) g.w x → (σ₀ c).arr x = G (globalPos (first g c) g.w x))
    (hG' : ∀ c x, Owned (size g' c) g'.w x → (σ₀' c).arr x = G (globalPos (first g' c) g'.w x))
    (k : Nat) (σ : Proc g → Simu K n d dim) (hr : PRun g Q σ₀ k σ)
    (σ' : Proc g' → Simu K n d dim) (hr' : PRun g' Q' σ₀' k σ')
    (c : Proc g) (x : Cell dim) (hx : Owned (size g c) g.w x)
    (c' : Proc g') (x' : Cell dim) (hx' : Owned (size g' c') g'.w x')
    (he : globalPos (first g c) g.w x = globalPos (first g' c') g'.w x') :
    (σ c).arr x = (σ' c').arr x' ∧ (σ c).t = (σ' c').t ∧ (σ c).nt = (σ' c').nt := by
  obtain ⟨h1, h2⟩ := C42_global_partial hdim g hlarge S hfront vel a Q hQ _
    (sameBoundary_periodic g vel hv Q hQb) σ₀ h0 G hG k σ hr
  obtain ⟨h1', h2'⟩ := C42_global_partial hdim g' hlarge' S hfront vel a Q' hQ' _
    (sameBoundary_periodic g' vel hv' Q' hQb') σ₀' h0' G hG' k σ' hr'
  refine ⟨?_, ?_, ?_⟩
  · rw [h2 c x hx, h2' c' x' hx', he, hN]
  · rw [(h1 c).2.1, (h1' c').2.1]
  · rw [(h1 c).2.2, (h1' c').2.2]

/-- Runs of any length exist: the exchange of the halos always completes. -/
theorem C42_run_exists (hdim : dim ≤ 3) (g : Grid dim) (hlarge : ∀ c i, g.w i ≤ size g c i)
    (Q : Proc g → Setup K n nc d dim) (σ₀ : Proc g → Simu K n d dim) (k : Nat) :
    ∃ σ, PRun g Q σ₀ k σ := by
  induction k with
  | zero => exact ⟨σ₀, .init⟩
  | succ k ih =>
    obtain ⟨σ, h⟩ := ih
    obtain ⟨e, s, _, h1, h2⟩ := C16_completes hdim g hlarge (fun _ _ _ => False)
      (fun c => (σ c).arr) 0 _ Reach.init
    exact ⟨_, .step k σ _ e s h h1 h2⟩

/-! ## C41 -/

/-- The cells of the global array. -/
def box (N : Fin dim → Nat) : Finset (Cell dim) := Fintype.piFinset fun i => Finset.Ico (0 : Int) (N i)

theorem mem_box (N : Fin dim → Nat) (y : Cell dim) : y ∈ box N ↔ ∀ i, 0 ≤ y i ∧ y i < N i := by
  simp [box]

/-- A sum over the torus is invariant by translation. -/
theorem sum_torus (N : Fin dim → Nat) (v : Cell dim) (h : Cell dim → K) :
    ∑ y ∈ box N, periodic N h (fun i => y i - v i) = ∑ y ∈ box N, h y := by
  by_cases hN : ∀ i, 0 < N i
  · have hpos : ∀ i, (0 : Int) < N i := fun i => by exact_mod_cast hN i
    refine Finset.sum_bij' (fun y _ => fun i => (y i - v i) % N i) (fun y _ => fun i => (y i + v i) % N i)
      ?_ ?_ ?_ ?_ ?_
    · intro y _
      rw [mem_box]
      exact fun i => ⟨Int.emod_nonneg _ (hpos i).ne', Int.emod_lt_of_pos _ (hpos i)⟩
    · intro y _
      rw [mem_box]
      exact fun i => ⟨Int.emod_nonneg _ (hpos i).ne', Int.emod_lt_of_pos _ (hpos i)⟩
    · intro y hy
      rw [mem_box] at hy
      funext i
      simp only [Int.emod_add_emod, sub_add_cancel]
      exact Int.emod_eq_of_lt (hy i).1 (hy i).2
    · intro y hy
      rw [mem_box] at hy
      funext i
      simp only [Int.emod_sub_emod, add_sub_cancel_right]
      exact Int.emod_eq_of_lt (hy i).1 (hy i).2
    · intro y _; rfl
  · push Not at hN
    obtain ⟨i, hi⟩ := hN
    have : box N = ∅ := by
      rw [Finset.eq_empty_iff_forall_notMem]
      intro y hy
      have := (mem_box N y).1 hy i
      omega
    rw [this]; simp

/-- The owned cells of the processes are the cells of the global array, each once. -/
theorem sum_owned (g : Grid dim) (h : Cell dim → K) :
    ∑ c : Proc g, ∑ x ∈ inner (size g c) g.w, h (globalPos (first g c) g.w x) = ∑ y ∈ box g.N, h y := by
  classical
  have hown : ∀ c x, x ∈ inner (size g c) g.w ↔ Owned (size g c) g.w x := by
    intro c x
    simp [inner, Owned]
  have hb : ∀ (c : Proc g) i, (first g c i : Int) + size g c i ≤ g.N i := by
    intro c i
    have h1 := start_succ g c i
    have h2 : start g i ((c i : Nat) + 1) ≤ g.N i := by
      rw [← start_last g i, start_eq g i _ (by omega), start_eq g i _ (by omega)]
      exact bound_mono _ _ (by omega)
    simp only [first]
    omega
  rw [Finset.sum_sigma' (Finset.univ : Finset (Proc g)) (fun c => inner (size g c) g.w)
    (fun c x => h (globalPos (first g c) g.w x))]
  refine Finset.sum_bij (fun p _ => globalPos (first g p.1) g.w p.2) ?_ ?_ ?_ ?_
  · rintro ⟨c, x⟩ hp
    simp only [Finset.mem_sigma, Finset.mem_univ, true_and] at hp
    rw [hown] at hp
    rw [mem_box]
    intro i
    have := hp i
    have := hb c i
    simp only [globalPos]
    constructor <;> omega
  · rintro ⟨c, x⟩ hp ⟨c', x'⟩ hp' he
    simp only [Finset.mem_sigma, Finset.mem_univ, true_and] at hp hp'
    rw [hown] at hp hp'
    have hc : c = c' := by
      funext i
      apply Fin.ext
      have h1 := hp i
      have h2 := hp' i
      have h3 := congrFun he i
      have h4 := start_succ g c i
      have h5 := start_succ g c' i
      simp only [globalPos, first] at h3
      rw [start_eq g i _ (by omega), start_eq g i _ (by omega)] at h4
      rw [start_eq g i _ (by omega), start_eq g i _ (by omega)] at h5
      rw [start_eq g i (c i) (by omega), start_eq g i (c' i) (by omega)] at h3
      refine region_unique (g.N i) (g.p i) ((bound (g.N i) (g.p i) (c i) : Int) + x i - g.w i).toNat
        (c i) (c' i) ⟨by omega, by omega⟩ ⟨by omega, by omega⟩
    subst hc
    congr 1
    funext i
    have h3 := congrFun he i
    simp only [globalPos] at h3
    omega
  · intro y hy
    rw [mem_box] at hy
    have hex : ∀ i, ∃ k, k < g.p i ∧ start g i k ≤ (y i).toNat ∧ (y i).toNat < start g i (k + 1) := by
      intro i
      obtain ⟨k, hk, h1, h2⟩ := exists_region (g.N i) (g.p i) (y i).toNat (g.hp i) (by have := hy i; omega)
      exact ⟨k, hk, by rw [start_eq g i _ (by omega)]; exact h1,
        by rw [start_eq g i _ (by omega)]; exact h2⟩
    choose k hk1 hk2 hk3 using hex
    refine ⟨⟨fun i => ⟨k i, hk1 i⟩, fun i => y i - start g i (k i) + g.w i⟩, ?_, ?_⟩
    · simp only [Finset.mem_sigma, Finset.mem_univ, true_and]
      rw [hown]
      intro i
      have h1 := start_succ g (fun i => ⟨k i, hk1 i⟩) i
      have h2 := hk2 i
      have h3 := hk3 i
      have h4 := hy i
      simp only at h1
      show (g.w i : Int) ≤ y i - start g i (k i) + g.w i ∧ y i - start g i (k i) + g.w i < _
      constructor <;> omega
    · funext i
      simp only [globalPos, first]
      omega
  · rintro ⟨c, x⟩ _
    rfl

/-- A collision which keeps the linear form `a` at each cell keeps its sum over the torus in a step. -/
theorem sum_lbmStep (N : Fin dim → Nat) (vel : Fin n → Cell dim) (φ : (Fin n → K) → Fin n → K)
    (a : Fin n → K) (hφ : ∀ f, a ⬝ᵥ φ f = a ⬝ᵥ f) (t : K) (G : Arr K n dim) :
    ∑ y ∈ box N, a ⬝ᵥ lbmStep N vel φ (fun _ H => H) t G y = ∑ y ∈ box N, a ⬝ᵥ G y := by
  simp only [lbmStep, hφ]
  simp only [dotProduct]
  rw [Finset.sum_comm, Finset.sum_comm (s := box N)]
  apply Finset.sum_congr rfl
  intro j _
  rw [← Finset.mul_sum, ← Finset.mul_sum]
  congr 1
  exact sum_torus N (vel j) fun y => G y j

/-- The totals over all the processes, for a collision which keeps the linear form. -/
theorem sum_conserved (hdim : dim ≤ 3) (g : Grid dim) (hlarge : ∀ c i, g.w i ≤ size g c i)
    (S : Kernel K n nc d) (hfront : ∀ j, (S.consm j : Nat) < nc)
    (vel : Fin n → Cell dim) (a : Algo) (hv : ∀ j i, |vel j i| ≤ g.w i)
    (Q : Proc g → Setup K n nc d dim) (hQ : Uniform g S vel a Q) (hQb : ∀ c t A, (Q c).bc t A = A)
    (σ₀ : Proc g → Simu K n d dim) (h0 : ∀ c, (σ₀ c).Start (Q c))
    (k : Nat) (σ : Proc g → Simu K n d dim) (hr : PRun g Q σ₀ k σ) (i : Fin n)
    (hφ : ∀ f, (S.M *ᵥ collide S a f) i = (S.M *ᵥ f) i) :
    ∑ c : Proc g, ∑ x ∈ inner (size g c) g.w, (S.M *ᵥ (σ c).arr x) i =
      ∑ c : Proc g, ∑ x ∈ inner (size g c) g.w, (S.M *ᵥ (σ₀ c).arr x) i := by
  have hown : ∀ c x, x ∈ inner (size g c) g.w ↔ Owned (size g c) g.w x := by
    intro c x
    simp [inner, Owned]
  obtain ⟨G, hG⟩ := C15_global_array_exists g fun c => (σ₀ c).arr
  obtain ⟨_, h2⟩ := C42_global_partial hdim g hlarge S hfront vel a Q hQ _
    (sameBoundary_periodic g vel hv Q hQb) σ₀ h0 G hG k σ hr
  have hsum : ∀ k, ∑ y ∈ box g.N, S.M i ⬝ᵥ
      lbmRun g.N vel (collide S a) (fun _ H => H) S.dt G k y = ∑ y ∈ box g.N, S.M i ⬝ᵥ G y := by
    intro k
    induction k with
    | zero => rfl
    | succ k ih =>
      rw [← ih]
      exact sum_lbmStep g.N vel _ _ hφ _ _
  have e1 : ∀ c, ∀ x ∈ inner (size g c) g.w, (S.M *ᵥ (σ c).arr x) i =
      S.M i ⬝ᵥ lbmRun g.N vel (collide S a) (fun _ H => H) S.dt G k (globalPos (first g c) g.w x) := by
    intro c x hx
    rw [h2 c x ((hown c x).1 hx)]; rfl
  have e2 : ∀ c, ∀ x ∈ inner (size g c) g.w, (S.M *ᵥ (σ₀ c).arr x) i =
      S.M i ⬝ᵥ G (globalPos (first g c) g.w x) := by
    intro c x hx
    have := hG c x ((hown c x).1 hx)
    rw [← this]; rfl
  rw [Finset.sum_congr rfl fun c _ => Finset.sum_congr rfl (e1 c),
    Finset.sum_congr rfl fun c _ => Finset.sum_congr rfl (e2 c)]
  rw [sum_owned g fun y => S.M i ⬝ᵥ lbmRun g.N vel (collide S a) (fun _ H => H) S.dt G k y,
    sum_owned g fun y => S.M i ⬝ᵥ G y]
  exact hsum k

/-- **C41.** On a fully periodic domain, for every process grid and every schedule of the messages, the
total of each conserved moment is the same after any number of time steps: Base and Pull algorithms, all
backends and settings, nonlinear equilibria, no sources and no relative velocity. -/
theorem C41_conservation (hdim : dim ≤ 3) (g : Grid dim) (hlarge : ∀ c i, g.w i ≤ size g c i)
    (S : Kernel K n nc d) (hfront : ∀ j, (S.consm j : Nat) < nc) (hEQ : ∀ j w, S.EQ (S.consm j) w = w j)
    (hM : S.M * S.invM = 1) (hS : ∀ i, S.source i = none) (hrel : S.relVel = none)
    (vel : Fin n → Cell dim) (a : Algo) (hv : ∀ j i, |vel j i| ≤ g.w i)
    (Q : Proc g → Setup K n nc d dim) (hQ : Uniform g S vel a Q) (hQb : ∀ c t A, (Q c).bc t A = A)
    (σ₀ : Proc g → Simu K n d dim) (h0 : ∀ c, (σ₀ c).Start (Q c))
    (k : Nat) (σ : Proc g → Simu K n d dim) (hr : PRun g Q σ₀ k σ) (j : Fin nc) :
    ∑ c : Proc g, ∑ x ∈ inner (size g c) g.w, (S.M *ᵥ (σ c).arr x) (S.consm j) =
      ∑ c : Proc g, ∑ x ∈ inner (size g c) g.w, (S.M *ᵥ (σ₀ c).arr x) (S.consm j) := by
  apply sum_conserved hdim g hlarge S hfront vel a hv Q hQ hQb σ₀ h0 k σ hr
  intro f
  have hcol : collide S a f = collision S.M S.invM S.consm S.EQ S.s f := by
    unfold collide
    rw [prog_eq]
    obtain ⟨h3, h4⟩ := step_collision S hEQ hS f ⟨0, 0, 0⟩
    cases a with
    | base => simp only [hrel, Option.isSome_none]; exact h4
    | pull => simp only [hrel, Option.isSome_none]; exact h3
  rw [hcol]
  unfold collision
  rw [Matrix.mulVec_mulVec, hM, Matrix.one_mulVec]
  simp only [relaxed, hEQ, Function.comp_apply]
  ring

/-- **C41 with a relative velocity**, for the Pull algorithm. The hypotheses on the matrices of the change
of frame are those of `C46_pull`. -/
theorem C41_relative_velocity (hdim : dim ≤ 3) (g : Grid dim) (hlarge : ∀ c i, g.w i ≤ size g c i)
    (S : Kernel K n nc d) (hfront : ∀ j, (S.consm j : Nat) < nc)
    (hM : S.M * S.invM = 1) (hT : ∀ u, S.Tmu u * S.Tu u = 1)
    (hclosed : ∀ u (j : Fin nc) (b : Fin n), nc ≤ (b : Nat) → S.Tmu u (S.consm j) b = 0)
    (hS : ∀ i, S.source i = none) (hrel : S.relVel.isSome = true)
    (vel : Fin n → Cell dim) (hv : ∀ j i, |vel j i| ≤ g.w i)
    (Q : Proc g → Setup K n nc d dim) (hQ : Uniform g S vel .pull Q) (hQb : ∀ c t A, (Q c).bc t A = A)
    (σ₀ : Proc g → Simu K n d dim) (h0 : ∀ c, (σ₀ c).Start (Q c))
    (k : Nat) (σ : Proc g → Simu K n d dim) (hr : PRun g Q σ₀ k σ) (j : Fin nc) :
    ∑ c : Proc g, ∑ x ∈ inner (size g c) g.w, (S.M *ᵥ (σ c).arr x) (S.consm j) =
      ∑ c : Proc g, ∑ x ∈ inner (size g c) g.w, (S.M *ᵥ (σ₀ c).arr x) (S.consm j) := by
  apply sum_conserved hdim g hlarge S hfront vel .pull hv Q hQ hQb σ₀ h0 k σ hr
  intro f
  unfold collide
  rw [prog_eq]
  simp only [hrel]
  exact C46_pull S hM hT hclosed hS f ⟨0, 0, 0⟩ j

/-! ## A case -/

/-- Seven cells on two processes, halo of width 1. -/
def grid7 : Grid 1 := ⟨fun _ => 7, fun _ => 2, fun _ => 1, by decide⟩

/-- D1Q2 or D1Q3 on the owned cells of each process. -/
def ring (S : Kernel K n nc d) (vel : Fin n → Cell 1) (a : Algo) (g : Grid 1) (c : Proc g) :
    Setup K n nc d 1 where
  S := S
  vel := vel
  backend := .c
  cfg := ⟨a, true, false, false⟩
  fluid := fun _ => true
  Lin := (List.range (size g c 0)).map fun (i : Nat) => fun _ => (i : Int) + g.w 0
  Lfull := (List.range (size g c 0 + 2 * g.w 0)).map fun (i : Nat) => fun _ => (i : Int)
  bc := fun _ A => A

theorem ring_uniform (S : Kernel K n nc d) (vel : Fin n → Cell 1) (a : Algo) (g : Grid 1) :
    Uniform g S vel a (ring S vel a g) where
  scheme := fun _ => rfl
  vel := fun _ => rfl
  algo := fun _ => rfl
  all := fun _ => rfl
  nodup := fun c => by
    refine List.Nodup.map ?_ List.nodup_range
    intro x y h
    have := congrFun h 0
    simpa using this
  loops := fun c x => by
    simp only [ring, List.mem_map, List.mem_range, Owned]
    constructor
    · rintro ⟨k, hk, rfl⟩ i
      obtain rfl : i = 0 := Subsingleton.elim _ _
      show (g.w 0 : Int) ≤ k + g.w 0 ∧ (k : Int) + g.w 0 < _
      constructor <;> omega
    · intro h
      refine ⟨(x 0 - g.w 0).toNat, by have := h 0; omega, ?_⟩
      funext i
      obtain rfl : i = 0 := Subsingleton.elim _ _
      have := h 0
      omega
  split := fun c => by simp [ring]

/-- A simulation which starts with given distributions. -/
def startWith (n d dim : Nat) (A : Arr K n dim) : Simu K n d dim :=
  ⟨⟨fun _ => A, fun _ _ => 0, fun _ _ => 0⟩, 0, 1, true, 0, 0⟩

theorem startWith_start (S : Kernel K n nc d) (vel : Fin n → Cell 1) (a : Algo) (g : Grid 1) (c : Proc g)
    (A : Arr K n 1) : (startWith n d 1 A).Start (ring S vel a g c) :=
  ⟨show (0 : Fin 2) ≠ 1 by decide, rfl, rfl, rfl⟩

/-- The hypotheses of C41 and C42 hold for D1Q2 on the seven cells, and such runs exist. -/
example : (∀ c i, grid7.w i ≤ size grid7 c i) ∧
    (∀ (j : Fin 2) i, |(![fun _ => 1, fun _ => -1] : Fin 2 → Cell 1) j i| ≤ grid7.w i) ∧
    ∃ σ, PRun grid7 (ring d1q2 ![fun _ => 1, fun _ => -1] .pull grid7)
      (fun c => startWith 2 0 1 fun x k => (first grid7 c 0 : ℚ) + x 0 + 10 * k) 5 σ := by
  have h : ∀ c i, grid7.w i ≤ size grid7 c i := (large_iff grid7).2 (by decide)
  exact ⟨h, by decide, C42_run_exists (by omega) grid7 h _ _ 5⟩

/-- Three cells on one process. -/
def grid3 : Grid 1 := ⟨fun _ => 3, fun _ => 1, fun _ => 1, by decide⟩

/-- **C41 is false for the Base algorithm with a relative velocity** (see `C46_base_negation`): on three
periodic cells the total momentum is not conserved. -/
theorem C41_base_negation : ∃ σ₀ σ : Proc grid3 → Simu ℚ 3 1 1,
    let Q := ring d1q3rel ![fun _ => 0, fun _ => 1, fun _ => -1] .base grid3
    (∀ c, (σ₀ c).Start (Q c)) ∧ PRun grid3 Q σ₀ 1 σ ∧
    ∑ c : Proc grid3, ∑ x ∈ inner (size grid3 c) grid3.w, (d1q3rel.M *ᵥ (σ c).arr x) (d1q3rel.consm 1) ≠
      ∑ c : Proc grid3, ∑ x ∈ inner (size grid3 c) grid3.w, (d1q3rel.M *ᵥ (σ₀ c).arr x) (d1q3rel.consm 1) := by
  have hl : ∀ c i, grid3.w i ≤ size grid3 c i := (large_iff grid3).2 (by decide)
  set Q := ring d1q3rel ![fun _ => 0, fun _ => 1, fun _ => -1] .base grid3 with hQ
  set σ₀ : Proc grid3 → Simu ℚ 3 1 1 := fun _ => startWith 3 1 1 fun _ => ![1, 2, 0] with hσ
  obtain ⟨σ, hr⟩ := C42_run_exists (by omega) grid3 hl Q σ₀ 1
  refine ⟨σ₀, σ, fun c => startWith_start _ _ _ _ c _, hr, ?_⟩
  obtain ⟨_, h2⟩ := C42_global_partial (by omega) grid3 hl d1q3rel (by decide) _ .base Q
    (ring_uniform _ _ _ _) _ (sameBoundary_periodic grid3 _ (by decide) Q fun _ _ _ => rfl) σ₀
    (fun c => startWith_start _ _ _ _ c _) (fun _ => ![1, 2, 0]) (fun _ _ _ => rfl) 1 σ hr
  have hown : ∀ c x, x ∈ inner (size grid3 c) grid3.w ↔ Owned (size grid3 c) grid3.w x := by
    intro c x
    simp [inner, Owned]
  have hconst : ∀ c x, Owned (size grid3 c) grid3.w x → (σ c).arr x = collide d1q3rel .base ![1, 2, 0] := by
    intro c x hx
    rw [h2 c x hx]
    rfl
  rw [Finset.sum_congr rfl fun c _ => Finset.sum_congr rfl fun x hx => by
    rw [hconst c x ((hown c x).1 hx)]]
  have e1 := sum_owned grid3 fun _ => (d1q3rel.M *ᵥ collide d1q3rel .base ![1, 2, 0]) (d1q3rel.consm 1)
  have e2 := sum_owned grid3 fun _ => (d1q3rel.M *ᵥ ![1, 2, 0]) (d1q3rel.consm 1)
  simp only [hσ, Simu.arr, startWith]
  rw [e1, e2, Finset.sum_const, Finset.sum_const]
  have hc : (box grid3.N).card = 3 := by
    simp [box, grid3]
  rw [hc]
  decide +kernel

end Pylbm.Sim
