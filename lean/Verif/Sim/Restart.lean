import Verif.Sim.Linear
/-!
# C102: a simulation stopped and restarted

The attributes `t` and `nt` are plain attributes (simulation.py 107-108), set to zero by the constructor and read by
the boundary conditions and by `one_time_step`; a user who restarts assigns them.
-/

set_option linter.unusedSectionVars false

namespace Pylbm.Sim
open Scheme Halo SchemeSpec Matrix HaloSpec Mpi Boundary
open scoped Matrix

section abstract
variable {K : Type} [Field K] {n nc d dim : Nat}

/-! ## Model -/

/-- `sol.t = t; sol.nt = nt`. -/
def Simu.setTime (t : K) (nt : Nat) (s : Simu K n d dim) : Simu K n d dim := { s with t := t, nt := nt }

/-- `one_time_step` of a simulation constructed with `initialize=False`, simulation.py 412-413 then 415-423: the first
one calls `_initialize`, hence `initialization`. -/
def Simu.firstStep (P : Setup K n nc d dim) (xh : Fin dim → List K) (ty : InitType)
    (data : Option (List (InitKey n nc × InitVal K dim))) (s : Simu K n d dim) : Simu K n d dim :=
  (s.init P xh ty data).apply P .step

/-! ## Specification -/

/-- `j` steps of the scheme on the global array from `G` at the time `t₀`. -/
def lbmFrom (N : Fin dim → Nat) (vel : Fin n → Cell dim) (φ : (Fin n → K) → Fin n → K)
    (bc : K → Arr K n dim → Arr K n dim) (dt t₀ : K) (G : Arr K n dim) : Nat → Arr K n dim
  | 0 => G
  | j + 1 => lbmStep N vel φ bc (t₀ + j * dt) (lbmFrom N vel φ bc dt t₀ G j)

/-- The ways of giving saved values to a new simulation: on the cells `R`, `B` are the saved populations and `M'` the
saved moments.  `init` in the dictionary with `inittype = "distributions"`; or the assignment of all the
populations; or the assignment of all the moments followed by `m2f`. -/
inductive Restores (P : Setup K n nc d dim) (xh : Fin dim → List K) (R : Cell dim → Prop) (B M' : Arr K n dim)
    (s : Simu K n d dim) : Simu K n d dim → Prop
  | distributions (data : List (InitKey n nc × InitVal K dim)) (hd : Clear P.S data)
      (h : ∀ i, ∃ kv ∈ data, kv.1.Names P.S i ∧ ∀ x, R x → kv.2.Means x (coordAt xh x) (B x i)) :
      Restores P xh R B M' s (s.init P xh .distributions (some data))
  | populations (v : Fin n → Cell dim → K) (h : ∀ i x, R x → v i x = B x i) :
      Restores P xh R B M' s (s.run P ((List.finRange n).map fun i => .writeF i (v i)))
  | moments (v : Fin n → Cell dim → K) (h : ∀ i x, R x → v i x = M' x i) :
      Restores P xh R B M' s (s.run P (((List.finRange n).map fun i => .writeM i (v i)) ++ [.m2f]))

/-- Assignments to the populations or to the moments. -/
inductive Writes : Op K n dim → Prop
  | m (i : Fin n) (v : Cell dim → K) : Writes (.writeM i v)
  | f (i : Fin n) (v : Cell dim → K) : Writes (.writeF i v)
  | view (i : Fin n) (v : Cell dim → K) : Writes (.writeView i v)

/-! ## Lemmas -/

theorem lbmRun_add (N : Fin dim → Nat) (vel : Fin n → Cell dim) (φ : (Fin n → K) → Fin n → K)
    (bc : K → Arr K n dim → Arr K n dim) (dt : K) (G : Arr K n dim) (k j : Nat) :
    lbmRun N vel φ bc dt G (k + j) = lbmFrom N vel φ bc dt (k * dt) (lbmRun N vel φ bc dt G k) j := by
  induction j with
  | zero => rfl
  | succ j ih =>
    rw [← Nat.add_assoc]
    simp only [lbmRun, lbmFrom, ih]
    congr 1
    push_cast
    ring

/-- A run from any state. -/
theorem run_fluid (hdim : dim ≤ 3) (g : Grid dim) (hlarge : ∀ c i, g.w i ≤ size g c i)
    (S : Kernel K n nc d) (hfront : ∀ j, (S.consm j : Nat) < nc) (vel : Fin n → Cell dim) (a : Algo)
    (fl : Cell dim → Bool) (Q : Proc g → Setup K n nc d dim) (hQ : UniformFluid g S vel a fl Q)
    (bc : K → Arr K n dim → Arr K n dim) (hbc : SameBoundary g vel Q bc) (hfl : FluidBoundary g.N vel fl bc)
    (t₀ : K) (m₀ : Nat) (σ₀ : Proc g → Simu K n d dim)
    (h0 : ∀ c, Containers (Q c) (σ₀ c) ∧ (σ₀ c).t = t₀ ∧ (σ₀ c).nt = m₀) (G : Arr K n dim)
    (hG : ∀ c x, Owned (size g c) g.w x → fl (globalPos (first g c) g.w x) = true →
      (σ₀ c).arr x = G (globalPos (first g c) g.w x))
    (j : Nat) (σ : Proc g → Simu K n d dim) (hr : PRun g Q σ₀ j σ) :
    (∀ c, Containers (Q c) (σ c) ∧ (σ c).t = t₀ + j * S.dt ∧ (σ c).nt = m₀ + j) ∧
    ∀ c x, Owned (size g c) g.w x → fl (globalPos (first g c) g.w x) = true →
      (σ c).arr x = lbmFrom g.N vel (collide S a) bc S.dt t₀ G j (globalPos (first g c) g.w x) := by
  induction hr with
  | init =>
    refine ⟨fun c => ⟨(h0 c).1, ?_, (h0 c).2.2⟩, hG⟩
    rw [(h0 c).2.1]; simp
  | step k σ eager e s _ hreach hdone ih =>
    obtain ⟨h1, h2⟩ := step_fluid hdim g hlarge S hfront vel a fl Q hQ bc hbc hfl σ (t₀ + k * S.dt) (m₀ + k) ih.1 _ ih.2
      eager e s hreach hdone
    refine ⟨fun c => ⟨(h1 c).1, ?_, (h1 c).2.2⟩, h2⟩
    rw [(h1 c).2.1]; push_cast; ring

theorem PRun.dirty {g : Grid dim} {Q : Proc g → Setup K n nc d dim} {σ₀ : Proc g → Simu K n d dim}
    (h0 : ∀ c, (σ₀ c).Start (Q c)) {k : Nat} {σ : Proc g → Simu K n d dim} (hr : PRun g Q σ₀ k σ) (c : Proc g) :
    (σ c).dirty = true := by
  cases hr with
  | init => exact (h0 c).2.1
  | step => rfl

theorem run_writeF (P : Setup K n nc d dim) (v : Fin n → Cell dim → K) (l : List (Fin n)) (s : Simu K n d dim) :
    let s' := s.run P (l.map fun i => .writeF i (v i))
    s'.F = s.F ∧ s'.Fnew = s.Fnew ∧ s'.t = s.t ∧ s'.nt = s.nt ∧
      ∀ x ∈ P.Lfull, ∀ i, s'.arr x i = if i ∈ l then v i x else s.arr x i := by
  induction l generalizing s with
  | nil => exact ⟨rfl, rfl, rfl, rfl, fun x _ i => by simp [Simu.run]⟩
  | cons i₀ l ih =>
    obtain ⟨h1, h2, h3, h4, h5⟩ := ih (s.apply P (.writeF i₀ (v i₀)))
    refine ⟨h1, h2, h3, h4, fun x hx i => ?_⟩
    refine (h5 x hx i).trans ?_
    have e : (s.apply P (.writeF i₀ (v i₀))).arr x i = if i = i₀ then v i x else s.arr x i := by
      simp only [Simu.arr, Simu.apply, Simu.setF, Function.update_self, if_pos hx]
      by_cases hi : i = i₀
      · subst hi; simp
      · rw [Function.update_of_ne hi, if_neg hi]
    rw [e]
    by_cases h6 : i ∈ l
    · simp [h6]
    · by_cases h7 : i = i₀ <;> simp [h6, h7]

theorem run_writeM (P : Setup K n nc d dim) (v : Fin n → Cell dim → K) (l : List (Fin n)) (s : Simu K n d dim) :
    let s' := s.run P (l.map fun i => .writeM i (v i))
    s'.F = s.F ∧ s'.Fnew = s.Fnew ∧ s'.t = s.t ∧ s'.nt = s.nt ∧
      ∀ x ∈ P.Lfull, ∀ i, s'.mem.m (some x) i = if i ∈ l then v i x else s.mem.m (some x) i := by
  induction l generalizing s with
  | nil => exact ⟨rfl, rfl, rfl, rfl, fun x _ i => by simp [Simu.run]⟩
  | cons i₀ l ih =>
    obtain ⟨h1, h2, h3, h4, h5⟩ := ih (s.apply P (.writeM i₀ (v i₀)))
    refine ⟨h1, h2, h3, h4, fun x hx i => ?_⟩
    refine (h5 x hx i).trans ?_
    have e : (s.apply P (.writeM i₀ (v i₀))).mem.m (some x) i = if i = i₀ then v i x else s.mem.m (some x) i := by
      simp only [Simu.apply, if_pos hx]
      by_cases hi : i = i₀
      · subst hi; simp
      · rw [Function.update_of_ne hi, if_neg hi]
    rw [e]
    by_cases h6 : i ∈ l
    · simp [h6]
    · by_cases h7 : i = i₀ <;> simp [h6, h7]

/-- The array after an initialisation by the distributions. -/
theorem init_distributions (P : Setup K n nc d dim) (xh : Fin dim → List K) (s : Simu K n d dim)
    (hs : Containers P s) (hLf : P.Lfull.Nodup) (data : List (InitKey n nc × InitVal K dim)) :
    (s.init P xh .distributions (some data)).arr = fillInit P.S P.Lfull xh data s.arr := by
  have hb : P.backend = .c → s.F ≠ s.Fnew := by
    intro hb; unfold Containers at hs; rw [hb] at hs; exact hs
  have e : (s.init P xh .distributions (some data)).arr = (f2mRoutine P.S P.backend P.Lfull s.F s.Fnew
      (s.setF (fillInit P.S P.Lfull xh data (s.mem.buf s.F))).mem).buf s.F := by
    change Function.update _ s.Fnew _ s.F = _
    by_cases he : s.F = s.Fnew
    · rw [he, Function.update_self]; simp [Simu.apply, Simu.setF, he]
    · rw [Function.update_of_ne he]; rfl
  rw [e, (f2m_spec P.S P.backend P.Lfull hLf s.F s.Fnew hb _).2, setF_buf]
  rfl

/-- The array after an initialisation by the moments. -/
theorem init_moments (P : Setup K n nc d dim) (xh : Fin dim → List K) (s : Simu K n d dim)
    (hLf : P.Lfull.Nodup) (hEQ : ∀ j w, P.S.EQ (P.S.consm j) w = w j)
    (data : List (InitKey n nc × InitVal K dim)) (c : Cell dim) (hc : c ∈ P.Lfull) :
    (s.init P xh .moments (some data)).arr c =
      P.S.invM *ᵥ fun i => P.S.EQ i (P.S.cons (fillInit P.S P.Lfull xh data (fun c => s.mem.m (some c)) c)) := by
  have e : (s.init P xh .moments (some data)).arr = (m2fRoutine P.S P.backend P.Lfull s.F (equilibriumRoutine P.S P.backend
      P.Lfull s.F s.Fnew { s.mem with m := fun a => match a with
        | none => s.mem.m none
        | some c => fillInit P.S P.Lfull xh data (fun c => s.mem.m (some c)) c })).buf s.F := by
    change Function.update _ s.Fnew _ s.F = _
    by_cases he : s.F = s.Fnew
    · rw [he, Function.update_self]; rfl
    · rw [Function.update_of_ne he]; rfl
  rw [e, (m2f_spec P.S P.backend P.Lfull hLf s.F _ c hc).2,
    eqm_spec P.S hEQ P.backend P.Lfull hLf s.F s.Fnew _ c hc]

/-- The three ways restore the populations. -/
theorem Restores.spec {P : Setup K n nc d dim} {xh : Fin dim → List K} {R : Cell dim → Prop} {B M' : Arr K n dim}
    {s s' : Simu K n d dim} (h : Restores P xh R B M' s s') (hs : Containers P s) (hLf : P.Lfull.Nodup)
    (hR : ∀ x, R x → x ∈ P.Lfull) (hM : P.S.invM * P.S.M = 1) (hB : ∀ x, R x → M' x = P.S.M *ᵥ B x) :
    Containers P s' ∧ ∀ x, R x → s'.arr x = B x := by
  rcases h with ⟨data, hd, h⟩ | ⟨v, h⟩ | ⟨v, h⟩
  · refine ⟨hs, fun x hx => ?_⟩
    rw [init_distributions P xh s hs hLf data]
    have hh := fillInit_holds P.S P.Lfull xh data hd s.arr x (hR x hx)
    funext i
    obtain ⟨kv, hkv, hi, hv⟩ := h i
    rw [← (InitVal.means_iff _ _ _ _).1 (hh.1 kv hkv i hi), ← (InitVal.means_iff _ _ _ _).1 (hv x hx)]
  · obtain ⟨h1, h2, -, -, h5⟩ := run_writeF P v (List.finRange n) s
    refine ⟨by unfold Containers at hs ⊢; rw [h1, h2]; exact hs, fun x hx => ?_⟩
    funext i
    rw [h5 x (hR x hx) i, if_pos (List.mem_finRange i), h i x hx]
  · obtain ⟨h1, h2, -, -, h5⟩ := run_writeM P v (List.finRange n) s
    rw [Simu.run, List.foldl_append]
    change Containers P ((s.run P ((List.finRange n).map fun i => .writeM i (v i))).apply P .m2f) ∧ ∀ x, R x →
      ((s.run P ((List.finRange n).map fun i => .writeM i (v i))).apply P .m2f).arr x = B x
    refine ⟨by unfold Containers at hs ⊢; simp only [Simu.apply]; rw [h1, h2]; exact hs, fun x hx => ?_⟩
    set r := s.run P ((List.finRange n).map fun i => .writeM i (v i)) with hrdef
    change (m2fRoutine P.S P.backend P.Lfull r.F r.mem).buf r.F x = _
    rw [(m2f_spec P.S P.backend P.Lfull hLf _ _ x (hR x hx)).2]
    have : r.mem.m (some x) = P.S.M *ᵥ B x := by
      rw [← hB x hx]
      funext i
      rw [h5 x (hR x hx) i, if_pos (List.mem_finRange i), h i x hx]
    rw [this, Matrix.mulVec_mulVec, hM, Matrix.one_mulVec]

theorem run_writes (P : Setup K n nc d dim) (l : List (Op K n dim)) (hl : ∀ o ∈ l, Writes o) (s : Simu K n d dim) :
    (s.run P l).F = s.F ∧ (s.run P l).Fnew = s.Fnew ∧ (s.run P l).t = s.t ∧ (s.run P l).nt = s.nt := by
  induction l generalizing s with
  | nil => exact ⟨rfl, rfl, rfl, rfl⟩
  | cons o l ih =>
    have := ih (fun o ho => hl o (by simp [ho])) (s.apply P o)
    have ho : (s.apply P o).F = s.F ∧ (s.apply P o).Fnew = s.Fnew ∧ (s.apply P o).t = s.t ∧ (s.apply P o).nt = s.nt := by
      rcases hl o (by simp) with _ | _ | _ <;> exact ⟨rfl, rfl, rfl, rfl⟩
    exact ⟨this.1.trans ho.1, this.2.1.trans ho.2.1, this.2.2.1.trans ho.2.2.1, this.2.2.2.trans ho.2.2.2⟩

/-- Two fillings agree on the components which the dictionary names. -/
theorem fillInit_named (S : Kernel K n nc d) (L : List (Cell dim)) (xh : Fin dim → List K)
    (data : List (InitKey n nc × InitVal K dim)) (a b : Arr K n dim) (c : Cell dim) (hc : c ∈ L) (i : Fin n)
    (h : (∃ kv ∈ data, kv.1.Names S i) ∨ a c i = b c i) : fillInit S L xh data a c i = fillInit S L xh data b c i := by
  induction data generalizing a b with
  | nil => exact h.resolve_left (by simp)
  | cons kv data ih =>
    refine ih _ _ ?_
    simp only [if_pos hc]
    by_cases hi : kv.1.pos S = i
    · right
      rw [← hi, Function.update_self, Function.update_self]
    · rcases h with ⟨kv', hkv', hn⟩ | h
      · rcases List.mem_cons.1 hkv' with rfl | hkv'
        · exact absurd ((InitKey.names_iff S _ _).1 hn) hi
        · exact Or.inl ⟨kv', hkv', hn⟩
      · right
        rw [Function.update_of_ne (Ne.symm hi), Function.update_of_ne (Ne.symm hi), h]

/-! ## Properties -/

/-- **C102, abstract boundary conditions.** A run of `k` steps on the processes `g`; a new simulation on the processes
`g'` receives the saved populations or moments of the fluid cells, and the time; after `j` steps it holds on its
fluid cells what the scheme gives after `k + j` steps from the initial values of the first run. -/
theorem C102_continue (hdim : dim ≤ 3) (g g' : Grid dim) (hN : g.N = g'.N)
    (hlarge : ∀ c i, g.w i ≤ size g c i) (hlarge' : ∀ c i, g'.w i ≤ size g' c i)
    (S : Kernel K n nc d) (hfront : ∀ j, (S.consm j : Nat) < nc) (hM : S.invM * S.M = 1) (vel : Fin n → Cell dim) (a : Algo)
    (fl : Cell dim → Bool) (bc : K → Arr K n dim → Arr K n dim) (hfl : FluidBoundary g.N vel fl bc)
    (Q : Proc g → Setup K n nc d dim) (hQ : UniformFluid g S vel a fl Q) (hbc : SameBoundary g vel Q bc)
    (hnd : ∀ c, (Q c).Lfull.Nodup) (hfull : ∀ c x, Owned (size g c) g.w x → x ∈ (Q c).Lfull)
    (Q' : Proc g' → Setup K n nc d dim) (hQ' : UniformFluid g' S vel a fl Q') (hbc' : SameBoundary g' vel Q' bc)
    (hnd' : ∀ c, (Q' c).Lfull.Nodup) (hfull' : ∀ c x, Owned (size g' c) g'.w x → x ∈ (Q' c).Lfull)
    (σ₀ : Proc g → Simu K n d dim) (h0 : ∀ c, (σ₀ c).Start (Q c)) (G : Arr K n dim)
    (hG : ∀ c x, Owned (size g c) g.w x → fl (globalPos (first g c) g.w x) = true →
      (σ₀ c).arr x = G (globalPos (first g c) g.w x))
    (k : Nat) (σ : Proc g → Simu K n d dim) (hr : PRun g Q σ₀ k σ)
    (σ₀' : Proc g' → Simu K n d dim) (h0' : ∀ c, (σ₀' c).Start (Q' c)) (xh : Proc g' → Fin dim → List K)
    (B M' : Proc g' → Arr K n dim)
    (hsaved : ∀ c x c' x', Owned (size g c) g.w x → Owned (size g' c') g'.w x' →
      globalPos (first g c) g.w x = globalPos (first g' c') g'.w x' → fl (globalPos (first g c) g.w x) = true →
      B c' x' = (σ c).arr x ∧ M' c' x' = ((σ c).apply (Q c) .readM).mem.m (some x))
    (σ₁ : Proc g' → Simu K n d dim)
    (hrest : ∀ c, Restores (Q' c) (xh c) (fun x => Owned (size g' c) g'.w x ∧ fl (globalPos (first g' c) g'.w x) = true)
      (B c) (M' c) (σ₀' c) (σ₁ c))
    (j : Nat) (σ' : Proc g' → Simu K n d dim)
    (hr' : PRun g' Q' (fun c => (σ₁ c).setTime (k * S.dt) k) j σ') :
    (∀ c, (σ' c).t = (k + j : Nat) * S.dt ∧ (σ' c).nt = k + j) ∧
    ∀ c x, Owned (size g' c) g'.w x → fl (globalPos (first g' c) g'.w x) = true →
      (σ' c).arr x = lbmRun g.N vel (collide S a) bc S.dt G (k + j) (globalPos (first g' c) g'.w x) := by
  obtain ⟨h1, h2⟩ := C73_fluid_cells hdim g hlarge S hfront vel a fl Q hQ bc hbc hfl σ₀ h0 G hG k σ hr
  have key : ∀ c, Containers (Q' c) (σ₁ c) ∧
      ∀ x, Owned (size g' c) g'.w x ∧ fl (globalPos (first g' c) g'.w x) = true →
        (σ₁ c).arr x = lbmRun g.N vel (collide S a) bc S.dt G k (globalPos (first g' c) g'.w x) := by
    intro c'
    have hex : ∀ x', Owned (size g' c') g'.w x' → ∃ c x, Owned (size g c) g.w x ∧
        globalPos (first g c) g.w x = globalPos (first g' c') g'.w x' := fun x' hx' =>
      exists_owned g _ (by rw [hN]; exact owned_box g' hx')
    obtain ⟨h3, h4⟩ := (hrest c').spec (h0' c').1 (hnd' c') (fun x hx => hfull' c' x hx.1)
      (by rw [hQ'.scheme c']; exact hM) (by
        rintro x' ⟨hx', hf'⟩
        obtain ⟨c, x, hx, he⟩ := hex x' hx'
        obtain ⟨e1, e2⟩ := hsaved c x c' x' hx hx' he (by rw [he]; exact hf')
        have hb : (Q c).backend = .c → (σ c).F ≠ (σ c).Fnew := by
          intro hb; have := (h1 c).1; unfold Containers at this; rw [hb] at this; exact this
        rw [e2, e1]
        change ((σ c).getM (Q c)).mem.m (some x) = _
        rw [Simu.getM, if_pos (hr.dirty h0 c)]
        simp only
        rw [(f2m_spec (Q c).S (Q c).backend (Q c).Lfull (hnd c) _ _ hb _).1 x (hfull c x hx), hQ.scheme c,
          hQ'.scheme c']
        rfl)
    refine ⟨h3, fun x' hx' => ?_⟩
    obtain ⟨c, x, hx, he⟩ := hex x' hx'.1
    rw [h4 x' hx', (hsaved c x c' x' hx hx'.1 he (by rw [he]; exact hx'.2)).1, h2 c x hx (by rw [he]; exact hx'.2), he]
  obtain ⟨h3, h4⟩ := run_fluid hdim g' hlarge' S hfront vel a fl Q' hQ' bc hbc' (by rw [← hN]; exact hfl)
    (k * S.dt) k (fun c => (σ₁ c).setTime (k * S.dt) k) (fun c => ⟨(key c).1, rfl, rfl⟩) _ (fun c x hx hf => (key c).2 x ⟨hx, hf⟩) j σ' hr'
  refine ⟨fun c => ⟨?_, (h3 c).2.2⟩, fun c x hx hf => ?_⟩
  · rw [(h3 c).2.1]; push_cast; ring
  · rw [h4 c x hx hf, lbmRun_add, ← hN]

/-- **C102, what `inittype = "moments"` restores.** A new simulation whose dictionary gives all the saved moments of a
cell: its populations are those of the equilibrium of the conserved ones; they are the saved populations exactly
where the saved moments are at equilibrium. -/
theorem C102_inittype_partial (P : Setup K n nc d dim) (xh : Fin dim → List K) (s : Simu K n d dim)
    (hLf : P.Lfull.Nodup) (hEQ : ∀ j w, P.S.EQ (P.S.consm j) w = w j) (hM : P.S.M * P.S.invM = 1)
    (data : List (InitKey n nc × InitVal K dim)) (hd : Clear P.S data) (x : Cell dim) (hx : x ∈ P.Lfull) (f : Fin n → K)
    (h : ∀ i, ∃ kv ∈ data, kv.1.Names P.S i ∧ kv.2.Means x (coordAt xh x) ((P.S.M *ᵥ f) i)) :
    ((s.init P xh .moments (some data)).arr x = P.S.invM *ᵥ fun i => P.S.EQ i (P.S.cons (P.S.M *ᵥ f))) ∧
    ((s.init P xh .moments (some data)).arr x = f ↔ ∀ i, (P.S.M *ᵥ f) i = P.S.EQ i fun j => (P.S.M *ᵥ f) (P.S.consm j)) := by
  have hM' : P.S.invM * P.S.M = 1 := mul_eq_one_comm.1 hM
  have key : (s.init P xh .moments (some data)).arr x = P.S.invM *ᵥ fun i => P.S.EQ i (P.S.cons (P.S.M *ᵥ f)) := by
    rw [init_moments P xh s hLf hEQ data x hx]
    have hh := fillInit_holds P.S P.Lfull xh data hd (fun c => s.mem.m (some c)) x hx
    have : fillInit P.S P.Lfull xh data (fun c => s.mem.m (some c)) x = P.S.M *ᵥ f := by
      funext i
      obtain ⟨kv, hkv, hi, hv⟩ := h i
      rw [← (InitVal.means_iff _ _ _ _).1 (hh.1 kv hkv i hi), ← (InitVal.means_iff _ _ _ _).1 hv]
    rw [this]
  refine ⟨key, ?_⟩
  rw [key]
  constructor
  · intro he i
    have := congrArg (P.S.M *ᵥ ·) he
    simp only [Matrix.mulVec_mulVec, hM, Matrix.one_mulVec] at this
    exact (congrFun this i).symm
  · intro he
    have : (fun i => P.S.EQ i (P.S.cons (P.S.M *ᵥ f))) = P.S.M *ᵥ f := by
      funext i; exact (he i).symm
    rw [this, Matrix.mulVec_mulVec, hM', Matrix.one_mulVec]

/-- **C102, relaxation parameters equal to 1.** Without sources and relative velocity, when every moment which is not
conserved relaxes with the parameter 1, a restart with `inittype = "moments"` from the moments read after a
time step restores the populations of that step. -/
theorem C102_inittype_unit (P : Setup K n nc d dim) (xh : Fin dim → List K) (s₀ s : Simu K n d dim) (hs : Containers P s)
    (hL : P.Lin.Nodup) (hLf : P.Lfull.Nodup) (hsub : ∀ c ∈ P.Lin, c ∈ P.Lfull) (hfront : ∀ j, (P.S.consm j : Nat) < nc)
    (hEQ : ∀ j w, P.S.EQ (P.S.consm j) w = w j) (hM : P.S.M * P.S.invM = 1) (hS : ∀ i, P.S.source i = none)
    (hr : P.S.relVel = none) (h1 : ∀ i w, (∀ j, i ≠ P.S.consm j) → P.S.s i w = 1)
    (data : List (InitKey n nc × InitVal K dim)) (hd : Clear P.S data)
    (x : Cell dim) (hx : x ∈ P.Lin) (hfl : P.cfg.checkFluid = true → P.fluid x = true)
    (h : ∀ i, ∃ kv ∈ data, kv.1.Names P.S i ∧
      kv.2.Means x (coordAt xh x) (((s.apply P .step).apply P .readM).mem.m (some x) i)) :
    (s₀.init P xh .moments (some data)).arr x = (s.apply P .step).arr x := by
  have hstep := C39_step_partial P s hs hL hfront hEQ hS hr x hx hfl
  have hc : Containers P (s.apply P .step) := by
    simp only [Simu.apply, Simu.setF]
    unfold Containers at hs ⊢
    cases hb : P.backend <;> simp only [hb] at hs ⊢
    · exact hs.symm
    · exact Ne.symm hs
  have hb : P.backend = .c → (s.apply P .step).F ≠ (s.apply P .step).Fnew := by
    intro hb; unfold Containers at hc; rw [hb] at hc; exact hc
  have hread : ((s.apply P .step).apply P .readM).mem.m (some x) = P.S.M *ᵥ (s.apply P .step).arr x := by
    change ((s.apply P .step).getM P).mem.m (some x) = _
    have hdirty : (s.apply P .step).dirty = true := rfl
    rw [Simu.getM, if_pos hdirty]
    exact (f2m_spec P.S P.backend P.Lfull hLf _ _ hb _).1 x (hsub x hx)
  rw [hread] at h
  refine ((C102_inittype_partial P xh s₀ hLf hEQ hM data hd x (hsub x hx) _ h).2).2 ?_
  have hm : P.S.M *ᵥ (s.apply P .step).arr x = relaxed P.S.consm P.S.EQ P.S.s
      (P.S.M *ᵥ fun k => P.bc s.t (s.mem.buf s.F) (fun i => x i - P.vel k i) k) := by
    rw [Simu.arr, hstep, collision, Matrix.mulVec_mulVec, hM, Matrix.one_mulVec]
  rw [hm]
  set m₀ := P.S.M *ᵥ fun k => P.bc s.t (s.mem.buf s.F) (fun i => x i - P.vel k i) k
  have hcons : ∀ j, relaxed P.S.consm P.S.EQ P.S.s m₀ (P.S.consm j) = m₀ (P.S.consm j) := by
    intro j
    simp only [relaxed, hEQ, Function.comp_apply]
    ring
  intro i
  simp only [hcons]
  by_cases hi : ∃ j, i = P.S.consm j
  · obtain ⟨j, rfl⟩ := hi
    rw [hcons, hEQ]
  · push Not at hi
    simp only [relaxed, h1 i _ hi]
    rw [sub_self, zero_mul, zero_add, one_mul]
    rfl

/-- **C102, `initialize=False`.** Whatever is assigned to the populations and to the moments before the first time step is
lost when the dictionary gives all the components which `inittype` needs: the first step starts from the values
of the dictionary; the time is kept. -/
theorem C102_lazy_negation (P : Setup K n nc d dim) (xh : Fin dim → List K) (s : Simu K n d dim) (hs : s.Start P)
    (hLf : P.Lfull.Nodup) (hEQ : ∀ j w, P.S.EQ (P.S.consm j) w = w j)
    (ty : InitType) (data : List (InitKey n nc × InitVal K dim))
    (hd : ∀ i, (ty = .moments → ∃ j, i = P.S.consm j) → ∃ kv ∈ data, kv.1.Names P.S i)
    (hL : P.Lin.Nodup) (hfront : ∀ j, (P.S.consm j : Nat) < nc)
    (hsplit : ¬ (P.backend = .c ∧ P.cfg.split = true ∧ P.S.relVel.isSome = true))
    (hbc : ∀ t A A', (∀ x ∈ P.Lfull, A x = A' x) → ∀ x ∈ P.Lfull, P.bc t A x = P.bc t A' x)
    (hin : ∀ x ∈ P.Lin, ∀ j, (fun i => x i - P.vel j i) ∈ P.Lfull)
    (ops : List (Op K n dim)) (hops : ∀ o ∈ ops, Writes o) (t : K) (nt : Nat)
    (x : Cell dim) (hx : x ∈ P.Lin) (hf : P.cfg.checkFluid = true → P.fluid x = true) :
    (((s.run P ops).setTime t nt).firstStep P xh ty (some data)).arr x =
      ((s.setTime t nt).firstStep P xh ty (some data)).arr x ∧
    (((s.run P ops).setTime t nt).firstStep P xh ty (some data)).t = t + P.S.dt := by
  obtain ⟨w1, w2, -, -⟩ := run_writes P ops hops s
  have hc : Containers P ((s.run P ops).setTime t nt) := by
    have := hs.1
    unfold Containers
    simp only [Simu.setTime]
    rw [w1, w2]; exact this
  have hc0 : Containers P (s.setTime t nt) := hs.1
  have hsame : ∀ y ∈ P.Lfull, (((s.run P ops).setTime t nt).init P xh ty (some data)).arr y =
      ((s.setTime t nt).init P xh ty (some data)).arr y := by
    intro y hy
    cases ty with
    | moments =>
      rw [init_moments P xh _ hLf hEQ data y hy, init_moments P xh _ hLf hEQ data y hy]
      congr 1
      funext i
      congr 1
      funext j
      exact fillInit_named P.S P.Lfull xh data _ _ y hy _ (Or.inl (hd _ fun _ => ⟨j, rfl⟩))
    | distributions =>
      rw [init_distributions P xh _ hc hLf data, init_distributions P xh _ hc0 hLf data]
      funext i
      exact fillInit_named P.S P.Lfull xh data _ _ y hy _ (Or.inl (hd _ fun h => by cases h))
  have hcont : ∀ r : Simu K n d dim, Containers P r → Containers P (r.init P xh ty (some data)) := by
    intro r hr
    cases ty <;> exact hr
  have htime : ∀ r : Simu K n d dim, (r.init P xh ty (some data)).t = r.t := by
    intro r
    cases ty <;> rfl
  refine ⟨?_, ?_⟩
  · have e1 := C39_step_general P _ (hcont _ hc) hL hfront hsplit x ⟨0, 0, 0⟩
    have e2 := C39_step_general P _ (hcont _ hc0) hL hfront hsplit x ⟨0, 0, 0⟩
    rw [if_pos ⟨hx, hf⟩] at e1 e2
    rw [Simu.firstStep, Simu.firstStep, Simu.arr, Simu.arr, e1, e2]
    congr 2
    funext l
    rw [htime, htime]
    refine congrFun (hbc _ _ _ ?_ _ (hin x hx l)) l
    exact hsame
  · simp only [Simu.firstStep, Simu.apply, Simu.setF]
    rw [htime]
    rfl

end abstract

section walls
variable {K : Type} [Field K] [LinearOrder K] [IsStrictOrderedRing K] [FloorRing K] {nc d dim : Nat}

/-- **C102.** Walls and obstacles as in `C73_check_isfluid`.  A run of `k` steps on the processes `g`, a new simulation on
the processes `g'` which receives the saved populations or moments of the fluid cells and the time, and an
uninterrupted run of `k + j` steps on the processes `g''`: after `j` steps of the new simulation the fluid
cells, the time and the number of steps are those of the uninterrupted run. -/
theorem C102_restart (hdim : dim ≤ 3) {s : Sten dim} (D : WallData K dim s) (lo : Fin dim → K) (dx : K)
    (lab : Fin dim → Bool → Int) (hD : D.WF lab) (g g' g'' : Grid dim) (hN' : g.N = g'.N) (hw' : g.w = g'.w)
    (hN'' : g.N = g''.N) (hw'' : g.w = g''.w)
    (ST : Domain.State K dim s.nu) (J : List (Method dim × List (Entry K dim s.ns)))
    (hJ : OnGrid D (boxGrid g.N g.w lo dx lab s) ST J)
    (hfree : ∀ t, Free s (flat s (withValues s (boxGrid g.N g.w lo dx lab s) D.ψ J t)))
    (hlinks : AllLinks g.N g.w ST) (hmeth : AllMethods D) (hreads : ReadsFluid D g.N g.w lo dx lab ST J)
    (S : Kernel K s.ns nc d) (hfront : ∀ j, (S.consm j : Nat) < nc) (hM : S.invM * S.M = 1) (a : Algo)
    (Q : Proc g → Setup K s.ns nc d dim) (hQ : FluidRun D g lo dx lab S a Q)
    (hnd : ∀ c, (Q c).Lfull.Nodup) (hfull : ∀ c x, Owned (size g c) g.w x → x ∈ (Q c).Lfull)
    (Q' : Proc g' → Setup K s.ns nc d dim) (hQ' : FluidRun D g' lo dx lab S a Q')
    (hnd' : ∀ c, (Q' c).Lfull.Nodup) (hfull' : ∀ c x, Owned (size g' c) g'.w x → x ∈ (Q' c).Lfull)
    (Q'' : Proc g'' → Setup K s.ns nc d dim) (hQ'' : FluidRun D g'' lo dx lab S a Q'')
    (σ₀ : Proc g → Simu K s.ns d dim) (h0 : ∀ c, (σ₀ c).Start (Q c))
    (σ₀'' : Proc g'' → Simu K s.ns d dim) (h0'' : ∀ c, (σ₀'' c).Start (Q'' c)) (G : Arr K s.ns dim)
    (hG : ∀ c x, Owned (size g c) g.w x → fluidMap g.w ST (globalPos (first g c) g.w x) = true →
      (σ₀ c).arr x = G (globalPos (first g c) g.w x))
    (hG'' : ∀ c x, Owned (size g'' c) g''.w x → fluidMap g.w ST (globalPos (first g'' c) g''.w x) = true →
      (σ₀'' c).arr x = G (globalPos (first g'' c) g''.w x))
    (k j : Nat) (σ : Proc g → Simu K s.ns d dim) (hr : PRun g Q σ₀ k σ)
    (σ'' : Proc g'' → Simu K s.ns d dim) (hr'' : PRun g'' Q'' σ₀'' (k + j) σ'')
    (σ₀' : Proc g' → Simu K s.ns d dim) (h0' : ∀ c, (σ₀' c).Start (Q' c)) (xh : Proc g' → Fin dim → List K)
    (B M' : Proc g' → Arr K s.ns dim)
    (hsaved : ∀ c x c' x', Owned (size g c) g.w x → Owned (size g' c') g'.w x' →
      globalPos (first g c) g.w x = globalPos (first g' c') g'.w x' →
      fluidMap g.w ST (globalPos (first g c) g.w x) = true →
      B c' x' = (σ c).arr x ∧ M' c' x' = ((σ c).apply (Q c) .readM).mem.m (some x))
    (σ₁ : Proc g' → Simu K s.ns d dim)
    (hrest : ∀ c, Restores (Q' c) (xh c)
      (fun x => Owned (size g' c) g'.w x ∧ fluidMap g.w ST (globalPos (first g' c) g'.w x) = true)
      (B c) (M' c) (σ₀' c) (σ₁ c))
    (σ' : Proc g' → Simu K s.ns d dim)
    (hr' : PRun g' Q' (fun c => (σ₁ c).setTime (k * S.dt) k) j σ')
    (c' : Proc g') (x' : Cell dim) (hx' : Owned (size g' c') g'.w x')
    (c'' : Proc g'') (x'' : Cell dim) (hx'' : Owned (size g'' c'') g''.w x'')
    (he : globalPos (first g' c') g'.w x' = globalPos (first g'' c'') g''.w x'')
    (hf : fluidMap g.w ST (globalPos (first g' c') g'.w x') = true) :
    (σ' c').arr x' = (σ'' c'').arr x'' ∧ (σ' c').t = (σ'' c'').t ∧ (σ' c').nt = (σ'' c'').nt := by
  have hB := fluidBoundary_walls D g.N g.w lo dx lab hD ST J hJ hfree hlinks hmeth hreads
  have hU : ∀ {h : Grid dim} (P : Proc h → Setup K s.ns nc d dim), g.N = h.N → g.w = h.w → FluidRun D h lo dx lab S a P →
      UniformFluid h S s.vel a (fluidMap g.w ST) P ∧ SameBoundary h s.vel P (wallBc D g.N g.w lo dx lab J) := by
    intro h P e1 e2 hP
    have hJ' := hJ
    have hfree' := hfree
    rw [e1, e2] at hJ' hfree'
    refine ⟨?_, ?_⟩
    · have := hP.uniform hD ST hJ'.built; rw [← e2] at this; exact this
    · have := sameBoundary_walls D h lo dx lab hD P hP.walls ST J hJ' hfree'; rw [← e1, ← e2] at this; exact this
  obtain ⟨h1, h2⟩ := C102_continue hdim g g' hN' hQ.walls.large hQ'.walls.large S hfront hM s.vel a (fluidMap g.w ST)
    _ hB Q (hU Q rfl rfl hQ).1 (hU Q rfl rfl hQ).2 hnd hfull Q' (hU Q' hN' hw' hQ').1 (hU Q' hN' hw' hQ').2 hnd' hfull'
    σ₀ h0 G hG k σ hr σ₀' h0' xh B M' hsaved σ₁ hrest j σ' hr'
  obtain ⟨h3, h4⟩ := C73_fluid_cells hdim g'' hQ''.walls.large S hfront s.vel a (fluidMap g.w ST) Q''
    (hU Q'' hN'' hw'' hQ'').1 _ (hU Q'' hN'' hw'' hQ'').2 (by rw [← hN'']; exact hB) σ₀'' h0'' G hG'' (k + j) σ'' hr''
  refine ⟨?_, ?_, ?_⟩
  · rw [h2 c' x' hx' hf, h4 c'' x'' hx'' (by rw [← he]; exact hf), he, ← hN'']
  · rw [(h1 c').1, (h3 c'').2.1]
  · rw [(h1 c').2, (h3 c'').2.2]

end walls
end Pylbm.Sim
