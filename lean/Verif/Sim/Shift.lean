import Verif.Sim.Linear
import Verif.Sim.Rest
/-!
# Adding a uniform state to a solution (C116)
-/
set_option linter.unusedSectionVars false
namespace Pylbm.Sim
open Scheme Halo SchemeSpec Matrix HaloSpec Mpi Boundary

variable {K : Type} [Field K] [LinearOrder K] [IsStrictOrderedRing K] [FloorRing K] {n nc d dim : Nat}

/-! ## Specification -/

/-- Adding `μ` to the moments adds `μ` to the equilibrium and does not change the relaxation parameters nor the sources. -/
structure Shifts (S : Kernel K n nc d) (μ : Fin n → K) : Prop where
  EQ : ∀ i w, S.EQ i (fun l => w l + μ (S.consm l)) = S.EQ i w + μ i
  s : ∀ i w, S.s i (fun l => w l + μ (S.consm l)) = S.s i w
  source : ∀ i q, S.source i = some q → ∀ m, q (fun l => m l + μ l) = q m

/-! ## Lemmas -/

theorem comb_one (G : Arr K n dim) (u : Fin n → K) : comb 1 1 G (fun _ => u) = fun x j => G x j + u j := by
  funext x j
  simp [comb]

theorem lbmRun_shift (N : Fin dim → Nat) (vel : Fin n → Cell dim) (φ : (Fin n → K) → Fin n → K) (u : Fin n → K)
    (hφ : ∀ f, φ (fun j => f j + u j) = fun j => φ f j + u j) (bc bc' : K → Arr K n dim → Arr K n dim)
    (hbc : ∀ t H, bc' t (fun x j => H x j + u j) = fun x j => bc t H x j + u j) (dt : K) (G : Arr K n dim) (k : Nat) :
    lbmRun N vel φ bc' dt (fun x j => G x j + u j) k = fun x j => lbmRun N vel φ bc dt G k x j + u j := by
  induction k with
  | zero => rfl
  | succ k ih =>
    unfold lbmRun
    rw [ih]
    unfold lbmStep
    funext y
    have e : periodic N (fun x j => lbmRun N vel φ bc dt G k x j + u j) =
        fun x j => periodic N (lbmRun N vel φ bc dt G k) x j + u j := rfl
    rw [e, hbc]
    exact hφ _

/-! ## Properties -/

/-- **C116, collision.** If adding the moments of `u` shifts the equilibrium, so it does the collision. The equilibrium may be
nonlinear and the relaxation parameters may depend on the conserved moments; the sources are as in C45. -/
theorem C116_collision (S : Kernel K n nc d) (hEQ : ∀ j w, S.EQ (S.consm j) w = w j) (hM : S.invM * S.M = 1)
    (hT : Triangular S.source) (hrel : S.relVel = none) (u : Fin n → K) (h : Shifts S (S.M *ᵥ u)) (al : Algo)
    (f : Fin n → K) : collide S al (fun j => f j + u j) = fun j => collide S al f j + u j := by
  have hcol : ∀ f, collide S al f = sourceCollision S.M S.invM S.consm S.EQ S.s S.dt S.source f := by
    intro f
    unfold collide
    rw [prog_eq]
    obtain ⟨h3, h4⟩ := C45_step_partial S hEQ hT f ⟨0, 0, 0⟩
    cases al with
    | base => simp only [hrel, Option.isSome_none]; exact h4
    | pull => simp only [hrel, Option.isSome_none]; exact h3
  have heul : ∀ m : Fin n → K, euler S.dt S.source (fun l => m l + (S.M *ᵥ u) l) =
      fun l => euler S.dt S.source m l + (S.M *ᵥ u) l := by
    intro m
    funext i
    unfold euler
    cases hq : S.source i with
    | none => rfl
    | some q =>
      simp only
      rw [h.source i q hq]
      ring
  have hrlx : ∀ m : Fin n → K, relaxed S.consm S.EQ S.s (fun l => m l + (S.M *ᵥ u) l) =
      fun l => relaxed S.consm S.EQ S.s m l + (S.M *ᵥ u) l := by
    intro m
    funext i
    unfold relaxed
    have e1 := h.EQ i (m ∘ S.consm)
    have e2 := h.s i (m ∘ S.consm)
    have e3 : ((fun l => m l + (S.M *ᵥ u) l) ∘ S.consm) = fun l => (m ∘ S.consm) l + (S.M *ᵥ u) (S.consm l) := rfl
    rw [e3, e1, e2]
    ring
  rw [hcol, hcol]
  unfold sourceCollision
  have e : S.M *ᵥ (fun j => f j + u j) = fun l => (S.M *ᵥ f) l + (S.M *ᵥ u) l := Matrix.mulVec_add S.M f u
  rw [e, heul, hrlx, heul]
  have e' := Matrix.mulVec_add S.invM (euler S.dt S.source (relaxed S.consm S.EQ S.s (euler S.dt S.source (S.M *ᵥ f))))
    (S.M *ᵥ u)
  rw [Matrix.mulVec_mulVec, hM, Matrix.one_mulVec] at e'
  exact e'

/-- **C116.** Two runs of the same scheme in the same domain, on any decompositions, backends and schedules of the messages,
with or without `check_isfluid`. The initial populations of the second run are those of the first one plus the same `u` in
every fluid cell, the values imposed on its walls are those of the first run plus values which agree with `u` as in C80. The
collision is shifted by `u`, its equilibrium may be nonlinear. After any number of steps the populations of the two runs
differ by `u` on every fluid cell, and their moments by those of `u`. -/
theorem C116_shift (hdim : dim ≤ 3) {s : Sten dim} (D : WallData K dim s) (lo : Fin dim → K) (dx : K)
    (lab : Fin dim → Bool → Int) (hD : D.WF lab) (g g' : Grid dim) (hN : g.N = g'.N) (hw : g.w = g'.w)
    (ST : Domain.State K dim s.nu) (J : List (Method dim × List (Entry K dim s.ns)))
    (hJ : OnGrid D (boxGrid g.N g.w lo dx lab s) ST J)
    (hfree : ∀ t, Free s (flat s (withValues s (boxGrid g.N g.w lo dx lab s) D.ψ J t)))
    (hlinks : AllLinks g.N g.w ST) (hmeth : AllMethods D) (hreads : ReadsFluid D g.N g.w lo dx lab ST J)
    (S : Kernel K s.ns nc d) (hfront : ∀ j, (S.consm j : Nat) < nc) (a : Algo) (u : Fin s.ns → K)
    (hu : ∀ f, collide S a (fun j => f j + u j) = fun j => collide S a f j + u j)
    (Q : Proc g → Setup K s.ns nc d dim) (hQ : FluidRun D g lo dx lab S a Q)
    (ψ ψ' : Int → K → (Fin dim → K) → Fin s.ns → K) (hψ : ∀ l t x j, ψ' l t x j = D.ψ l t x j + ψ l t x j)
    (hwall : WallsAgree (otherValues D ψ) u)
    (Q' : Proc g' → Setup K s.ns nc d dim) (hQ' : FluidRun (otherValues D ψ') g' lo dx lab S a Q')
    (σ₀ : Proc g → Simu K s.ns d dim) (h0 : ∀ c, (σ₀ c).Start (Q c))
    (σ₀' : Proc g' → Simu K s.ns d dim) (h0' : ∀ c, (σ₀' c).Start (Q' c)) (G : Arr K s.ns dim)
    (hG : ∀ c x, Owned (size g c) g.w x → fluidMap g.w ST (globalPos (first g c) g.w x) = true →
      (σ₀ c).arr x = G (globalPos (first g c) g.w x))
    (hG' : ∀ c x, Owned (size g' c) g'.w x → fluidMap g.w ST (globalPos (first g' c) g'.w x) = true → ∀ j,
      (σ₀' c).arr x j = G (globalPos (first g' c) g'.w x) j + u j)
    (k : Nat) (σ : Proc g → Simu K s.ns d dim) (hr : PRun g Q σ₀ k σ)
    (σ' : Proc g' → Simu K s.ns d dim) (hr' : PRun g' Q' σ₀' k σ')
    (c : Proc g) (x : Cell dim) (hx : Owned (size g c) g.w x)
    (c' : Proc g') (x' : Cell dim) (hx' : Owned (size g' c') g'.w x')
    (he : globalPos (first g c) g.w x = globalPos (first g' c') g'.w x')
    (hf : fluidMap g.w ST (globalPos (first g c) g.w x) = true) :
    (∀ j, (σ' c').arr x' j = (σ c).arr x j + u j) ∧
    ∀ i, (S.M *ᵥ (σ' c').arr x') i = (S.M *ᵥ (σ c).arr x) i + (S.M *ᵥ u) i := by
  have hψ' : ψ' = combValues (s := s) 1 1 D.ψ ψ := by
    funext l t x j
    rw [hψ]
    simp [combValues]
  subst hψ'
  have h1 := fluid_values hdim D D.ψ lo dx lab hD g g rfl rfl ST J hJ hfree hlinks hmeth hreads S hfront a Q hQ σ₀ h0 G hG
    k σ hr c x hx hf
  have h2 := fluid_values hdim D _ lo dx lab hD g g' hN hw ST J hJ hfree hlinks hmeth hreads S hfront a Q' hQ' σ₀' h0'
    (fun x j => G x j + u j) (fun c x hx hf => funext (hG' c x hx hf)) k σ' hr' c' x' hx' (he ▸ hf)
  have hbc : ∀ t H, wallBc (otherValues D (combValues (s := s) 1 1 D.ψ ψ)) g.N g.w lo dx lab J t (fun x j => H x j + u j) =
      fun x j => wallBc D g.N g.w lo dx lab J t H x j + u j := by
    intro t H
    have := wallBc_comb (α := 1) (β := 1) D g.N g.w lo dx lab ψ J t H (fun _ => u)
    rw [comb_one] at this
    rw [this]
    funext y j
    simp only [comb, one_mul]
    rw [wallBc_uniform (otherValues_wf hD ψ) (otherValues_onGrid hJ ψ) (fun t => free_values (hfree t)) hwall]
  have hmain : (σ' c').arr x' = (σ c).arr x + u := by
    funext j
    rw [h1, h2, ← he, lbmRun_shift g.N s.vel (collide S a) u hu _ _ hbc]
    rfl
  refine ⟨fun j => by rw [hmain]; rfl, fun i => ?_⟩
  rw [hmain, Matrix.mulVec_add]
  rfl

/-- **C116, walls at rest.** With bounce-back, interpolated or not, and the Neumann conditions, a state at rest (equal
populations of opposite velocities) can be added without changing the walls. -/
theorem C116_rest (hdim : dim ≤ 3) {s : Sten dim} (D : WallData K dim s) (lo : Fin dim → K) (dx : K)
    (lab : Fin dim → Bool → Int) (hD : D.WF lab) (g g' : Grid dim) (hN : g.N = g'.N) (hw : g.w = g'.w)
    (ST : Domain.State K dim s.nu) (J : List (Method dim × List (Entry K dim s.ns)))
    (hJ : OnGrid D (boxGrid g.N g.w lo dx lab s) ST J)
    (hfree : ∀ t, Free s (flat s (withValues s (boxGrid g.N g.w lo dx lab s) D.ψ J t)))
    (hlinks : AllLinks g.N g.w ST) (hmeth : AllMethods D) (hreads : ReadsFluid D g.N g.w lo dx lab ST J)
    (hm : ∀ label ms, D.dico label = some ms → ∀ p ∈ ms, p.2 ≠ .antiBounceBack ∧ p.2 ≠ .bouzidiAntiBounceBack)
    (S : Kernel K s.ns nc d) (hfront : ∀ j, (S.consm j : Nat) < nc) (hEQ : ∀ j w, S.EQ (S.consm j) w = w j)
    (hM : S.invM * S.M = 1) (hT : Triangular S.source) (hrel : S.relVel = none) (a : Algo)
    (u : Fin s.ns → K) (hu : Shifts S (S.M *ᵥ u)) (heven : Even u)
    (Q : Proc g → Setup K s.ns nc d dim) (hQ : FluidRun D g lo dx lab S a Q)
    (Q' : Proc g' → Setup K s.ns nc d dim) (hQ' : FluidRun D g' lo dx lab S a Q')
    (σ₀ : Proc g → Simu K s.ns d dim) (h0 : ∀ c, (σ₀ c).Start (Q c))
    (σ₀' : Proc g' → Simu K s.ns d dim) (h0' : ∀ c, (σ₀' c).Start (Q' c)) (G : Arr K s.ns dim)
    (hG : ∀ c x, Owned (size g c) g.w x → fluidMap g.w ST (globalPos (first g c) g.w x) = true →
      (σ₀ c).arr x = G (globalPos (first g c) g.w x))
    (hG' : ∀ c x, Owned (size g' c) g'.w x → fluidMap g.w ST (globalPos (first g' c) g'.w x) = true → ∀ j,
      (σ₀' c).arr x j = G (globalPos (first g' c) g'.w x) j + u j)
    (k : Nat) (σ : Proc g → Simu K s.ns d dim) (hr : PRun g Q σ₀ k σ)
    (σ' : Proc g' → Simu K s.ns d dim) (hr' : PRun g' Q' σ₀' k σ')
    (c : Proc g) (x : Cell dim) (hx : Owned (size g c) g.w x)
    (c' : Proc g') (x' : Cell dim) (hx' : Owned (size g' c') g'.w x')
    (he : globalPos (first g c) g.w x = globalPos (first g' c') g'.w x')
    (hf : fluidMap g.w ST (globalPos (first g c) g.w x) = true) :
    (∀ j, (σ' c').arr x' j = (σ c).arr x j + u j) ∧
    ∀ i, (S.M *ᵥ (σ' c').arr x') i = (S.M *ᵥ (σ c).arr x) i + (S.M *ᵥ u) i :=
  C116_shift hdim D lo dx lab hD g g' hN hw ST J hJ hfree hlinks hmeth hreads S hfront a u
    (C116_collision S hEQ hM hT hrel u hu a) Q hQ (fun _ _ _ _ => 0) D.ψ (fun _ _ _ _ => (add_zero _).symm)
    (C80_rest (otherValues D _) u heven hm fun _ _ _ _ _ _ _ => rfl) Q' hQ' σ₀ h0 σ₀' h0' G hG hG' k σ hr σ' hr' c x hx
    c' x' hx' he hf

/-- **C116, initial values.** Two constructions by moments: if the conserved moments of the second dictionary are those of
the first one plus those of `u`, the initial populations differ by `u`. -/
theorem C116_initial (g : Grid dim) (lo : Fin dim → K) (dx : K) (S : Kernel K n nc d) (u : Fin n → K)
    (hS : Shifts S (S.M *ᵥ u))
    (hEQ : ∀ j w, S.EQ (S.consm j) w = w j) (hM : S.M * S.invM = 1)
    (Q : Fin 2 → Proc g → Setup K n nc d dim) (hQ : ∀ r c, (Q r c).S = S) (hnd : ∀ r c, (Q r c).Lfull.Nodup)
    (hfull : ∀ r c x, x ∈ (Q r c).Lfull ↔ InLocal (size g c) g.w x)
    (σ₀ : Fin 2 → Proc g → Simu K n d dim) (h0 : ∀ r c, (σ₀ r c).Start (Q r c)) (hz : ∀ r c a, (σ₀ r c).mem.m a = 0)
    (data : Fin 2 → List (InitKey n nc × InitVal K dim)) (hd : ∀ r, Clear S (data r))
    (W : (Fin dim → K) → Fin nc → K)
    (hW : ∀ r z y, ∀ kv ∈ data r, ∀ j, kv.1.Names S (S.consm j) →
      kv.2.Means z y (![W y j, W y j + (S.M *ᵥ u) (S.consm j)] r))
    (hW0 : ∀ r y j, (∀ kv ∈ data r, ¬ kv.1.Names S (S.consm j)) → ![W y j, W y j + (S.M *ᵥ u) (S.consm j)] r = 0)
    (c : Proc g) (x : Cell dim) (hx : InLocal (size g c) g.w x) (i : Fin n) :
    ((σ₀ 1 c).init (Q 1 c) (procCoords g lo dx c) .moments (some (data 1))).arr x i =
      ((σ₀ 0 c).init (Q 0 c) (procCoords g lo dx c) .moments (some (data 0))).arr x i + u i := by
  have key := fun r => C68_parallel g lo dx S hEQ hM (Q r) (hQ r) (hnd r) (hfull r) (σ₀ r) (h0 r) (hz r) (data r) (hd r)
    (fun y j => ![W y j, W y j + (S.M *ᵥ u) (S.consm j)] r) (hW r) (hW0 r) c x hx
  have hM' : S.invM * S.M = 1 := mul_eq_one_comm.1 hM
  rw [key 0, key 1]
  simp only [Matrix.cons_val]
  have e := Matrix.mulVec_add S.invM 
    (fun l => S.EQ l (W fun i => DomainSpec.centre (lo i) dx (globalPos (first g c) g.w x i))) (S.M *ᵥ u)
  rw [Matrix.mulVec_mulVec, hM', Matrix.one_mulVec] at e
  refine Eq.trans ?_ (congrFun e i)
  refine congrFun (congrArg (S.invM *ᵥ ·) (funext fun l => ?_)) i
  exact hS.EQ l _

/-- **C116, imposed values.** If the second wall imposes the same moments plus those of `u`, and imposes all those which
`u` changes, the populations imposed differ by `u`. -/
theorem C116_imposed (S : Kernel K n nc d) (hM : S.invM * S.M = 1) (u : Fin n → K) (hS : Shifts S (S.M *ᵥ u))
    (I I' : Imposed K dim nc) (hw : I'.which = I.which)
    (hall : ∀ j, I.which j = false → (S.M *ᵥ u) (S.consm j) = 0)
    (hv : ∀ t x j, I'.val t x j = I.val t x j + (S.M *ᵥ u) (S.consm j)) (t : K) (x : Fin dim → K) (i : Fin n) :
    I'.feq S.invM S.EQ t x i = I.feq S.invM S.EQ t x i + u i := by
  unfold Imposed.feq
  have e : (fun i => S.EQ i fun j => if I'.which j then I'.val t x j else 0) =
      (fun i => S.EQ i fun j => if I.which j then I.val t x j else 0) + (S.M *ᵥ u) := by
    funext l
    rw [Pi.add_apply, ← hS.EQ]
    congr 1
    funext j
    rw [hw, hv]
    cases h : I.which j
    · simp [hall j h]
    · simp
  rw [e, Matrix.mulVec_add, Matrix.mulVec_mulVec, hM, Matrix.one_mulVec]
  rfl

end Pylbm.Sim
