import Verif.Sim.Absorb
import Verif.Sim.Linear
import Mathlib.Analysis.SpecificLimits.Basic
/-!
# C121: the initial values are forgotten

Two simulations in the same chamber with the same values imposed on the walls, whatever these values are and even if they change
with time: the difference is a simulation with the value 0 on the walls.
-/

namespace Pylbm.Sim
open Scheme Halo SchemeSpec Matrix HaloSpec Mpi Boundary

section walls
variable {d dim : Nat} {s : Sten dim} {D : WallData ℝ dim s} {lo : Fin dim → ℝ} {dx : ℝ}
    {lab : Fin dim → Bool → Int} {ST : Domain.State ℝ dim s.nu} {J : List (Method dim × List (Entry ℝ dim s.ns))}
    {W : Fin dim → Bool} {ε : Fin dim → ℝ} {S : Kernel ℝ s.ns 1 d} {alg : Algo} {N wd : Fin dim → Nat}
    {w : Fin s.ns → ℝ} {E : Matrix (Fin s.ns) (Fin 1) ℝ} {b r e : Fin s.ns → ℝ}

/-- The difference of two runs on the whole box. -/
theorem Chamber.forget (hN : ∀ i, 0 < N i)
    (hch : Chamber (otherValues D fun _ _ _ _ => 0) N wd lo dx lab ST J W fun i _ => ε i)
    (h : Damped S w E b r e) (hS : Combines S 1 (-1))
    (hcol : ∀ i, W i = true → ∀ f, collide S alg (reflectCell s (fun i _ => ε i) (fun a => decide (a = i)) f) =
      reflectCell s (fun i _ => ε i) (fun a => decide (a = i)) (collide S alg f))
    (hsym : ∀ j, S.M (S.consm 0) (s.sym j) = S.M (S.consm 0) j) (hc : Connects (doubled W N) s.vel) :
    ∃ q : ℝ, 0 < q ∧ q < 1 ∧ ∀ G G' : Arr ℝ s.ns dim,
      ((∃ i, W i = true ∧ ε i = -1) ∨
        ∑ y ∈ box N, (S.M *ᵥ G y) (S.consm 0) = ∑ y ∈ box N, (S.M *ᵥ G' y) (S.consm 0)) →
      ∃ C : ℝ, ∀ k, ∀ y ∈ box N, ∀ j,
        (lbmRun N s.vel (collide S alg) (wallBc D N wd lo dx lab J) S.dt G k y j -
          lbmRun N s.vel (collide S alg) (wallBc D N wd lo dx lab J) S.dt G' k y j) ^ 2 ≤ C * q ^ k := by
  have hN' : ∀ i, 0 < doubled W N i := by
    intro i
    have := hN i
    unfold doubled
    split_ifs <;> omega
  obtain ⟨q, h0, h1, h2⟩ := h.tends hN' hc alg S.dt
  refine ⟨q, h0, h1, fun G G' htot => ?_⟩
  have hz : AtEquilibrium S (0 : Fin s.ns → ℝ) := by
    intro i
    have := hS.EQ i (fun _ => 0) fun _ => 0
    simp only [mul_zero, add_zero] at this
    simp only [Matrix.mulVec_zero, Pi.zero_apply]
    linarith
  obtain ⟨C, hC⟩ := h2 (images s (fun i _ => ε i) W N (comb 1 (-1) G G')) 0 hz (by
    have h3 : ∀ y, (S.M *ᵥ images s (fun i _ => ε i) W N (comb 1 (-1) G G') y) (S.consm 0) =
        (∏ i, if turned W N y i = true then ε i else 1) * (S.M *ᵥ comb 1 (-1) G G' (fold W N y)) (S.consm 0) :=
      fun y => moment_reflect_signs hch.wf.sten ε (turned W N y) (S.M (S.consm 0)) (comb 1 (-1) G G' (fold W N y)) hsym
    simp only [h3]
    rw [sum_fold_signs W N hN ε fun z => (S.M *ᵥ comb 1 (-1) G G' z) (S.consm 0), Matrix.mulVec_zero, Pi.zero_apply, mul_zero]
    rcases htot with ⟨i, hi, he⟩ | htot
    · rw [Finset.prod_eq_zero (Finset.mem_univ i) (by rw [if_pos hi, he]; ring), zero_mul]
    · have h4 : ∀ z, (S.M *ᵥ comb 1 (-1) G G' z) (S.consm 0) = (S.M *ᵥ G z) (S.consm 0) - (S.M *ᵥ G' z) (S.consm 0) := by
        intro z
        have : comb 1 (-1) G G' z = G z - G' z := by
          funext j
          simp only [comb, Pi.sub_apply]
          ring
        rw [this, Matrix.mulVec_sub, Pi.sub_apply]
      simp only [h4]
      rw [Finset.sum_sub_distrib, htot, sub_self, mul_zero])
  refine ⟨C, fun k y hy j => ?_⟩
  obtain ⟨h4, h5⟩ := fold_id W N hy
  have hv : combValues 1 (-1) D.ψ D.ψ = fun _ _ _ _ => 0 := by
    funext l t x j
    simp [combValues]
  have h6 := lbmRun_comb N s.vel (collide S alg) (C90_collision S 1 (-1) hS alg) _ _ _
    (wallBc_comb D N wd lo dx lab D.ψ J) S.dt G G' k
  rw [hv] at h6
  have h7 : lbmRun (doubled W N) s.vel (collide S alg) (fun _ H => H) S.dt (images s (fun i _ => ε i) W N (comb 1 (-1) G G')) k
      y j = lbmRun N s.vel (collide S alg) (wallBc D N wd lo dx lab J) S.dt G k y j -
        lbmRun N s.vel (collide S alg) (wallBc D N wd lo dx lab J) S.dt G' k y j := by
    rw [hch.run_images hN S alg hcol]
    unfold images
    rw [h4, h5, reflect_none, h6]
    show 1 * _ + -1 * _ = _
    rw [one_mul, neg_one_mul, ← sub_eq_add_neg]
    rfl
  rw [← h7, ← sub_zero (lbmRun _ _ _ _ _ _ _ _ _)]
  refine hC k _ ?_ j
  rw [mem_box] at hy ⊢
  intro i
  have := hy i
  unfold doubled
  split_ifs <;> push_cast <;> omega

/-- The values of a run of the processes. -/
theorem Chamber.values (hdim : dim ≤ 3) (hch : Chamber (otherValues D fun _ _ _ _ => 0) N wd lo dx lab ST J W fun i _ => ε i)
    (hfront : ∀ j, (S.consm j : Nat) < 1) {g : Grid dim} (hgN : g.N = N) (hgw : g.w = wd)
    {Q : Proc g → Setup ℝ s.ns 1 d dim} (hQ : FluidRun D g lo dx lab S alg Q) {σ₀ : Proc g → Simu ℝ s.ns d dim}
    (hσ : ∀ c, (σ₀ c).Start (Q c)) {G : Arr ℝ s.ns dim}
    (hG : ∀ c x, Owned (size g c) g.w x → (σ₀ c).arr x = G (globalPos (first g c) g.w x)) {k σ} (hr : PRun g Q σ₀ k σ)
    {c x} (hx : Owned (size g c) g.w x) :
    globalPos (first g c) g.w x ∈ box N ∧ (σ c).arr x =
      lbmRun N s.vel (collide S alg) (wallBc D N wd lo dx lab J) S.dt G k (globalPos (first g c) g.w x) := by
  subst hgN hgw
  exact ⟨owned_box g hx, fluid_values hdim (otherValues D fun _ _ _ _ => 0) D.ψ lo dx lab hch.wf g g rfl rfl ST J hch.onGrid hch.free
    (allLinks_of_open hch.links.1) hch.methods hch.readsFluid S hfront alg Q hQ σ₀ hσ G (fun c x hx _ => hG c x hx) k σ hr c x hx
    (hch.fluid _ (owned_box g hx))⟩

theorem lbmStep_time (hψ : ∀ l t, D.ψ l t = D.ψ l 0) (φ : (Fin s.ns → ℝ) → Fin s.ns → ℝ) (t : ℝ) (H : Arr ℝ s.ns dim) :
    lbmStep N s.vel φ (wallBc D N wd lo dx lab J) t H = lbmStep N s.vel φ (wallBc D N wd lo dx lab J) 0 H := by
  have hbc : wallBc D N wd lo dx lab J t = wallBc D N wd lo dx lab J 0 := by
    unfold wallBc withValues
    simp only [hψ _ t]
  unfold lbmStep
  rw [hbc]

/-- With values which do not change with time, the first step can be taken apart. -/
theorem lbmRun_later (hψ : ∀ l t, D.ψ l t = D.ψ l 0) (φ : (Fin s.ns → ℝ) → Fin s.ns → ℝ) (dt : ℝ) (G : Arr ℝ s.ns dim) (k : Nat) :
    lbmRun N s.vel φ (wallBc D N wd lo dx lab J) dt G (k + 1) =
      lbmRun N s.vel φ (wallBc D N wd lo dx lab J) dt (lbmStep N s.vel φ (wallBc D N wd lo dx lab J) 0 G) k := by
  induction k with
  | zero => exact lbmStep_time hψ _ _ _
  | succ k ih =>
    show lbmStep _ _ _ _ _ (lbmRun N s.vel φ (wallBc D N wd lo dx lab J) dt G (k + 1)) = lbmStep _ _ _ _ _ _
    rw [ih, lbmStep_time hψ, lbmStep_time hψ _ (k * dt)]

theorem lbmStep_box (hN : ∀ i, 0 < N i) (φ : (Fin s.ns → ℝ) → Fin s.ns → ℝ) {bc : ℝ → Arr ℝ s.ns dim → Arr ℝ s.ns dim} (t : ℝ)
    {H H' : Arr ℝ s.ns dim} (h : ∀ y ∈ box N, H y = H' y) : lbmStep N s.vel φ bc t H = lbmStep N s.vel φ bc t H' := by
  have : periodic N H = periodic N H' := funext fun z => h _ (wrap_box hN z)
  unfold lbmStep
  rw [this]

/-- The step is continuous. -/
theorem Chamber.step_tendsto (hN : ∀ i, 0 < N i)
    (hch : Chamber (otherValues D fun _ _ _ _ => 0) N wd lo dx lab ST J W fun i _ => ε i)
    (h : Damped S w E b r e) (t : ℝ) {A : Nat → Arr ℝ s.ns dim} {F : Arr ℝ s.ns dim}
    (hA : ∀ y ∈ box N, ∀ j, Filter.Tendsto (fun k => A k y j) Filter.atTop (nhds (F y j))) (y : Cell dim) (hy : y ∈ box N)
    (j : Fin s.ns) :
    Filter.Tendsto (fun k => lbmStep N s.vel (collide S alg) (wallBc D N wd lo dx lab J) t (A k) y j) Filter.atTop
      (nhds (lbmStep N s.vel (collide S alg) (wallBc D N wd lo dx lab J) t F y j)) := by
  have hv : combValues 1 (-1) D.ψ D.ψ = fun _ _ _ _ => 0 := by
    funext l t x j
    simp [combValues]
  have hz : ∀ y ∈ box N, ∀ j, Filter.Tendsto (fun k => comb 1 (-1) (A k) F y j) Filter.atTop (nhds 0) := by
    intro y hy j
    have := (hA y hy j).sub_const (F y j)
    rw [sub_self] at this
    refine this.congr fun k => ?_
    simp only [comb]
    ring
  have hf : ∀ j, Filter.Tendsto (fun k => wallBc D N wd lo dx lab J t (periodic N (A k)) (fun i => y i - s.vel j i) j -
      wallBc D N wd lo dx lab J t (periodic N F) (fun i => y i - s.vel j i) j) Filter.atTop (nhds 0) := by
    intro j
    have e : ∀ k, wallBc D N wd lo dx lab J t (periodic N (A k)) (fun i => y i - s.vel j i) j -
        wallBc D N wd lo dx lab J t (periodic N F) (fun i => y i - s.vel j i) j =
        wallBc (otherValues D fun _ _ _ _ => 0) N wd lo dx lab J t (periodic N (comb 1 (-1) (A k) F)) (fun i => y i - s.vel j i) j := by
      intro k
      have := congrFun (congrFun (wallBc_comb (α := 1) (β := -1) D N wd lo dx lab D.ψ J t (periodic N (A k)) (periodic N F))
        (fun i => y i - s.vel j i)) j
      rw [hv] at this
      refine Eq.trans ?_ this.symm
      show _ = 1 * _ + -1 * _
      rw [one_mul, neg_one_mul, ← sub_eq_add_neg]
      rfl
    simp only [e]
    by_cases hin : ∀ i, W i = false ∨ 0 ≤ y i - s.vel j i ∧ y i - s.vel j i < N i
    · refine (hz _ (wrap_box hN fun i => y i - s.vel j i) j).congr fun k => ?_
      exact ((hch.bc t (comb 1 (-1) (A k) F) y hy j).1 hin).symm
    · obtain ⟨i, hi⟩ := not_forall.1 hin
      rw [not_or] at hi
      have := (hz y hy (s.sym j)).const_mul (ε i)
      rw [mul_zero] at this
      exact this.congr fun k => ((hch.bc t (comb 1 (-1) (A k) F) y hy j).2 i (by simpa using hi.1) hi.2).symm
  have hs : Filter.Tendsto (fun k => ∑ l, slope S E r j l * (wallBc D N wd lo dx lab J t (periodic N (A k)) (fun i => y i - s.vel l i) l -
      wallBc D N wd lo dx lab J t (periodic N F) (fun i => y i - s.vel l i) l)) Filter.atTop (nhds (∑ l, slope S E r j l * 0)) :=
    tendsto_finsetSum _ fun l _ => (hf l).const_mul _
  simp only [mul_zero, Finset.sum_const_zero] at hs
  have := hs.add_const (lbmStep N s.vel (collide S alg) (wallBc D N wd lo dx lab J) t F y j)
  rw [zero_add] at this
  refine this.congr fun k => ?_
  have e := congrFun (h.collide_sub alg (fun l => wallBc D N wd lo dx lab J t (periodic N (A k)) (fun i => y i - s.vel l i) l)
    (fun l => wallBc D N wd lo dx lab J t (periodic N F) (fun i => y i - s.vel l i) l)) j
  rw [Pi.sub_apply, sub_eq_iff_eq_add] at e
  exact e.symm

end walls

/-- **C121, the initial values are forgotten.** A scheme with a linear equilibrium in a chamber with any values on the walls (`D.ψ`,
functions of the time and of the point): two simulations, on any decompositions, come together geometrically, if anti bounce-back
is used across one axis at least, or if the initial totals of the conserved quantity are the same. The rate depends only on the
scheme and the box. -/
theorem C121_forget {d dim : Nat} (hdim : dim ≤ 3) {s : Sten dim} {D : WallData ℝ dim s} {lo : Fin dim → ℝ} {dx : ℝ}
    {lab : Fin dim → Bool → Int} {ST : Domain.State ℝ dim s.nu} {J : List (Method dim × List (Entry ℝ dim s.ns))}
    {W : Fin dim → Bool} {ε : Fin dim → ℝ} {S : Kernel ℝ s.ns 1 d} {alg : Algo} {N wd : Fin dim → Nat}
    {w : Fin s.ns → ℝ} {E : Matrix (Fin s.ns) (Fin 1) ℝ} {b r e : Fin s.ns → ℝ}
    (hN : ∀ i, 0 < N i)
    (hch : Chamber (otherValues D fun _ _ _ _ => 0) N wd lo dx lab ST J W fun i _ => ε i)
    (hfront : ∀ j, (S.consm j : Nat) < 1) (h : Damped S w E b r e) (hS : Combines S 1 (-1))
    (hcol : ∀ i, W i = true → ∀ f, collide S alg (reflectCell s (fun i _ => ε i) (fun a => decide (a = i)) f) =
      reflectCell s (fun i _ => ε i) (fun a => decide (a = i)) (collide S alg f))
    (hsym : ∀ j, S.M (S.consm 0) (s.sym j) = S.M (S.consm 0) j) (hc : Connects (doubled W N) s.vel) :
    ∃ q : ℝ, 0 < q ∧ q < 1 ∧ ∀ (g g' : Grid dim), g.N = N → g.w = wd → g'.N = N → g'.w = wd →
      ∀ (Q : Proc g → Setup ℝ s.ns 1 d dim) (Q' : Proc g' → Setup ℝ s.ns 1 d dim),
      FluidRun D g lo dx lab S alg Q → FluidRun D g' lo dx lab S alg Q' →
      ∀ (σ₀ : Proc g → Simu ℝ s.ns d dim) (σ₀' : Proc g' → Simu ℝ s.ns d dim),
      (∀ c, (σ₀ c).Start (Q c)) → (∀ c, (σ₀' c).Start (Q' c)) → ∀ G G' : Arr ℝ s.ns dim,
      (∀ c x, Owned (size g c) g.w x → (σ₀ c).arr x = G (globalPos (first g c) g.w x)) →
      (∀ c x, Owned (size g' c) g'.w x → (σ₀' c).arr x = G' (globalPos (first g' c) g'.w x)) →
      ((∃ i, W i = true ∧ ε i = -1) ∨
        ∑ y ∈ box N, (S.M *ᵥ G y) (S.consm 0) = ∑ y ∈ box N, (S.M *ᵥ G' y) (S.consm 0)) →
      ∃ C : ℝ, ∀ k σ σ', PRun g Q σ₀ k σ → PRun g' Q' σ₀' k σ' → ∀ c x c' x', Owned (size g c) g.w x →
        Owned (size g' c') g'.w x' → globalPos (first g c) g.w x = globalPos (first g' c') g'.w x' →
        ∀ j, ((σ c).arr x j - (σ' c').arr x' j) ^ 2 ≤ C * q ^ k := by
  obtain ⟨q, h0, h1, h2⟩ := hch.forget hN h hS hcol hsym hc
  refine ⟨q, h0, h1, ?_⟩
  intro g g' hgN hgw hgN' hgw' Q Q' hQ hQ' σ₀ σ₀' hσ hσ' G G' hG hG' htot
  obtain ⟨C, hC⟩ := h2 G G' htot
  refine ⟨C, fun k σ σ' hr hr' c x c' x' hx hx' he j => ?_⟩
  obtain ⟨hy, e1⟩ := hch.values hdim hfront hgN hgw hQ hσ hG hr hx
  obtain ⟨-, e2⟩ := hch.values hdim hfront hgN' hgw' hQ' hσ' hG' hr' hx'
  rw [e1, e2, ← he]
  exact hC k _ hy j

/-- **C121, steady states.** If moreover the imposed values do not change with time, and anti bounce-back is used across one axis at
least, there is one state which all the simulations approach geometrically, whatever the initial values and the decomposition, and
a simulation which starts from this state keeps it. -/
theorem C121_steady {d dim : Nat} (hdim : dim ≤ 3) {s : Sten dim} {D : WallData ℝ dim s} {lo : Fin dim → ℝ} {dx : ℝ}
    {lab : Fin dim → Bool → Int} {ST : Domain.State ℝ dim s.nu} {J : List (Method dim × List (Entry ℝ dim s.ns))}
    {W : Fin dim → Bool} {ε : Fin dim → ℝ} {S : Kernel ℝ s.ns 1 d} {alg : Algo} {N wd : Fin dim → Nat}
    {w : Fin s.ns → ℝ} {E : Matrix (Fin s.ns) (Fin 1) ℝ} {b r e : Fin s.ns → ℝ}
    (hN : ∀ i, 0 < N i)
    (hch : Chamber (otherValues D fun _ _ _ _ => 0) N wd lo dx lab ST J W fun i _ => ε i)
    (hfront : ∀ j, (S.consm j : Nat) < 1) (h : Damped S w E b r e) (hS : Combines S 1 (-1))
    (hcol : ∀ i, W i = true → ∀ f, collide S alg (reflectCell s (fun i _ => ε i) (fun a => decide (a = i)) f) =
      reflectCell s (fun i _ => ε i) (fun a => decide (a = i)) (collide S alg f))
    (hsym : ∀ j, S.M (S.consm 0) (s.sym j) = S.M (S.consm 0) j) (hc : Connects (doubled W N) s.vel)
    (habs : ∃ i, W i = true ∧ ε i = -1) (hψ : ∀ l t, D.ψ l t = D.ψ l 0) :
    ∃ (q : ℝ) (F : Arr ℝ s.ns dim), 0 < q ∧ q < 1 ∧ ∀ g : Grid dim, g.N = N → g.w = wd →
      ∀ Q : Proc g → Setup ℝ s.ns 1 d dim, FluidRun D g lo dx lab S alg Q →
      ∀ σ₀ : Proc g → Simu ℝ s.ns d dim, (∀ c, (σ₀ c).Start (Q c)) →
      ∃ C : ℝ, ∀ k σ, PRun g Q σ₀ k σ → ∀ c x, Owned (size g c) g.w x →
        (∀ j, ((σ c).arr x j - F (globalPos (first g c) g.w x) j) ^ 2 ≤ C * q ^ k) ∧
        ((∀ c x, Owned (size g c) g.w x → (σ₀ c).arr x = F (globalPos (first g c) g.w x)) →
          (σ c).arr x = F (globalPos (first g c) g.w x)) := by
  obtain ⟨q, h0, h1, h2⟩ := hch.forget hN h hS hcol hsym hc
  set run := fun (G : Arr ℝ s.ns dim) k => lbmRun N s.vel (collide S alg) (wallBc D N wd lo dx lab J) S.dt G k with hrun
  obtain ⟨C₀, hC₀⟩ := h2 (fun _ _ => 0) (lbmStep N s.vel (collide S alg) (wallBc D N wd lo dx lab J) 0 fun _ _ => 0) (.inl habs)
  have hC₀' : ∀ k, ∀ y ∈ box N, ∀ j, (run (fun _ _ => 0) k y j - run (fun _ _ => 0) (k + 1) y j) ^ 2 ≤ C₀ * q ^ k := by
    intro k y hy j
    simp only [hrun]
    rw [lbmRun_later hψ]
    exact hC₀ k y hy j
  have hq1 : √q < 1 := by rw [Real.sqrt_lt' one_pos]; simpa using h1
  have hd : ∀ y ∈ box N, ∀ j k, dist (run (fun _ _ => 0) k y j) (run (fun _ _ => 0) (k + 1) y j) ≤ √C₀ * √q ^ k := by
    intro y hy j k
    rw [Real.dist_eq, ← Real.sqrt_sq_eq_abs]
    refine (Real.sqrt_le_sqrt (hC₀' k y hy j)).trans (le_of_eq ?_)
    rw [mul_comm, Real.sqrt_mul (by positivity), mul_comm]
    congr 1
    rw [Real.sqrt_eq_iff_mul_self_eq (by positivity) (by positivity), ← mul_pow, Real.mul_self_sqrt h0.le]
  have hlim : ∀ y j, ∃ v, y ∈ box N → Filter.Tendsto (fun k => run (fun _ _ => 0) k y j) Filter.atTop (nhds v) := by
    intro y j
    by_cases hy : y ∈ box N
    · obtain ⟨v, hv⟩ := cauchySeq_tendsto_of_complete (cauchySeq_of_le_geometric _ _ hq1 (hd y hy j))
      exact ⟨v, fun _ => hv⟩
    · exact ⟨0, fun h => absurd h hy⟩
  choose F hF using hlim
  have hfix : ∀ y ∈ box N, lbmStep N s.vel (collide S alg) (wallBc D N wd lo dx lab J) 0 F y = F y := by
    intro y hy
    funext j
    refine tendsto_nhds_unique (hch.step_tendsto hN h 0 (fun y hy j => hF y j hy) y hy j) ?_
    refine ((hF y j hy).comp (Filter.tendsto_add_atTop_nat 1)).congr fun k => ?_
    simp only [hrun, Function.comp]
    exact congrFun (congrFun (lbmStep_time hψ _ _ _) y) j
  have hkeep : ∀ k, ∀ y ∈ box N, run F k y = F y := by
    intro k
    induction k with
    | zero => exact fun _ _ => rfl
    | succ k ih =>
      intro y hy
      simp only [hrun] at ih ⊢
      rw [lbmRun, lbmStep_time hψ, lbmStep_box hN _ _ ih]
      exact hfix y hy
  refine ⟨q, F, h0, h1, fun g hgN hgw Q hQ σ₀ hσ => ?_⟩
  obtain ⟨G, hG⟩ := C15_global_array_exists g fun c => (σ₀ c).arr
  obtain ⟨C, hC⟩ := h2 G (fun _ _ => 0) (.inl habs)
  refine ⟨2 * C + 2 * (√C₀ / (1 - √q)) ^ 2, fun k σ hr c x hx => ⟨fun j => ?_, fun hstart => ?_⟩⟩
  swap
  · obtain ⟨hy, e1⟩ := hch.values hdim hfront hgN hgw hQ hσ hstart hr hx
    rw [e1]
    exact hkeep k _ hy
  obtain ⟨hy, e1⟩ := hch.values hdim hfront hgN hgw hQ hσ hG hr hx
  rw [e1]
  have a1 := hC k _ hy j
  have a2 := dist_le_of_le_geometric_of_tendsto _ _ hq1 (hd _ hy j) (hF _ j hy) k
  rw [Real.dist_eq] at a2
  have a3 : (run (fun _ _ => 0) k (globalPos (first g c) g.w x) j - F (globalPos (first g c) g.w x) j) ^ 2 ≤
      (√C₀ / (1 - √q)) ^ 2 * q ^ k := by
    rw [← sq_abs]
    refine (pow_le_pow_left₀ (abs_nonneg _) a2 2).trans (le_of_eq ?_)
    rw [mul_div_right_comm, mul_pow, ← pow_mul, mul_comm k 2, pow_mul, Real.sq_sqrt h0.le]
  set A := lbmRun N s.vel (collide S alg) (wallBc D N wd lo dx lab J) S.dt G k (globalPos (first g c) g.w x) j
  set B := run (fun _ _ => 0) k (globalPos (first g c) g.w x) j
  set V := F (globalPos (first g c) g.w x) j
  have a1' : (A - B) ^ 2 ≤ C * q ^ k := a1
  nlinarith [sq_nonneg ((A - B) - (B - V))]

end Pylbm.Sim
