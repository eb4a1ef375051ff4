import Verif.Sim.Forget
/-!
# C121: values on the walls which are periodic in time
-/

namespace Pylbm.Sim
open Scheme Halo SchemeSpec Matrix HaloSpec Mpi Boundary

/-- With values of period `p` steps, the first `p` steps can be taken apart. -/
theorem lbmRun_period {dim : Nat} {s : Sten dim} {D : WallData ℝ dim s} {lo : Fin dim → ℝ} {dx : ℝ}
    {lab : Fin dim → Bool → Int} {J : List (Method dim × List (Entry ℝ dim s.ns))} {N wd : Fin dim → Nat} {p : Nat} {dt : ℝ}
    (hψ : ∀ l t, D.ψ l (t + p * dt) = D.ψ l t) (φ : (Fin s.ns → ℝ) → Fin s.ns → ℝ) (G : Arr ℝ s.ns dim) (k : Nat) :
    lbmRun N s.vel φ (wallBc D N wd lo dx lab J) dt G (k + p) =
      lbmRun N s.vel φ (wallBc D N wd lo dx lab J) dt (lbmRun N s.vel φ (wallBc D N wd lo dx lab J) dt G p) k := by
  have hbc : ∀ t, wallBc D N wd lo dx lab J (t + p * dt) = wallBc D N wd lo dx lab J t := by
    intro t
    unfold wallBc withValues
    simp only [hψ _ t]
  induction k with
  | zero => rw [Nat.zero_add]; rfl
  | succ k ih =>
    rw [Nat.succ_add]
    show lbmStep _ _ _ _ _ (lbmRun N s.vel φ (wallBc D N wd lo dx lab J) dt G (k + p)) = lbmStep _ _ _ _ _ _
    rw [ih]
    unfold lbmStep
    rw [show ((k + p : ℕ) : ℝ) * dt = k * dt + p * dt by push_cast; ring, hbc]

/-- **C121, cycles.** The values imposed on the walls have the period `p` (a number of time steps), and anti bounce-back is used
across one axis at least: there is a sequence of states of period `p` which all the simulations approach geometrically, whatever
the initial values and the decomposition. -/
theorem C121_cycle {d dim : Nat} (hdim : dim ≤ 3) {s : Sten dim} {D : WallData ℝ dim s} {lo : Fin dim → ℝ} {dx : ℝ}
    {lab : Fin dim → Bool → Int} {ST : Domain.State ℝ dim s.nu} {J : List (Method dim × List (Entry ℝ dim s.ns))}
    {W : Fin dim → Bool} {ε : Fin dim → ℝ} {S : Kernel ℝ s.ns 1 d} {alg : Algo} {N wd : Fin dim → Nat}
    {w : Fin s.ns → ℝ} {E : Matrix (Fin s.ns) (Fin 1) ℝ} {b r e : Fin s.ns → ℝ}
    (hN : ∀ i, 0 < N i)
    (hch : Chamber (otherValues D fun _ _ _ _ => 0) N wd lo dx lab ST J W fun i _ => ε i)
    (hfront : ∀ j, (S.consm j : Nat) < 1) (h : Damped S w E b r e) (hS : Combines S 1 (-1))
    (hcol : ∀ i, W i = true → ∀ f, collide S alg (reflectCell s (fun i _ => ε i) (fun a => decide (a = i)) f) =
      reflectCell s (fun i _ => ε i) (fun a => decide (a = i)) (collide S alg f))
    (hsym : ∀ j, S.M (S.consm 0) (s.sym j) = S.M (S.consm 0) j) (hc : Connects (doubled W N) s.vel)
    (habs : ∃ i, W i = true ∧ ε i = -1) {p : Nat} (hp : 0 < p) (hψ : ∀ l t, D.ψ l (t + p * S.dt) = D.ψ l t) :
    ∃ (q : ℝ) (F : Nat → Arr ℝ s.ns dim), 0 < q ∧ q < 1 ∧ (∀ k, F (k + p) = F k) ∧ ∀ g : Grid dim, g.N = N → g.w = wd →
      ∀ Q : Proc g → Setup ℝ s.ns 1 d dim, FluidRun D g lo dx lab S alg Q →
      ∀ σ₀ : Proc g → Simu ℝ s.ns d dim, (∀ c, (σ₀ c).Start (Q c)) →
      ∃ C : ℝ, ∀ k σ, PRun g Q σ₀ k σ → ∀ c x, Owned (size g c) g.w x →
        ∀ j, ((σ c).arr x j - F k (globalPos (first g c) g.w x) j) ^ 2 ≤ C * q ^ k := by
  obtain ⟨q, h0, h1, h2⟩ := hch.forget hN h hS hcol hsym hc
  set run := fun (G : Arr ℝ s.ns dim) k => lbmRun N s.vel (collide S alg) (wallBc D N wd lo dx lab J) S.dt G k with hrun
  obtain ⟨C₀, hC₀⟩ := h2 (fun _ _ => 0) (run (fun _ _ => 0) p) (.inl habs)
  have hC₀' : ∀ k, ∀ y ∈ box N, ∀ j, (run (fun _ _ => 0) k y j - run (fun _ _ => 0) (k + p) y j) ^ 2 ≤ C₀ * q ^ k := by
    intro k y hy j
    simp only [hrun]
    rw [lbmRun_period hψ]
    exact hC₀ k y hy j
  have hs1 : √q < 1 := by rw [Real.sqrt_lt' one_pos]; simpa using h1
  have hq1 : √q ^ p < 1 := pow_lt_one₀ (Real.sqrt_nonneg q) hs1 hp.ne'
  have hd : ∀ y ∈ box N, ∀ j i n, dist (run (fun _ _ => 0) (i + n * p) y j) (run (fun _ _ => 0) (i + (n + 1) * p) y j) ≤
      (√C₀ * √q ^ i) * (√q ^ p) ^ n := by
    intro y hy j i n
    rw [Real.dist_eq, ← Real.sqrt_sq_eq_abs, Nat.succ_mul, ← Nat.add_assoc]
    refine (Real.sqrt_le_sqrt (hC₀' (i + n * p) y hy j)).trans (le_of_eq ?_)
    rw [mul_comm, Real.sqrt_mul (by positivity), mul_comm, mul_assoc, ← pow_mul, ← pow_add, mul_comm p n]
    congr 1
    rw [Real.sqrt_eq_iff_mul_self_eq (by positivity) (by positivity), ← mul_pow, Real.mul_self_sqrt h0.le]
  have hlim : ∀ i y j, ∃ v, y ∈ box N → Filter.Tendsto (fun n => run (fun _ _ => 0) (i + n * p) y j) Filter.atTop (nhds v) := by
    intro i y j
    by_cases hy : y ∈ box N
    · obtain ⟨v, hv⟩ := cauchySeq_tendsto_of_complete (cauchySeq_of_le_geometric _ _ hq1 (hd y hy j i))
      exact ⟨v, fun _ => hv⟩
    · exact ⟨0, fun h => absurd h hy⟩
  choose F hF using hlim
  refine ⟨q, fun k => F (k % p), h0, h1, fun k => by simp, fun g hgN hgw Q hQ σ₀ hσ => ?_⟩
  obtain ⟨G, hG⟩ := C15_global_array_exists g fun c => (σ₀ c).arr
  obtain ⟨C, hC⟩ := h2 G (fun _ _ => 0) (.inl habs)
  refine ⟨2 * C + 2 * (√C₀ / (1 - √q ^ p)) ^ 2, fun k σ hr c x hx j => ?_⟩
  obtain ⟨hy, e1⟩ := hch.values hdim hfront hgN hgw hQ hσ hG hr hx
  rw [e1]
  have a1 := hC k _ hy j
  have a2 := dist_le_of_le_geometric_of_tendsto _ _ hq1 (hd _ hy j (k % p)) (hF (k % p) _ j hy) (k / p)
  have hk : k % p + k / p * p = k := by rw [mul_comm]; exact Nat.mod_add_div k p
  rw [mul_assoc, ← pow_mul, ← pow_add, mul_comm p (k / p), hk, Real.dist_eq] at a2
  have a3 : (run (fun _ _ => 0) k (globalPos (first g c) g.w x) j - F (k % p) (globalPos (first g c) g.w x) j) ^ 2 ≤
      (√C₀ / (1 - √q ^ p)) ^ 2 * q ^ k := by
    rw [← sq_abs]
    refine (pow_le_pow_left₀ (abs_nonneg _) a2 2).trans (le_of_eq ?_)
    rw [mul_div_right_comm, mul_pow, ← pow_mul, mul_comm k 2, pow_mul √q 2 k, Real.sq_sqrt h0.le]
  set A := lbmRun N s.vel (collide S alg) (wallBc D N wd lo dx lab J) S.dt G k (globalPos (first g c) g.w x) j
  set B := run (fun _ _ => 0) k (globalPos (first g c) g.w x) j
  set V := F (k % p) (globalPos (first g c) g.w x) j
  have a1' : (A - B) ^ 2 ≤ C * q ^ k := a1
  nlinarith [sq_nonneg ((A - B) - (B - V))]

end Pylbm.Sim
