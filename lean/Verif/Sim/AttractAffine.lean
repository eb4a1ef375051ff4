import Verif.Sim.Attract
import Verif.Sim.Affine
/-!
# C121: affine fields attract the simulations

Linear schemes with an even equilibrium between walls with anti bounce-back: the values of an affine field imposed on the walls.
-/

namespace Pylbm.Sim
open Scheme Halo SchemeSpec Matrix HaloSpec Mpi Boundary

/-- The sum over the velocities of a function which changes sign with the velocity. -/
theorem sum_odd {dim : Nat} {s : Sten dim} (hs : s.WF) (f : Fin s.ns → ℝ) (hf : ∀ j, f (s.sym j) = -f j) : ∑ j, f j = 0 := by
  have hinv : Function.Involutive s.sym := hs.sym_sym
  have h1 : ∑ j, f (s.sym j) = ∑ j, f j := Equiv.sum_comp hinv.toPerm f
  simp only [hf, Finset.sum_neg_distrib] at h1
  linarith

/-- **C121, affine fields attract.** A scheme with a linear and even equilibrium in a chamber whose walls use anti bounce-back. If the
user imposes on the walls the even part of the steady flow of an affine field `w₀ + G · p` (constant along the periodic axes), the
conserved quantity of all the simulations, on any decomposition, tends geometrically to the affine field in every cell, whatever the
initial values. -/
theorem C121_affine {d dim : Nat} (hdim : dim ≤ 3) {s : Sten dim} {D : WallData ℝ dim s} {lo : Fin dim → ℝ} {dx : ℝ}
    {lab : Fin dim → Bool → Int} {ST : Domain.State ℝ dim s.nu} {J : List (Method dim × List (Entry ℝ dim s.ns))}
    {W : Fin dim → Bool} {ε : Fin dim → ℝ} {S : Kernel ℝ s.ns 1 d} {alg : Algo} {N wd : Fin dim → Nat}
    {w : Fin s.ns → ℝ} {E : Matrix (Fin s.ns) (Fin 1) ℝ} {b r e : Fin s.ns → ℝ}
    (hN : ∀ i, 0 < N i)
    (hch : Chamber (otherValues D fun _ _ _ _ => 0) N wd lo dx lab ST J W fun i _ => ε i)
    (hfront : ∀ j, (S.consm j : Nat) < 1) (h : Damped S w E b r e) (hS : Combines S 1 (-1))
    (hcol : ∀ i, W i = true → ∀ f, collide S alg (reflectCell s (fun i _ => ε i) (fun a => decide (a = i)) f) =
      reflectCell s (fun i _ => ε i) (fun a => decide (a = i)) (collide S alg f))
    (hsym : ∀ j, S.M (S.consm 0) (s.sym j) = S.M (S.consm 0) j) (hc : Connects (doubled W N) s.vel)
    (habs : ∃ i, W i = true ∧ ε i = -1)
    (hanti : ∀ l ms, D.dico l = some ms → ∀ q ∈ ms, q.2 = Method.antiBounceBack)
    (hE : ∀ i v, S.EQ i v = (E *ᵥ v) i) (heven : ∀ v j, linearEq S.invM E v (s.sym j) = linearEq S.invM E v j)
    (w₀ : Fin 1 → ℝ) (G : Fin 1 → Fin dim → ℝ) (hper : ∀ i, PerAxis lab i → ∀ c, G c i = 0)
    (hψ : ∀ l t p j, D.ψ l t p j + D.ψ l t p (s.sym j) =
      steadyFlow S.M S.invM E r w₀ G s.vel dx t p j + steadyFlow S.M S.invM E r w₀ G s.vel dx t p (s.sym j)) :
    ∃ q : ℝ, 0 < q ∧ q < 1 ∧ ∀ g : Grid dim, g.N = N → g.w = wd →
      ∀ Q : Proc g → Setup ℝ s.ns 1 d dim, FluidRun D g lo dx lab S alg Q →
      ∀ σ₀ : Proc g → Simu ℝ s.ns d dim, (∀ c, (σ₀ c).Start (Q c)) →
      ∃ C : ℝ, ∀ k σ, PRun g Q σ₀ k σ → ∀ c x, Owned (size g c) g.w x →
        ((S.M *ᵥ (σ c).arr x) (S.consm 0) -
          (w₀ 0 + ∑ i, G 0 i * cellPoint lo dx (globalPos (first g c) g.w x) i)) ^ 2 ≤ C * q ^ k := by
  have hs := hch.wf.sten
  have heq : ∀ j i, eqGradient S.invM E G (s.sym j) i = eqGradient S.invM E G j i := fun j i => heven _ j
  have hvar : ∀ j, eqVariation S.invM E G s.vel dx (s.sym j) = -eqVariation S.invM E G s.vel dx j := by
    intro j
    unfold eqVariation alongLink
    rw [← Finset.sum_neg_distrib]
    refine Finset.sum_congr rfl fun i _ => ?_
    rw [heq, hs.sym j i]
    push_cast
    ring
  have hflux : ∀ c, (S.M *ᵥ eqVariation S.invM E G s.vel dx) (S.consm c) = 0 := by
    intro c
    obtain rfl : c = 0 := Subsingleton.elim _ _
    refine sum_odd hs _ fun j => ?_
    show S.M (S.consm 0) (s.sym j) * _ = -(S.M (S.consm 0) j * _)
    rw [hsym, hvar]
    ring
  obtain ⟨hF, hmom⟩ := C107_steady S h.conserved h.inverse h.noSource h.noRel alg E hE r h.dissipative.relaxation
    (fun i => by
      by_cases hi : Conserved S i
      · obtain ⟨l, hl⟩ := hi
        exact .inl ⟨l, hl.symm⟩
      · exact .inr (h.strict i hi).1.ne') s.vel dx w₀ G hflux
  obtain ⟨q, h0, h1, h2⟩ := C121_flow hdim hN hch hfront h hS hcol hsym hc hF
    (by
      intro t p p' hp
      funext j
      unfold steadyFlow affineFlow
      congr 1
      refine Finset.sum_congr rfl fun i _ => ?_
      rcases hp i with hi | ⟨hi, -⟩
      · rw [hi]
      · have : eqGradient S.invM E G j i = 0 := by
          unfold eqGradient linearEq
          rw [show (fun c => G c i) = 0 from funext fun c => hper i hi c, Matrix.mulVec_zero, Matrix.mulVec_zero]
          rfl
        rw [this, zero_mul, zero_mul])
    (by
      intro y hy hyf u j j' ho hu hsch hjj ms hms m hm t
      obtain rfl : m = Method.antiBounceBack := hanti _ ms hms _ hm
      obtain rfl : j' = s.sym j := by
        refine hs.distinct _ _ (by rw [hs.scheme, hsch]) (hs.inj ?_)
        funext i
        have e1 := hjj i
        have e2 := hs.sym j i
        unfold Sten.vel at e1 e2
        rw [e1, e2]
      refine (C107_anti_bounce_back s.vel dx _ _ _ _ j (s.sym j) t _ ?_ ?_).2 (.inl (hch.links.2 y hy u ho))
      · unfold alongLink
        exact Finset.sum_congr rfl fun i _ => by rw [heq]
      · exact hψ _ t _ j)
  refine ⟨q, h0, h1, fun g hgN hgw Q hQ σ₀ hσ => ?_⟩
  obtain ⟨G₀, hG₀⟩ := C15_global_array_exists g fun c => (σ₀ c).arr
  obtain ⟨C, hC⟩ := h2 g hgN hgw Q hQ σ₀ hσ G₀ hG₀ (.inl habs)
  refine ⟨(∑ j, S.M (S.consm 0) j ^ 2) * (s.ns * C), fun k σ hr c x hx => ?_⟩
  set P := cellPoint lo dx (globalPos (first g c) g.w x) with hP
  have hm := hmom (k * S.dt) P 0
  unfold affineMoments at hm
  rw [← hm]
  set F := steadyFlow S.M S.invM E r w₀ G s.vel dx (k * S.dt) P with hFd
  have e1 : (S.M *ᵥ (σ c).arr x) (S.consm 0) - (S.M *ᵥ F) (S.consm 0) = ∑ j, S.M (S.consm 0) j * ((σ c).arr x j - F j) := by
    simp only [Matrix.mulVec, dotProduct, mul_sub, Finset.sum_sub_distrib]
  rw [e1]
  refine (Finset.sum_mul_sq_le_sq_mul_sq _ _ _).trans ?_
  rw [mul_assoc, mul_assoc]
  refine mul_le_mul_of_nonneg_left ?_ (Finset.sum_nonneg fun j _ => sq_nonneg _)
  calc ∑ j, ((σ c).arr x j - F j) ^ 2 ≤ ∑ _j : Fin s.ns, C * q ^ k := Finset.sum_le_sum fun j _ => hC k σ hr c x hx j
    _ = s.ns * (C * q ^ k) := by simp

end Pylbm.Sim
