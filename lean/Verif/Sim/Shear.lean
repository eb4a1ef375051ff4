import Verif.Sim.Affine
import Verif.Sim.Mass
/-!
# C107: shear flows between walls
-/

set_option linter.unusedSectionVars false

namespace Pylbm.Sim
open Scheme Halo SchemeSpec Matrix HaloSpec Mpi Boundary

section
variable {K : Type} [Field K] [LinearOrder K] [IsStrictOrderedRing K] [FloorRing K] {nc d dim : Nat}

/-- In a box without periodic face the open links stay in the box (hypotheses as in C78). -/
theorem openLinks_closed {s : Sten dim} (D : WallData K dim s) (N w : Fin dim → Nat) (lo : Fin dim → K) (dx : K)
    (lab : Fin dim → Bool → Int) (hD : D.WF lab) (ST : Domain.State K dim s.nu)
    (J : List (Method dim × List (Entry K dim s.ns))) (hJ : OnGrid D (boxGrid N w lo dx lab s) ST J)
    (hlab : ∀ j side, lab j side ≠ -1 ∧ lab j side ≠ -2) (hels : ∀ l ∈ D.els, l ≠ -1 ∧ l ≠ -2)
    (hsees : ∀ e ∈ D.elems, ∀ c k, (boxGrid N w lo dx lab s).Interior c →
      e.Sees ((boxGrid N w lo dx lab s).cellCentre c) (fun j => dx * (s.uvel k j : K)))
    (hopen : ∀ c, (boxGrid N w lo dx lab s).Interior c → ST.ioo c = 999 →
      ∀ e ∈ D.elems, e.isFluid = false → e.inside ((boxGrid N w lo dx lab s).cellCentre c) = false) :
    OpenLinks N w (fun _ => False) ST := by
  intro y hy hyf k ho
  refine ⟨(allLinks_closed D N w lo dx lab hD ST J hJ hlab hels hsees hopen y hy hyf k).resolve_right fun h => h ho,
    fun i => Or.inr ?_⟩
  set g := boxGrid N w lo dx lab s with hg
  have hn : ∀ i, g.n i = N i := fun i => by simp [Domain.Grid.n, hg, boxGrid]
  have hint : g.Interior fun i => y i + w i := interior_shift hy
  have hyb := (mem_box N y).1 hy
  by_contra hi
  obtain ⟨side, t, hX⟩ := crosses_of_leaves (K := K) N y (s.uvel k) hyb i hi
  have hglab : ∀ j side, g.label j side = lab j side := by
    intro j side
    cases side <;> simp [Domain.Grid.label, hg, boxGrid]
  have he : g.inner (fun i => y i + w i) = y := by
    funext i; show y i + (w i : Int) - w i = y i; ring
  have hfl := (Domain.C59_box_links_flagged_partial g hJ.wf D.elems hD.sound ST hJ.built _ hint k
    (hopen _ hint (of_decide_eq_true hyf)) ⟨i, side⟩ t (by
      show g.label i side ≠ -2
      rw [hglab]; exact (hlab _ _).2) (by
      rw [he, show g.n = N from funext hn]; exact hX)).2.2.2
  rcases hfl with ⟨f, -, hf⟩ | ⟨e, he, x, v, h3, hf⟩
  · rw [hf, hglab] at ho
    have := hlab f.ax f.upper
    simp [Open, hD.noFace, this] at ho
  · have h4 := hD.labels e he x v h3
    have h5 := hels _ h4
    have h6 : e.border x v ≠ 999 := fun h => hD.no999 (h ▸ h4)
    rw [hf] at ho
    simp [Open, h5, h6] at ho

/-- The faces of the axis `i` are periodic. -/
def PerAxis (lab : Fin dim → Bool → Int) (i : Fin dim) : Prop := ∀ side, lab i side = -1

/-- In a box without element, with periodic axes and walls, velocities of components -1, 0, 1: when for each
velocity the axes with walls come before the periodic ones, the open links leave the box only along the periodic axes. Each
wall is at the distance 1/2. -/
theorem openLinks_box {s : Sten dim} (D : WallData K dim s) (N w : Fin dim → Nat) (lo : Fin dim → K) (dx : K)
    (lab : Fin dim → Bool → Int) (hD : D.WF lab) (ST : Domain.State K dim s.nu)
    (J : List (Method dim × List (Entry K dim s.ns))) (hJ : OnGrid D (boxGrid N w lo dx lab s) ST J)
    (hempty : D.elems = []) (hels : ∀ l ∈ D.els, l ≠ -1 ∧ l ≠ -2) (hv : ∀ k i, |s.uvel k i| ≤ 1)
    (hlab : ∀ j, PerAxis lab j ∨ ∀ side, lab j side ≠ -1 ∧ lab j side ≠ -2)
    (hfirst : ∀ k i j, ¬ PerAxis lab i → PerAxis lab j → s.uvel k i ≠ 0 → s.uvel k j ≠ 0 → i < j) :
    OpenLinks N w (PerAxis lab) ST ∧
    ∀ y ∈ box N, ∀ k, ¬ Open (ST.link k fun i => y i + w i).flag → (ST.link k fun i => y i + w i).dist = 1 / 2 := by
  set g := boxGrid N w lo dx lab s with hg
  have hn : ∀ i, g.n i = N i := fun i => by simp [Domain.Grid.n, hg, boxGrid]
  have hglab : ∀ j side, g.label j side = lab j side := by
    intro j side
    cases side <;> simp [Domain.Grid.label, hg, boxGrid]
  have hinner : ∀ y : Cell dim, g.inner (fun i => y i + w i) = y := by
    intro y; funext i; show y i + (w i : Int) - w i = y i; ring
  have hact : ∀ f, g.Active f := by
    intro f
    show g.label f.ax f.upper ≠ -2
    rw [hglab]
    rcases hlab f.ax with h | h
    · rw [h]; decide
    · exact (h _).2
  have wall : ∀ y ∈ box N, ∀ k, (ST.link k fun i => y i + w i).dist ≠ 999 →
      ∃ f, DomainSpec.FirstFace N g.Active y (s.uvel k) f (ST.link k fun i => y i + w i).dist ∧
        (ST.link k fun i => y i + w i).flag = lab f.ax f.upper := by
    intro y hy k hd
    rcases Domain.C65_same_wall g hJ.wf D.elems hD.sound ST hJ.built _ k hd with ⟨f, h1, h2, -⟩ | ⟨e, he, -⟩
    · rw [hinner, show g.n = N from funext hn] at h1
      rw [hglab] at h2
      exact ⟨f, h1, h2⟩
    · rw [hempty] at he; cases he
  refine ⟨fun y hy hyf k ho => ?_, fun y hy k ho => ?_⟩
  · have hyb := (mem_box N y).1 hy
    have hse := C78_channel D N w lo dx lab hD ST J hJ hv hlab hels (by rw [hempty]; intro e he; cases he)
      (by rw [hempty]; intro c _ _ e he; cases he) (by rw [hempty]; intro e he; cases he) y hy hyf k (s.usym k)
      (hD.sten.usym k) ho
    refine ⟨hse.1, fun i => ?_⟩
    by_contra hh
    push Not at hh
    obtain ⟨hnp, hi⟩ := hh
    obtain ⟨side, t, hX⟩ := crosses_of_leaves (K := K) N y (s.uvel k) hyb i (by push Not; exact hi)
    have hd : (ST.link k fun i => y i + w i).dist ≠ 999 := by
      have := Domain.C59_box_links_flagged_partial g hJ.wf D.elems hD.sound ST hJ.built _ (interior_shift hy) k
        (by rw [hempty]; intro e he; cases he) ⟨i, side⟩ t (hact _) (by
          rw [hinner, show g.n = N from funext hn]; exact hX)
      intro hh
      rw [hh] at this
      norm_num at this
    obtain ⟨f, h1, h2⟩ := wall y hy k hd
    have hper : PerAxis lab f.ax := by
      rcases hlab f.ax with h | h
      · exact h
      · exfalso
        rw [h2] at ho
        have := h f.upper
        simp [Open, hD.noFace, this] at ho
    obtain ⟨ht, hleave⟩ := crosses_unit N y (s.uvel k) hyb (hv k) h1.2.1
    have hlt := hfirst k i f.ax hnp hper
      (fun h0 => by
        have := hyb i
        rw [h0, add_zero] at hi
        omega)
      (fun h0 => hleave (by rw [h0, add_zero]; exact hyb f.ax))
    obtain ⟨ht', -⟩ := crosses_unit N y (s.uvel k) hyb (hv k) hX
    rcases h1.2.2 _ t (hact _) hX with h | h
    · rw [ht, ht'] at h; exact lt_irrefl _ h
    · exact absurd hlt (not_lt.2 h.2)
  · have hyb := (mem_box N y).1 hy
    have hd : (ST.link k fun i => y i + w i).dist ≠ 999 := by
      intro h
      apply ho
      rw [(Domain.C23_flagged_links g hJ.wf D.elems hD.sound ST hJ.built _ (interior_shift hy) k).2 h]
      simp [Open]
    obtain ⟨f, h1, -⟩ := wall y hy k hd
    exact (crosses_unit N y (s.uvel k) hyb (hv k) h1.2.1).1

/-- The same when the axes with walls come before the periodic ones. -/
theorem openLinks_channel {s : Sten dim} (D : WallData K dim s) (N w : Fin dim → Nat) (lo : Fin dim → K) (dx : K)
    (lab : Fin dim → Bool → Int) (hD : D.WF lab) (ST : Domain.State K dim s.nu)
    (J : List (Method dim × List (Entry K dim s.ns))) (hJ : OnGrid D (boxGrid N w lo dx lab s) ST J)
    (hempty : D.elems = []) (hels : ∀ l ∈ D.els, l ≠ -1 ∧ l ≠ -2) (hv : ∀ k i, |s.uvel k i| ≤ 1)
    (hlab : ∀ j, PerAxis lab j ∨ ∀ side, lab j side ≠ -1 ∧ lab j side ≠ -2)
    (hfirst : ∀ i j, ¬ PerAxis lab i → PerAxis lab j → i < j) :
    OpenLinks N w (PerAxis lab) ST ∧
    ∀ y ∈ box N, ∀ k, ¬ Open (ST.link k fun i => y i + w i).flag → (ST.link k fun i => y i + w i).dist = 1 / 2 :=
  openLinks_box D N w lo dx lab hD ST J hJ hempty hels hv hlab fun _ i j hi hj _ _ => hfirst i j hi hj

/-- An affine flow which does not vary along the periodic axes has the period of the box. -/
theorem repeats_affine {n : Nat} (N : Fin dim → Nat) (dx : K) (per : Fin dim → Prop) (A : Fin n → K)
    (B : Fin n → Fin dim → K) (hB : ∀ i, per i → ∀ j, B j i = 0) : Repeats N dx per (affineFlow A B) := by
  intro t p q hq
  funext j
  unfold affineFlow
  congr 1
  refine Finset.sum_congr rfl fun i _ => ?_
  rcases hq i with h | ⟨h, -⟩
  · rw [h]
  · rw [hB i h]; ring

/-- What is asked from the linear scheme and from the field `w₀ + G · p` of conserved moments. -/
structure SteadyField {s : Sten dim} (S : Kernel K s.ns nc d) (E : Matrix (Fin s.ns) (Fin nc) K) (r : Fin s.ns → K) (dx : K)
    (G : Fin nc → Fin dim → K) : Prop where
  eqCons : ∀ j w, S.EQ (S.consm j) w = w j
  inv : S.M * S.invM = 1
  noSource : ∀ i, S.source i = none
  noRel : S.relVel = none
  linear : ∀ i w, S.EQ i w = (E *ᵥ w) i
  constant : ∀ i w, S.s i w = r i
  relaxes : ∀ i, (∃ c, i = S.consm c) ∨ r i ≠ 0
  /-- each moment is even or odd -/
  parity : ∀ i, (∀ j, S.M i (s.sym j) = S.M i j) ∨ ∀ j, S.M i (s.sym j) = -S.M i j
  /-- the equilibrium fluxes have no divergence -/
  flux : ∀ c, (S.M *ᵥ eqVariation S.invM E G s.vel dx) (S.consm c) = 0

/-- The even part of the equilibrium does not vary along the links: the field is a shear of odd moments. -/
def OddField {s : Sten dim} (S : Kernel K s.ns nc d) (E : Matrix (Fin s.ns) (Fin nc) K) (dx : K)
    (G : Fin nc → Fin dim → K) : Prop :=
  ∀ j, alongLink dx (eqGradient S.invM E G) (s.vel j) j + alongLink dx (eqGradient S.invM E G) (s.vel j) (s.sym j) = 0

/-- The odd part of the equilibrium does not vary along the links: the field is a profile of even moments. -/
def EvenField {s : Sten dim} (S : Kernel K s.ns nc d) (E : Matrix (Fin s.ns) (Fin nc) K) (dx : K)
    (G : Fin nc → Fin dim → K) : Prop :=
  ∀ j, alongLink dx (eqGradient S.invM E G) (s.vel j) j = alongLink dx (eqGradient S.invM E G) (s.vel j) (s.sym j)

/-- **C107, shear flows.** In a run with walls where bounce-back is used halfway between the cells and interpolated
bounce-back at a distance up to 1/2 (or beyond on walls at rest), where the user imposes on the walls the equilibrium
of the shear flow, the code keeps the steady shear flow exactly: at every time, in all the fluid cells of all the
processes, the conserved moments are the affine field. -/
theorem C107_shear (hdim : dim ≤ 3) {s : Sten dim} (D : WallData K dim s) (lo : Fin dim → K) (dx : K)
    (lab : Fin dim → Bool → Int) (hD : D.WF lab) (g : Grid dim)
    (ST : Domain.State K dim s.nu) (J : List (Method dim × List (Entry K dim s.ns)))
    (hJ : OnGrid D (boxGrid g.N g.w lo dx lab s) ST J)
    (hfree : ∀ t, Free s (flat s (withValues s (boxGrid g.N g.w lo dx lab s) D.ψ J t)))
    (per : Fin dim → Prop) (hlinks : OpenLinks g.N g.w per ST) (hmeth : AllMethods D)
    (hreads : ReadsFluid D g.N g.w lo dx lab ST J) (hin : ReadsInside D g.N g.w lo dx lab per J)
    (S : Kernel K s.ns nc d) (hfront : ∀ j, (S.consm j : Nat) < nc) (alg : Algo)
    (E : Matrix (Fin s.ns) (Fin nc) K) (r : Fin s.ns → K) (w₀ : Fin nc → K) (G : Fin nc → Fin dim → K)
    (hS : SteadyField S E r dx G) (hodd : OddField S E dx G) (hper : ∀ c i, per i → G c i = 0)
    (hψ : ∀ l t x j, D.ψ l t x j - D.ψ l t x (s.sym j) =
      linearEq S.invM E (affineMoments w₀ G x) j - linearEq S.invM E (affineMoments w₀ G x) (s.sym j))
    (hdist : ∀ y ∈ box g.N, fluidMap g.w ST y = true → ∀ u ms, ¬ Open (ST.link u fun i => y i + g.w i).flag →
      D.dico (ST.link u fun i => y i + g.w i).flag = some ms → ∀ q ∈ ms,
      q.2 = .bounceBack ∧ (ST.link u fun i => y i + g.w i).dist = 1 / 2 ∨
      q.2 = .bouzidiBounceBack ∧ ((ST.link u fun i => y i + g.w i).dist ≤ 1 / 2 ∨
        ∀ t x j, D.ψ (ST.link u fun i => y i + g.w i).flag t x j =
          D.ψ (ST.link u fun i => y i + g.w i).flag t x (s.sym j)))
    (Q : Proc g → Setup K s.ns nc d dim) (hQ : FluidRun D g lo dx lab S alg Q)
    (σ₀ : Proc g → Simu K s.ns d dim) (h0 : ∀ c, (σ₀ c).Start (Q c))
    (ha : ∀ c x, Owned (size g c) g.w x → fluidMap g.w ST (globalPos (first g c) g.w x) = true →
      (σ₀ c).arr x =
        steadyFlow S.M S.invM E r w₀ G s.vel dx 0 (cellPoint lo dx (globalPos (first g c) g.w x)))
    (k : Nat) (σ : Proc g → Simu K s.ns d dim) (hr : PRun g Q σ₀ k σ) (c : Proc g) (x : Cell dim)
    (hx : Owned (size g c) g.w x) (hf : fluidMap g.w ST (globalPos (first g c) g.w x) = true) :
    (σ c).arr x = (σ₀ c).arr x ∧ ∀ a, (S.M *ᵥ (σ c).arr x) (S.consm a) =
      affineMoments w₀ G (cellPoint lo dx (globalPos (first g c) g.w x)) a := by
  obtain ⟨hsol, hmom⟩ := C107_steady S hS.eqCons hS.inv hS.noSource hS.noRel alg E hS.linear r hS.constant hS.relaxes
    s.vel dx w₀ G hS.flux
  have heven : ∀ j, steadyPart S.M S.invM E r G s.vel dx (s.sym j) = steadyPart S.M S.invM E r G s.vel dx j := by
    refine steadyPart_even S.M S.invM hS.inv E r G s.vel dx s.sym ⟨hD.sten.sym_sym, hS.parity⟩ fun j => ?_
    unfold eqVariation
    have h1 := hodd j
    have h2 : alongLink dx (eqGradient S.invM E G) (s.vel (s.sym j)) (s.sym j) =
        -alongLink dx (eqGradient S.invM E G) (s.vel j) (s.sym j) := by
      unfold alongLink
      rw [← Finset.sum_neg_distrib]
      refine Finset.sum_congr rfl fun i _ => ?_
      rw [hD.sten.sym j i]
      push_cast; ring
    rw [h2]; linarith
  have hB : ∀ i, per i → ∀ j, eqGradient S.invM E G j i = 0 := by
    intro i hi j
    unfold eqGradient linearEq
    rw [show (fun c => G c i) = 0 from funext fun c => hper c i hi, Matrix.mulVec_zero, Matrix.mulVec_zero]
    rfl
  have hwall : WallsReturn D g.N g.w lo dx ST (steadyFlow S.M S.invM E r w₀ G s.vel dx) := by
    intro y hy hyf u j j' hop hu hsc hj' ms hms m hm t
    obtain rfl : j' = s.sym j := hD.sten.sym_unique hsc hj'
    have hψ' : ∀ p : Fin dim → K, D.ψ (ST.link u fun i => y i + g.w i).flag t p j -
        D.ψ (ST.link u fun i => y i + g.w i).flag t p (s.sym j) =
        steadyFlow S.M S.invM E r w₀ G s.vel dx t p j - steadyFlow S.M S.invM E r w₀ G s.vel dx t p (s.sym j) := by
      intro p
      rw [hψ, steadyFlow_eq]
      simp only [Pi.add_apply, heven j]
      ring
    rcases hdist y hy hyf u ms hop hms _ hm with ⟨h1, h2⟩ | ⟨h1, h2⟩
    · simp only at h1
      rw [h1]
      exact (C107_bounce_back s.vel dx _ _ _ _ j (s.sym j) t _ (hodd j) (hψ' _)).2 (Or.inl h2)
    · simp only at h1
      rw [h1]
      exact (C107_interpolated s.vel dx _ _ _ _ j (s.sym j) t _ (hodd j) (hψ' _)).2
        (h2.imp id fun h => h _ _ _)
  have hst : ∀ t p, steadyFlow S.M S.invM E r w₀ G s.vel dx t p = steadyFlow S.M S.invM E r w₀ G s.vel dx 0 p :=
    fun t p => rfl
  have hres := C107_flow hdim D lo dx lab hD g ST J hJ hfree per hlinks hmeth hreads hin S hfront alg _ hsol
    (repeats_affine g.N dx per _ _ hB) hwall Q hQ σ₀ h0 ha k σ hr c x hx hf
  refine ⟨?_, fun a => ?_⟩
  · rw [hres, ha c x hx hf, hst]
  · rw [hres, hmom]

/-- **C107, conduction.** In a run with walls where anti bounce-back is used halfway between the cells and the user
imposes on the walls the equilibrium of an affine profile of even moments (a temperature), the code keeps the steady
profile exactly: at every time, in all the fluid cells of all the processes, the conserved moments are the affine
field. -/
theorem C107_conduction (hdim : dim ≤ 3) {s : Sten dim} (D : WallData K dim s) (lo : Fin dim → K) (dx : K)
    (lab : Fin dim → Bool → Int) (hD : D.WF lab) (g : Grid dim)
    (ST : Domain.State K dim s.nu) (J : List (Method dim × List (Entry K dim s.ns)))
    (hJ : OnGrid D (boxGrid g.N g.w lo dx lab s) ST J)
    (hfree : ∀ t, Free s (flat s (withValues s (boxGrid g.N g.w lo dx lab s) D.ψ J t)))
    (per : Fin dim → Prop) (hlinks : OpenLinks g.N g.w per ST) (hmeth : AllMethods D)
    (hreads : ReadsFluid D g.N g.w lo dx lab ST J) (hin : ReadsInside D g.N g.w lo dx lab per J)
    (S : Kernel K s.ns nc d) (hfront : ∀ j, (S.consm j : Nat) < nc) (alg : Algo)
    (E : Matrix (Fin s.ns) (Fin nc) K) (r : Fin s.ns → K) (w₀ : Fin nc → K) (G : Fin nc → Fin dim → K)
    (hS : SteadyField S E r dx G) (heven : EvenField S E dx G) (hper : ∀ c i, per i → G c i = 0)
    (hψ : ∀ l t x j, D.ψ l t x j + D.ψ l t x (s.sym j) =
      linearEq S.invM E (affineMoments w₀ G x) j + linearEq S.invM E (affineMoments w₀ G x) (s.sym j))
    (hdist : ∀ y ∈ box g.N, fluidMap g.w ST y = true → ∀ u ms, ¬ Open (ST.link u fun i => y i + g.w i).flag →
      D.dico (ST.link u fun i => y i + g.w i).flag = some ms → ∀ q ∈ ms,
      q.2 = .antiBounceBack ∧ (ST.link u fun i => y i + g.w i).dist = 1 / 2)
    (Q : Proc g → Setup K s.ns nc d dim) (hQ : FluidRun D g lo dx lab S alg Q)
    (σ₀ : Proc g → Simu K s.ns d dim) (h0 : ∀ c, (σ₀ c).Start (Q c))
    (ha : ∀ c x, Owned (size g c) g.w x → fluidMap g.w ST (globalPos (first g c) g.w x) = true →
      (σ₀ c).arr x =
        steadyFlow S.M S.invM E r w₀ G s.vel dx 0 (cellPoint lo dx (globalPos (first g c) g.w x)))
    (k : Nat) (σ : Proc g → Simu K s.ns d dim) (hr : PRun g Q σ₀ k σ) (c : Proc g) (x : Cell dim)
    (hx : Owned (size g c) g.w x) (hf : fluidMap g.w ST (globalPos (first g c) g.w x) = true) :
    (σ c).arr x = (σ₀ c).arr x ∧ ∀ a, (S.M *ᵥ (σ c).arr x) (S.consm a) =
      affineMoments w₀ G (cellPoint lo dx (globalPos (first g c) g.w x)) a := by
  obtain ⟨hsol, hmom⟩ := C107_steady S hS.eqCons hS.inv hS.noSource hS.noRel alg E hS.linear r hS.constant hS.relaxes
    s.vel dx w₀ G hS.flux
  have hodd : ∀ j, steadyPart S.M S.invM E r G s.vel dx (s.sym j) = -steadyPart S.M S.invM E r G s.vel dx j := by
    refine steadyPart_odd S.M S.invM hS.inv E r G s.vel dx s.sym ⟨hD.sten.sym_sym, hS.parity⟩ fun j => ?_
    unfold eqVariation
    rw [heven j]
    unfold alongLink
    rw [← Finset.sum_neg_distrib]
    refine Finset.sum_congr rfl fun i _ => ?_
    rw [hD.sten.sym j i]
    push_cast; ring
  have hB : ∀ i, per i → ∀ j, eqGradient S.invM E G j i = 0 := by
    intro i hi j
    unfold eqGradient linearEq
    rw [show (fun c => G c i) = 0 from funext fun c => hper c i hi, Matrix.mulVec_zero, Matrix.mulVec_zero]
    rfl
  have hwall : WallsReturn D g.N g.w lo dx ST (steadyFlow S.M S.invM E r w₀ G s.vel dx) := by
    intro y hy hyf u j j' hop hu hsc hj' ms hms m hm t
    obtain rfl : j' = s.sym j := hD.sten.sym_unique hsc hj'
    have hψ' : ∀ p : Fin dim → K, D.ψ (ST.link u fun i => y i + g.w i).flag t p j +
        D.ψ (ST.link u fun i => y i + g.w i).flag t p (s.sym j) =
        steadyFlow S.M S.invM E r w₀ G s.vel dx t p j + steadyFlow S.M S.invM E r w₀ G s.vel dx t p (s.sym j) := by
      intro p
      rw [hψ, steadyFlow_eq]
      simp only [Pi.add_apply, hodd j]
      ring
    obtain ⟨h1, h2⟩ := hdist y hy hyf u ms hop hms _ hm
    simp only at h1
    rw [h1]
    exact (C107_anti_bounce_back s.vel dx _ _ _ _ j (s.sym j) t _ (heven j) (hψ' _)).2 (Or.inl h2)
  have hst : ∀ t p, steadyFlow S.M S.invM E r w₀ G s.vel dx t p = steadyFlow S.M S.invM E r w₀ G s.vel dx 0 p :=
    fun t p => rfl
  have hres := C107_flow hdim D lo dx lab hD g ST J hJ hfree per hlinks hmeth hreads hin S hfront alg _ hsol
    (repeats_affine g.N dx per _ _ hB) hwall Q hQ σ₀ h0 ha k σ hr c x hx hf
  refine ⟨?_, fun a => ?_⟩
  · rw [hres, ha c x hx hf, hst]
  · rw [hres, hmom]

/-- **C107, Couette flow.** A channel: a box without element, whose axes with walls come before its periodic axes,
with velocities of components -1, 0, 1 and bounce-back on all the walls. -/
theorem C107_couette (hdim : dim ≤ 3) {s : Sten dim} (D : WallData K dim s) (lo : Fin dim → K) (dx : K)
    (lab : Fin dim → Bool → Int) (hD : D.WF lab) (g : Grid dim)
    (ST : Domain.State K dim s.nu) (J : List (Method dim × List (Entry K dim s.ns)))
    (hJ : OnGrid D (boxGrid g.N g.w lo dx lab s) ST J)
    (hempty : D.elems = []) (hels : ∀ l ∈ D.els, l ≠ -1 ∧ l ≠ -2) (hv : ∀ k i, |s.uvel k i| ≤ 1)
    (hlab : ∀ j, PerAxis lab j ∨ ∀ side, lab j side ≠ -1 ∧ lab j side ≠ -2)
    (hfirst : ∀ i j, ¬ PerAxis lab i → PerAxis lab j → i < j)
    (hmeth : AllMethods D) (hbb : ∀ l ms, D.dico l = some ms → ∀ q ∈ ms, q.2 = .bounceBack)
    (S : Kernel K s.ns nc d) (hfront : ∀ j, (S.consm j : Nat) < nc) (alg : Algo)
    (E : Matrix (Fin s.ns) (Fin nc) K) (r : Fin s.ns → K) (w₀ : Fin nc → K) (G : Fin nc → Fin dim → K)
    (hS : SteadyField S E r dx G) (hodd : OddField S E dx G) (hper : ∀ c i, PerAxis lab i → G c i = 0)
    (hψ : ∀ l t x j, D.ψ l t x j - D.ψ l t x (s.sym j) =
      linearEq S.invM E (affineMoments w₀ G x) j - linearEq S.invM E (affineMoments w₀ G x) (s.sym j))
    (Q : Proc g → Setup K s.ns nc d dim) (hQ : FluidRun D g lo dx lab S alg Q)
    (σ₀ : Proc g → Simu K s.ns d dim) (h0 : ∀ c, (σ₀ c).Start (Q c))
    (ha : ∀ c x, Owned (size g c) g.w x → (σ₀ c).arr x =
        steadyFlow S.M S.invM E r w₀ G s.vel dx 0 (cellPoint lo dx (globalPos (first g c) g.w x)))
    (k : Nat) (σ : Proc g → Simu K s.ns d dim) (hr : PRun g Q σ₀ k σ) (c : Proc g) (x : Cell dim)
    (hx : Owned (size g c) g.w x) :
    (σ c).arr x = (σ₀ c).arr x ∧ ∀ a, (S.M *ᵥ (σ c).arr x) (S.consm a) =
      affineMoments w₀ G (cellPoint lo dx (globalPos (first g c) g.w x)) a := by
  obtain ⟨hlinks, hhalf⟩ := openLinks_channel D g.N g.w lo dx lab hD ST J hJ hempty hels hv hlab hfirst
  have hone : ∀ label ms, D.dico label = some ms → ∀ p ∈ ms, OneCell p.2 := by
    intro l ms hl p hp
    rw [hbb l ms hl p hp]; trivial
  have hall : ∀ y ∈ box g.N, fluidMap g.w ST y = true := by
    intro y hy
    apply decide_eq_true
    rw [Domain.C21_fluid_map _ hJ.wf D.elems hD.sound ST hJ.built, if_pos ⟨interior_shift hy, by rw [hempty]; rfl⟩]
  refine C107_shear hdim D lo dx lab hD g ST J hJ (fun t => hJ.free hD hone t) (PerAxis lab) hlinks hmeth
    (oneCell_reads D _ _ _ _ _ hD ST J hJ (hJ.oneCell hD hone))
    (oneCell_inside D _ _ _ _ _ hD ST J hJ (hJ.oneCell hD hone) _) S hfront alg E r w₀ G hS hodd hper hψ ?_ Q hQ σ₀ h0
    (fun c x hx _ => ha c x hx) k σ hr c x hx (hall _ (owned_box g hx))
  intro y hy _ u ms hop hms q hq
  exact Or.inl ⟨hbb _ _ hms q hq, hhalf y hy u hop⟩

end
end Pylbm.Sim
