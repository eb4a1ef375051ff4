import Verif.Sim.Energy
import Verif.Sim.Bounds
/-!
# C110: monotone schemes

Two simulations of the same monotone scheme: the order of their populations is kept, and their distance in the norm of the
sums does not increase. The scheme may be nonlinear (scalar conservation laws, nonlinear diffusion).
-/

set_option linter.unusedSectionVars false

namespace Pylbm.Sim
open Scheme Halo SchemeSpec Matrix HaloSpec Mpi Boundary

/-! ## The collision -/

section local_
variable {K : Type} [Field K] [LinearOrder K] [IsStrictOrderedRing K] {n nc d : Nat}

/-- The distance of the populations of two cells. -/
def distance (f f' : Fin n → K) : K := ∑ j, |f j - f' j|

/-- The states of a cell whose populations are in the sets `I j`. -/
def Region (I : Fin n → Set K) : Set (Fin n → K) := {f | ∀ j, f j ∈ I j}

/-- The hypotheses on the collision `φ` in the states of the sets `I`: it stays there, it keeps the order and the sum of the
populations. -/
structure MonotoneScheme (φ : (Fin n → K) → Fin n → K) (I : Fin n → Set K) : Prop where
  inside : ∀ f ∈ Region I, φ f ∈ Region I
  mono : MonotoneOn φ (Region I)
  mass : ∀ f ∈ Region I, ∑ j, φ f j = ∑ j, f j

/-- **C110, the collision** (lemma of Crandall and Tartar): the distance of two states of a cell does not increase. -/
theorem C110_collision {φ : (Fin n → K) → Fin n → K} {I : Fin n → Set K} (h : MonotoneScheme φ I) (f f' : Fin n → K)
    (hf : f ∈ Region I) (hf' : f' ∈ Region I) : distance (φ f) (φ f') ≤ distance f f' := by
  set g : Fin n → K := fun j => max (f j) (f' j) with hg
  have hgI : g ∈ Region I := by
    intro j
    rcases le_total (f j) (f' j) with h1 | h1
    · rw [hg]; simp only [max_eq_right h1]; exact hf' j
    · rw [hg]; simp only [max_eq_left h1]; exact hf j
  have h1 : φ f ≤ φ g := h.mono hf hgI fun j => le_max_left _ _
  have h2 : φ f' ≤ φ g := h.mono hf' hgI fun j => le_max_right _ _
  have e1 : distance (φ f) (φ f') ≤ ∑ j, (2 * φ g j - φ f j - φ f' j) := by
    refine Finset.sum_le_sum fun j _ => ?_
    have := h1 j
    have := h2 j
    rw [abs_le]
    constructor <;> linarith
  have e2 : distance f f' = ∑ j, (2 * g j - f j - f' j) := by
    refine Finset.sum_congr rfl fun j _ => ?_
    rcases le_total (f j) (f' j) with h3 | h3
    · rw [hg]; simp only [max_eq_right h3]; rw [abs_of_nonpos (by linarith)]; ring
    · rw [hg]; simp only [max_eq_left h3]; rw [abs_of_nonneg (by linarith)]; ring
  refine e1.trans (le_of_eq ?_)
  rw [e2]
  simp only [Finset.sum_sub_distrib, ← Finset.mul_sum]
  rw [h.mass f hf, h.mass f' hf', h.mass g hgI]

/-- The populations of the equilibrium for the conserved moment `v`. -/
def eqPop (S : Kernel K n 1 d) (v : K) : Fin n → K := S.invM *ᵥ fun i => S.EQ i fun _ => v

/-- A scheme with one conserved moment, the sum of the populations, and one relaxation parameter `ω` (that of the conserved
moment is not used). -/
structure Scalar (S : Kernel K n 1 d) (ω : K) : Prop where
  sum : ∀ j, S.M (S.consm 0) j = 1
  conserved : ∀ w, S.EQ (S.consm 0) w = w 0
  inverse : S.M * S.invM = 1
  relaxation : ∀ i w, S.s i w = ω ∨ i = S.consm 0
  source : ∀ i, S.source i = none
  relVel : S.relVel = none

theorem Scalar.density {S : Kernel K n 1 d} {ω : K} (h : Scalar S ω) (f : Fin n → K) :
    (S.M *ᵥ f) (S.consm 0) = ∑ j, f j := by
  simp [Matrix.mulVec, dotProduct, h.sum]

theorem Scalar.sum_eqPop {S : Kernel K n 1 d} {ω : K} (h : Scalar S ω) (v : K) : ∑ j, eqPop S v j = v := by
  rw [← h.density]
  unfold eqPop
  rw [Matrix.mulVec_mulVec, h.inverse, Matrix.one_mulVec, h.conserved]

/-- The collision is a mean of the populations and of those of the equilibrium. -/
theorem Scalar.collide_eq {S : Kernel K n 1 d} {ω : K} (h : Scalar S ω) (a : Algo) (f : Fin n → K) (j : Fin n) :
    collide S a f j = (1 - ω) * f j + ω * eqPop S (∑ j, f j) j := by
  have hEQ : ∀ j w, S.EQ (S.consm j) w = w j := by
    intro j w
    rw [Fin.fin_one_eq_zero j]
    exact h.conserved w
  have hi : S.invM * S.M = 1 := mul_eq_one_comm.1 h.inverse
  have h1 := moments_collide S hEQ h.inverse h.source h.relVel a f
  have hw : (S.M *ᵥ f) ∘ S.consm = fun _ => ∑ j, f j := by
    funext l
    rw [Fin.fin_one_eq_zero l]
    exact h.density f
  have e : relaxed S.consm S.EQ S.s (S.M *ᵥ f) =
      (1 - ω) • (S.M *ᵥ f) + ω • fun i => S.EQ i fun _ => ∑ j, f j := by
    funext i
    simp only [relaxed, Pi.add_apply, Pi.smul_apply, smul_eq_mul, hw]
    rcases h.relaxation i (fun _ => ∑ j, f j) with h2 | rfl
    · rw [h2]
    · rw [h.conserved, h.density]; ring
  have h3 := congrArg (S.invM *ᵥ ·) h1
  simp only [Matrix.mulVec_mulVec, hi, Matrix.one_mulVec] at h3
  rw [h3, e, Matrix.mulVec_add, Matrix.mulVec_smul, Matrix.mulVec_smul, Matrix.mulVec_mulVec, hi, Matrix.one_mulVec]
  rfl

/-- **C110, schemes.** A scheme with one conserved moment and a relaxation parameter between 0 and 1, whose equilibrium
populations are nondecreasing functions of the conserved moment in the set `R` of the sums of the states of `I`, and belong
to `I`, is monotone. -/
theorem C110_scheme {S : Kernel K n 1 d} {ω : K} (h : Scalar S ω) (hω : 0 ≤ ω ∧ ω ≤ 1) (a : Algo) (I : Fin n → Set K)
    (hI : ∀ j, Mean (I j)) (R : Set K) (hR : ∀ f ∈ Region I, ∑ j, f j ∈ R) (hmono : MonotoneOn (eqPop S) R)
    (hin : ∀ v ∈ R, eqPop S v ∈ Region I) : MonotoneScheme (collide S a) I where
  inside f hf j := by
    rw [h.collide_eq, add_comm]
    exact hI j _ (hin _ (hR f hf) j) _ (hf j) ω hω.1 hω.2
  mono f hf f' hf' hle j := by
    rw [h.collide_eq, h.collide_eq]
    have h1 : f j ≤ f' j := hle j
    have h2 : eqPop S (∑ j, f j) j ≤ eqPop S (∑ j, f' j) j :=
      hmono (hR f hf) (hR f' hf') (Finset.sum_le_sum fun j _ => hle j) j
    have := mul_le_mul_of_nonneg_left h1 (sub_nonneg.2 hω.2)
    have := mul_le_mul_of_nonneg_left h2 hω.1
    linarith
  mass f _ := by
    simp only [h.collide_eq, Finset.sum_add_distrib, ← Finset.mul_sum, h.sum_eqPop]
    ring

/-- **C110, the condition is necessary.** With a relaxation parameter between 0 and 1, other than 0, and at least two
velocities: the collision keeps the order of all states if and only if the equilibrium populations are nondecreasing. When they
are not, there are two states in order, which differ for one velocity, such that after the collision they are not, and their
distance has increased. -/
theorem C110_only {S : Kernel K n 1 d} {ω : K} (h : Scalar S ω) (hω : 0 < ω ∧ ω ≤ 1) (a : Algo) (hn : 2 ≤ n)
    (hmono : ¬ Monotone (eqPop S)) :
    ∃ f f' : Fin n → K, f ≤ f' ∧ ¬ collide S a f ≤ collide S a f' ∧
      distance f f' < distance (collide S a f) (collide S a f') := by
  simp only [Monotone, not_forall] at hmono
  obtain ⟨v, v', hv, hnot⟩ := hmono
  obtain ⟨j, hj⟩ : ∃ j, eqPop S v' j < eqPop S v j := by
    by_contra hall
    push Not at hall
    exact hnot fun j => hall j
  obtain ⟨i, hi⟩ : ∃ i : Fin n, i ≠ j := by
    by_cases h0 : j = ⟨0, by omega⟩
    · exact ⟨⟨1, by omega⟩, by rw [h0]; simp⟩
    · exact ⟨⟨0, by omega⟩, fun h => h0 h.symm⟩
  set f : Fin n → K := fun l => if l = i then v else 0 with hf
  set f' : Fin n → K := fun l => if l = i then v' else 0 with hf'
  have s1 : ∑ l, f l = v := by simp [hf]
  have s2 : ∑ l, f' l = v' := by simp [hf']
  have hle : f ≤ f' := by
    intro l
    simp only [hf, hf']
    split_ifs
    · exact hv
    · exact le_rfl
  have hd : distance f f' = ∑ l, f' l - ∑ l, f l := by
    rw [← Finset.sum_sub_distrib]
    refine Finset.sum_congr rfl fun l _ => ?_
    rw [abs_sub_comm, abs_of_nonneg (sub_nonneg.2 (hle l))]
  have hm : ∀ f : Fin n → K, ∑ l, collide S a f l = ∑ l, f l := by
    intro f
    simp only [h.collide_eq, Finset.sum_add_distrib, ← Finset.mul_sum, h.sum_eqPop]
    ring
  have hlt : collide S a f' j < collide S a f j := by
    rw [h.collide_eq, h.collide_eq, s1, s2]
    simp only [hf, hf', if_neg (Ne.symm hi)]
    have := mul_lt_mul_of_pos_left hj hω.1
    linarith
  refine ⟨f, f', hle, fun hc => absurd (hc j) (not_le.2 hlt), ?_⟩
  rw [hd, ← hm f, ← hm f', ← Finset.sum_sub_distrib]
  refine Finset.sum_lt_sum (fun l _ => ?_) ⟨j, Finset.mem_univ j, ?_⟩
  · rw [abs_sub_comm]; exact le_abs_self _
  · have : 0 < |collide S a f j - collide S a f' j| := abs_pos.2 (by linarith)
    linarith

/-- The distance of two equilibria is the difference of their conserved moments. -/
theorem distance_eqPop {S : Kernel K n 1 d} {ω : K} (h : Scalar S ω) {R : Set K} (hmono : MonotoneOn (eqPop S) R) {v v' : K}
    (hv : v ∈ R) (hv' : v' ∈ R) : distance (eqPop S v) (eqPop S v') = |v - v'| := by
  have key : ∀ v ∈ R, ∀ v' ∈ R, v ≤ v' → distance (eqPop S v) (eqPop S v') = |v - v'| := by
    intro v hv v' hv' hle
    rw [abs_sub_comm, abs_of_nonneg (sub_nonneg.2 hle)]
    conv_rhs => rw [← h.sum_eqPop v, ← h.sum_eqPop v', ← Finset.sum_sub_distrib]
    refine Finset.sum_congr rfl fun j _ => ?_
    rw [abs_sub_comm, abs_of_nonneg (sub_nonneg.2 (hmono hv hv' hle j))]
  rcases le_total v v' with hle | hle
  · exact key v hv v' hv' hle
  · rw [abs_sub_comm, ← key v' hv' v hv hle]
    exact Finset.sum_congr rfl fun j _ => abs_sub_comm _ _

/-- The difference of the sums is at most the distance. -/
theorem abs_sum_le_distance (f f' : Fin n → K) : |∑ j, f j - ∑ j, f' j| ≤ distance f f' := by
  rw [← Finset.sum_sub_distrib]
  exact Finset.abs_sum_le_sum_abs _ _

end local_

/-! ## Periodic domains -/

section periodic_
variable {K : Type} [Field K] [LinearOrder K] [IsStrictOrderedRing K] {n nc d dim : Nat}

/-- The distance over all the processes of two states of the simulation. -/
def totalDistance (g : Grid dim) (σ τ : Proc g → Simu K n d dim) : K :=
  ∑ c : Proc g, ∑ x ∈ inner (size g c) g.w, distance ((σ c).arr x) ((τ c).arr x)

/-- The populations of all the cells are in the sets `I`. -/
def InRegion (g : Grid dim) (I : Fin n → Set K) (σ : Proc g → Simu K n d dim) : Prop :=
  ∀ c x, Owned (size g c) g.w x → (σ c).arr x ∈ Region I

theorem inside_run (N : Fin dim → Nat) (vel : Fin n → Cell dim) (φ : (Fin n → K) → Fin n → K) (I : Fin n → Set K)
    (hφ : ∀ f ∈ Region I, φ f ∈ Region I) (dt : K) (G : Arr K n dim) (hG : ∀ y ∈ box N, G y ∈ Region I) (k : Nat) :
    ∀ y ∈ box N, lbmRun N vel φ (fun _ H => H) dt G k y ∈ Region I := by
  induction k with
  | zero => exact hG
  | succ k ih =>
    intro y hy
    have hN : ∀ i, 0 < N i := fun i => by
      have := (mem_box N _).1 hy i
      omega
    exact hφ _ fun j => ih _ (mod_mem_box hN _) j

theorem order_run (N : Fin dim → Nat) (vel : Fin n → Cell dim) (φ : (Fin n → K) → Fin n → K) (I : Fin n → Set K)
    (hφ : MonotoneScheme φ I) (dt : K) (G G' : Arr K n dim) (hG : ∀ y ∈ box N, G y ∈ Region I)
    (hG' : ∀ y ∈ box N, G' y ∈ Region I) (hle : ∀ y ∈ box N, G y ≤ G' y) (k : Nat) :
    ∀ y ∈ box N, lbmRun N vel φ (fun _ H => H) dt G k y ≤ lbmRun N vel φ (fun _ H => H) dt G' k y := by
  induction k with
  | zero => exact hle
  | succ k ih =>
    intro y hy
    have hN : ∀ i, 0 < N i := fun i => by
      have := (mem_box N _).1 hy i
      omega
    exact hφ.mono (fun j => inside_run N vel φ I hφ.inside dt G hG k _ (mod_mem_box hN _) j)
      (fun j => inside_run N vel φ I hφ.inside dt G' hG' k _ (mod_mem_box hN _) j)
      fun j => ih _ (mod_mem_box hN _) j

/-- The transport moves the populations: the distance over the torus is the same. -/
theorem distance_stream (N : Fin dim → Nat) (vel : Fin n → Cell dim) (t : K) (G G' : Arr K n dim) :
    ∑ y ∈ box N, distance (lbmStep N vel id (fun _ H => H) t G y) (lbmStep N vel id (fun _ H => H) t G' y) =
      ∑ y ∈ box N, distance (G y) (G' y) := by
  unfold distance
  rw [Finset.sum_comm, Finset.sum_comm (s := box N)]
  refine Finset.sum_congr rfl fun j _ => ?_
  exact sum_torus N (vel j) fun z => |G z j - G' z j|

theorem distance_run (N : Fin dim → Nat) (vel : Fin n → Cell dim) (φ : (Fin n → K) → Fin n → K) (I : Fin n → Set K)
    (hφ : MonotoneScheme φ I) (dt : K) (G G' : Arr K n dim) (hG : ∀ y ∈ box N, G y ∈ Region I)
    (hG' : ∀ y ∈ box N, G' y ∈ Region I) (k : Nat) :
    ∑ y ∈ box N, distance (lbmRun N vel φ (fun _ H => H) dt G k y) (lbmRun N vel φ (fun _ H => H) dt G' k y) ≤
      ∑ y ∈ box N, distance (G y) (G' y) := by
  induction k with
  | zero => exact le_rfl
  | succ k ih =>
    refine (le_of_le_of_eq (Finset.sum_le_sum fun y hy => ?_) (distance_stream N vel (k * dt) _ _)).trans ih
    have hN : ∀ i, 0 < N i := fun i => by
      have := (mem_box N _).1 hy i
      omega
    exact C110_collision hφ _ _ (fun j => inside_run N vel φ I hφ.inside dt G hG k _ (mod_mem_box hN _) j)
      (fun j => inside_run N vel φ I hφ.inside dt G' hG' k _ (mod_mem_box hN _) j)

/-- **C110, order.** On a fully periodic domain two runs of a monotone scheme (equilibria and relaxation may be nonlinear)
stay in order when their populations are in order at the beginning: any decomposition and schedules of the messages, Base
and Pull, all backends. -/
theorem C110_order_periodic (hdim : dim ≤ 3) (g : Grid dim) (hlarge : ∀ c i, g.w i ≤ size g c i)
    (S : Kernel K n nc d) (hfront : ∀ j, (S.consm j : Nat) < nc)
    (vel : Fin n → Cell dim) (a : Algo) (hv : ∀ j i, |vel j i| ≤ g.w i)
    (Q : Proc g → Setup K n nc d dim) (hQ : Uniform g S vel a Q) (hQb : ∀ c t A, (Q c).bc t A = A)
    (I : Fin n → Set K) (hS : MonotoneScheme (collide S a) I)
    (σ₀ τ₀ : Proc g → Simu K n d dim) (h0 : ∀ c, (σ₀ c).Start (Q c)) (h0' : ∀ c, (τ₀ c).Start (Q c))
    (hσ : InRegion g I σ₀) (hτ : InRegion g I τ₀)
    (hle : ∀ c x, Owned (size g c) g.w x → (σ₀ c).arr x ≤ (τ₀ c).arr x)
    (k : Nat) (σ τ : Proc g → Simu K n d dim) (hr : PRun g Q σ₀ k σ) (hr' : PRun g Q τ₀ k τ)
    (c : Proc g) (x : Cell dim) (hx : Owned (size g c) g.w x) : (σ c).arr x ≤ (τ c).arr x := by
  obtain ⟨G, hG⟩ := C15_global_array_exists g fun c => (σ₀ c).arr
  obtain ⟨G', hG'⟩ := C15_global_array_exists g fun c => (τ₀ c).arr
  obtain ⟨_, h2⟩ := C42_global_partial hdim g hlarge S hfront vel a Q hQ _
    (sameBoundary_periodic g vel hv Q hQb) σ₀ h0 G hG k σ hr
  obtain ⟨_, h2'⟩ := C42_global_partial hdim g hlarge S hfront vel a Q hQ _
    (sameBoundary_periodic g vel hv Q hQb) τ₀ h0' G' hG' k τ hr'
  rw [h2 c x hx, h2' c x hx]
  refine order_run g.N vel _ I hS S.dt G G' ?_ ?_ ?_ k _ (owned_box g hx)
  · intro y hy
    obtain ⟨c, x, hx, rfl⟩ := exists_owned g y hy
    rw [← hG c x hx]
    exact hσ c x hx
  · intro y hy
    obtain ⟨c, x, hx, rfl⟩ := exists_owned g y hy
    rw [← hG' c x hx]
    exact hτ c x hx
  · intro y hy
    obtain ⟨c, x, hx, rfl⟩ := exists_owned g y hy
    rw [← hG c x hx, ← hG' c x hx]
    exact hle c x hx

theorem totalDistance_eq (g : Grid dim) (σ τ : Proc g → Simu K n d dim) (H H' : Arr K n dim)
    (hH : ∀ c x, Owned (size g c) g.w x → (σ c).arr x = H (globalPos (first g c) g.w x))
    (hH' : ∀ c x, Owned (size g c) g.w x → (τ c).arr x = H' (globalPos (first g c) g.w x)) :
    totalDistance g σ τ = ∑ y ∈ box g.N, distance (H y) (H' y) := by
  have hown : ∀ c x, x ∈ inner (size g c) g.w ↔ Owned (size g c) g.w x := by
    intro c x
    simp [inner, Owned]
  rw [← sum_owned g fun y => distance (H y) (H' y)]
  refine Finset.sum_congr rfl fun c _ => Finset.sum_congr rfl fun x hx => ?_
  rw [hH c x ((hown c x).1 hx), hH' c x ((hown c x).1 hx)]

/-- **C110, distance.** On a fully periodic domain the distance of two runs of a monotone scheme never increases. -/
theorem C110_distance_periodic (hdim : dim ≤ 3) (g : Grid dim) (hlarge : ∀ c i, g.w i ≤ size g c i)
    (S : Kernel K n nc d) (hfront : ∀ j, (S.consm j : Nat) < nc)
    (vel : Fin n → Cell dim) (a : Algo) (hv : ∀ j i, |vel j i| ≤ g.w i)
    (Q : Proc g → Setup K n nc d dim) (hQ : Uniform g S vel a Q) (hQb : ∀ c t A, (Q c).bc t A = A)
    (I : Fin n → Set K) (hS : MonotoneScheme (collide S a) I)
    (σ₀ τ₀ : Proc g → Simu K n d dim) (h0 : ∀ c, (σ₀ c).Start (Q c)) (h0' : ∀ c, (τ₀ c).Start (Q c))
    (hσ : InRegion g I σ₀) (hτ : InRegion g I τ₀)
    (k : Nat) (σ τ : Proc g → Simu K n d dim) (hr : PRun g Q σ₀ k σ) (hr' : PRun g Q τ₀ k τ) :
    totalDistance g σ τ ≤ totalDistance g σ₀ τ₀ := by
  obtain ⟨G, hG⟩ := C15_global_array_exists g fun c => (σ₀ c).arr
  obtain ⟨G', hG'⟩ := C15_global_array_exists g fun c => (τ₀ c).arr
  obtain ⟨_, h2⟩ := C42_global_partial hdim g hlarge S hfront vel a Q hQ _
    (sameBoundary_periodic g vel hv Q hQb) σ₀ h0 G hG k σ hr
  obtain ⟨_, h2'⟩ := C42_global_partial hdim g hlarge S hfront vel a Q hQ _
    (sameBoundary_periodic g vel hv Q hQb) τ₀ h0' G' hG' k τ hr'
  rw [totalDistance_eq g σ τ _ _ h2 h2', totalDistance_eq g σ₀ τ₀ G G' hG hG']
  refine distance_run g.N vel _ I hS S.dt G G' ?_ ?_ k
  · intro y hy
    obtain ⟨c, x, hx, rfl⟩ := exists_owned g y hy
    rw [← hG c x hx]
    exact hσ c x hx
  · intro y hy
    obtain ⟨c, x, hx, rfl⟩ := exists_owned g y hy
    rw [← hG' c x hx]
    exact hτ c x hx

/-- The array seen from the place `e`. -/
def seenFrom (N : Fin dim → Nat) (e : Cell dim) (G : Arr K n dim) : Arr K n dim :=
  fun y => periodic N G fun i => y i + e i

theorem seenFrom_run (N : Fin dim → Nat) (vel : Fin n → Cell dim) (φ : (Fin n → K) → Fin n → K) (dt : K) (e : Cell dim)
    (G : Arr K n dim) (k : Nat) :
    lbmRun N vel φ (fun _ H => H) dt (seenFrom N e G) k = seenFrom N e (lbmRun N vel φ (fun _ H => H) dt G k) := by
  induction k with
  | zero => rfl
  | succ k ih =>
    simp only [lbmRun]
    rw [ih]
    funext y
    simp only [lbmStep, seenFrom, periodic]
    congr 1
    funext j
    congr 1
    funext i
    rw [Int.emod_add_emod, Int.emod_sub_emod]
    congr 1
    ring

/-- The variation of an array along the translation `e` of the torus: for a unit vector, the total variation along an
axis. -/
def variation (N : Fin dim → Nat) (e : Cell dim) (G : Arr K n dim) : K :=
  ∑ y ∈ box N, distance (G fun i => (y i + e i) % N i) (G y)

/-- **C110, variation.** On a fully periodic domain the total variation along any translation never increases. -/
theorem C110_variation (hdim : dim ≤ 3) (g : Grid dim) (hlarge : ∀ c i, g.w i ≤ size g c i)
    (S : Kernel K n nc d) (hfront : ∀ j, (S.consm j : Nat) < nc)
    (vel : Fin n → Cell dim) (a : Algo) (hv : ∀ j i, |vel j i| ≤ g.w i)
    (Q : Proc g → Setup K n nc d dim) (hQ : Uniform g S vel a Q) (hQb : ∀ c t A, (Q c).bc t A = A)
    (I : Fin n → Set K) (hS : MonotoneScheme (collide S a) I)
    (σ₀ : Proc g → Simu K n d dim) (h0 : ∀ c, (σ₀ c).Start (Q c)) (hσ : InRegion g I σ₀)
    (k : Nat) (σ : Proc g → Simu K n d dim) (hr : PRun g Q σ₀ k σ) (G H : Arr K n dim)
    (hG : ∀ c x, Owned (size g c) g.w x → (σ₀ c).arr x = G (globalPos (first g c) g.w x))
    (hH : ∀ c x, Owned (size g c) g.w x → (σ c).arr x = H (globalPos (first g c) g.w x)) (e : Cell dim) :
    variation g.N e H ≤ variation g.N e G := by
  obtain ⟨_, h2⟩ := C42_global_partial hdim g hlarge S hfront vel a Q hQ _
    (sameBoundary_periodic g vel hv Q hQb) σ₀ h0 G hG k σ hr
  have hin : ∀ y ∈ box g.N, G y ∈ Region I := by
    intro y hy
    obtain ⟨c, x, hx, rfl⟩ := exists_owned g y hy
    rw [← hG c x hx]
    exact hσ c x hx
  have hpos : ∀ y ∈ box g.N, ∀ i, 0 < g.N i := fun y hy i => by
    have := (mem_box g.N _).1 hy i
    omega
  have heq : ∀ y ∈ box g.N, H y = lbmRun g.N vel (collide S a) (fun _ H => H) S.dt G k y := by
    intro y hy
    obtain ⟨c, x, hx, rfl⟩ := exists_owned g y hy
    rw [← hH c x hx, h2 c x hx]
  have e1 : variation g.N e H = ∑ y ∈ box g.N,
      distance (lbmRun g.N vel (collide S a) (fun _ H => H) S.dt (seenFrom g.N e G) k y)
        (lbmRun g.N vel (collide S a) (fun _ H => H) S.dt G k y) := by
    refine Finset.sum_congr rfl fun y hy => ?_
    rw [seenFrom_run, heq y hy, heq _ (mod_mem_box (hpos y hy) _)]
    rfl
  rw [e1]
  exact distance_run g.N vel _ I hS S.dt _ G (fun y hy => hin _ (mod_mem_box (hpos y hy) _)) hin k

/-- **C110, the conserved moment.** Two runs of a scheme as in `C110_scheme` on a periodic domain which start from equilibria:
after any number of steps the sum of the differences of the conserved moment is at most the initial one, and the order of
the conserved moments is kept. -/
theorem C110_density (hdim : dim ≤ 3) (g : Grid dim) (hlarge : ∀ c i, g.w i ≤ size g c i)
    (S : Kernel K n 1 d) (hfront : ∀ j, (S.consm j : Nat) < 1) {ω : K} (hs : Scalar S ω) (hω : 0 ≤ ω ∧ ω ≤ 1)
    (vel : Fin n → Cell dim) (a : Algo) (hv : ∀ j i, |vel j i| ≤ g.w i)
    (Q : Proc g → Setup K n 1 d dim) (hQ : Uniform g S vel a Q) (hQb : ∀ c t A, (Q c).bc t A = A)
    (I : Fin n → Set K) (hI : ∀ j, Mean (I j)) (R : Set K) (hR : ∀ f ∈ Region I, ∑ j, f j ∈ R)
    (hmono : MonotoneOn (eqPop S) R) (hin : ∀ v ∈ R, eqPop S v ∈ Region I)
    (σ₀ τ₀ : Proc g → Simu K n d dim) (h0 : ∀ c, (σ₀ c).Start (Q c)) (h0' : ∀ c, (τ₀ c).Start (Q c))
    (u v : Proc g → Cell dim → K) (hu : ∀ c x, u c x ∈ R) (hv' : ∀ c x, v c x ∈ R)
    (hσ : ∀ c x, Owned (size g c) g.w x → (σ₀ c).arr x = eqPop S (u c x))
    (hτ : ∀ c x, Owned (size g c) g.w x → (τ₀ c).arr x = eqPop S (v c x))
    (k : Nat) (σ τ : Proc g → Simu K n d dim) (hr : PRun g Q σ₀ k σ) (hr' : PRun g Q τ₀ k τ) :
    ∑ c : Proc g, ∑ x ∈ inner (size g c) g.w, |∑ j, (σ c).arr x j - ∑ j, (τ c).arr x j| ≤
      ∑ c : Proc g, ∑ x ∈ inner (size g c) g.w, |u c x - v c x| ∧
    ((∀ c x, u c x ≤ v c x) → ∀ c x, Owned (size g c) g.w x → ∑ j, (σ c).arr x j ≤ ∑ j, (τ c).arr x j) := by
  have hS := C110_scheme hs hω a I hI R hR hmono hin
  have hown : ∀ c x, x ∈ inner (size g c) g.w ↔ Owned (size g c) g.w x := by
    intro c x
    simp [inner, Owned]
  have h1 : InRegion g I σ₀ := fun c x hx => by rw [hσ c x hx]; exact hin _ (hu c x)
  have h2 : InRegion g I τ₀ := fun c x hx => by rw [hτ c x hx]; exact hin _ (hv' c x)
  constructor
  · refine le_trans (b := totalDistance g σ τ)
      (Finset.sum_le_sum fun c _ => Finset.sum_le_sum fun x _ => abs_sum_le_distance _ _) ?_
    refine (C110_distance_periodic hdim g hlarge S hfront vel a hv Q hQ hQb I hS σ₀ τ₀ h0 h0' h1 h2 k σ τ hr hr').trans
      (le_of_eq ?_)
    refine Finset.sum_congr rfl fun c _ => Finset.sum_congr rfl fun x hx => ?_
    rw [hσ c x ((hown c x).1 hx), hτ c x ((hown c x).1 hx), distance_eqPop hs hmono (hu c x) (hv' c x)]
  · intro hle c x hx
    refine Finset.sum_le_sum fun j _ => C110_order_periodic hdim g hlarge S hfront vel a hv Q hQ hQb I hS σ₀ τ₀ h0 h0' h1 h2
      (fun c x hx => ?_) k σ τ hr hr' c x hx j
    rw [hσ c x hx, hτ c x hx]
    exact hmono (hu c x) (hv' c x) (hle c x)

end periodic_

/-! ## Walls -/

section walls
variable {K : Type} [Field K] [LinearOrder K] [IsStrictOrderedRing K] [FloorRing K] {nc d dim : Nat}

/-- Bounce-back, interpolated or not, and Neumann conditions. -/
def NoAnti {s : Sten dim} (D : WallData K dim s) : Prop :=
  ∀ label ms, D.dico label = some ms → ∀ p ∈ ms, p.2 ≠ .antiBounceBack ∧ p.2 ≠ .bouzidiAntiBounceBack

/-- The walls do not take the populations out of the sets `I`: the walls are at rest and `I` is the same for opposite
velocities, or there is no restriction. -/
def WallsInside {s : Sten dim} (D : WallData K dim s) (I : Fin s.ns → Set K) : Prop :=
  (Passive D ∧ (∀ j, Mean (I j)) ∧ ∀ j j', s.scheme j' = s.scheme j → (∀ i, s.vel j' i = -s.vel j i) → I j' = I j) ∨
    ∀ j, I j = Set.univ

section
variable {s : Sten dim} {D : WallData K dim s} {N w : Fin dim → Nat} {lo : Fin dim → K} {dx : K}
  {lab : Fin dim → Bool → Int} {ST : Domain.State K dim s.nu} {J : List (Method dim × List (Entry K dim s.ns))}

/-- The values written by these methods are nondecreasing functions of the populations. -/
theorem value_mono (m : Method dim) (it : Item K dim s.ns) (hd : 0 < it.dist)
    (hm : m ≠ .antiBounceBack ∧ m ≠ .bouzidiAntiBounceBack) (f f' : Dist K dim s.ns) (hf : ∀ k c, f k c ≤ f' k c) :
    value s m f f it ≤ value s m f' f' it := by
  cases m with
  | bounceBack =>
    simp only [value]
    have := hf (s.sym it.k) (Boundary.inner s 1 it.toEntry)
    linarith
  | antiBounceBack => exact absurd rfl hm.1
  | bouzidiBounceBack =>
    simp only [value]
    obtain ⟨h1, -, h2, -⟩ := C34_weights it.dist hd
    have h3 : load0 s f it.toEntry ≤ load0 s f' it.toEntry := hf _ _
    have h4 : load1 s f it.toEntry ≤ load1 s f' it.toEntry := by
      unfold load1
      split_ifs
      · exact hf _ _
      · exact hf _ _
    have := mul_le_mul_of_nonneg_left h3 h1
    have := mul_le_mul_of_nonneg_left h4 h2
    linarith
  | bouzidiAntiBounceBack => exact absurd rfl hm.2
  | neumann => exact hf _ _
  | neumannAxis => exact hf _ _

/-- The populations which enter a fluid cell are nondecreasing functions of all the populations. -/
theorem wallBc_mono (hD : D.WF lab) (hJ : OnGrid D (boxGrid N w lo dx lab s) ST J)
    (hfree : ∀ t, Free s (flat s (withValues s (boxGrid N w lo dx lab s) D.ψ J t)))
    (hno : NoAnti D) {y : Cell dim} (hy : y ∈ box N) (j : Fin s.ns) (t : K) (H H' : Arr K s.ns dim)
    (hH : ∀ z l, H z l ≤ H' z l) :
    wallBc D N w lo dx lab J t H (fun i => y i - s.vel j i) j ≤
      wallBc D N w lo dx lab J t H' (fun i => y i - s.vel j i) j := by
  have o := hJ.onDomain hD t
  have n1 := o.nodup_positions hD.sten
  unfold wallBc
  rw [boundaryCondition_written s _ n1 (hfree t), boundaryCondition_written s _ n1 (hfree t)]
  by_cases hpos : (j, fun i => y i - s.vel j i + (w i : Int)) ∈
      positions s (flat s (withValues s (boxGrid N w lo dx lab s) D.ψ J t))
  · obtain ⟨⟨m, it⟩, hq, hqe⟩ := List.mem_map.1 hpos
    simp only [Prod.mk.injEq] at hqe
    obtain ⟨he, -⟩ := (mem_withValues s _ D.ψ J t m it).1 hq
    obtain ⟨label, hl, h1, h2, hms, hlab, -, h3, h4⟩ :=
      (mem_entries s _ ST.link hD.sten _ D.dico J hJ.insts m it.toEntry).1 he
    have w1 := written_mem s n1 hq (fun k X => H (fun i => X i - w i) k)
    have w2 := written_mem s n1 hq (fun k X => H' (fun i => X i - w i) k)
    simp only [hqe.1, hqe.2] at w1 w2
    rw [w1, w2]
    have hsrc : source s it.toEntry = fun i => y i + w i := by
      funext i
      simp only [source, hqe.2, hqe.1]; ring
    have h999 : label ≠ 999 := fun h => no999_list (g := boxGrid N w lo dx lab s) hD (h ▸ hl)
    have hlink := Domain.C23_flagged_links (boxGrid N w lo dx lab s) hJ.wf D.elems hD.sound ST hJ.built _
      (interior_shift (lo := lo) (dx := dx) (lab := lab) (s := s) (w := w) hy) (s.ux (s.sym it.k))
    rw [hsrc] at h3 h4
    have hdist : 0 < it.dist := by
      rw [h4]
      refine (hlink.1 fun h => h999 ?_).2.2.1
      rw [← h3]; exact hlink.2 h
    obtain ⟨ms, h5⟩ : ∃ ms, D.dico label = some ms := by
      cases h : D.dico label with
      | none => rw [h] at hms; simp at hms
      | some ms => exact ⟨ms, rfl⟩
    rw [h5] at hms
    exact value_mono m it hdist (hno label ms h5 _ hms) _ _ fun k c => hH _ _
  · rw [written_not_mem s hpos, written_not_mem s hpos]
    exact hH _ _

/-- The populations after the boundary conditions and the transport are in the sets `I`. -/
theorem inside_walls (hD : D.WF lab) (hJ : OnGrid D (boxGrid N w lo dx lab s) ST J)
    (hfree : ∀ t, Free s (flat s (withValues s (boxGrid N w lo dx lab s) D.ψ J t)))
    (hfb : FluidBoundary N s.vel (fluidMap w ST) (wallBc D N w lo dx lab J)) (I : Fin s.ns → Set K)
    (hin : WallsInside D I) (t : K) (A : Arr K s.ns dim)
    (hA : ∀ y ∈ box N, fluidMap w ST y = true → A y ∈ Region I) :
    ∀ y ∈ box N, fluidMap w ST y = true → lbmStep N s.vel id (wallBc D N w lo dx lab J) t A y ∈ Region I := by
  intro y hy hyf j
  rcases hin with ⟨hpas, hI, hsym⟩ | huniv
  · have hN : ∀ i, 0 < N i := fun i => by
      have := (mem_box N _).1 hy i
      omega
    exact lbmStep_bounds D N w lo dx lab hD ST J hJ hfree hfb hpas I hI hsym id (fun f hf => hf) t hN A hA y hy hyf j
  · rw [huniv j]
    exact Set.mem_univ _

theorem inside_walls_run (hD : D.WF lab) (hJ : OnGrid D (boxGrid N w lo dx lab s) ST J)
    (hfree : ∀ t, Free s (flat s (withValues s (boxGrid N w lo dx lab s) D.ψ J t)))
    (hfb : FluidBoundary N s.vel (fluidMap w ST) (wallBc D N w lo dx lab J)) (I : Fin s.ns → Set K)
    (hin : WallsInside D I) (φ : (Fin s.ns → K) → Fin s.ns → K) (hφ : ∀ f ∈ Region I, φ f ∈ Region I) (dt : K)
    (G : Arr K s.ns dim) (hG : ∀ y ∈ box N, fluidMap w ST y = true → G y ∈ Region I) (k : Nat) :
    ∀ y ∈ box N, fluidMap w ST y = true → lbmRun N s.vel φ (wallBc D N w lo dx lab J) dt G k y ∈ Region I := by
  induction k with
  | zero => exact hG
  | succ k ih =>
    intro y hy hyf
    exact hφ _ (inside_walls hD hJ hfree hfb I hin (k * dt) _ ih y hy hyf)

theorem order_walls_run (hD : D.WF lab) (hJ : OnGrid D (boxGrid N w lo dx lab s) ST J)
    (hfree : ∀ t, Free s (flat s (withValues s (boxGrid N w lo dx lab s) D.ψ J t)))
    (hfb : FluidBoundary N s.vel (fluidMap w ST) (wallBc D N w lo dx lab J)) (hno : NoAnti D) (I : Fin s.ns → Set K)
    (hin : WallsInside D I) (φ : (Fin s.ns → K) → Fin s.ns → K) (hφ : ∀ f ∈ Region I, φ f ∈ Region I)
    (hmono : MonotoneOn φ (Region I)) (dt : K) (G G' : Arr K s.ns dim)
    (hG : ∀ y ∈ box N, fluidMap w ST y = true → G y ∈ Region I)
    (hG' : ∀ y ∈ box N, fluidMap w ST y = true → G' y ∈ Region I)
    (hle : ∀ y ∈ box N, fluidMap w ST y = true → G y ≤ G' y) (k : Nat) :
    ∀ y ∈ box N, fluidMap w ST y = true → lbmRun N s.vel φ (wallBc D N w lo dx lab J) dt G k y ≤
      lbmRun N s.vel φ (wallBc D N w lo dx lab J) dt G' k y := by
  classical
  induction k with
  | zero => exact hle
  | succ k ih =>
    intro y hy hyf
    refine hmono (inside_walls hD hJ hfree hfb I hin (k * dt) _
      (inside_walls_run hD hJ hfree hfb I hin φ hφ dt G hG k) y hy hyf)
      (inside_walls hD hJ hfree hfb I hin (k * dt) _
      (inside_walls_run hD hJ hfree hfb I hin φ hφ dt G' hG' k) y hy hyf) fun l => ?_
    have hN : ∀ i, 0 < N i := fun i => by
      have := (mem_box N _).1 hy i
      omega
    set A := lbmRun N s.vel φ (wallBc D N w lo dx lab J) dt G k with hA
    set A' := lbmRun N s.vel φ (wallBc D N w lo dx lab J) dt G' k with hA'
    clear_value A A'
    set H : Arr K s.ns dim := fun z => if periodic N (fluidMap w ST) z = true then periodic N A z else A y with hH
    set H' : Arr K s.ns dim := fun z => if periodic N (fluidMap w ST) z = true then periodic N A' z else A' y with hH'
    have e := hfb (k * dt) (periodic N A) H (fun z hz => by rw [hH]; simp only [hz, if_true]) y hy hyf l
    have e' := hfb (k * dt) (periodic N A') H' (fun z hz => by rw [hH']; simp only [hz, if_true]) y hy hyf l
    show wallBc D N w lo dx lab J (k * dt) (periodic N A) (fun i => y i - s.vel l i) l ≤
      wallBc D N w lo dx lab J (k * dt) (periodic N A') (fun i => y i - s.vel l i) l
    rw [e, e']
    refine wallBc_mono hD hJ hfree hno hy l _ H H' fun z q => ?_
    rw [hH, hH']
    beta_reduce
    split_ifs with h
    · exact ih _ (mod_mem_box hN z) h q
    · exact ih y hy hyf q

/-- The transport with reflections moves the populations: the distance over the fluid cells is the same. -/
theorem distance_walls (hD : D.WF lab) (hJ : OnGrid D (boxGrid N w lo dx lab s) ST J)
    (hfree : ∀ t, Free s (flat s (withValues s (boxGrid N w lo dx lab s) D.ψ J t)))
    (hmeth : AllMethods D) (hrefl : Reflecting D) (hseal : Sealed N w ST) (t : K) (G G' : Arr K s.ns dim) :
    ∑ y ∈ box N with fluidMap w ST y = true, distance (lbmStep N s.vel id (wallBc D N w lo dx lab J) t G y)
      (lbmStep N s.vel id (wallBc D N w lo dx lab J) t G' y) =
    ∑ y ∈ box N with fluidMap w ST y = true, distance (G y) (G' y) := by
  have he : ∀ f f' : Fin s.ns → K, distance f f' = (fun _ => 1) ⬝ᵥ fun j => |f j - f' j| := by
    intro f f'
    simp [distance, dotProduct]
  simp only [he]
  refine sum_origin hD hseal (fun _ => 1) (fun j j' h1 h2 => rfl)
    (fun y j => |lbmStep N s.vel id (wallBc D N w lo dx lab J) t G y j -
      lbmStep N s.vel id (wallBc D N w lo dx lab J) t G' y j|) (fun y j => |G y j - G' y j|) ?_
  intro y hyb _ j _
  simp only [lbmStep, id]
  unfold origin
  split_ifs with h
  · rw [wallBc_open hD hJ hfree j h t, wallBc_open hD hJ hfree j h t]
    rfl
  · simp only
    obtain ⟨ε, q, hε, hq⟩ := wallBc_reflect hD hJ hfree hmeth hrefl hyb j h t
    rw [hq, hq, periodic_box G hyb, periodic_box G' hyb]
    have h1 : |ε| = 1 := by
      rcases sq_eq_one_iff.1 hε with h | h <;> simp [h]
    calc _ = |ε * (G y (s.sym j) - G' y (s.sym j))| := by congr 1; ring
      _ = _ := by rw [abs_mul, h1, one_mul]

end

/-- The populations of the fluid cells are in the sets `I`. -/
def FluidInRegion {s : Sten dim} (ST : Domain.State K dim s.nu) (g : Grid dim) (I : Fin s.ns → Set K)
    (σ : Proc g → Simu K s.ns d dim) : Prop :=
  ∀ c x, Owned (size g c) g.w x → fluidMap g.w ST (globalPos (first g c) g.w x) = true → (σ c).arr x ∈ Region I

/-- **C110, order with walls.** Bounce-back (interpolated or not, moving walls) and Neumann conditions on the walls and
obstacles, the imposed values being the same in both runs: the populations of the fluid cells of two runs of a scheme whose
collision keeps the order stay in order. The populations are restricted to sets `I` when the walls are at rest; for moving
walls the collision has to keep the order of all states. -/
theorem C110_order (hdim : dim ≤ 3) {s : Sten dim} (D : WallData K dim s) (lo : Fin dim → K) (dx : K)
    (lab : Fin dim → Bool → Int) (hD : D.WF lab) (g : Grid dim)
    (ST : Domain.State K dim s.nu) (J : List (Method dim × List (Entry K dim s.ns)))
    (hJ : OnGrid D (boxGrid g.N g.w lo dx lab s) ST J)
    (hfree : ∀ t, Free s (flat s (withValues s (boxGrid g.N g.w lo dx lab s) D.ψ J t)))
    (hlinks : AllLinks g.N g.w ST) (hmeth : AllMethods D) (hreads : ReadsFluid D g.N g.w lo dx lab ST J)
    (hno : NoAnti D) (S : Kernel K s.ns nc d) (hfront : ∀ j, (S.consm j : Nat) < nc) (a : Algo)
    (I : Fin s.ns → Set K) (hI : WallsInside D I) (hkeep : ∀ f ∈ Region I, collide S a f ∈ Region I)
    (hmono : MonotoneOn (collide S a) (Region I))
    (Q : Proc g → Setup K s.ns nc d dim) (hQ : FluidRun D g lo dx lab S a Q)
    (σ₀ τ₀ : Proc g → Simu K s.ns d dim) (h0 : ∀ c, (σ₀ c).Start (Q c)) (h0' : ∀ c, (τ₀ c).Start (Q c))
    (hσ : FluidInRegion ST g I σ₀) (hτ : FluidInRegion ST g I τ₀)
    (hle : ∀ c x, Owned (size g c) g.w x → fluidMap g.w ST (globalPos (first g c) g.w x) = true →
      (σ₀ c).arr x ≤ (τ₀ c).arr x)
    (k : Nat) (σ τ : Proc g → Simu K s.ns d dim) (hr : PRun g Q σ₀ k σ) (hr' : PRun g Q τ₀ k τ)
    (c : Proc g) (x : Cell dim) (hx : Owned (size g c) g.w x)
    (hf : fluidMap g.w ST (globalPos (first g c) g.w x) = true) : (σ c).arr x ≤ (τ c).arr x := by
  have hfb := fluidBoundary_walls D g.N g.w lo dx lab hD ST J hJ hfree hlinks hmeth hreads
  obtain ⟨G, hG⟩ := C15_global_array_exists g fun c => (σ₀ c).arr
  obtain ⟨G', hG'⟩ := C15_global_array_exists g fun c => (τ₀ c).arr
  obtain ⟨_, h2⟩ := C73_fluid_cells hdim g hQ.walls.large S hfront s.vel a _ Q (hQ.uniform hD ST hJ.built) _
    (sameBoundary_walls D g lo dx lab hD Q hQ.walls ST J hJ hfree) hfb σ₀ h0 G (fun c x hx _ => hG c x hx) k σ hr
  obtain ⟨_, h2'⟩ := C73_fluid_cells hdim g hQ.walls.large S hfront s.vel a _ Q (hQ.uniform hD ST hJ.built) _
    (sameBoundary_walls D g lo dx lab hD Q hQ.walls ST J hJ hfree) hfb τ₀ h0' G' (fun c x hx _ => hG' c x hx) k τ hr'
  rw [h2 c x hx hf, h2' c x hx hf]
  refine order_walls_run hD hJ hfree hfb hno I hI _ hkeep hmono S.dt G G' ?_ ?_ ?_ k _ (owned_box g hx) hf
  · intro y hy hyf
    obtain ⟨c, x, hx, rfl⟩ := exists_owned g y hy
    rw [← hG c x hx]
    exact hσ c x hx hyf
  · intro y hy hyf
    obtain ⟨c, x, hx, rfl⟩ := exists_owned g y hy
    rw [← hG' c x hx]
    exact hτ c x hx hyf
  · intro y hy hyf
    obtain ⟨c, x, hx, rfl⟩ := exists_owned g y hy
    rw [← hG c x hx, ← hG' c x hx]
    exact hle c x hx hyf

/-- The distance over the fluid cells of all the processes of two states of the simulation. -/
def fluidDistance {s : Sten dim} (ST : Domain.State K dim s.nu) (g : Grid dim)
    (σ τ : Proc g → Simu K s.ns d dim) : K :=
  ∑ c : Proc g, ∑ x ∈ inner (size g c) g.w with fluidMap g.w ST (globalPos (first g c) g.w x) = true,
    distance ((σ c).arr x) ((τ c).arr x)

/-- **C110, distance with walls.** In a domain without holes with bounce-back or anti-bounce-back on all the walls and
obstacles, the imposed values being the same in both runs, the distance over the fluid cells of two runs of a monotone scheme
never increases. -/
theorem C110_distance (hdim : dim ≤ 3) {s : Sten dim} (D : WallData K dim s) (lo : Fin dim → K) (dx : K)
    (lab : Fin dim → Bool → Int) (hD : D.WF lab) (g : Grid dim)
    (ST : Domain.State K dim s.nu) (J : List (Method dim × List (Entry K dim s.ns)))
    (hJ : OnGrid D (boxGrid g.N g.w lo dx lab s) ST J)
    (hfree : ∀ t, Free s (flat s (withValues s (boxGrid g.N g.w lo dx lab s) D.ψ J t)))
    (hseal : Sealed g.N g.w ST) (hmeth : AllMethods D) (hreads : ReadsFluid D g.N g.w lo dx lab ST J)
    (hrefl : Reflecting D)
    (S : Kernel K s.ns nc d) (hfront : ∀ j, (S.consm j : Nat) < nc) (a : Algo)
    (I : Fin s.ns → Set K) (hI : WallsInside D I) (hS : MonotoneScheme (collide S a) I)
    (Q : Proc g → Setup K s.ns nc d dim) (hQ : FluidRun D g lo dx lab S a Q)
    (σ₀ τ₀ : Proc g → Simu K s.ns d dim) (h0 : ∀ c, (σ₀ c).Start (Q c)) (h0' : ∀ c, (τ₀ c).Start (Q c))
    (hσ : FluidInRegion ST g I σ₀) (hτ : FluidInRegion ST g I τ₀)
    (k : Nat) (σ τ : Proc g → Simu K s.ns d dim) (hr : PRun g Q σ₀ k σ) (hr' : PRun g Q τ₀ k τ) :
    fluidDistance ST g σ τ ≤ fluidDistance ST g σ₀ τ₀ := by
  have hown : ∀ c x, x ∈ inner (size g c) g.w ↔ Owned (size g c) g.w x := by
    intro c x
    simp [inner, Owned]
  have hlinks : AllLinks g.N g.w ST := by
    intro y hy hyf u
    by_cases h : Open (ST.link u (fun i => y i + g.w i)).flag
    · exact Or.inl (hseal y hy hyf u (s.usym u) (hD.sten.usym u) h).1
    · exact Or.inr h
  have hfb := fluidBoundary_walls D g.N g.w lo dx lab hD ST J hJ hfree hlinks hmeth hreads
  obtain ⟨G, hG⟩ := C15_global_array_exists g fun c => (σ₀ c).arr
  obtain ⟨G', hG'⟩ := C15_global_array_exists g fun c => (τ₀ c).arr
  obtain ⟨_, h2⟩ := C73_fluid_cells hdim g hQ.walls.large S hfront s.vel a _ Q (hQ.uniform hD ST hJ.built) _
    (sameBoundary_walls D g lo dx lab hD Q hQ.walls ST J hJ hfree) hfb σ₀ h0 G (fun c x hx _ => hG c x hx) k σ hr
  obtain ⟨_, h2'⟩ := C73_fluid_cells hdim g hQ.walls.large S hfront s.vel a _ Q (hQ.uniform hD ST hJ.built) _
    (sameBoundary_walls D g lo dx lab hD Q hQ.walls ST J hJ hfree) hfb τ₀ h0' G' (fun c x hx _ => hG' c x hx) k τ hr'
  have hGI : ∀ y ∈ box g.N, fluidMap g.w ST y = true → G y ∈ Region I := by
    intro y hy hyf
    obtain ⟨c, x, hx, rfl⟩ := exists_owned g y hy
    rw [← hG c x hx]
    exact hσ c x hx hyf
  have hGI' : ∀ y ∈ box g.N, fluidMap g.w ST y = true → G' y ∈ Region I := by
    intro y hy hyf
    obtain ⟨c, x, hx, rfl⟩ := exists_owned g y hy
    rw [← hG' c x hx]
    exact hτ c x hx hyf
  have hsum : ∀ k, ∑ y ∈ box g.N with fluidMap g.w ST y = true, distance
      (lbmRun g.N s.vel (collide S a) (wallBc D g.N g.w lo dx lab J) S.dt G k y)
        (lbmRun g.N s.vel (collide S a) (wallBc D g.N g.w lo dx lab J) S.dt G' k y) ≤
      ∑ y ∈ box g.N with fluidMap g.w ST y = true, distance (G y) (G' y) := by
    intro k
    induction k with
    | zero => exact le_rfl
    | succ k ih =>
      refine (le_of_le_of_eq (Finset.sum_le_sum fun y hy => ?_)
        (distance_walls hD hJ hfree hmeth hrefl hseal (k * S.dt) _ _)).trans ih
      obtain ⟨hy, hyf⟩ := Finset.mem_filter.1 hy
      exact C110_collision hS _ _
        (inside_walls hD hJ hfree hfb I hI (k * S.dt) _
          (inside_walls_run hD hJ hfree hfb I hI _ hS.inside S.dt G hGI k) y hy hyf)
        (inside_walls hD hJ hfree hfb I hI (k * S.dt) _
          (inside_walls_run hD hJ hfree hfb I hI _ hS.inside S.dt G' hGI' k) y hy hyf)
  have key : ∀ (σ τ : Proc g → Simu K s.ns d dim) (H H' : Arr K s.ns dim),
      (∀ c x, Owned (size g c) g.w x → fluidMap g.w ST (globalPos (first g c) g.w x) = true →
        (σ c).arr x = H (globalPos (first g c) g.w x)) →
      (∀ c x, Owned (size g c) g.w x → fluidMap g.w ST (globalPos (first g c) g.w x) = true →
        (τ c).arr x = H' (globalPos (first g c) g.w x)) →
      fluidDistance ST g σ τ = ∑ y ∈ box g.N with fluidMap g.w ST y = true, distance (H y) (H' y) := by
    intro σ τ H H' hH hH'
    unfold fluidDistance
    rw [Finset.sum_filter, ← sum_owned g fun y => if fluidMap g.w ST y = true then distance (H y) (H' y) else 0]
    refine Finset.sum_congr rfl fun c _ => ?_
    rw [Finset.sum_filter]
    refine Finset.sum_congr rfl fun x hx => ?_
    split_ifs with h
    · rw [hH c x ((hown c x).1 hx) h, hH' c x ((hown c x).1 hx) h]
    · rfl
  rw [key σ τ _ _ h2 h2', key σ₀ τ₀ G G' (fun c x hx _ => hG c x hx) fun c x hx _ => hG' c x hx]
  exact hsum k

end walls
end Pylbm.Sim
