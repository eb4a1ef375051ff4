import Verif.Sim.Symmetry
import Verif.Sim.Bounds
import Mathlib.Data.ZMod.Basic
/-!
# C115: sublattices and alternating sums

A periodic box whose cells are coloured so that the populations go from each colour to the next one. The colours evolve
independently, and the totals of a conserved moment over each colour are kept separately: besides the totals which the user has
declared, a simulation conserves alternating sums. No viscosity or diffusion damps them.
-/

set_option linter.unusedSectionVars false

namespace Pylbm.Sim
open Scheme Halo SchemeSpec Matrix HaloSpec Mpi

section spec
variable {dim : Nat} {A : Type} [AddCommGroup A]

/-- A colour of the cells, which is additive and has the period of the box. -/
def Colouring (N : Fin dim → Nat) (χ : (Fin dim → ℤ) →+ A) : Prop := ∀ i, χ (Pi.single i (N i : ℤ)) = 0

/-- The parity of the coordinate along an axis. -/
def parity (i : Fin dim) : (Fin dim → ℤ) →+ ZMod 2 := (Int.castAddHom (ZMod 2)).comp (Pi.evalAddMonoidHom _ i)

/-- The parity of the sum of the coordinates, as on a checkerboard. -/
def checkerboard : (Fin dim → ℤ) →+ ZMod 2 := ∑ i, parity i

/-- The sign of a colour. -/
def sgn {K : Type} [Field K] (z : ZMod 2) : K := if z = 0 then 1 else -1

end spec

section proof
variable {K : Type} [Field K] [LinearOrder K] [IsStrictOrderedRing K] {n nc d dim : Nat} {A : Type} [AddCommGroup A]

theorem colour_mod {N : Fin dim → Nat} {χ : (Fin dim → ℤ) →+ A} (h : Colouring N χ) (y : Cell dim) :
    χ (fun i => y i % N i) = χ y := by
  have e : y = (fun i => y i % N i) + ∑ i, (y i / N i) • Pi.single i (N i : ℤ) := by
    funext i
    rw [Pi.add_apply, Finset.sum_apply, Finset.sum_eq_single i]
    · rw [Pi.smul_apply, Pi.single_eq_same, smul_eq_mul, mul_comm]
      exact (Int.emod_add_mul_ediv _ _).symm
    · intro b _ hb
      rw [Pi.smul_apply, Pi.single_eq_of_ne' hb, smul_zero]
    · intro hi; exact absurd (Finset.mem_univ i) hi
  conv_rhs => rw [e]
  rw [map_add, map_sum, Finset.sum_eq_zero, add_zero]
  intro i _
  rw [map_zsmul, h i, smul_zero]

theorem parity_colouring {N : Fin dim → Nat} (i : Fin dim) (hN : _root_.Even (N i)) : Colouring N (parity i) := by
  intro k
  show (((Pi.single k (N k : ℤ) : Fin dim → ℤ) i : ℤ) : ZMod 2) = 0
  by_cases h : i = k
  · subst h
    rw [Pi.single_eq_same]
    push_cast
    exact (ZMod.natCast_eq_zero_iff _ _).2 hN.two_dvd
  · rw [Pi.single_eq_of_ne h]; rfl

theorem checkerboard_colouring {N : Fin dim → Nat} (hN : ∀ i, _root_.Even (N i)) : Colouring N checkerboard := by
  intro k
  unfold checkerboard
  rw [AddMonoidHom.finsetSum_apply]
  exact Finset.sum_eq_zero fun i _ => parity_colouring i (hN i) k

/-- The values of a colour only depend on those of the colour before. -/
theorem run_colour {N : Fin dim → Nat} {χ : (Fin dim → ℤ) →+ A} (h : Colouring N χ) {vel : Fin n → Cell dim} {a : A}
    (hv : ∀ j, χ (vel j) = a) (φ : (Fin n → K) → Fin n → K) (dt : K) {G G' : Arr K n dim} {b : A}
    (h0 : ∀ y ∈ box N, χ y = b → G y = G' y) (k : Nat) (y : Cell dim) (hy : y ∈ box N) (hc : χ y = b + k • a) :
    lbmRun N vel φ (fun _ H => H) dt G k y = lbmRun N vel φ (fun _ H => H) dt G' k y := by
  induction k generalizing y with
  | zero => exact h0 y hy (by rw [hc, zero_smul, add_zero])
  | succ k ih =>
    show φ _ = φ _
    congr 1
    funext j
    show lbmRun N vel φ (fun _ H => H) dt G k _ j = lbmRun N vel φ (fun _ H => H) dt G' k _ j
    rw [ih]
    · rw [mem_box] at hy ⊢
      intro i
      have := hy i
      exact ⟨Int.emod_nonneg _ (by omega), Int.emod_lt_of_pos _ (by omega)⟩
    · rw [colour_mod h fun i => y i - vel j i]
      show χ (y - vel j) = _
      rw [map_sub, hc, hv, add_smul, one_smul]
      abel

/-- A sum with weights which follow the colours. -/
theorem sum_colour {N : Fin dim → Nat} {χ : (Fin dim → ℤ) →+ A} (h : Colouring N χ) {vel : Fin n → Cell dim} {a : A}
    (m : Fin n → K) (hv : ∀ j, m j ≠ 0 → χ (vel j) = a) (φ : (Fin n → K) → Fin n → K) (hφ : ∀ f, m ⬝ᵥ φ f = m ⬝ᵥ f)
    (θ : A → K) (t : K) (G : Arr K n dim) :
    ∑ y ∈ box N, θ (χ y - a) * (m ⬝ᵥ lbmStep N vel φ (fun _ H => H) t G y) = ∑ y ∈ box N, θ (χ y) * (m ⬝ᵥ G y) := by
  simp only [lbmStep, hφ]
  simp only [dotProduct, Finset.mul_sum]
  rw [Finset.sum_comm, Finset.sum_comm (s := box N)]
  apply Finset.sum_congr rfl
  intro j _
  by_cases hj : m j = 0
  · simp [hj]
  · rw [← sum_torus N (vel j) fun y => θ (χ y) * (m j * G y j)]
    refine Finset.sum_congr rfl fun y _ => ?_
    show θ (χ y - a) * (m j * G (fun i => (y i - vel j i) % N i) j) =
      θ (χ fun i => (y i - vel j i) % N i) * (m j * G (fun i => (y i - vel j i) % N i) j)
    rw [colour_mod h fun i => y i - vel j i, show χ (fun i => y i - vel j i) = χ y - a by
      rw [← hv j hj, ← map_sub]; rfl]

/-- **C115, independent sublattices.** All the velocities change the colour by `a`: after `k` steps the values in the cells of
the colour `b + k a` only depend on the initial values in the cells of the colour `b`, whatever the collision (sources, relative
velocities, nonlinear equilibria); any two decompositions. -/
theorem C115_sublattices (hdim : dim ≤ 3) (g g' : Grid dim) (hN : g.N = g'.N)
    (hlarge : ∀ c i, g.w i ≤ size g c i) (hlarge' : ∀ c i, g'.w i ≤ size g' c i)
    (S : Kernel K n nc d) (hfront : ∀ j, (S.consm j : Nat) < nc) (vel : Fin n → Cell dim) (alg : Algo)
    (hv : ∀ j i, |vel j i| ≤ g.w i) (hv' : ∀ j i, |vel j i| ≤ g'.w i)
    (χ : (Fin dim → ℤ) →+ A) (hχ : Colouring g.N χ) (a : A) (hvel : ∀ j, χ (vel j) = a)
    (Q : Proc g → Setup K n nc d dim) (hQ : Uniform g S vel alg Q) (hQb : ∀ c t A, (Q c).bc t A = A)
    (Q' : Proc g' → Setup K n nc d dim) (hQ' : Uniform g' S vel alg Q') (hQb' : ∀ c t A, (Q' c).bc t A = A)
    (σ₀ : Proc g → Simu K n d dim) (h0 : ∀ c, (σ₀ c).Start (Q c))
    (σ₀' : Proc g' → Simu K n d dim) (h0' : ∀ c, (σ₀' c).Start (Q' c)) (b : A)
    (hsame : ∀ c x c' x', Owned (size g c) g.w x → Owned (size g' c') g'.w x' →
      globalPos (first g c) g.w x = globalPos (first g' c') g'.w x' → χ (globalPos (first g c) g.w x) = b →
      (σ₀ c).arr x = (σ₀' c').arr x')
    (k : Nat) (σ : Proc g → Simu K n d dim) (hr : PRun g Q σ₀ k σ)
    (σ' : Proc g' → Simu K n d dim) (hr' : PRun g' Q' σ₀' k σ')
    (c : Proc g) (x : Cell dim) (c' : Proc g') (x' : Cell dim) (hx : Owned (size g c) g.w x)
    (hx' : Owned (size g' c') g'.w x') (he : globalPos (first g c) g.w x = globalPos (first g' c') g'.w x')
    (hb : χ (globalPos (first g c) g.w x) = b + k • a) : (σ c).arr x = (σ' c').arr x' := by
  obtain ⟨G, hG⟩ := C15_global_array_exists g fun c => (σ₀ c).arr
  obtain ⟨G', hG'⟩ := C15_global_array_exists g' fun c => (σ₀' c).arr
  obtain ⟨_, h2⟩ := C42_global_partial hdim g hlarge S hfront vel alg Q hQ _
    (sameBoundary_periodic g vel hv Q hQb) σ₀ h0 G hG k σ hr
  obtain ⟨_, h2'⟩ := C42_global_partial hdim g' hlarge' S hfront vel alg Q' hQ' _
    (sameBoundary_periodic g' vel hv' Q' hQb') σ₀' h0' G' hG' k σ' hr'
  rw [h2 c x hx, h2' c' x' hx', ← hN, ← he]
  refine run_colour hχ hvel _ _ (fun y hy hy' => ?_) k _ (owned_box g hx) hb
  obtain ⟨c, x, hx, e⟩ := exists_owned g y hy
  obtain ⟨c', x', hx', e'⟩ := exists_owned g' y (hN ▸ hy)
  have h3 := hsame c x c' x' hx hx' (e.trans e'.symm) (by rw [e]; exact hy')
  have h4 := hG c x hx
  have h5 := hG' c' x' hx'
  rw [← e, ← h4, h3, h5, e, e']

theorem collide_keeps (S : Kernel K n nc d) (hEQ : ∀ j w, S.EQ (S.consm j) w = w j)
    (hM : S.M * S.invM = 1) (hS : ∀ i, S.source i = none) (hrel : S.relVel = none) (alg : Algo) (l : Fin nc)
    (f : Fin n → K) : S.M (S.consm l) ⬝ᵥ collide S alg f = S.M (S.consm l) ⬝ᵥ f := by
  show (S.M *ᵥ collide S alg f) (S.consm l) = (S.M *ᵥ f) (S.consm l)
  have hcol : collide S alg f = collision S.M S.invM S.consm S.EQ S.s f := by
    unfold collide
    rw [prog_eq]
    obtain ⟨h3, h4⟩ := step_collision S hEQ hS f ⟨0, 0, 0⟩
    cases alg with
    | base => simp only [hrel, Option.isSome_none]; exact h4
    | pull => simp only [hrel, Option.isSome_none]; exact h3
  rw [hcol]
  unfold collision
  rw [Matrix.mulVec_mulVec, hM, Matrix.one_mulVec]
  simp only [relaxed, hEQ, Function.comp_apply]
  ring

/-- **C115, the totals of the colours.** The velocities which a conserved moment uses change the colour by `a`: for all weights
`θ` of the colours, the sum with the weights moved along by `k a` is the initial one after `k` steps. -/
theorem C115_totals (hdim : dim ≤ 3) (g : Grid dim) (hlarge : ∀ c i, g.w i ≤ size g c i)
    (S : Kernel K n nc d) (hfront : ∀ j, (S.consm j : Nat) < nc) (hEQ : ∀ j w, S.EQ (S.consm j) w = w j)
    (hM : S.M * S.invM = 1) (hS : ∀ i, S.source i = none) (hrel : S.relVel = none)
    (vel : Fin n → Cell dim) (alg : Algo) (hv : ∀ j i, |vel j i| ≤ g.w i)
    (χ : (Fin dim → ℤ) →+ A) (hχ : Colouring g.N χ) (a : A) (l : Fin nc)
    (hvel : ∀ j, S.M (S.consm l) j ≠ 0 → χ (vel j) = a)
    (Q : Proc g → Setup K n nc d dim) (hQ : Uniform g S vel alg Q) (hQb : ∀ c t A, (Q c).bc t A = A)
    (σ₀ : Proc g → Simu K n d dim) (h0 : ∀ c, (σ₀ c).Start (Q c)) (θ : A → K)
    (k : Nat) (σ : Proc g → Simu K n d dim) (hr : PRun g Q σ₀ k σ) :
    ∑ c : Proc g, ∑ x ∈ inner (size g c) g.w,
        θ (χ (globalPos (first g c) g.w x) - k • a) * (S.M *ᵥ (σ c).arr x) (S.consm l) =
      ∑ c : Proc g, ∑ x ∈ inner (size g c) g.w,
        θ (χ (globalPos (first g c) g.w x)) * (S.M *ᵥ (σ₀ c).arr x) (S.consm l) := by
  have hown : ∀ c x, x ∈ inner (size g c) g.w ↔ Owned (size g c) g.w x := by
    intro c x
    simp [inner, Owned]
  have hφ := collide_keeps S hEQ hM hS hrel alg l
  obtain ⟨G, hG⟩ := C15_global_array_exists g fun c => (σ₀ c).arr
  obtain ⟨_, h2⟩ := C42_global_partial hdim g hlarge S hfront vel alg Q hQ _
    (sameBoundary_periodic g vel hv Q hQb) σ₀ h0 G hG k σ hr
  have hsum : ∀ (k : Nat), ∑ y ∈ box g.N, θ (χ y - k • a) * (S.M (S.consm l) ⬝ᵥ
      lbmRun g.N vel (collide S alg) (fun _ H => H) S.dt G k y) = ∑ y ∈ box g.N, θ (χ y) * (S.M (S.consm l) ⬝ᵥ G y) := by
    intro k
    induction k with
    | zero => simp only [zero_smul, sub_zero]; rfl
    | succ k ih =>
      rw [← ih]
      have h := sum_colour hχ (S.M (S.consm l)) hvel (collide S alg) hφ (fun z => θ (z - k • a)) (k * S.dt)
        (lbmRun g.N vel (collide S alg) (fun _ H => H) S.dt G k)
      rw [← h]
      refine Finset.sum_congr rfl fun y _ => ?_
      show θ _ * _ = θ _ * (S.M (S.consm l) ⬝ᵥ lbmRun g.N vel (collide S alg) (fun _ H => H) S.dt G (k + 1) y)
      congr 2
      rw [add_smul, one_smul]; abel
  have e1 : ∀ c, ∀ x ∈ inner (size g c) g.w,
      θ (χ (globalPos (first g c) g.w x) - k • a) * (S.M *ᵥ (σ c).arr x) (S.consm l) =
      (fun y => θ (χ y - k • a) * (S.M (S.consm l) ⬝ᵥ lbmRun g.N vel (collide S alg) (fun _ H => H) S.dt G k y))
        (globalPos (first g c) g.w x) := by
    intro c x hx
    rw [h2 c x ((hown c x).1 hx)]; rfl
  have e2 : ∀ c, ∀ x ∈ inner (size g c) g.w,
      θ (χ (globalPos (first g c) g.w x)) * (S.M *ᵥ (σ₀ c).arr x) (S.consm l) =
      (fun y => θ (χ y) * (S.M (S.consm l) ⬝ᵥ G y)) (globalPos (first g c) g.w x) := by
    intro c x hx
    have := hG c x ((hown c x).1 hx)
    rw [this]; rfl
  rw [Finset.sum_congr rfl fun c _ => Finset.sum_congr rfl (e1 c),
    Finset.sum_congr rfl fun c _ => Finset.sum_congr rfl (e2 c),
    sum_owned g fun y => θ (χ y - k • a) * (S.M (S.consm l) ⬝ᵥ lbmRun g.N vel (collide S alg) (fun _ H => H) S.dt G k y),
    sum_owned g fun y => θ (χ y) * (S.M (S.consm l) ⬝ᵥ G y)]
  exact hsum k

theorem sgn_sub_one (z : ZMod 2) : (sgn (z - 1) : K) = -sgn z := by
  revert z
  have : ∀ z : ZMod 2, z = 0 ∨ z = 1 := by decide
  intro z
  rcases this z with rfl | rfl <;> simp [sgn]

theorem sgn_sub (z : ZMod 2) (k : Nat) : (sgn (z - k • (1 : ZMod 2)) : K) = (-1) ^ k * sgn z := by
  induction k with
  | zero => simp
  | succ k ih =>
    rw [add_smul, one_smul, ← sub_sub, sgn_sub_one, ih, pow_succ]; ring

theorem neg_one_sgn (i : Fin dim) (y : Cell dim) : ((-1) ^ (y i).natAbs : K) = sgn (parity i y) := by
  show _ = sgn ((y i : ℤ) : ZMod 2)
  unfold sgn
  by_cases h : _root_.Even (y i)
  · rw [if_pos ((ZMod.intCast_zmod_eq_zero_iff_dvd _ _).2 h.two_dvd), _root_.Even.neg_one_pow (Int.natAbs_even.2 h)]
  · rw [if_neg (fun h' => h (even_iff_two_dvd.2 ((ZMod.intCast_zmod_eq_zero_iff_dvd _ _).1 h'))),
      _root_.Odd.neg_one_pow (Int.natAbs_odd.2 (Int.not_even_iff_odd.1 h))]

theorem sgn_add (a b : ZMod 2) : (sgn (a + b) : K) = sgn a * sgn b := by
  have h : ∀ z : ZMod 2, z = 0 ∨ z = 1 := by decide
  rcases h a with rfl | rfl <;> rcases h b with rfl | rfl <;> simp [sgn, show (1 : ZMod 2) + 1 = 0 from rfl]

/-- The alternating sum after a step. -/
theorem alternating_step {N : Fin dim → Nat} {χ : (Fin dim → ℤ) →+ ZMod 2} (h : Colouring N χ) (vel : Fin n → Cell dim)
    (m : Fin n → K) (φ : (Fin n → K) → Fin n → K) (hφ : ∀ f, m ⬝ᵥ φ f = m ⬝ᵥ f) (t : K) (G : Arr K n dim) :
    ∑ y ∈ box N, sgn (χ y) * (m ⬝ᵥ lbmStep N vel φ (fun _ H => H) t G y) =
      ∑ j, sgn (χ (vel j)) * (m j * ∑ y ∈ box N, sgn (χ y) * G y j) := by
  simp only [lbmStep, hφ]
  simp only [dotProduct, Finset.mul_sum]
  rw [Finset.sum_comm]
  apply Finset.sum_congr rfl
  intro j _
  rw [← sum_torus N (vel j) fun y => sgn (χ (vel j)) * (m j * (sgn (χ y) * G y j))]
  refine Finset.sum_congr rfl fun y _ => ?_
  show sgn (χ y) * (m j * G (fun i => (y i - vel j i) % N i) j) = sgn (χ (vel j)) *
    (m j * (sgn (χ fun i => (y i - vel j i) % N i) * G (fun i => (y i - vel j i) % N i) j))
  have e : χ y = χ (vel j) + χ fun i => (y i - vel j i) % N i := by
    rw [colour_mod h fun i => y i - vel j i, ← map_add]
    congr 1
    funext i
    show y i = vel j i + (y i - vel j i)
    ring
  rw [e, sgn_add]
  ring

/-- **C115, alternating sums along an axis.** The number of cells along the axis is even and the conserved moment only uses
velocities with an odd component along it (the momentum along that axis of D1Q3, D2Q9, D3Q19, D3Q27; the density of D1Q2): the
alternating sum changes its sign at each step and keeps its size for ever, whatever the relaxation parameters. -/
theorem C115_alternating (hdim : dim ≤ 3) (g : Grid dim) (hlarge : ∀ c i, g.w i ≤ size g c i)
    (S : Kernel K n nc d) (hfront : ∀ j, (S.consm j : Nat) < nc) (hEQ : ∀ j w, S.EQ (S.consm j) w = w j)
    (hM : S.M * S.invM = 1) (hS : ∀ i, S.source i = none) (hrel : S.relVel = none)
    (vel : Fin n → Cell dim) (alg : Algo) (hv : ∀ j i, |vel j i| ≤ g.w i)
    (i : Fin dim) (heven : _root_.Even (g.N i)) (l : Fin nc) (hodd : ∀ j, S.M (S.consm l) j ≠ 0 → _root_.Odd (vel j i))
    (Q : Proc g → Setup K n nc d dim) (hQ : Uniform g S vel alg Q) (hQb : ∀ c t A, (Q c).bc t A = A)
    (σ₀ : Proc g → Simu K n d dim) (h0 : ∀ c, (σ₀ c).Start (Q c))
    (k : Nat) (σ : Proc g → Simu K n d dim) (hr : PRun g Q σ₀ k σ) :
    ∑ c : Proc g, ∑ x ∈ inner (size g c) g.w,
        (-1) ^ (globalPos (first g c) g.w x i).natAbs * (S.M *ᵥ (σ c).arr x) (S.consm l) =
      (-1) ^ k * ∑ c : Proc g, ∑ x ∈ inner (size g c) g.w,
        (-1) ^ (globalPos (first g c) g.w x i).natAbs * (S.M *ᵥ (σ₀ c).arr x) (S.consm l) := by
  have hs := neg_one_sgn (K := K) i
  have h := C115_totals hdim g hlarge S hfront hEQ hM hS hrel vel alg hv (parity i) (parity_colouring i heven) 1 l (by
    intro j hj
    obtain ⟨r, hr⟩ := hodd j hj
    show ((vel j i : ℤ) : ZMod 2) = 1
    rw [hr]
    push_cast
    rw [show (2 : ZMod 2) = 0 from rfl, zero_mul, zero_add]) Q hQ hQb σ₀ h0 sgn k σ hr
  simp only [hs]
  rw [← h, Finset.mul_sum]
  refine Finset.sum_congr rfl fun c _ => ?_
  rw [Finset.mul_sum]
  refine Finset.sum_congr rfl fun x _ => ?_
  rw [sgn_sub, ← mul_assoc, ← mul_assoc, ← mul_pow]
  norm_num

/-- **C115, only then.** If one step multiplies the alternating sum of a conserved moment by the same number for all the initial
values, this number is the sign of the parity of each velocity which the moment uses. -/
theorem C115_only (hdim : dim ≤ 3) (g : Grid dim) (hlarge : ∀ c i, g.w i ≤ size g c i)
    (S : Kernel K n nc d) (hfront : ∀ j, (S.consm j : Nat) < nc) (hEQ : ∀ j w, S.EQ (S.consm j) w = w j)
    (hM : S.M * S.invM = 1) (hS : ∀ i, S.source i = none) (hrel : S.relVel = none)
    (vel : Fin n → Cell dim) (alg : Algo) (hv : ∀ j i, |vel j i| ≤ g.w i) (hN : ∀ i, 0 < g.N i)
    (i : Fin dim) (heven : _root_.Even (g.N i)) (l : Fin nc)
    (Q : Proc g → Setup K n nc d dim) (hQ : Uniform g S vel alg Q) (hQb : ∀ c t A, (Q c).bc t A = A) (ε : K)
    (h : ∀ σ₀ : Proc g → Simu K n d dim, (∀ c, (σ₀ c).Start (Q c)) → ∀ σ, PRun g Q σ₀ 1 σ →
      ∑ c : Proc g, ∑ x ∈ inner (size g c) g.w,
        (-1) ^ (globalPos (first g c) g.w x i).natAbs * (S.M *ᵥ (σ c).arr x) (S.consm l) =
      ε * ∑ c : Proc g, ∑ x ∈ inner (size g c) g.w,
        (-1) ^ (globalPos (first g c) g.w x i).natAbs * (S.M *ᵥ (σ₀ c).arr x) (S.consm l))
    (j : Fin n) (hj : S.M (S.consm l) j ≠ 0) : ε = (-1) ^ (vel j i).natAbs := by
  classical
  have hown : ∀ c x, x ∈ inner (size g c) g.w ↔ Owned (size g c) g.w x := by
    intro c x
    simp [inner, Owned]
  set G : Arr K n dim := fun y q => if y = 0 ∧ q = j then 1 else 0 with hGdef
  set σ₀ : Proc g → Simu K n d dim := fun c =>
    ⟨⟨fun _ x => G (globalPos (first g c) g.w x), fun _ _ => 0, fun _ _ => 0⟩, 0,
      match (Q c).backend with | .numpy => 0 | .c => 1, true, 0, 0⟩ with hσ₀
  have h0 : ∀ c, (σ₀ c).Start (Q c) := by
    intro c
    refine ⟨?_, rfl, rfl, rfl⟩
    cases hb : (Q c).backend
    · simp only [hσ₀, hb]
    · simp only [hσ₀, hb]; decide
  have hG : ∀ c x, Owned (size g c) g.w x → (σ₀ c).arr x = G (globalPos (first g c) g.w x) := fun _ _ _ => rfl
  obtain ⟨σ, hr⟩ := C42_run_exists hdim g hlarge Q σ₀ 1
  have h1 := h σ₀ h0 σ hr
  obtain ⟨_, h2⟩ := C42_global_partial hdim g hlarge S hfront vel alg Q hQ _
    (sameBoundary_periodic g vel hv Q hQb) σ₀ h0 G hG 1 σ hr
  have e1 : ∀ c, ∀ x ∈ inner (size g c) g.w,
      (-1) ^ (globalPos (first g c) g.w x i).natAbs * (S.M *ᵥ (σ c).arr x) (S.consm l) =
      (fun y => sgn (parity i y) * (S.M (S.consm l) ⬝ᵥ
        lbmStep g.N vel (collide S alg) (fun _ H => H) ((0 : Nat) * S.dt) G y)) (globalPos (first g c) g.w x) := by
    intro c x hx
    rw [h2 c x ((hown c x).1 hx), neg_one_sgn]; rfl
  have e2 : ∀ c, ∀ x ∈ inner (size g c) g.w,
      (-1) ^ (globalPos (first g c) g.w x i).natAbs * (S.M *ᵥ (σ₀ c).arr x) (S.consm l) =
      (fun y => sgn (parity i y) * (S.M (S.consm l) ⬝ᵥ G y)) (globalPos (first g c) g.w x) := by
    intro c x hx
    rw [hG c x ((hown c x).1 hx), neg_one_sgn]; rfl
  rw [Finset.sum_congr rfl fun c _ => Finset.sum_congr rfl (e1 c),
    Finset.sum_congr rfl fun c _ => Finset.sum_congr rfl (e2 c),
    sum_owned g fun y => sgn (parity i y) * (S.M (S.consm l) ⬝ᵥ
        lbmStep g.N vel (collide S alg) (fun _ H => H) ((0 : Nat) * S.dt) G y),
    sum_owned g fun y => sgn (parity i y) * (S.M (S.consm l) ⬝ᵥ G y),
    alternating_step (parity_colouring i heven) vel _ _ (collide_keeps S hEQ hM hS hrel alg l)] at h1
  have hzero : (0 : Cell dim) ∈ box g.N := by
    rw [mem_box]; intro i; exact ⟨le_rfl, show (0 : ℤ) < g.N i by exact_mod_cast hN i⟩
  have hs0 : (sgn (parity i (0 : Cell dim)) : K) = 1 := by rw [map_zero]; simp [sgn]
  have e3 : ∀ q, ∑ y ∈ box g.N, (sgn (parity i y) : K) * G y q = if q = j then 1 else 0 := by
    intro q
    rw [Finset.sum_eq_single 0]
    · rw [hs0, one_mul]; simp [hGdef]
    · intro y _ hy; simp [hGdef, hy]
    · intro h'; exact absurd hzero h'
  have e4 : ∑ y ∈ box g.N, (sgn (parity i y) : K) * (S.M (S.consm l) ⬝ᵥ G y) = S.M (S.consm l) j := by
    rw [Finset.sum_eq_single 0]
    · rw [hs0, one_mul, dotProduct, Finset.sum_eq_single j]
      · simp [hGdef]
      · intro q _ hq; simp [hGdef, hq]
      · intro h'; exact absurd (Finset.mem_univ j) h'
    · intro y _ hy; simp [hGdef, hy, dotProduct]
    · intro h'; exact absurd hzero h'
  rw [e4] at h1
  simp only [e3] at h1
  rw [Finset.sum_eq_single j] at h1
  · rw [if_pos rfl, mul_one] at h1
    rw [neg_one_sgn i (vel j)]
    exact (mul_right_cancel₀ hj h1).symm
  · intro q _ hq; rw [if_neg hq, mul_zero, mul_zero]
  · intro h'; exact absurd (Finset.mem_univ j) h'

end proof

end Pylbm.Sim
