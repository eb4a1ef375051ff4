import Mathlib.Analysis.Calculus.ContDiff.Basic
import Mathlib.Analysis.Calculus.ContDiff.Operations
import Mathlib.Analysis.Calculus.FDeriv.Symmetric
import Mathlib.Analysis.Calculus.MeanValue
/-!
# Functions of a small parameter

Helper lemmas for C67: smooth functions `g ε q`, and what it means that `g` is of order `ε ^ n`.
-/

namespace Pylbm.Stability
open Filter Topology
open scoped ContDiff

variable {X : Type} [NormedAddCommGroup X] [NormedSpace ℝ X]

/-- Derivative in the direction `v`. -/
noncomputable def dir (v : ℝ × X) (g : ℝ × X → ℝ) : ℝ × X → ℝ := fun p => fderiv ℝ g p v

/-- Smooth near `ε = 0`. -/
def Sm (g : ℝ × X → ℝ) : Prop := ∀ q : X, ∀ᶠ p in 𝓝 ((0 : ℝ), q), ContDiffAt ℝ ∞ g p

/-- The derivatives in `ε` of order less than `n` vanish at `ε = 0` and `q ∈ Q`. -/
def Flat (Q : Set X) : ℕ → (ℝ × X → ℝ) → Prop
  | 0, _ => True
  | n + 1, g => (∀ q ∈ Q, g (0, q) = 0) ∧ Flat Q n (dir (1, 0) g)

variable {Q : Set X}

/-- Equal near `ε = 0`. -/
def Near (g h : ℝ × X → ℝ) : Prop := ∀ q : X, g =ᶠ[𝓝 ((0 : ℝ), q)] h

theorem Near.dir {g h : ℝ × X → ℝ} (H : Near g h) (v : ℝ × X) : Near (dir v g) (dir v h) := by
  intro q
  filter_upwards [(H q).fderiv (𝕜 := ℝ)] with p hp
  simp only [Stability.dir, hp]

theorem Near.flat {g h : ℝ × X → ℝ} (H : Near g h) {n : ℕ} (hf : Flat Q n h) : Flat Q n g := by
  induction n generalizing g h with
  | zero => trivial
  | succ n ih => exact ⟨fun q hq => by rw [(H q).eq_of_nhds, hf.1 q hq], ih (H.dir _) hf.2⟩

theorem sm_of_contDiff {g : ℝ × X → ℝ} (h : ContDiff ℝ ∞ g) : Sm g := fun _ => Eventually.of_forall fun _ => h.contDiffAt

theorem Sm.add {g h : ℝ × X → ℝ} (hg : Sm g) (hh : Sm h) : Sm (fun p => g p + h p) := fun q => by
  filter_upwards [hg q, hh q] with p a b using a.add b

theorem Sm.sub {g h : ℝ × X → ℝ} (hg : Sm g) (hh : Sm h) : Sm (fun p => g p - h p) := fun q => by
  filter_upwards [hg q, hh q] with p a b using a.sub b

theorem Sm.mul {g h : ℝ × X → ℝ} (hg : Sm g) (hh : Sm h) : Sm (fun p => g p * h p) := fun q => by
  filter_upwards [hg q, hh q] with p a b using a.mul b

theorem Sm.sum {ι : Type} {s : Finset ι} {g : ι → ℝ × X → ℝ} (hg : ∀ i ∈ s, Sm (g i)) : Sm (fun p => ∑ i ∈ s, g i p) := by
  classical
  induction s using Finset.induction_on with
  | empty => simpa using sm_of_contDiff (contDiff_const (c := (0 : ℝ)))
  | insert a s ha ih =>
    simp only [Finset.sum_insert ha]
    exact (hg a (by simp)).add (ih fun i hi => hg i (by simp [hi]))

theorem Sm.differentiable {g : ℝ × X → ℝ} (hg : Sm g) (q : X) : ∀ᶠ p in 𝓝 ((0 : ℝ), q), DifferentiableAt ℝ g p := by
  filter_upwards [hg q] with p a using a.differentiableAt (by simp)

theorem Sm.dir {g : ℝ × X → ℝ} (hg : Sm g) (v : ℝ × X) : Sm (dir v g) := fun q => by
  filter_upwards [hg q] with p a
  exact (a.fderiv_right (m := ∞) (by simp)).clm_apply contDiffAt_const

theorem Sm.congr {g h : ℝ × X → ℝ} (hg : Sm g) (H : Near h g) : Sm h := fun q => by
  filter_upwards [hg q, (H q).eventuallyEq_nhds] with p a b using a.congr_of_eventuallyEq b

theorem contDiff_dir {g : ℝ × X → ℝ} (hg : ContDiff ℝ ∞ g) (v : ℝ × X) : ContDiff ℝ ∞ (dir v g) :=
  (hg.fderiv_right (m := ∞) (by simp)).clm_apply contDiff_const

theorem near_dir_add {g h : ℝ × X → ℝ} (hg : Sm g) (hh : Sm h) (v : ℝ × X) :
    Near (dir v fun p => g p + h p) fun p => dir v g p + dir v h p := fun q => by
  filter_upwards [hg.differentiable q, hh.differentiable q] with p a b
  simp only [dir]
  rw [fderiv_fun_add a b]
  rfl

theorem near_dir_sub {g h : ℝ × X → ℝ} (hg : Sm g) (hh : Sm h) (v : ℝ × X) :
    Near (dir v fun p => g p - h p) fun p => dir v g p - dir v h p := fun q => by
  filter_upwards [hg.differentiable q, hh.differentiable q] with p a b
  simp only [dir]
  rw [fderiv_fun_sub a b]
  rfl

theorem near_dir_mul {g h : ℝ × X → ℝ} (hg : Sm g) (hh : Sm h) (v : ℝ × X) :
    Near (dir v fun p => g p * h p) fun p => dir v g p * h p + g p * dir v h p := fun q => by
  filter_upwards [hg.differentiable q, hh.differentiable q] with p a b
  simp only [dir]
  rw [fderiv_fun_mul a b]
  simp only [add_apply, smul_apply, smul_eq_mul]
  ring

theorem near_dir_comm {g : ℝ × X → ℝ} (hg : Sm g) (v w : ℝ × X) : Near (dir v (dir w g)) (dir w (dir v g)) := fun q => by
  filter_upwards [(hg q)] with p hp
  have hd : DifferentiableAt ℝ (fderiv ℝ g) p := (hp.fderiv_right (m := ∞) (by simp)).differentiableAt (by simp)
  have e : ∀ v w : ℝ × X, dir v (dir w g) p = fderiv ℝ (fderiv ℝ g) p v w := by
    intro v w
    have h1 := fderiv_clm_apply hd (differentiableAt_const w)
    change fderiv ℝ (fun y => (fderiv ℝ g y) w) p v = _
    rw [h1]
    simp
  rw [e, e]
  exact ((hp.of_le (m := 2) (by norm_cast)).isSymmSndFDerivAt (by simp)).eq _ _

theorem Flat.mono {g : ℝ × X → ℝ} {n k : ℕ} (h : k ≤ n) (hf : Flat Q n g) : Flat Q k g := by
  induction k generalizing g n with
  | zero => trivial
  | succ k ih =>
    obtain ⟨n, rfl⟩ : ∃ n', n = n' + 1 := ⟨n - 1, by omega⟩
    exact ⟨hf.1, ih (by omega) hf.2⟩

theorem Flat.add {g h : ℝ × X → ℝ} (sg : Sm g) (sh : Sm h) {n : ℕ} (hg : Flat Q n g) (hh : Flat Q n h) :
    Flat Q n (fun p => g p + h p) := by
  induction n generalizing g h with
  | zero => trivial
  | succ n ih =>
    exact ⟨fun q hq => by beta_reduce; rw [hg.1 q hq, hh.1 q hq, add_zero], (near_dir_add sg sh _).flat (ih (sg.dir _) (sh.dir _) hg.2 hh.2)⟩

theorem Flat.sub {g h : ℝ × X → ℝ} (sg : Sm g) (sh : Sm h) {n : ℕ} (hg : Flat Q n g) (hh : Flat Q n h) :
    Flat Q n (fun p => g p - h p) := by
  induction n generalizing g h with
  | zero => trivial
  | succ n ih =>
    exact ⟨fun q hq => by beta_reduce; rw [hg.1 q hq, hh.1 q hq, sub_zero], (near_dir_sub sg sh _).flat (ih (sg.dir _) (sh.dir _) hg.2 hh.2)⟩

theorem Flat.mul {g h : ℝ × X → ℝ} (sg : Sm g) (sh : Sm h) {n : ℕ} (hg : Flat Q n g) : Flat Q n (fun p => g p * h p) := by
  induction n generalizing g h with
  | zero => trivial
  | succ n ih =>
    refine ⟨fun q hq => by beta_reduce; rw [hg.1 q hq, zero_mul], (near_dir_mul sg sh _).flat ?_⟩
    exact ((ih (sg.dir _) sh hg.2).add ((sg.dir _).mul sh) (sg.mul (sh.dir _)) (ih sg (sh.dir _) (hg.mono (by omega))))

theorem flat_sum {ι : Type} {s : Finset ι} {g : ι → ℝ × X → ℝ} (sg : ∀ i ∈ s, Sm (g i)) {n : ℕ}
    (hg : ∀ i ∈ s, Flat Q n (g i)) : Flat Q n (fun p => ∑ i ∈ s, g i p) := by
  classical
  induction s using Finset.induction_on with
  | empty =>
    simp only [Finset.sum_empty]
    clear sg hg
    induction n with
    | zero => trivial
    | succ n ih =>
      refine ⟨fun _ _ => rfl, ?_⟩
      have : dir (X := X) (1, 0) (fun _ => (0 : ℝ)) = fun _ => 0 := by
        funext p; simp [dir]
      rw [this]
      exact ih
  | insert a s ha ih =>
    simp only [Finset.sum_insert ha]
    exact (hg a (by simp)).add (sg a (by simp)) (Sm.sum fun i hi => sg i (by simp [hi]))
      (ih (fun i hi => sg i (by simp [hi])) fun i hi => hg i (by simp [hi]))

theorem sm_eps : Sm (fun p : ℝ × X => p.1) := sm_of_contDiff contDiff_fst

theorem dir_eps (v : ℝ × X) : dir v (fun p : ℝ × X => p.1) = fun _ => v.1 := by
  funext p
  have : (fun p : ℝ × X => p.1) = ContinuousLinearMap.fst ℝ ℝ X := rfl
  simp only [dir, this, ContinuousLinearMap.fderiv]
  rfl

/-- A factor `ε`. -/
theorem flat_eps {g : ℝ × X → ℝ} (sg : Sm g) {n : ℕ} (hg : Flat Q n g) : Flat Q (n + 1) (fun p => p.1 * g p) := by
  induction n generalizing g with
  | zero => exact ⟨fun q _ => by simp, trivial⟩
  | succ n ih =>
    refine ⟨fun q _ => by simp, (near_dir_mul sm_eps sg _).flat ?_⟩
    rw [dir_eps]
    simp only [one_mul]
    exact hg.add sg (sm_eps.mul (sg.dir _)) (ih (sg.dir _) hg.2)

/-! ## Composition -/

section comp
variable {k : ℕ}

/-- Partial derivative of a function of `k` variables. -/
noncomputable def pd (j : Fin k) (f : (Fin k → ℝ) → ℝ) : (Fin k → ℝ) → ℝ := fun w => fderiv ℝ f w (Pi.single j 1)

theorem contDiffOn_pd {f : (Fin k → ℝ) → ℝ} {Ω : Set (Fin k → ℝ)} (hΩ : IsOpen Ω) (hf : ContDiffOn ℝ ∞ f Ω) (j : Fin k) :
    ContDiffOn ℝ ∞ (pd j f) Ω := by
  have := hf.fderiv_of_isOpen hΩ (m := ∞) (by simp)
  exact this.clm_apply contDiffOn_const

/-- `a` takes its values in `Ω` at `ε = 0` and is smooth there. -/
structure Inside (Ω : Set (Fin k → ℝ)) (a : Fin k → ℝ × X → ℝ) : Prop where
  sm : ∀ j, Sm (a j)
  mem : ∀ q, (fun j => a j (0, q)) ∈ Ω

theorem Inside.near {Ω : Set (Fin k → ℝ)} (hΩ : IsOpen Ω) {a : Fin k → ℝ × X → ℝ} (ha : Inside Ω a) (q : X) :
    ∀ᶠ p in 𝓝 ((0 : ℝ), q), ContDiffAt ℝ ∞ (fun p j => a j p) p ∧ (fun j => a j p) ∈ Ω := by
  have h1 : ∀ᶠ p in 𝓝 ((0 : ℝ), q), ∀ j, ContDiffAt ℝ ∞ (a j) p := eventually_all.2 fun j => ha.sm j q
  have h2 : ContinuousAt (fun p j => a j p) ((0 : ℝ), q) := (contDiffAt_pi.2 h1.self_of_nhds).continuousAt
  filter_upwards [h1, h2 (hΩ.mem_nhds (ha.mem q))] with p b c
  exact ⟨contDiffAt_pi.2 b, c⟩

theorem Inside.comp {Ω : Set (Fin k → ℝ)} (hΩ : IsOpen Ω) {a : Fin k → ℝ × X → ℝ} (ha : Inside Ω a)
    {f : (Fin k → ℝ) → ℝ} (hf : ContDiffOn ℝ ∞ f Ω) : Sm (fun p => f fun j => a j p) := fun q => by
  filter_upwards [ha.near hΩ q] with p hp
  exact ((hf.contDiffAt (hΩ.mem_nhds hp.2)).comp p hp.1)

theorem fderiv_pd {f : (Fin k → ℝ) → ℝ} (w v : Fin k → ℝ) : fderiv ℝ f w v = ∑ j, pd j f w * v j := by
  conv_lhs => rw [← Finset.univ_sum_single v]
  rw [map_sum]
  refine Finset.sum_congr rfl fun j _ => ?_
  have : (Pi.single j (v j) : Fin k → ℝ) = v j • Pi.single j 1 := by
    rw [← Pi.single_smul, smul_eq_mul, mul_one]
  rw [this, map_smul, smul_eq_mul, mul_comm]
  rfl

theorem Inside.near_dir {Ω : Set (Fin k → ℝ)} (hΩ : IsOpen Ω) {a : Fin k → ℝ × X → ℝ} (ha : Inside Ω a)
    {f : (Fin k → ℝ) → ℝ} (hf : ContDiffOn ℝ ∞ f Ω) (v : ℝ × X) :
    Near (dir v fun p => f fun j => a j p) fun p => ∑ j, pd j f (fun j => a j p) * dir v (a j) p := fun q => by
  filter_upwards [ha.near hΩ q, eventually_all.2 fun j => (ha.sm j).differentiable q] with p hp hd
  have h1 : HasFDerivAt f (fderiv ℝ f fun j => a j p) (fun j => a j p) :=
    ((hf.contDiffAt (hΩ.mem_nhds hp.2)).differentiableAt (by simp)).hasFDerivAt
  have h2 : HasFDerivAt (fun p j => a j p) (ContinuousLinearMap.pi fun j => fderiv ℝ (a j) p) p :=
    hasFDerivAt_pi.2 fun j => (hd j).hasFDerivAt
  have h3 := (h1.comp p h2).fderiv
  simp only [dir]
  rw [show (fun p => f fun j => a j p) = f ∘ fun p j => a j p from rfl, h3]
  simp only [ContinuousLinearMap.comp_apply]
  rw [fderiv_pd]
  rfl

/-- Composition with a smooth function. -/
theorem flat_comp {Ω : Set (Fin k → ℝ)} (hΩ : IsOpen Ω) {a b : Fin k → ℝ × X → ℝ} (ha : Inside Ω a) (hb : Inside Ω b)
    {n : ℕ} (h : ∀ j, Flat Q n fun p => a j p - b j p) {f : (Fin k → ℝ) → ℝ} (hf : ContDiffOn ℝ ∞ f Ω) :
    Flat Q n fun p => f (fun j => a j p) - f fun j => b j p := by
  induction n generalizing f with
  | zero => trivial
  | succ n ih =>
    refine ⟨fun q hq => ?_, ?_⟩
    · have : (fun j => a j ((0 : ℝ), q)) = fun j => b j (0, q) := by
        funext j; have := (h j).1 q hq; linarith
      beta_reduce
      rw [this, sub_self]
    · have key : Near (dir (1, 0) fun p => f (fun j => a j p) - f fun j => b j p) fun p => ∑ j,
          ((pd j f (fun j => a j p) - pd j f (fun j => b j p)) * dir (1, 0) (a j) p +
            dir (1, 0) (fun p => a j p - b j p) p * pd j f (fun j => b j p)) := fun q => by
        filter_upwards [near_dir_sub (ha.comp hΩ hf) (hb.comp hΩ hf) (1, 0) q, ha.near_dir hΩ hf (1, 0) q,
          hb.near_dir hΩ hf (1, 0) q, eventually_all.2 fun j => near_dir_sub (ha.sm j) (hb.sm j) (1, 0) q]
          with p h1 h2 h3 h4
        rw [h1, h2, h3, ← Finset.sum_sub_distrib]
        refine Finset.sum_congr rfl fun j _ => ?_
        rw [h4 j]
        ring
      refine key.flat ?_
      have hpd := fun j => contDiffOn_pd hΩ hf j
      have s1 := fun j => (ha.comp hΩ (hpd j)).sub (hb.comp hΩ (hpd j))
      have s2 := fun j => ((ha.sm j).sub (hb.sm j)).dir (1, 0)
      refine flat_sum (fun j _ => ((s1 j).mul ((ha.sm j).dir _)).add ((s2 j).mul (hb.comp hΩ (hpd j)))) fun j _ => ?_
      refine Flat.add ((s1 j).mul ((ha.sm j).dir _)) ((s2 j).mul (hb.comp hΩ (hpd j))) ?_ ?_
      · exact Flat.mul (s1 j) ((ha.sm j).dir _) (ih (fun j => (h j).mono (by omega)) (hpd j))
      · exact Flat.mul (s2 j) (hb.comp hΩ (hpd j)) (h j).2

end comp

/-! ## Shifts -/

/-- The point moved by `ε u`. -/
def shift (u : X) (p : ℝ × X) : ℝ × X := (p.1, p.2 + p.1 • u)

theorem shift_zero (u : X) (q : X) : shift u ((0 : ℝ), q) = (0, q) := by simp [shift]

theorem contDiff_shift (u : X) : ContDiff ℝ ∞ (shift u) :=
  contDiff_fst.prodMk (contDiff_snd.add (contDiff_fst.smul contDiff_const))

theorem Sm.shift {g : ℝ × X → ℝ} (hg : Sm g) (u : X) : Sm fun p => g (shift u p) := fun q => by
  have hc : Tendsto (Stability.shift u) (𝓝 ((0 : ℝ), q)) (𝓝 (0, q)) := by
    have := (contDiff_shift u).continuous.tendsto ((0 : ℝ), q)
    rwa [shift_zero] at this
  filter_upwards [hc.eventually (hg q)] with p hp
  exact ContDiffAt.comp p hp (contDiff_shift u).contDiffAt

theorem near_dir_shift {g : ℝ × X → ℝ} (hg : Sm g) (u : X) :
    Near (dir (1, 0) fun p => g (shift u p)) fun p => dir (1, 0) g (shift u p) + dir (0, u) g (shift u p) := fun q => by
  have hc : Tendsto (shift u) (𝓝 ((0 : ℝ), q)) (𝓝 (0, q)) := by
    have := (contDiff_shift u).continuous.tendsto ((0 : ℝ), q)
    rwa [shift_zero] at this
  filter_upwards [hc.eventually (hg.differentiable q)] with p hp
  have h1 : HasFDerivAt (shift u) ((ContinuousLinearMap.fst ℝ ℝ X).prod (ContinuousLinearMap.snd ℝ ℝ X +
      (ContinuousLinearMap.fst ℝ ℝ X).smulRight u)) p :=
    hasFDerivAt_fst.prodMk (hasFDerivAt_snd.add (hasFDerivAt_fst.smul_const u))
  have h2 := (hp.hasFDerivAt.comp p h1).fderiv
  simp only [dir]
  rw [show (fun p => g (shift u p)) = g ∘ shift u from rfl, h2, ← map_add]
  simp

/-- Taylor's formula of order 1. -/
theorem shift_one {g : ℝ × X → ℝ} (_hg : Sm g) (u : X) : Flat Q 1 fun p => g (shift u p) - g p :=
  ⟨fun q _ => by beta_reduce; rw [shift_zero, sub_self], trivial⟩

/-- Order 2. -/
theorem shift_two {g : ℝ × X → ℝ} (hg : Sm g) (u : X) : Flat Q 2 fun p => g (shift u p) - (g p + p.1 * dir (0, u) g p) := by
  refine ⟨fun q _ => by beta_reduce; rw [shift_zero]; simp, ?_⟩
  have s1 := hg.dir (0, u)
  have key : Near (dir (1, 0) fun p => g (shift u p) - (g p + p.1 * dir (0, u) g p)) fun p =>
      (dir (1, 0) g (shift u p) - dir (1, 0) g p) + (dir (0, u) g (shift u p) - dir (0, u) g p) -
        p.1 * dir (1, 0) (dir (0, u) g) p := fun q => by
    filter_upwards [near_dir_sub (hg.shift u) (hg.add (sm_eps.mul s1)) (1, 0) q, near_dir_shift hg u q,
      near_dir_add hg (sm_eps.mul s1) (1, 0) q, near_dir_mul sm_eps s1 (1, 0) q] with p h1 h2 h3 h4
    rw [h1, h2, h3, h4, dir_eps]
    ring
  refine key.flat ?_
  have s2 := hg.dir (1, 0)
  refine Flat.sub (((s2.shift u).sub s2).add ((s1.shift u).sub s1)) (sm_eps.mul (s1.dir _)) ?_ ?_
  · exact (shift_one s2 u).add ((s2.shift u).sub s2) ((s1.shift u).sub s1) (shift_one s1 u)
  · exact flat_eps (s1.dir _) trivial

/-- Order 3. -/
theorem shift_three {g : ℝ × X → ℝ} (hg : Sm g) (u : X) :
    Flat Q 3 fun p => g (shift u p) - (g p + p.1 * (dir (0, u) g p + p.1 * (1 / 2 * dir (0, u) (dir (0, u) g) p))) := by
  have s1 := hg.dir (0, u)
  have s2 := s1.dir (0, u)
  have s3 : Sm fun p : ℝ × X => 1 / 2 * dir (0, u) (dir (0, u) g) p :=
    (sm_of_contDiff contDiff_const).mul s2
  have s4 := sm_eps.mul s3
  have s5 := sm_eps.mul (s1.add s4)
  refine ⟨fun q _ => by beta_reduce; rw [shift_zero]; simp, ?_⟩
  have hcomm : Near (dir (1, 0) (dir (0, u) g)) (dir (0, u) (dir (1, 0) g)) := near_dir_comm hg _ _
  have key : Near (dir (1, 0) fun p => g (shift u p) -
      (g p + p.1 * (dir (0, u) g p + p.1 * (1 / 2 * dir (0, u) (dir (0, u) g) p)))) fun p =>
      (dir (1, 0) g (shift u p) - (dir (1, 0) g p + p.1 * dir (0, u) (dir (1, 0) g) p)) +
      (dir (0, u) g (shift u p) - (dir (0, u) g p + p.1 * dir (0, u) (dir (0, u) g) p)) -
        p.1 * (p.1 * dir (1, 0) (fun p : ℝ × X => 1 / 2 * dir (0, u) (dir (0, u) g) p) p) := fun q => by
    filter_upwards [near_dir_sub (hg.shift u) (hg.add s5) (1, 0) q, near_dir_shift hg u q,
      near_dir_add hg s5 (1, 0) q, near_dir_mul sm_eps (s1.add s4) (1, 0) q, near_dir_add s1 s4 (1, 0) q,
      near_dir_mul sm_eps s3 (1, 0) q, hcomm q] with p h1 h2 h3 h4 h5 h6 h7
    rw [h1, h2, h3, h4, h5, h6, dir_eps, h7]
    ring
  refine key.flat ?_
  have t1 := hg.dir (1, 0)
  have a1 := (t1.shift u).sub (t1.add (sm_eps.mul (t1.dir (0, u))))
  have a2 := (s1.shift u).sub (s1.add (sm_eps.mul s2))
  refine Flat.sub (a1.add a2) (sm_eps.mul (sm_eps.mul (s3.dir _))) ?_ ?_
  · exact (shift_two t1 u).add a1 a2 (shift_two s1 u)
  · exact flat_eps (sm_eps.mul (s3.dir _)) (flat_eps (s3.dir _) trivial)

/-- A function whose value and first derivative vanish. -/
theorem flat_second {g : ℝ × X → ℝ} (hg : Sm g) (h : Flat Q 2 g) :
    Flat Q 3 fun p => g p - p.1 * (p.1 * (1 / 2 * dir (1, 0) (dir (1, 0) g) p)) := by
  set G : ℝ × X → ℝ := fun p => 1 / 2 * dir (1, 0) (dir (1, 0) g) p with hG
  have sG : Sm G := (sm_of_contDiff contDiff_const).mul ((hg.dir _).dir _)
  have s1 := sm_eps.mul sG
  have s2 := sm_eps.mul s1
  refine ⟨fun q hq => by beta_reduce; rw [h.1 q hq]; simp, ?_⟩
  have k1 : Near (dir (1, 0) fun p => g p - p.1 * (p.1 * G p)) fun p =>
      dir (1, 0) g p - p.1 * (2 * G p + p.1 * dir (1, 0) G p) := fun q => by
    filter_upwards [near_dir_sub hg s2 (1, 0) q, near_dir_mul sm_eps s1 (1, 0) q, near_dir_mul sm_eps sG (1, 0) q]
      with p h1 h2 h3
    rw [h1, h2, h3, dir_eps]
    ring
  have s3 : Sm fun p : ℝ × X => 2 * G p + p.1 * dir (1, 0) G p :=
    ((sm_of_contDiff contDiff_const).mul sG).add (sm_eps.mul (sG.dir _))
  refine k1.flat ⟨fun q hq => by beta_reduce; rw [h.2.1 q hq]; simp, ?_⟩
  have k2 : Near (dir (1, 0) fun p => dir (1, 0) g p - p.1 * (2 * G p + p.1 * dir (1, 0) G p)) fun p =>
      (dir (1, 0) (dir (1, 0) g) p - 2 * G p) - p.1 * (dir (1, 0) G p +
        dir (1, 0) (fun p => 2 * G p + p.1 * dir (1, 0) G p) p) := fun q => by
    filter_upwards [near_dir_sub (hg.dir _) (sm_eps.mul s3) (1, 0) q, near_dir_mul sm_eps s3 (1, 0) q] with p h1 h2
    rw [h1, h2, dir_eps]
    ring
  refine k2.flat ⟨fun q _ => ?_, trivial⟩
  rw [hG]
  ring

/-! ## Space derivatives, functions which vanish for `ε > 0` -/

/-- The derivatives in `q` of a function of order `ε ^ n` are of order `ε ^ n`. -/
theorem Flat.dir_right (hQ : IsOpen Q) {g : ℝ × X → ℝ} (hg : Sm g) {n : ℕ} (h : Flat Q n g) (v : X) :
    Flat Q n (dir (0, v) g) := by
  induction n generalizing g with
  | zero => trivial
  | succ n ih =>
    refine ⟨fun q hq => ?_, (near_dir_comm hg (1, 0) (0, v)).flat (ih (hg.dir _) h.2)⟩
    have hd : DifferentiableAt ℝ g ((0 : ℝ), q) := (hg.differentiable q).self_of_nhds
    have h1 : HasFDerivAt (fun q => ((0 : ℝ), q)) (ContinuousLinearMap.inr ℝ ℝ X) q :=
      (hasFDerivAt_const _ _).prodMk (hasFDerivAt_id q)
    have h2 := (hd.hasFDerivAt.comp q h1).fderiv
    have h3 : (g ∘ fun q => ((0 : ℝ), q)) =ᶠ[𝓝 q] fun _ => 0 := by
      filter_upwards [hQ.mem_nhds hq] with r hr using h.1 r hr
    rw [h3.fderiv_eq] at h2
    have h4 := congrArg (fun l => l v) h2
    simp only [fderiv_fun_const] at h4
    exact h4.symm

/-- A smooth function bounded by `C ε ^ 2` for small `ε > 0` is of order `ε ^ 2`. -/
theorem flat_two_of_bound {g : ℝ × X → ℝ} (hg : Sm g) {ε₁ : ℝ} (h1 : 0 < ε₁) {C : ℝ}
    (h : ∀ ε, 0 < ε → ε < ε₁ → ∀ q ∈ Q, |g (ε, q)| ≤ C * ε ^ 2) : Flat Q 2 g := by
  have hv : ∀ q ∈ Q, g (0, q) = 0 := by
    intro q hq
    have hd : DifferentiableAt ℝ g ((0 : ℝ), q) := (hg.differentiable q).self_of_nhds
    have hc : Tendsto (fun ε : ℝ => |g (ε, q)|) (𝓝[>] 0) (𝓝 |g (0, q)|) := by
      have : ContinuousAt (fun ε : ℝ => g (ε, q)) 0 :=
        ContinuousAt.comp (f := fun ε : ℝ => (ε, q)) hd.continuousAt (continuous_id.prodMk continuous_const).continuousAt
      exact (this.tendsto.mono_left nhdsWithin_le_nhds).abs
    have hz : Tendsto (fun ε : ℝ => C * ε ^ 2) (𝓝[>] 0) (𝓝 0) := by
      have : Tendsto (fun ε : ℝ => C * ε ^ 2) (𝓝 0) (𝓝 (C * 0 ^ 2)) :=
        (by fun_prop : Continuous fun ε : ℝ => C * ε ^ 2).tendsto 0
      simp only [ne_eq, OfNat.ofNat_ne_zero, not_false_eq_true, zero_pow, mul_zero] at this
      exact this.mono_left nhdsWithin_le_nhds
    have := le_of_tendsto_of_tendsto hc hz (by
      filter_upwards [Ioo_mem_nhdsGT h1] with ε he using h ε he.1 he.2 q hq)
    exact abs_eq_zero.1 (le_antisymm this (abs_nonneg _))
  refine ⟨hv, fun q hq => ?_, trivial⟩
  have hd : DifferentiableAt ℝ g ((0 : ℝ), q) := (hg.differentiable q).self_of_nhds
  have h2 : HasDerivAt (fun ε : ℝ => (ε, q)) ((1 : ℝ), (0 : X)) 0 :=
    (hasDerivAt_id (0 : ℝ)).prodMk (hasDerivAt_const (0 : ℝ) q)
  have h3 : HasDerivAt (fun ε : ℝ => g (ε, q)) (dir (1, 0) g (0, q)) 0 := hd.hasFDerivAt.comp_hasDerivAt 0 h2
  have h4 := (h3.tendsto_slope_zero_right).abs
  have hz : Tendsto (fun ε : ℝ => C * ε) (𝓝[>] 0) (𝓝 0) := by
    have : Tendsto (fun ε : ℝ => C * ε) (𝓝 0) (𝓝 (C * 0)) :=
      (by fun_prop : Continuous fun ε : ℝ => C * ε).tendsto 0
    rw [mul_zero] at this
    exact this.mono_left nhdsWithin_le_nhds
  have := le_of_tendsto_of_tendsto h4 hz (by
    filter_upwards [Ioo_mem_nhdsGT h1] with ε he
    have h5 := h ε he.1 he.2 q hq
    rw [zero_add, hv q hq, sub_zero, smul_eq_mul, abs_mul, abs_inv, abs_of_pos he.1]
    have : ε⁻¹ * (C * ε ^ 2) = C * ε := by
      field_simp [he.1.ne']
    rw [← this]
    exact mul_le_mul_of_nonneg_left h5 (inv_pos.2 he.1).le)
  exact abs_eq_zero.1 (le_antisymm this (abs_nonneg _))

/-! ## Bounds on compact sets -/

theorem Sm.tube {g : ℝ × X → ℝ} (hg : Sm g) {K : Set X} (hK : IsCompact K) :
    ∃ ε > 0, ∀ r, |r| < ε → ∀ q ∈ K, ContDiffAt ℝ ∞ g (r, q) := by
  have h : ∀ᶠ r in 𝓝 (0 : ℝ), ∀ q ∈ K, ContDiffAt ℝ ∞ g (r, q) := by
    refine hK.eventually_forall_of_forall_eventually fun q _ => ?_
    exact hg q
  obtain ⟨ε, h1, h2⟩ := Metric.eventually_nhds_iff.1 h
  exact ⟨ε, h1, fun r hr => h2 (by simpa [Real.dist_eq] using hr)⟩

theorem Sm.bounded {g : ℝ × X → ℝ} (hg : Sm g) {K : Set X} (hK : IsCompact K) :
    ∃ ε > 0, ∃ C, ∀ r, 0 ≤ r → r ≤ ε → ∀ q ∈ K, |g (r, q)| ≤ C := by
  obtain ⟨ε, h1, h2⟩ := hg.tube hK
  have hc : ContinuousOn g (Set.Icc 0 (ε / 2) ×ˢ K) := by
    rintro ⟨r, q⟩ ⟨hr, hq⟩
    refine (h2 r ?_ q hq).continuousAt.continuousWithinAt
    have := hr.1; have := hr.2
    simp only at *
    rw [abs_of_nonneg hr.1]
    linarith
  obtain ⟨C, hC⟩ := (isCompact_Icc.prod hK).exists_bound_of_continuousOn hc
  exact ⟨ε / 2, by linarith, C, fun r h0 h3 q hq => hC (r, q) ⟨⟨h0, h3⟩, hq⟩⟩

/-- A function of order `ε ^ n` is bounded by `C ε ^ n` on compact sets. -/
theorem Flat.bound {g : ℝ × X → ℝ} (hg : Sm g) {n : ℕ} (h : Flat Q n g) {K : Set X} (hK : IsCompact K) (hKQ : K ⊆ Q) :
    ∃ ε > 0, ∃ C, ∀ r, 0 ≤ r → r ≤ ε → ∀ q ∈ K, |g (r, q)| ≤ C * r ^ n := by
  induction n generalizing g with
  | zero => simpa using hg.bounded hK
  | succ n ih =>
    obtain ⟨ε₁, h1, C, hC⟩ := ih (hg.dir (1, 0)) h.2
    obtain ⟨ε₂, h2, hd⟩ := hg.tube hK
    refine ⟨min ε₁ (ε₂ / 2), by positivity, C, fun r h0 hr q hq => ?_⟩
    have hr1 : r ≤ ε₁ := hr.trans (min_le_left _ _)
    have hr2 : r ≤ ε₂ / 2 := hr.trans (min_le_right _ _)
    have hder : ∀ x ∈ Set.Icc 0 r, HasDerivWithinAt (fun x => g (x, q)) (dir (1, 0) g (x, q)) (Set.Icc 0 r) x := by
      intro x hx
      have hx' : |x| < ε₂ := by rw [abs_of_nonneg hx.1]; linarith [hx.2]
      have ha := ((hd x hx' q hq).differentiableAt (by simp)).hasFDerivAt
      have hb : HasDerivAt (fun x : ℝ => (x, q)) ((1 : ℝ), (0 : X)) x := (hasDerivAt_id x).prodMk (hasDerivAt_const x q)
      exact (ha.comp_hasDerivAt x hb).hasDerivWithinAt
    have hb : ∀ x ∈ Set.Ico 0 r, ‖dir (1, 0) g (x, q)‖ ≤ C * r ^ n := by
      intro x hx
      rw [Real.norm_eq_abs]
      have hx2 : x ≤ ε₁ := hx.2.le.trans hr1
      refine (hC x hx.1 hx2 q hq).trans ?_
      have hC0 : 0 ≤ C := by
        by_contra hneg
        have h3 := hC ε₁ h1.le le_rfl q hq
        have : 0 < ε₁ ^ n := by positivity
        nlinarith [abs_nonneg (dir (1, 0) g (ε₁, q))]
      exact mul_le_mul_of_nonneg_left (pow_le_pow_left₀ hx.1 hx.2.le n) hC0
    have := norm_image_sub_le_of_norm_deriv_le_segment' hder hb r ⟨h0, le_rfl⟩
    rw [h.1 q (hKQ hq), sub_zero, sub_zero, Real.norm_eq_abs] at this
    rw [pow_succ, ← mul_assoc]
    exact this

end Pylbm.Stability
