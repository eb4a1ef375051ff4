import Verif.Sim.Images
import Verif.Sim.LineCases
/-!
# C114: D2Q4 in closed boxes
-/

set_option linter.unusedSectionVars false

namespace Pylbm.Sim
open Scheme Halo SchemeSpec Matrix HaloSpec Mpi Boundary

/-- The four velocities along the axes. -/
abbrev stenP : Sten 2 where
  nu := 4
  ns := 4
  uvel := ![![1, 0], ![0, 1], ![-1, 0], ![0, -1]]
  usym := ![2, 3, 0, 1]
  ux := id
  scheme := fun _ => 0
  sym := ![2, 3, 0, 1]

theorem stenP_wf : stenP.WF :=
  ⟨by unfold Function.Injective; decide +kernel, by decide +kernel, by decide +kernel, by decide +kernel,
    by decide +kernel⟩

theorem stenP_axial : Axial stenP := ⟨by decide +kernel, by decide +kernel⟩

/-- Walls 0 and 1 across x, walls 2 and 3 across y. -/
def wallsAll : Fin 2 → Bool → Int := fun i side => ![if side then 1 else 0, if side then 3 else 2] i

/-- The method `mx` on the walls across x, `my` on the walls across y; the state 0 is imposed. -/
def closedBox (mx my : Method 2) : WallData ℚ 2 stenP where
  elems := []
  els := []
  dico := fun l => some [(0, if l < 2 then mx else my)]
  ψ := fun _ _ _ _ => 0

theorem closedBox_wf (mx my : Method 2) : (closedBox mx my).WF wallsAll where
  sten := stenP_wf
  sound := by intro e he; cases he
  labels := by intro e he; cases he
  dict := by intro l ms h; simp only [closedBox] at h; cases h; simp
  no999 := by simp [closedBox]
  noFace := by decide

theorem imposed_zero {K : Type} [Field K] [LinearOrder K] [IsStrictOrderedRing K] {dim : Nat} (m : Method dim) :
    imposed m (0 : K) 0 = 0 := by
  cases m <;> simp [imposed]

/-- The signs of the two methods. -/
def signs4 (mx my : Method 2) : Fin 2 → Fin 4 → ℚ := fun i _ => ![outPart mx, outPart my] i

theorem closedBox_chamber (mx my : Method 2) (hx : outPart mx * outPart mx = (1 : ℚ)) (hy : outPart my * outPart my = (1 : ℚ))
    {st I} (hp : wallData (closedBox mx my) gridC.N gridC.w wallsAll = some (st, I)) :
    Chamber (closedBox mx my) gridC.N gridC.w (fun _ => 0) 1 wallsAll st I (fun _ => true) (signs4 mx my) where
  wf := closedBox_wf mx my
  onGrid := wallData_onGrid (by decide) hp
  empty := rfl
  els := by simp [closedBox]
  axial := stenP_axial
  walls := by intro i _; revert i; decide
  periods := by intro i h; cases h
  methods := by
    intro l ms hl j
    simp only [closedBox] at hl
    cases hl
    exact ⟨_, List.mem_singleton.2 rfl⟩
  sign := by
    intro i j
    fin_cases i
    · exact hx
    · exact hy
  same := by intro i j; rfl
  mirror := by
    intro i _ side ms hms j m hm _
    simp only [closedBox] at hms
    cases hms
    have hm' := (Prod.mk.injEq _ _ _ _ ▸ List.mem_singleton.1 hm : _ ∧ _).2
    refine ⟨?_, fun t x _ => imposed_zero m⟩
    rw [hm']
    fin_cases i <;> cases side <;> simp [wallsAll, signs4]

/-- The periodic box of the images: 6 × 8 cells, on two processes. -/
def gridI : Grid 2 := ⟨![6, 8], ![2, 1], fun _ => 1, by decide⟩

/-- The setup of a process of a periodic simulation. -/
def torus {n nc d : Nat} (S : Kernel ℚ n nc d) (vel : Fin n → Cell 2) (a : Algo) (g : Grid 2) (c : Proc g) :
    Setup ℚ n nc d 2 where
  S := S
  vel := vel
  backend := .c
  cfg := ⟨a, true, false, false⟩
  fluid := fun _ => true
  Lin := (cells 2 (size g c)).map fun x i => x i + g.w i
  Lfull := cells 2 fun i => size g c i + 2 * g.w i
  bc := fun _ A => A

/-- The diffusion of the density on D2Q4. -/
def heat4 : Kernel ℚ 4 1 0 where
  M := turning.M
  invM := turning.invM
  Tu := fun _ => 1
  Tmu := fun _ => 1
  EQ := ![fun w => w 0, fun _ => 0, fun _ => 0, fun _ => 0]
  s := ![fun _ => 0, fun _ => 1 / 2, fun _ => 1 / 2, fun _ => 3 / 2]
  consm := ![0]
  relVel := none
  source := fun _ => none
  dt := 1

theorem torus_uniform {n nc d : Nat} (S : Kernel ℚ n nc d) (vel : Fin n → Cell 2) (a : Algo) (g : Grid 2) :
    Uniform g S vel a (torus S vel a g) where
  scheme := fun _ => rfl
  vel := fun _ => rfl
  algo := fun _ => rfl
  all := fun _ => rfl
  nodup := fun c => by
    refine List.Nodup.map ?_ (cells_nodup _)
    intro x y h
    funext i
    have := congrFun h i
    simpa using this
  loops := fun c x => by
    simp only [torus, List.mem_map, mem_cells, Owned]
    constructor
    · rintro ⟨y, hy, rfl⟩ i
      have := hy i
      show (g.w i : Int) ≤ y i + g.w i ∧ y i + (g.w i : Int) < _
      constructor <;> omega
    · intro h
      refine ⟨fun i => x i - g.w i, fun i => ?_, by funext i; ring⟩
      have := h i
      show 0 ≤ x i - (g.w i : Int) ∧ x i - (g.w i : Int) < _
      constructor <;> omega
  split := fun c => by simp [torus]

theorem torus_start {n nc d : Nat} (S : Kernel ℚ n nc d) (vel : Fin n → Cell 2) (a : Algo) (g : Grid 2) (A : Arr ℚ n 2)
    (c : Proc g) : (startWith n d 2 A : Simu ℚ n d 2).Start (torus S vel a g c) :=
  ⟨show (0 : Fin 2) ≠ 1 by decide, rfl, rfl, rfl⟩

theorem reflect_one {K : Type} [Field K] {dim : Nat} (s : Sten dim) (e : Fin dim → Fin s.ns → K) (i : Fin dim)
    (f : Fin s.ns → K) (j : Fin s.ns) :
    reflectCell s e (fun a => decide (a = i)) f j = e i j * f (if s.vel j i ≠ 0 then s.sym j else j) := by
  have h1 : signs e (fun a => decide (a = i)) j = e i j := by
    unfold signs
    rw [Finset.prod_eq_single i]
    · simp
    · intro b _ hb; simp [hb]
    · intro h; exact absurd (Finset.mem_univ i) h
  have h2 : mirrored s (fun a => decide (a = i)) j = if s.vel j i ≠ 0 then s.sym j else j := by
    unfold mirrored
    congr 1
    apply propext
    simp
  unfold reflectCell
  rw [h1, h2]

/-- The mirror across x, and the one across y, on the four populations. -/
def swap4 : Fin 2 → Matrix (Fin 4) (Fin 4) ℚ :=
  ![!![0, 0, 1, 0; 0, 1, 0, 0; 1, 0, 0, 0; 0, 0, 0, 1], !![1, 0, 0, 0; 0, 0, 0, 1; 0, 0, 1, 0; 0, 1, 0, 0]]

theorem reflect4 (mx my : Method 2) (i : Fin 2) (f : Fin 4 → ℚ) :
    reflectCell stenP (signs4 mx my) (fun a => decide (a = i)) f = ((![outPart mx, outPart my] i : ℚ) • swap4 i) *ᵥ f := by
  funext j
  rw [reflect_one, Matrix.smul_mulVec, Pi.smul_apply, smul_eq_mul]
  show _ * _ = _
  congr 1
  revert j
  fin_cases i
  · intro j
    fin_cases j <;> simp [swap4, Matrix.mulVec, dotProduct, Fin.sum_univ_four, Sten.vel]
  · intro j
    fin_cases j <;> simp [swap4, Matrix.mulVec, dotProduct, Fin.sum_univ_four, Sten.vel]

/-- A case for C114: the nonlinear scheme in a closed box with bounce-back. -/
theorem turning_mirrors (alg : Algo) (i : Fin 2) (f : Fin 4 → ℚ) :
    collide turning alg (reflectCell stenP (signs4 .bounceBack .bouzidiBounceBack) (fun a => decide (a = i)) f) =
      reflectCell stenP (signs4 .bounceBack .bouzidiBounceBack) (fun a => decide (a = i)) (collide turning alg f) := by
  rw [reflect4, reflect4]
  have h1 : (![outPart (.bounceBack : Method 2), outPart (.bouzidiBounceBack : Method 2)] i : ℚ) = 1 := by fin_cases i <;> rfl
  rw [h1, one_smul]
  refine C114_collision turning (by intro j w; fin_cases j <;> rfl) (by decide +kernel) (fun _ => rfl) rfl alg _
    (![!![1, 0, 0, 0; 0, -1, 0, 0; 0, 0, 1, 0; 0, 0, 0, 1], !![1, 0, 0, 0; 0, 1, 0, 0; 0, 0, -1, 0; 0, 0, 0, 1]] i) (by revert i; decide +kernel) ?_ ?_ f
  · intro m l
    fin_cases i <;> fin_cases l <;> simp [turning, Matrix.mulVec, dotProduct, Fin.sum_univ_four]
  · intro m a l hl
    fin_cases i <;> fin_cases a <;> fin_cases l <;>
      simp_all [turning, Matrix.mulVec, dotProduct, Fin.sum_univ_four]

/-- The diffusion, with anti bounce-back across x and bounce-back across y. -/
theorem heat4_mirrors (alg : Algo) (i : Fin 2) (f : Fin 4 → ℚ) :
    collide heat4 alg (reflectCell stenP (signs4 .antiBounceBack .bounceBack) (fun a => decide (a = i)) f) =
      reflectCell stenP (signs4 .antiBounceBack .bounceBack) (fun a => decide (a = i)) (collide heat4 alg f) := by
  rw [reflect4, reflect4]
  refine C114_collision heat4 (by intro j w; fin_cases j; rfl) (by decide +kernel) (fun _ => rfl) rfl alg _
    (![!![-1, 0, 0, 0; 0, 1, 0, 0; 0, 0, -1, 0; 0, 0, 0, -1], !![1, 0, 0, 0; 0, 1, 0, 0; 0, 0, -1, 0; 0, 0, 0, 1]] i) ?_ ?_ ?_ f
  · fin_cases i
    · show heat4.M * ((-1 : ℚ) • swap4 0) = !![-1, 0, 0, 0; 0, 1, 0, 0; 0, 0, -1, 0; 0, 0, 0, -1] * heat4.M
      decide +kernel
    · show heat4.M * ((1 : ℚ) • swap4 1) = !![1, 0, 0, 0; 0, 1, 0, 0; 0, 0, -1, 0; 0, 0, 0, 1] * heat4.M
      decide +kernel
  · intro m l
    fin_cases i <;> fin_cases l <;> simp [heat4, Matrix.mulVec, dotProduct, Fin.sum_univ_four]
  · intro m a l hl
    fin_cases i <;> fin_cases a <;> fin_cases l <;> simp_all [heat4]

/-- The closed box and its images, for any scheme on the four velocities which respects the mirrors. -/
theorem closed_case {nc : Nat} (S : Kernel ℚ 4 nc 0) (hfront : ∀ j, (S.consm j : Nat) < nc) (mx my : Method 2)
    (hx : outPart mx * outPart mx = (1 : ℚ)) (hy : outPart my * outPart my = (1 : ℚ)) (alg : Algo)
    (hs : ∀ c, (plateData (closedBox mx my) wallsAll gridC c).isSome)
    (hs₁ : (wallData (closedBox mx my) gridC.N gridC.w wallsAll).isSome)
    (hcol : ∀ i f, collide S alg (reflectCell stenP (signs4 mx my) (fun a => decide (a = i)) f) =
      reflectCell stenP (signs4 mx my) (fun a => decide (a = i)) (collide S alg f)) (G : Arr ℚ 4 2) (k : Nat) :
    ∃ σ σ', PRun gridC (plateSetup (closedBox mx my) wallsAll S alg gridC)
      (fun c => startWith 4 0 2 fun x => G (globalPos (first gridC c) gridC.w x)) k σ ∧
    PRun gridI (torus S stenP.vel alg gridI) (fun c => startWith 4 0 2 fun x =>
      images stenP (signs4 mx my) (fun _ => true) gridC.N G (globalPos (first gridI c) gridI.w x)) k σ' ∧
    HasImages (fun _ => true) (signs4 mx my) gridC (fun c => (σ c).arr) gridI fun c => (σ' c).arr := by
  have h : ∀ c i, gridC.w i ≤ size gridC c i := (large_iff gridC).2 (by decide)
  have h' : ∀ c i, gridI.w i ≤ size gridI c i := (large_iff gridI).2 (by decide)
  obtain ⟨⟨st, I⟩, hp⟩ := Option.isSome_iff_exists.1 hs₁
  obtain ⟨σ, hσ⟩ := C42_run_exists (by decide) gridC h (plateSetup (closedBox mx my) wallsAll S alg gridC)
    (fun c => startWith 4 0 2 fun x => G (globalPos (first gridC c) gridC.w x)) k
  obtain ⟨σ', hσ'⟩ := C42_run_exists (by decide) gridI h' (torus S stenP.vel alg gridI)
    (fun c => startWith 4 0 2 fun x =>
      images stenP (signs4 mx my) (fun _ => true) gridC.N G (globalPos (first gridI c) gridI.w x)) k
  refine ⟨σ, σ', hσ, hσ', ?_⟩
  have hN : gridI.N = doubled (fun _ => true) gridC.N := by
    funext i; fin_cases i <;> rfl
  have R : Mirrors (closedBox mx my) (fun _ => 0) 1 wallsAll st I (fun _ => true) (signs4 mx my) S alg gridC
      (plateSetup (closedBox mx my) wallsAll S alg gridC) gridI (torus S stenP.vel alg gridI) :=
    { chamber := closedBox_chamber mx my hx hy hp
      front := hfront
      run := plate_run _ wallsAll S alg gridC h (by decide) rfl hs
      sizes := hN
      large := h'
      halo := by decide
      uniform := torus_uniform S stenP.vel alg gridI
      noBc := fun _ _ _ => rfl
      collision := fun i _ f => hcol i f }
  refine C114_images (by decide) R _ (fun c => plate_start (closedBox mx my) wallsAll S alg gridC _ c) _
    (fun c => torus_start S stenP.vel alg gridI _ c) ?_ k σ hσ σ' hσ'
  intro c x c' x' _ _ he
  show images stenP (signs4 mx my) (fun _ => true) gridC.N G (globalPos (first gridI c') gridI.w x') =
    reflectCell stenP (signs4 mx my) _ (G (globalPos (first gridC c) gridC.w x))
  rw [he]
  rfl

example (G : Arr ℚ 4 2) (alg : Algo) (k : Nat) := closed_case turning (by decide) .bounceBack .bouzidiBounceBack
  (by norm_num [outPart]) (by norm_num [outPart]) alg (by decide +kernel) (by decide +kernel) (turning_mirrors alg) G k

example (G : Arr ℚ 4 2) (alg : Algo) (k : Nat) := closed_case heat4 (by decide) .antiBounceBack .bounceBack
  (by norm_num [outPart]) (by norm_num [outPart]) alg (by decide +kernel) (by decide +kernel) (heat4_mirrors alg) G k

end Pylbm.Sim
