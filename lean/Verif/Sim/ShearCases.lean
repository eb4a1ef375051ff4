import Verif.Sim.Shear
import Verif.Sim.RestCases
/-!
# C107: cases and counterexamples
-/

namespace Pylbm.Sim
open Scheme Halo SchemeSpec Matrix HaloSpec Mpi Boundary

section plate
variable {dim nc d : Nat}

/-- The domain of a process, without element. -/
def plateData {s : Sten dim} (D : WallData ℚ dim s) (lab : Fin dim → Bool → Int) (g : Grid dim) (c : Proc g) :
    Option (Domain.State ℚ dim s.nu × List (Method dim × List (Entry ℚ dim s.ns))) := do
  let st ← Domain.build (procGrid g (fun _ => 0) 1 lab s c) D.elems
  let I ← instances s (procGrid g (fun _ => (0 : ℚ)) 1 lab s c).total st.link
    (listOfLabels (procGrid g (fun _ => (0 : ℚ)) 1 lab s c) D.els) D.dico
  return (st, I)

/-- The setup of a process. -/
def plateSetup {s : Sten dim} (D : WallData ℚ dim s) (lab : Fin dim → Bool → Int) (S : Kernel ℚ s.ns nc d) (a : Algo)
    (g : Grid dim) (c : Proc g) : Setup ℚ s.ns nc d dim where
  S := S
  vel := s.vel
  backend := .c
  cfg := ⟨a, true, false, false⟩
  fluid := fun _ => true
  Lin := (cells dim (size g c)).map fun x i => x i + g.w i
  Lfull := cells dim fun i => size g c i + 2 * g.w i
  bc := fun t A => match plateData D lab g c with
    | none => A
    | some p => toArr (boundaryCondition s (withValues s (procGrid g (fun _ => 0) 1 lab s c) D.ψ p.2 t) (toDist A))

theorem plate_run {s : Sten dim} (D : WallData ℚ dim s) (lab : Fin dim → Bool → Int) (S : Kernel ℚ s.ns nc d)
    (a : Algo) (g : Grid dim) (hlarge : ∀ c i, g.w i ≤ size g c i)
    (hv : ∀ k j, |s.uvel k j| ≤ g.w j) (hel : D.elems = []) (hs : ∀ c, (plateData D lab g c).isSome) :
    FluidRun D g (fun _ => 0) 1 lab S a (plateSetup D lab S a g) where
  walls :=
    { large := hlarge
      onGrid := by
        intro c
        obtain ⟨⟨st, I⟩, hp⟩ := Option.isSome_iff_exists.1 (hs c)
        refine ⟨st, I, ?_, fun t A => by simp only [plateSetup, hp]⟩
        unfold plateData at hp
        simp only [Option.bind_eq_bind, Option.bind_eq_some_iff, Option.pure_def, Option.some.injEq,
          Prod.mk.injEq] at hp
        obtain ⟨st', h1, I', h2, rfl, rfl⟩ := hp
        exact ⟨procGrid_wf g _ _ one_pos _ _ hv c, rfl, h1, h2⟩
      away := by
        intro c x _ k
        right
        rw [hel]
        intro e he
        cases he }
  scheme := fun _ => rfl
  vel := fun _ => rfl
  algo := fun _ => rfl
  fluid := fun c hc => absurd hc (by simp [plateSetup])
  nodup := fun c => by
    refine List.Nodup.map ?_ (cells_nodup _)
    intro x y h
    funext i
    have := congrFun h i
    simpa using this
  loops := fun c x => by
    simp only [plateSetup, List.mem_map, mem_cells, Owned]
    constructor
    · rintro ⟨y, hy, rfl⟩ i
      have := hy i
      show (g.w i : Int) ≤ y i + g.w i ∧ y i + (g.w i : Int) < _
      constructor <;> omega
    · intro h
      refine ⟨fun i => x i - g.w i, fun i => ?_, by funext i; ring⟩
      have := h i
      show 0 ≤ x i - (g.w i : Int) ∧ x i - (g.w i : Int) < _
      constructor <;> omega
  split := fun c => by simp [plateSetup]

theorem plate_start {s : Sten dim} (D : WallData ℚ dim s) (lab : Fin dim → Bool → Int) (S : Kernel ℚ s.ns nc d)
    (a : Algo) (g : Grid dim) (A : Arr ℚ s.ns dim) (c : Proc g) :
    (startWith s.ns d dim A : Simu ℚ s.ns d dim).Start (plateSetup D lab S a g c) :=
  ⟨show (0 : Fin 2) ≠ 1 by decide, rfl, rfl, rfl⟩

end plate

/-! ## Couette flow -/

/-- The four diagonal velocities. -/
abbrev stenX : Sten 2 where
  nu := 4
  ns := 4
  uvel := ![![1, 1], ![-1, -1], ![-1, 1], ![1, -1]]
  usym := ![1, 0, 3, 2]
  ux := id
  scheme := fun _ => 0
  sym := ![1, 0, 3, 2]

theorem stenX_wf : stenX.WF :=
  ⟨by unfold Function.Injective; decide +kernel, by decide +kernel, by decide +kernel, by decide +kernel,
    by decide +kernel⟩

/-- D2Q4 with the moments 1, X, Y, XY: the density, the two components of the momentum, and the stress, relaxed to 0. -/
def fluid4 : Kernel ℚ 4 3 0 where
  M := !![1, 1, 1, 1; 1, -1, -1, 1; 1, -1, 1, -1; 1, 1, -1, -1]
  invM := !![1 / 4, 1 / 4, 1 / 4, 1 / 4; 1 / 4, -1 / 4, -1 / 4, 1 / 4; 1 / 4, -1 / 4, 1 / 4, -1 / 4;
    1 / 4, 1 / 4, -1 / 4, -1 / 4]
  Tu := fun _ => 1
  Tmu := fun _ => 1
  EQ := ![fun w => w 0, fun w => w 1, fun w => w 2, fun _ => 0]
  s := ![fun _ => 0, fun _ => 0, fun _ => 0, fun _ => 3 / 2]
  consm := ![0, 1, 2]
  relVel := none
  source := fun _ => none
  dt := 1

/-- Its equilibrium. -/
def fluid4Eq : Matrix (Fin 4) (Fin 3) ℚ := !![1, 0, 0; 0, 1, 0; 0, 0, 1; 0, 0, 0]

/-- Its relaxation parameters. -/
def fluid4Rel : Fin 4 → ℚ := ![0, 0, 0, 3 / 2]

/-- The density 1, the momentum `(0, a x + b)`. -/
def shearConst (b : ℚ) : Fin 3 → ℚ := ![1, 0, b]

/-- Its gradient. -/
def shearGrad (a : ℚ) : Fin 3 → Fin 2 → ℚ := ![![0, 0], ![0, 0], ![a, 0]]

/-- The matrix of the scheme is inverted by its transpose over 4. -/
theorem fluid4_inv : fluid4.M * fluid4.invM = 1 := by
  ext i j
  fin_cases i <;> fin_cases j <;>
    simp [fluid4, Matrix.mul_apply, Fin.sum_univ_four] <;> norm_num

theorem fluid4_grad (a : ℚ) (j : Fin 4) :
    eqGradient fluid4.invM fluid4Eq (shearGrad a) j = ![stenX.vel j 1 * a / 4, 0] := by
  have hv : ∀ j : Fin 4, (stenX.vel j 1 : ℚ) = ![1, -1, 1, -1] j := by decide +kernel
  funext i
  rw [hv j]
  fin_cases j <;> fin_cases i <;>
    simp [eqGradient, linearEq, fluid4, fluid4Eq, shearGrad, Matrix.mulVec, dotProduct, Fin.sum_univ_four,
      Fin.sum_univ_three] <;> ring

theorem fluid4_steady (a : ℚ) : SteadyField (s := stenX) fluid4 fluid4Eq fluid4Rel 1 (shearGrad a) where
  eqCons := by intro j w; fin_cases j <;> rfl
  inv := fluid4_inv
  noSource := fun _ => rfl
  noRel := rfl
  linear := by
    intro i w
    fin_cases i <;> simp [fluid4, fluid4Eq, Matrix.mulVec, dotProduct, Fin.sum_univ_three]
  constant := by intro i w; fin_cases i <;> rfl
  relaxes := by
    intro i
    fin_cases i
    · exact Or.inl ⟨0, rfl⟩
    · exact Or.inl ⟨1, rfl⟩
    · exact Or.inl ⟨2, rfl⟩
    · right; simp [fluid4Rel]
  parity := by
    intro i
    fin_cases i
    · left; intro j; fin_cases j <;> rfl
    · right; intro j; fin_cases j <;> simp [fluid4]
    · right; intro j; fin_cases j <;> simp [fluid4]
    · left; intro j; fin_cases j <;> rfl
  flux := by
    intro c
    have hv : ∀ j : Fin 4, ((stenX.vel j 0 : ℚ), (stenX.vel j 1 : ℚ)) =
        ![(1, 1), (-1, -1), (-1, 1), (1, -1)] j := by decide +kernel
    have h0 : ∀ j : Fin 4, (stenX.vel j 0 : ℚ) = (![(1, 1), (-1, -1), (-1, 1), (1, -1)] j : ℚ × ℚ).1 :=
      fun j => congrArg Prod.fst (hv j)
    have h1 : ∀ j : Fin 4, (stenX.vel j 1 : ℚ) = (![(1, 1), (-1, -1), (-1, 1), (1, -1)] j : ℚ × ℚ).2 :=
      fun j => congrArg Prod.snd (hv j)
    fin_cases c <;>
      simp [eqVariation, alongLink, fluid4_grad, Matrix.mulVec, dotProduct, Fin.sum_univ_four, Fin.sum_univ_two, h0, h1] <;>
      simp [fluid4]; ring

theorem fluid4_odd (a : ℚ) : OddField (s := stenX) fluid4 fluid4Eq 1 (shearGrad a) := by
  intro j
  unfold alongLink
  rw [fluid4_grad, fluid4_grad, Fin.sum_univ_two, Fin.sum_univ_two, stenX_wf.sym]
  simp only [Matrix.cons_val_zero, Matrix.cons_val_one]
  push_cast
  ring

/-- Bounce-back on the walls with the equilibrium of the shear flow. -/
def couette (a b : ℚ) : WallData ℚ 2 stenX where
  elems := []
  els := []
  dico := fun _ => some [(0, .bounceBack)]
  ψ := fun _ _ x => linearEq fluid4.invM fluid4Eq (affineMoments (shearConst b) (shearGrad a) x)

/-- Walls in the direction x, periodic in the direction y: `label: [0, 1, -1, -1]`. -/
def wallsFirst : Fin 2 → Bool → Int := fun j side => if j = 0 then (if side then 1 else 0) else -1

theorem couette_wf (a b : ℚ) {lab : Fin 2 → Bool → Int} (h : ∀ j side, lab j side ≠ 999) : (couette a b).WF lab where
  sten := stenX_wf
  sound := by intro e he; cases he
  labels := by intro e he; cases he
  dict := by intro l ms h; simp only [couette] at h; cases h; simp
  no999 := by simp [couette]
  noFace := h

theorem couette_data (a b : ℚ) (g : Grid 2) (lab : Fin 2 → Bool → Int) (c : Proc g) :
    plateData (couette a b) lab g c = plateData (couette 0 0) lab g c := by
  simp only [plateData, couette]

theorem couette_wallData (a b : ℚ) (N w : Fin 2 → Nat) (lab : Fin 2 → Bool → Int) :
    wallData (couette a b) N w lab = wallData (couette 0 0) N w lab := by
  simp only [wallData, couette]

/-- The grid 3 × 4 on two processes. -/
def gridC : Grid 2 := ⟨![3, 4], ![1, 2], fun _ => 1, by decide⟩

/-- A case for C107: the Couette flow `(0, a x + b)` between the walls `x = 0` and `x = 3`, on two processes. -/
theorem couette_case (a b : ℚ) (alg : Algo) (k : Nat) : ∃ σ, PRun gridC (plateSetup (couette a b) wallsFirst fluid4 alg gridC)
      (fun c => startWith 4 0 2 fun x => steadyFlow fluid4.M fluid4.invM fluid4Eq fluid4Rel (shearConst b) (shearGrad a)
        stenX.vel 1 0 (cellPoint (fun _ => 0) 1 (globalPos (first gridC c) gridC.w x))) k σ ∧
    ∀ c x, Owned (size gridC c) gridC.w x → ∀ j, (fluid4.M *ᵥ (σ c).arr x) (fluid4.consm j) =
      ![1, 0, a * (globalPos (first gridC c) gridC.w x 0 + 1 / 2) + b] j := by
  have h : ∀ c i, gridC.w i ≤ size gridC c i := (large_iff gridC).2 (by decide)
  have hs : ∀ c, (plateData (couette a b) wallsFirst gridC c).isSome := by
    intro c
    rw [couette_data]
    revert c
    decide +kernel
  obtain ⟨⟨st, I⟩, hp⟩ := Option.isSome_iff_exists.1
    (by decide +kernel : (wallData (couette 0 0) gridC.N gridC.w wallsFirst).isSome = true)
  have hp' : wallData (couette a b) gridC.N gridC.w wallsFirst = some (st, I) := by
    rw [couette_wallData]; exact hp
  have ho := wallData_onGrid (by decide) hp'
  obtain ⟨σ, hσ⟩ := C42_run_exists (by decide) gridC h (plateSetup (couette a b) wallsFirst fluid4 alg gridC)
    (fun c => startWith 4 0 2 fun x => steadyFlow fluid4.M fluid4.invM fluid4Eq fluid4Rel (shearConst b) (shearGrad a)
        stenX.vel 1 0 (cellPoint (fun _ => 0) 1 (globalPos (first gridC c) gridC.w x))) k
  refine ⟨σ, hσ, fun c x hx j => ?_⟩
  have := (C107_couette (by decide) (couette a b) (fun _ => 0) 1 wallsFirst (couette_wf a b (by decide)) gridC st I ho rfl
    (by simp [couette]) (by decide) (by unfold PerAxis; decide) (by unfold PerAxis; decide)
    (by
      intro l ms hl j
      simp only [couette] at hl
      cases hl
      exact ⟨.bounceBack, by simp⟩)
    (by
      intro l ms hl q hq
      simp only [couette] at hl
      cases hl
      rw [List.mem_singleton.1 hq]) fluid4 (by decide) alg fluid4Eq fluid4Rel (shearConst b) (shearGrad a)
    (fluid4_steady a) (fluid4_odd a)
    (by
      intro c i hi
      have h1 : i = 1 := by
        revert i; unfold PerAxis; decide
      subst h1
      fin_cases c <;> rfl)
    (fun _ _ _ _ => rfl) _ (plate_run (couette a b) wallsFirst fluid4 alg gridC h (by decide) rfl hs) _
    (fun c => plate_start _ _ _ _ _ _ _) (fun _ _ _ => rfl) k σ hσ c x hx).2 j
  rw [this]
  fin_cases j
  · simp [affineMoments, shearConst, shearGrad]
  · simp [affineMoments, shearConst, shearGrad]
  · simp [affineMoments, shearConst, shearGrad, cellPoint, Fin.sum_univ_two]
    ring

/-! ## Walls in y -/

/-- The density 1, the momentum `(y, 0)`. -/
def shearX : Fin 3 → Fin 2 → ℚ := ![![0, 0], ![0, 1], ![0, 0]]

/-- Bounce-back on the walls with the equilibrium of this flow. -/
def couetteX : WallData ℚ 2 stenX :=
  { couette 0 0 with ψ := fun _ _ x => linearEq fluid4.invM fluid4Eq (affineMoments ![1, 0, 0] shearX x) }

theorem fluid4_gradX (j : Fin 4) : eqGradient fluid4.invM fluid4Eq shearX j = ![0, (stenX.vel j 0 : ℚ) / 4] := by
  have hv : ∀ j : Fin 4, (stenX.vel j 0 : ℚ) = ![1, -1, -1, 1] j := by decide +kernel
  funext i
  rw [hv j]
  fin_cases j <;> fin_cases i <;>
    simp [eqGradient, linearEq, fluid4, fluid4Eq, shearX, Matrix.mulVec, dotProduct, Fin.sum_univ_four,
      Fin.sum_univ_three]

/-- The Couette flow along x between walls in y is a steady flow of the scheme in the open space, and bounce-back would
return it. -/
theorem fluid4_steadyX : SteadyField (s := stenX) fluid4 fluid4Eq fluid4Rel 1 shearX ∧
    OddField (s := stenX) fluid4 fluid4Eq 1 shearX := by
  refine ⟨{ fluid4_steady 0 with flux := ?_ }, ?_⟩
  · intro c
    have hv : ∀ j : Fin 4, ((stenX.vel j 0 : ℚ), (stenX.vel j 1 : ℚ)) =
        ![(1, 1), (-1, -1), (-1, 1), (1, -1)] j := by decide +kernel
    have h0 : ∀ j : Fin 4, (stenX.vel j 0 : ℚ) = (![(1, 1), (-1, -1), (-1, 1), (1, -1)] j : ℚ × ℚ).1 :=
      fun j => congrArg Prod.fst (hv j)
    have h1 : ∀ j : Fin 4, (stenX.vel j 1 : ℚ) = (![(1, 1), (-1, -1), (-1, 1), (1, -1)] j : ℚ × ℚ).2 :=
      fun j => congrArg Prod.snd (hv j)
    fin_cases c <;>
      simp [eqVariation, alongLink, fluid4_gradX, Matrix.mulVec, dotProduct, Fin.sum_univ_four, Fin.sum_univ_two, h0, h1] <;>
      simp [fluid4]; norm_num
  · intro j
    unfold alongLink
    rw [fluid4_gradX, fluid4_gradX, Fin.sum_univ_two, Fin.sum_univ_two, stenX_wf.sym]
    simp only [Matrix.cons_val_zero, Matrix.cons_val_one]
    push_cast
    ring

/-- **C107 is false in a channel whose periodic axis comes before the axis of the walls.** The Couette flow along x
between the walls `y = 0` and `y = 4`, periodic in x (`label: [-1, -1, 0, 1]`), with bounce-back and the exact values on
the walls: one step changes the corner cells. The link through the edge of the box takes the label of the periodic face
(C59), no boundary condition acts on it, and the population arrives from the opposite wall. With the axes exchanged the
flow is kept (`couette_case`). -/
theorem C107_corner_negation : ∃ (ST : Domain.State ℚ 2 4) (J : List (Method 2 × List (Entry ℚ 2 4))),
    couetteX.WF channelLab ∧ OnGrid couetteX (boxGrid (fun _ => 4) (fun _ => 1) (fun _ => 0) 1 channelLab stenX) ST J ∧
    (SteadyField (s := stenX) fluid4 fluid4Eq fluid4Rel 1 shearX ∧ OddField (s := stenX) fluid4 fluid4Eq 1 shearX) ∧
    (∀ y ∈ box (fun _ : Fin 2 => 4), fluidMap (fun _ => 1) ST y = true) ∧
    lbmStep (fun _ => 4) stenX.vel (collide fluid4 .pull) (wallBc couetteX (fun _ => 4) (fun _ => 1) (fun _ => 0) 1
      channelLab J) 0 (fun y => steadyFlow fluid4.M fluid4.invM fluid4Eq fluid4Rel ![1, 0, 0] shearX stenX.vel 1 0
        (cellPoint (fun _ => 0) 1 y)) ![0, 0] ≠
      steadyFlow fluid4.M fluid4.invM fluid4Eq fluid4Rel ![1, 0, 0] shearX stenX.vel 1 0
        (cellPoint (fun _ => 0) 1 ![0, 0]) := by
  have hd : (wallData couetteX (fun _ => 4) (fun _ => 1) channelLab).map (fun p =>
      decide (lbmStep (fun _ => 4) stenX.vel (collide fluid4 .pull) (wallBc couetteX (fun _ => 4) (fun _ => 1)
        (fun _ => 0) 1 channelLab p.2) 0 (fun y => steadyFlow fluid4.M fluid4.invM fluid4Eq fluid4Rel ![1, 0, 0] shearX
          stenX.vel 1 0 (cellPoint (fun _ => 0) 1 y)) ![0, 0] =
        steadyFlow fluid4.M fluid4.invM fluid4Eq fluid4Rel ![1, 0, 0] shearX stenX.vel 1 0
        (cellPoint (fun _ => 0) 1 ![0, 0]))) = some false := by decide +kernel
  have hwf : couetteX.WF channelLab :=
    let h := couette_wf 0 0 (lab := channelLab) (by decide)
    ⟨h.sten, h.sound, h.labels, h.dict, h.no999, h.noFace⟩
  obtain ⟨⟨st, I⟩, hp⟩ : ∃ p, wallData couetteX (fun _ => 4) (fun _ => 1) channelLab = some p := by
    cases h : wallData couetteX (fun _ => 4) (fun _ => 1) channelLab with
    | none => rw [h] at hd; simp at hd
    | some p => exact ⟨p, rfl⟩
  rw [hp] at hd
  have ho := wallData_onGrid (by decide) hp
  refine ⟨st, I, hwf, ho, fluid4_steadyX, fun y hy => ?_, of_decide_eq_false (Option.some.inj hd)⟩
  apply decide_eq_true
  rw [Domain.C21_fluid_map _ ho.wf _ hwf.sound st ho.built, if_pos ⟨interior_shift hy, rfl⟩]

/-! ## Conduction -/

/-- A bar: the same method at both ends, with the equilibrium of the temperature `a x + b`. -/
def bar (m : Method 1) (a b : ℚ) : WallData ℚ 1 sten2 where
  elems := []
  els := []
  dico := fun _ => some [(0, m)]
  ψ := fun _ _ x => linearEq still2.invM !![1; 0] (affineMoments ![b] ![![a]] x)

theorem bar_wf (m : Method 1) (a b : ℚ) : (bar m a b).WF pipeLab where
  sten := pipe_wf.sten
  sound := by intro e he; cases he
  labels := by intro e he; cases he
  dict := by intro l ms h; simp only [bar] at h; cases h; simp
  no999 := by simp [bar]
  noFace := pipe_wf.noFace

theorem bar_data (m : Method 1) (a b : ℚ) (g : Grid 1) (c : Proc g) :
    plateData (bar m a b) pipeLab g c = plateData (bar m 0 0) pipeLab g c := by
  simp only [plateData, bar]

theorem bar_wallData (m : Method 1) (a b : ℚ) (N w : Fin 1 → Nat) :
    wallData (bar m a b) N w pipeLab = wallData (bar m 0 0) N w pipeLab := by
  simp only [wallData, bar]

theorem still2_grad (a : ℚ) (j : Fin 2) :
    eqGradient still2.invM !![1; 0] ![![a]] j = fun _ : Fin 1 => a / 2 := by
  funext i
  obtain rfl : i = 0 := Subsingleton.elim _ _
  fin_cases j <;>
    simp [eqGradient, linearEq, still2, d1q2, Matrix.mulVec, dotProduct, Fin.sum_univ_two] <;> ring

theorem still2_steady (a : ℚ) : SteadyField (s := sten2) still2 !![1; 0] ![0, 3 / 2] 1 ![![a]] ∧
    EvenField (s := sten2) still2 !![1; 0] 1 ![![a]] := by
  refine ⟨⟨?_, ?_, fun _ => rfl, rfl, ?_, ?_, ?_, ?_, ?_⟩, ?_⟩
  · intro j w; fin_cases j; rfl
  · decide +kernel
  · intro i w
    fin_cases i <;> simp [still2, Matrix.mulVec, dotProduct]
  · intro i w; fin_cases i <;> rfl
  · intro i
    fin_cases i
    · exact Or.inl ⟨0, rfl⟩
    · right; simp
  · intro i
    fin_cases i
    · left; intro j; fin_cases j <;> rfl
    · right; intro j; fin_cases j <;> simp [still2, d1q2]
  · intro c
    have hv : ∀ j : Fin 2, (sten2.vel j 0 : ℚ) = ![1, -1] j := by decide +kernel
    fin_cases c
    simp [eqVariation, alongLink, still2_grad, Matrix.mulVec, dotProduct, Fin.sum_univ_two, hv]
    simp [still2, d1q2]
  · intro j
    unfold alongLink
    rw [still2_grad, still2_grad]

/-- A case for C107: the temperature `a x + b` in the bar, with anti bounce-back at both ends, on two processes. -/
theorem bar_case (a b : ℚ) (alg : Algo) (k : Nat) : ∃ σ,
    PRun grid7 (plateSetup (bar .antiBounceBack a b) pipeLab still2 alg grid7)
      (fun c => startWith 2 0 1 fun x => steadyFlow still2.M still2.invM !![1; 0] ![0, 3 / 2] ![b] ![![a]]
        sten2.vel 1 0 (cellPoint (fun _ => 0) 1 (globalPos (first grid7 c) grid7.w x))) k σ ∧
    ∀ c x, Owned (size grid7 c) grid7.w x → (still2.M *ᵥ (σ c).arr x) (still2.consm 0) =
      a * (globalPos (first grid7 c) grid7.w x 0 + 1 / 2) + b := by
  have h : ∀ c i, grid7.w i ≤ size grid7 c i := (large_iff grid7).2 (by decide)
  have hs : ∀ c, (plateData (bar .antiBounceBack a b) pipeLab grid7 c).isSome := by
    intro c
    rw [bar_data]
    revert c
    decide +kernel
  obtain ⟨⟨st, I⟩, hp⟩ := Option.isSome_iff_exists.1
    (by decide +kernel : (wallData (bar .antiBounceBack 0 0) grid7.N grid7.w pipeLab).isSome = true)
  have hp' : wallData (bar .antiBounceBack a b) grid7.N grid7.w pipeLab = some (st, I) := by
    rw [bar_wallData]; exact hp
  have ho := wallData_onGrid (by decide) hp'
  have hD := bar_wf .antiBounceBack a b
  obtain ⟨σ, hσ⟩ := C42_run_exists (by decide) grid7 h (plateSetup (bar .antiBounceBack a b) pipeLab still2 alg grid7)
    (fun c => startWith 2 0 1 fun x => steadyFlow still2.M still2.invM !![1; 0] ![0, 3 / 2] ![b] ![![a]]
        sten2.vel 1 0 (cellPoint (fun _ => 0) 1 (globalPos (first grid7 c) grid7.w x))) k
  refine ⟨σ, hσ, fun c x hx => ?_⟩
  have hmeth : ∀ l ms, (bar .antiBounceBack a b).dico l = some ms → ∀ q ∈ ms, q.2 = .antiBounceBack := by
    intro l ms hl q hq
    simp only [bar] at hl
    cases hl
    rw [List.mem_singleton.1 hq]
  have hone : ∀ l ms, (bar .antiBounceBack a b).dico l = some ms → ∀ q ∈ ms, OneCell q.2 := by
    intro l ms hl q hq
    rw [hmeth l ms hl q hq]; trivial
  have hnper : ∀ i : Fin 1, ¬ PerAxis pipeLab i := by unfold PerAxis; decide
  obtain ⟨hlinks, hhalf⟩ := openLinks_channel (bar .antiBounceBack a b) grid7.N grid7.w (fun _ => 0) 1 pipeLab hD st I ho
    rfl (by simp [bar]) (by decide) (by unfold PerAxis; decide) (fun i j _ hj => absurd hj (hnper j))
  have hfl : fluidMap grid7.w st (globalPos (first grid7 c) grid7.w x) = true := by
    apply decide_eq_true
    rw [Domain.C21_fluid_map _ ho.wf _ hD.sound st ho.built,
      if_pos ⟨interior_shift (owned_box grid7 hx), rfl⟩]
  have := (C107_conduction (by decide) (bar .antiBounceBack a b) (fun _ => 0) 1 pipeLab hD grid7 st I ho
    (fun t => ho.free hD hone t) (PerAxis pipeLab) hlinks
    (by
      intro l ms hl j
      simp only [bar] at hl
      cases hl
      have hj : sten2.scheme j = 0 := by revert j; decide
      exact ⟨.antiBounceBack, by rw [hj]; simp⟩)
    (oneCell_reads _ _ _ _ _ _ hD st I ho (ho.oneCell hD hone))
    (oneCell_inside _ _ _ _ _ _ hD st I ho (ho.oneCell hD hone) _) still2 (by decide) alg !![1; 0] ![0, 3 / 2] ![b] ![![a]]
    (still2_steady a).1 (still2_steady a).2 (fun _ i hi => absurd hi (hnper i)) (fun _ _ _ _ => rfl)
    (fun y hy _ u ms hop hms q hq => ⟨hmeth _ _ hms q hq, hhalf y hy u hop⟩) _
    (plate_run (bar .antiBounceBack a b) pipeLab still2 alg grid7 h (by decide) rfl hs) _
    (fun c => plate_start _ _ _ _ _ _ _) (fun _ _ _ _ => rfl) k σ hσ c x hx hfl).2 0
  rw [this]
  simp [affineMoments, cellPoint]
  ring

/-! ## Cases for the boundary methods -/

/-- Two populations `x` and `-x` on a line: bounce-back returns them halfway and not at the distance 1/4; interpolated
bounce-back does at 1/4, and not at 3/4. -/
example : (∃ t p, Returns .bounceBack sten2.vel (1 : ℚ) (1 / 2) (affineFlow ![1, 1] ![![1], ![-1]])
      (affineFlow ![1, 1] ![![1], ![-1]]) (0 : Fin 2) 1 t p) ∧
    ∀ t p, ¬ Returns .bounceBack sten2.vel (1 : ℚ) (1 / 4) (affineFlow ![1, 1] ![![1], ![-1]])
      (affineFlow ![1, 1] ![![1], ![-1]]) (0 : Fin 2) 1 t p := by
  have hv : (sten2.vel 0 0 : ℚ) = 1 := by decide +kernel
  have hs : alongLink (1 : ℚ) (![![1], ![-1]] : Fin 2 → Fin 1 → ℚ) (sten2.vel 0) 0 = 1 := by simp [alongLink, hv]
  have hs' : alongLink (1 : ℚ) (![![1], ![-1]] : Fin 2 → Fin 1 → ℚ) (sten2.vel 0) 1 = -1 := by simp [alongLink, hv]
  refine ⟨⟨0, 0, (C107_bounce_back _ _ _ _ _ _ 0 1 _ _ (by rw [hs, hs']; norm_num) rfl).2 (Or.inl rfl)⟩,
    fun t p h => ?_⟩
  have := (C107_bounce_back _ _ _ _ _ _ 0 1 _ _ (by rw [hs, hs']; norm_num) rfl).1 h
  rw [hs] at this
  norm_num at this

example : (∀ t p, Returns .bouzidiBounceBack sten2.vel (1 : ℚ) (1 / 4) (affineFlow ![1, 1] ![![1], ![-1]])
      (affineFlow ![1, 1] ![![1], ![-1]]) (0 : Fin 2) 1 t p) ∧
    ¬ Returns .bouzidiBounceBack sten2.vel (1 : ℚ) (3 / 4) (affineFlow ![1, 1] ![![1], ![-1]])
      (affineFlow ![1, 1] ![![1], ![-1]]) (0 : Fin 2) 1 0 0 := by
  have hv : (sten2.vel 0 0 : ℚ) = 1 := by decide +kernel
  have hs : alongLink (1 : ℚ) (![![1], ![-1]] : Fin 2 → Fin 1 → ℚ) (sten2.vel 0) 0 = 1 := by simp [alongLink, hv]
  have hs' : alongLink (1 : ℚ) (![![1], ![-1]] : Fin 2 → Fin 1 → ℚ) (sten2.vel 0) 1 = -1 := by simp [alongLink, hv]
  refine ⟨fun t p => (C107_interpolated _ _ _ _ _ _ 0 1 _ _ (by rw [hs, hs']; norm_num) rfl).2
    (Or.inl (by norm_num)), fun h => ?_⟩
  have := (C107_interpolated _ _ _ _ _ _ 0 1 _ _ (by rw [hs, hs']; norm_num) rfl).1 h
  rcases this with h | h
  · norm_num at h
  · simp [affineFlow, wallAt, hv] at h
    norm_num at h

/-- Two equal populations `1 + x`: interpolated anti bounce-back does not return them at the distance 1/4. -/
example : ¬ Returns .bouzidiAntiBounceBack sten2.vel (1 : ℚ) (1 / 4) (affineFlow ![1, 1] ![![1], ![1]])
      (affineFlow ![1, 1] ![![1], ![1]]) (0 : Fin 2) 1 0 0 ∧
    Returns .bouzidiAntiBounceBack sten2.vel (1 : ℚ) (1 / 2) (affineFlow ![1, 1] ![![1], ![1]])
      (affineFlow ![1, 1] ![![1], ![1]]) (0 : Fin 2) 1 0 0 ∧
    ¬ Returns .neumann sten2.vel (1 : ℚ) (1 / 2) (affineFlow ![1, 1] ![![1], ![1]])
      (affineFlow ![1, 1] ![![1], ![1]]) (0 : Fin 2) 1 0 0 := by
  have hv : (sten2.vel 0 0 : ℚ) = 1 := by decide +kernel
  have hs : alongLink (1 : ℚ) (![![1], ![1]] : Fin 2 → Fin 1 → ℚ) (sten2.vel 0) 0 = 1 := by simp [alongLink, hv]
  have hs' : alongLink (1 : ℚ) (![![1], ![1]] : Fin 2 → Fin 1 → ℚ) (sten2.vel 0) 1 = 1 := by simp [alongLink, hv]
  refine ⟨fun h => ?_, (C107_interpolated_anti _ _ _ _ _ _ 0 1 _ _ (by rw [hs, hs']) rfl).2 (Or.inl rfl), fun h => ?_⟩
  · rcases (C107_interpolated_anti _ _ _ _ _ _ 0 1 _ _ (by rw [hs, hs']) rfl).1 h with h | ⟨-, h⟩ | ⟨h, -⟩
    · norm_num at h
    · simp [affineFlow, hv] at h
    · norm_num at h
  · rw [C107_neumann, hs] at h
    norm_num at h

end Pylbm.Sim
