import Verif.Sim.Mass
/-!
# C78: cases and counterexamples
-/

namespace Pylbm.Sim
open Scheme Halo SchemeSpec Matrix HaloSpec Mpi Boundary

/-- The domain of a single process and the entries of the boundary methods. -/
def wallData {dim : Nat} {s : Sten dim} (D : WallData ℚ dim s) (N w : Fin dim → Nat) (lab : Fin dim → Bool → Int) :
    Option (Domain.State ℚ dim s.nu × List (Method dim × List (Entry ℚ dim s.ns))) := do
  let g := boxGrid N w (fun _ => 0) 1 lab s
  let st ← Domain.build g D.elems
  let I ← instances s g.total st.link (listOfLabels g D.els) D.dico
  return (st, I)

theorem wallData_onGrid {dim : Nat} {s : Sten dim} {D : WallData ℚ dim s} {N w : Fin dim → Nat}
    {lab : Fin dim → Bool → Int} (hw : ∀ k j, |s.uvel k j| ≤ w j) {st I} (h : wallData D N w lab = some (st, I)) :
    OnGrid D (boxGrid N w (fun _ => 0) 1 lab s) st I := by
  unfold wallData at h
  simp only [Option.bind_eq_bind, Option.bind_eq_some_iff, Option.pure_def, Option.some.injEq,
    Prod.mk.injEq] at h
  obtain ⟨st', h1, I', h2, rfl, rfl⟩ := h
  exact ⟨⟨one_pos, fun _ => Nat.zero_le _, hw⟩, rfl, h1, h2⟩

/-- A solid segment `[a, b]`. -/
def segment (a b : ℚ) : Domain.Elem ℚ 1 where
  isFluid := false
  bl := fun _ => a
  ur := fun _ => b
  inside := fun x => decide (a ≤ x 0 ∧ x 0 ≤ b)
  alpha := fun x v => if 0 < v 0 ∧ x 0 ≤ a ∧ a ≤ x 0 + v 0 then (a - x 0) / v 0
    else if v 0 < 0 ∧ b ≤ x 0 ∧ x 0 + v 0 ≤ b then (b - x 0) / v 0 else -1
  border := fun _ _ => 5
  normvect := fun _ v j => -v j

theorem segment_sound {a b : ℚ} (hab : a ≤ b) : (segment a b).Sound where
  inside := by
    intro x hx j
    obtain rfl : j = 0 := Subsingleton.elim _ _
    simpa [segment] using hx
  hit := by
    intro x v
    simp only [segment]
    split_ifs with h1 h2
    · intro _
      refine ⟨(div_le_one h1.1).2 (by linarith [h1.2.2]), fun j => ?_⟩
      obtain rfl : j = 0 := Subsingleton.elim _ _
      rw [div_mul_cancel₀ _ h1.1.ne']
      constructor <;> linarith
    · intro _
      refine ⟨(div_le_one_of_neg h2.1).2 (by linarith [h2.2.2]), fun j => ?_⟩
      obtain rfl : j = 0 := Subsingleton.elim _ _
      rw [div_mul_cancel₀ _ h2.1.ne]
      constructor <;> linarith
    · intro h; linarith

theorem segment_sees {a b : ℚ} (x v : Fin 1 → ℚ) : (segment a b).Sees x v := by
  unfold Domain.Elem.Sees
  simp only [segment, Bool.false_eq_true, if_false, decide_eq_false_iff_not, decide_eq_true_eq]
  intro h1 h2
  split_ifs with h3 h4
  · refine div_pos ?_ h3.1
    rcases lt_or_eq_of_le h3.2.1 with h | h
    · linarith
    · exact absurd ⟨h.ge, by linarith⟩ h1
  · refine div_pos_of_neg_of_neg ?_ h4.1
    rcases lt_or_eq_of_le h4.2.1 with h | h
    · linarith
    · exact absurd ⟨by linarith, h.ge⟩ h1
  · exfalso
    rcases lt_or_ge (x 0) a with h | h
    · exact h3 ⟨by linarith [h2.1], h.le, h2.1⟩
    · have : b < x 0 := by by_contra hh; exact h1 ⟨h, by linarith⟩
      exact h4 ⟨by linarith [h2.2], this.le, h2.2⟩

/-- A tank with an obstacle: the same method on the ends (labels 0 and 1) and on the obstacle (label 5), with
values which depend on the time and on the place, a fluid at rest. -/
def tank (m : Method 1) (a b : ℚ) : WallData ℚ 1 sten2 where
  elems := [segment a b]
  els := [5]
  dico := fun _ => some [(0, m)]
  ψ := fun _ t x _ => t + x 0

theorem tank_wf (m : Method 1) {a b : ℚ} (hab : a ≤ b) : (tank m a b).WF pipeLab where
  sten := pipe_wf.sten
  sound := by intro e he; rw [List.mem_singleton.1 he]; exact segment_sound hab
  labels := by intro e he x v _; rw [List.mem_singleton.1 he]; simp [segment, tank]
  dict := by intro l ms h; simp only [tank] at h; cases h; simp
  no999 := by simp [tank]
  noFace := pipe_wf.noFace

theorem tank_methods (m : Method 1) (a b : ℚ) : AllMethods (tank m a b) := by
  intro l ms hl j
  have hj : sten2.scheme j = 0 := by revert j; decide
  simp only [tank] at hl
  cases hl
  exact ⟨m, by rw [hj]; simp⟩

theorem tank_atRest (a b : ℚ) (i : Fin 2 → ℚ) : AtRest (tank .bounceBack a b) i where
  method := by
    intro l ms hl j _ m hm
    simp only [tank] at hl
    cases hl
    simp at hm
    exact hm.2
  rest := by intro _ _ _ _ _ _ _; rfl

theorem tank_even : Even (s := sten2) (d1q2.M (d1q2.consm 0)) := by
  intro j j' _ _
  have : ∀ j : Fin 2, d1q2.M (d1q2.consm 0) j = 1 := by decide +kernel
  exact (this j').trans (this j).symm

theorem tank_sealed (m : Method 1) {a b : ℚ} (hab : a ≤ b) (N w : Fin 1 → Nat) (hw : ∀ k j, |sten2.uvel k j| ≤ w j)
    {st I} (h : wallData (tank m a b) N w pipeLab = some (st, I)) : Sealed N w st := by
  have ho := wallData_onGrid hw h
  refine C78_closed_box _ N w _ _ _ (tank_wf m hab) st I ho ?_ ?_ ?_ ?_
  · intro j side; cases side <;> simp [pipeLab]
  · intro l hl; simp only [tank, List.mem_singleton] at hl; subst hl; decide
  · intro e he c k _
    rw [List.mem_singleton.1 he]
    exact segment_sees _ _
  · intro c hc hf e he _
    rw [List.mem_singleton.1 he]
    have := Domain.C21_fluid_map _ ho.wf _ (tank_wf m hab).sound st ho.built c
    rw [hf] at this
    split_ifs at this with h1
    have h2 := h1.2
    by_contra hh
    rw [Bool.not_eq_false] at hh
    change DomainSpec.material [((segment a b).isFluid, (segment a b).inside)] _ = true at h2
    simp only [DomainSpec.material, hh, List.any_nil, Bool.false_eq_true, if_false, if_true] at h2
    exact absurd h2 (by simp [segment])

/-- The domain of a process of the tank. -/
def tankData (g : Grid 1) (c : Proc g) : Option (Domain.State ℚ 1 2 × List (Method 1 × List (Entry ℚ 1 2))) := do
  let st ← Domain.build (procGrid g (fun _ => 0) 1 pipeLab sten2 c) (tank .bounceBack 1 2).elems
  let I ← instances sten2 (procGrid g (fun _ => (0 : ℚ)) 1 pipeLab sten2 c).total st.link
    (listOfLabels (procGrid g (fun _ => (0 : ℚ)) 1 pipeLab sten2 c) (tank .bounceBack 1 2).els)
    (tank .bounceBack 1 2).dico
  return (st, I)

/-- The setup of a process of the tank, without `check_isfluid`. -/
def tankSetup (g : Grid 1) (b : Backend) (a : Algo) (c : Proc g) : Setup ℚ 2 1 0 1 :=
  { ring d1q2 sten2.vel a g c with
    backend := b
    bc := fun t A => match tankData g c with
      | none => A
      | some p => toArr (boundaryCondition sten2
          (withValues sten2 (procGrid g (fun _ => 0) 1 pipeLab sten2 c) (tank .bounceBack 1 2).ψ p.2 t)
          (toDist A)) }

/-- A case for C78: the tank with the obstacle `[1, 2]` on two processes. -/
theorem tank_case : FluidRun (tank .bounceBack 1 2) grid7 (fun _ => 0) 1 pipeLab d1q2 .pull (tankSetup grid7 .c .pull) ∧
    (∃ ST J, OnGrid (tank .bounceBack 1 2) (boxGrid grid7.N grid7.w (fun _ => 0) 1 pipeLab sten2) ST J ∧
      Sealed grid7.N grid7.w ST ∧
      ReadsFluid (tank .bounceBack 1 2) grid7.N grid7.w (fun _ => 0) 1 pipeLab ST J ∧
      (∀ t, Free sten2 (flat sten2 (withValues sten2 (boxGrid grid7.N grid7.w (fun _ => 0) 1 pipeLab sten2)
        (tank .bounceBack 1 2).ψ J t))) ∧
      (List.range 7).map (fun i => fluidMap grid7.w ST fun _ => (i : Int)) =
        [true, false, true, true, true, true, true]) ∧
    (∃ σ, PRun grid7 (tankSetup grid7 .c .pull)
      (fun c => startWith 2 0 1 fun x k => (first grid7 c 0 : ℚ) + x 0 + 10 * k) 5 σ) ∧
    (∀ j w, d1q2.EQ (d1q2.consm j) w = w j) ∧ d1q2.M * d1q2.invM = 1 := by
  have h : ∀ c i, grid7.w i ≤ size grid7 c i := (large_iff grid7).2 (by decide)
  have hs : ∀ c, (tankData grid7 c).isSome := by decide +kernel
  have hs' : ∀ c, (pipeData grid7 c).isSome := by decide +kernel
  have hp := pipe_wallRun grid7 h (by decide) hs' .c .pull (by decide +kernel) (by decide +kernel)
  have hu := ring_uniform d1q2 sten2.vel .pull grid7
  refine ⟨⟨⟨h, ?_, hp.away⟩, hu.scheme, hu.vel, hu.algo, ?_, hu.nodup, hu.loops,
    fun c => by simp [tankSetup, ring, d1q2]⟩, ?_, ?_,
    fun j w => by fin_cases j; rfl, by decide +kernel⟩
  · intro c
    obtain ⟨⟨st, I⟩, hp⟩ := Option.isSome_iff_exists.1 (hs c)
    refine ⟨st, I, ?_, fun t A => by simp only [tankSetup, hp]⟩
    unfold tankData at hp
    simp only [Option.bind_eq_bind, Option.bind_eq_some_iff, Option.pure_def, Option.some.injEq,
      Prod.mk.injEq] at hp
    obtain ⟨st', h1, I', h2, rfl, rfl⟩ := hp
    exact ⟨procGrid_wf grid7 _ _ one_pos _ _ (by decide) c, rfl, h1, h2⟩
  · intro c hc
    rw [show (tankSetup grid7 .c .pull c).cfg.checkFluid = false from hu.all c] at hc
    exact absurd hc (by decide)
  · have hd : (wallData (tank .bounceBack 1 2) grid7.N grid7.w pipeLab).map (fun p =>
        (List.range 7).map (fun i => fluidMap grid7.w p.1 fun _ => (i : Int))) =
        some [true, false, true, true, true, true, true] := by decide +kernel
    obtain ⟨⟨st, I⟩, hp⟩ := Option.isSome_iff_exists.1
      (by decide +kernel : (wallData (tank .bounceBack 1 2) grid7.N grid7.w pipeLab).isSome = true)
    rw [hp] at hd
    have ho := wallData_onGrid (by decide) hp
    have hwf := tank_wf .bounceBack (by norm_num : (1 : ℚ) ≤ 2)
    have hone : ∀ label ms, (tank .bounceBack 1 2).dico label = some ms → ∀ p ∈ ms, OneCell p.2 := by
      intro l ms hl p hp
      simp only [tank] at hl
      cases hl
      rw [List.mem_singleton.1 hp]; trivial
    exact ⟨st, I, ho, tank_sealed _ (by norm_num) _ _ (by decide) hp,
      oneCell_reads _ _ _ _ _ _ hwf st I ho (ho.oneCell hwf hone), fun t => ho.free hwf hone t, Option.some.inj hd⟩
  · exact C42_run_exists (by decide) grid7 h _ _ 5

/-- The total mass of the fluid cells of the tank after one step of the scheme on the global array. -/
def tankMass (m : Method 1) (a b : ℚ) (G : Arr ℚ 2 1) : Option (ℚ × ℚ) :=
  (wallData (tank m a b) (fun _ => 7) (fun _ => 1) pipeLab).map fun p =>
    let fl := (List.range 7).filter fun i => fluidMap (fun _ => 1) p.1 fun _ => (i : Int)
    let bc := wallBc (tank m a b) (fun _ => 7) (fun _ => 1) (fun _ => 0) 1 pipeLab p.2
    ((fl.map fun i => G (fun _ => (i : Int)) 0 + G (fun _ => (i : Int)) 1).sum,
      (fl.map fun i => ∑ k, lbmStep (fun _ => 7) sten2.vel (collide d1q2 .pull) bc 0 G (fun _ => (i : Int)) k).sum)

/-- C78 is false for the interpolated bounce-back (`BouzidiBounceBack`), with the fluid at rest on all the walls of
a tank without holes: when the wall is not halfway between the cells, one step changes the mass. -/
theorem C78_interpolated_negation : ∃ (ST : Domain.State ℚ 1 2) (J : List (Method 1 × List (Entry ℚ 1 2)))
    (G : Arr ℚ 2 1), (tank .bouzidiBounceBack (5 / 4) (7 / 4)).WF pipeLab ∧
    OnGrid (tank .bouzidiBounceBack (5 / 4) (7 / 4)) (boxGrid (fun _ => 7) (fun _ => 1) (fun _ => 0) 1 pipeLab sten2) ST J ∧
    Sealed (s := sten2) (fun _ => 7) (fun _ => 1) ST ∧ AllMethods (tank .bouzidiBounceBack (5 / 4) (7 / 4)) ∧
    Even (s := sten2) (d1q2.M (d1q2.consm 0)) ∧
    wallData (tank .bouzidiBounceBack (5 / 4) (7 / 4)) (fun _ => 7) (fun _ => 1) pipeLab = some (ST, J) ∧
    tankMass .bouzidiBounceBack (5 / 4) (7 / 4) G = some (20, 62 / 3) ∧
    tankMass .bounceBack (5 / 4) (7 / 4) G = some (20, 20) := by
  obtain ⟨⟨st, I⟩, hp⟩ := Option.isSome_iff_exists.1 (by decide +kernel :
    (wallData (tank .bouzidiBounceBack (5 / 4) (7 / 4)) (fun _ => 7) (fun _ => 1) pipeLab).isSome = true)
  exact ⟨st, I, fun x k => if k = 0 then x 0 else 0, tank_wf _ (by norm_num), wallData_onGrid (by decide) hp,
    tank_sealed _ (by norm_num) _ _ (by decide) hp, tank_methods _ _ _, tank_even, hp, by decide +kernel,
    by decide +kernel⟩

/-- Diagonal velocities. -/
abbrev stenDiag : Sten 2 where
  nu := 2
  ns := 2
  uvel := ![![1, 1], ![-1, -1]]
  usym := ![1, 0]
  ux := id
  scheme := fun _ => 0
  sym := ![1, 0]

/-- Velocities of length two in one direction. -/
abbrev stenTwo : Sten 2 where
  nu := 2
  ns := 2
  uvel := ![![2, 1], ![-2, -1]]
  usym := ![1, 0]
  ux := id
  scheme := fun _ => 0
  sym := ![1, 0]

/-- Bounce-back without values on the walls. -/
def plain (s : Sten 2) : WallData ℚ 2 s where
  elems := []
  els := []
  dico := fun _ => some [(0, .bounceBack)]
  ψ := fun _ _ _ _ => 0

/-- Periodic in the direction x, a wall on each side in the direction y: `label: [-1, -1, 0, 1]`. -/
def channelLab : Fin 2 → Bool → Int := fun j side => if j = 0 then -1 else if side then 1 else 0

theorem plain_wf {s : Sten 2} (hs : s.WF) : (plain s).WF channelLab where
  sten := hs
  sound := by intro e he; cases he
  labels := by intro e he; cases he
  dict := by intro l ms h; simp only [plain] at h; cases h; simp
  no999 := by simp [plain]
  noFace := by decide

theorem stenDiag_wf : stenDiag.WF :=
  ⟨by unfold Function.Injective; decide +kernel, by decide +kernel, by decide +kernel, by decide +kernel,
    by decide +kernel⟩

theorem stenTwo_wf : stenTwo.WF :=
  ⟨by unfold Function.Injective; decide +kernel, by decide +kernel, by decide +kernel, by decide +kernel,
    by decide +kernel⟩

theorem plain_oneCell (s : Sten 2) : ∀ label ms, (plain s).dico label = some ms → ∀ p ∈ ms, OneCell p.2 := by
  intro l ms hl p hp
  simp only [plain] at hl
  cases hl
  rw [List.mem_singleton.1 hp]; trivial

/-- A case for `C78_channel`: the channel with the diagonal velocities. -/
example : ∃ ST J, OnGrid (plain stenDiag) (boxGrid (fun _ => 4) (fun _ => 1) (fun _ => 0) 1 channelLab stenDiag) ST J ∧
    Sealed (s := stenDiag) (fun _ => 4) (fun _ => 1) ST := by
  obtain ⟨⟨st, I⟩, hp⟩ := Option.isSome_iff_exists.1 (by decide +kernel :
    (wallData (plain stenDiag) (fun _ => 4) (fun _ => 1) channelLab).isSome = true)
  have ho := wallData_onGrid (by decide) hp
  refine ⟨st, I, ho, C78_channel _ _ _ _ _ _ (plain_wf stenDiag_wf) st I ho (by decide) (by decide) ?_ ?_ ?_ ?_⟩
  · intro l hl; cases hl
  · intro e he; cases he
  · intro c _ _ e he; cases he
  · intro e he; cases he

/-- C78 is false for velocities of length two in a box which is periodic in one direction with walls in the other
(`C78_channel` asks for components -1, 0, 1): a link through the edge of the box meets the periodic face first from
one side and the wall first from the other side, so that a population is copied and another one is lost. The mass
goes from 2 to 1 in one step. -/
theorem C78_long_velocities_negation : ∃ (ST : Domain.State ℚ 2 2) (J : List (Method 2 × List (Entry ℚ 2 2)))
    (G : Arr ℚ 2 2), (plain stenTwo).WF channelLab ∧
    OnGrid (plain stenTwo) (boxGrid (fun _ => 4) ![2, 1] (fun _ => 0) 1 channelLab stenTwo) ST J ∧
    (∀ i j : Fin 4, fluidMap ![2, 1] ST ![(i : Int), (j : Int)] = true) ∧
    ∑ i : Fin 4, ∑ j : Fin 4, (d1q2.M *ᵥ G ![(i : Int), (j : Int)]) (d1q2.consm 0) = 2 ∧
    ∑ i : Fin 4, ∑ j : Fin 4, (d1q2.M *ᵥ lbmStep (fun _ => 4) stenTwo.vel (collide d1q2 .pull)
      (wallBc (plain stenTwo) (fun _ => 4) ![2, 1] (fun _ => 0) 1 channelLab J) 0 G ![(i : Int), (j : Int)])
      (d1q2.consm 0) = 1 := by
  have h1 : (wallData (plain stenTwo) (fun _ => 4) ![2, 1] channelLab).map (fun p =>
      decide (∀ i j : Fin 4, fluidMap ![2, 1] p.1 ![(i : Int), (j : Int)] = true)) = some true := by
    decide +kernel
  have h2 : (wallData (plain stenTwo) (fun _ => 4) ![2, 1] channelLab).map (fun p =>
      ∑ i : Fin 4, ∑ j : Fin 4, (d1q2.M *ᵥ lbmStep (fun _ => 4) stenTwo.vel (collide d1q2 .pull)
      (wallBc (plain stenTwo) (fun _ => 4) ![2, 1] (fun _ => 0) 1 channelLab p.2) 0
        (fun x _ => if x = ![0, 0] then 1 else 0) ![(i : Int), (j : Int)])
      (d1q2.consm 0)) = some 1 := by
    decide +kernel
  obtain ⟨⟨st, I⟩, hp⟩ := Option.isSome_iff_exists.1 (by decide +kernel :
    (wallData (plain stenTwo) (fun _ => 4) ![2, 1] channelLab).isSome = true)
  rw [hp] at h1 h2
  exact ⟨st, I, fun x _ => if x = ![0, 0] then 1 else 0, plain_wf stenTwo_wf, wallData_onGrid (by decide) hp,
    of_decide_eq_true (Option.some.inj h1), by decide +kernel, Option.some.inj h2⟩

/-- C59 is false (4): in a channel which is periodic in the direction x with walls in the direction y, the diagonal
link of a corner cell goes through the wall and through the periodic face at the same time, and carries the label of
the periodic face (lowest axis, C20). No boundary method acts on it: the population which enters the cell (0, 0) at
the lower wall is the one which leaves the cell (3, 3) at the upper wall. -/
theorem C59_corner_negation : ∃ (ST : Domain.State ℚ 2 2) (J : List (Method 2 × List (Entry ℚ 2 2))),
    (plain stenDiag).WF channelLab ∧
    OnGrid (plain stenDiag) (boxGrid (fun _ => 4) (fun _ => 1) (fun _ => 0) 1 channelLab stenDiag) ST J ∧
    channelLab 1 false = 0 ∧
    DomainSpec.Crosses (K := ℚ) (fun _ => 4) ![0, 0] (stenDiag.uvel 1) ⟨1, false⟩ (1 / 2) ∧
    (ST.link 1 ![1, 1]).flag = -1 ∧
    ∀ (t : ℚ) (G : Arr ℚ 2 2),
      wallBc (plain stenDiag) (fun _ => 4) (fun _ => 1) (fun _ => 0) 1 channelLab J t (periodic (fun _ => 4) G)
        (fun i => ![0, 0] i - stenDiag.vel 0 i) 0 = G ![3, 3] 0 := by
  have h1 : (wallData (plain stenDiag) (fun _ => 4) (fun _ => 1) channelLab).map (fun p =>
      (p.1.link 1 ![1, 1]).flag) = some (-1) := by
    decide +kernel
  obtain ⟨⟨st, I⟩, hp⟩ := Option.isSome_iff_exists.1 (by decide +kernel :
    (wallData (plain stenDiag) (fun _ => 4) (fun _ => 1) channelLab).isSome = true)
  rw [hp] at h1
  have hflag : (st.link 1 ![1, 1]).flag = -1 := Option.some.inj h1
  have ho := wallData_onGrid (by decide) hp
  have hwf := plain_wf stenDiag_wf
  refine ⟨st, I, hwf, ho, rfl, ?_, hflag, fun t G => ?_⟩
  · refine ⟨by norm_num, by norm_num, ?_⟩
    simp [DomainSpec.facePos]
  · rw [wallBc_open hwf ho (fun t => ho.free hwf (plain_oneCell _) t) (y := ![0, 0]) 0 ?_ t]
    · unfold periodic
      congr 1
      funext i
      fin_cases i <;> decide
    · have e : (fun i => (![0, 0] : Cell 2) i + ((1 : Nat) : Int)) = ![1, 1] := by
        funext i; fin_cases i <;> rfl
      rw [e]
      show Open (st.link 1 ![1, 1]).flag
      rw [hflag]; decide

end Pylbm.Sim
