import Verif.Sim.Energy
import Verif.Boundary.Wall
import Verif.Sim.Bounds
/-!
# C108: without dissipation a run can be played backwards

With relaxation parameters 0 or 2 the collision is its own inverse. When the moments and the equilibria are even or odd
functions of the velocity, and the walls return the populations with bounce-back or anti-bounce-back, turning all the
populations round makes the simulation go back through its former states.
-/

set_option linter.unusedSectionVars false

namespace Pylbm.Sim
open Scheme Halo SchemeSpec Matrix HaloSpec Mpi Boundary

/-! ## Specification -/

section spec
variable {K : Type} [Field K] {nc d dim : Nat} {s : Sten dim}

/-- Two velocities of the same scheme which are opposite. -/
def Opposite (s : Sten dim) (j j' : Fin s.ns) : Prop := s.scheme j' = s.scheme j ∧ ∀ i, s.vel j' i = -s.vel j i

/-- The populations `f'` are those of `f` turned round. -/
def Reversed (s : Sten dim) (f f' : Fin s.ns → K) : Prop := ∀ j j', Opposite s j j' → f' j' = f j

/-- A scheme without dissipation: relaxation parameters 0 or 2, moments and equilibria which are even (`p i = 1`) or odd
(`p i = -1`) when the velocities are turned round. -/
structure Reversible (s : Sten dim) (S : Kernel K s.ns nc d) (p : Fin s.ns → K) : Prop where
  relaxation : ∀ i v, ¬ Conserved S i → S.s i v = 0 ∨ S.s i v = 2
  sign : ∀ i, p i = 1 ∨ p i = -1
  moments : ∀ i j j', Opposite s j j' → S.M i j' = p i * S.M i j
  equilibrium : ∀ i v, S.EQ i (fun l => p (S.consm l) * v l) = p i * S.EQ i v
  rates : ∀ i v, S.s i (fun l => p (S.consm l) * v l) = S.s i v

/-- The same walls which impose the states turned round, in the opposite order of time: at the time `τ - t` what the
first ones impose at the time `t`. -/
structure ReversedWalls (D D' : WallData K dim s) (τ : K) : Prop where
  elems : D'.elems = D.elems
  els : D'.els = D.els
  dico : D'.dico = D.dico
  values : ∀ label t x, Reversed s (D.ψ label t x) (D'.ψ label (τ - t) x)

end spec

/-! ## One cell -/

section local_
variable {K : Type} [Field K] {nc d dim : Nat} {s : Sten dim}

/-- The populations turned round. -/
def turn (s : Sten dim) (f : Fin s.ns → K) : Fin s.ns → K := fun j => f (s.sym j)

theorem turn_turn (hs : s.WF) (f : Fin s.ns → K) : turn s (turn s f) = f := by
  funext j
  simp only [turn, hs.sym_sym]

theorem opposite_sym (hs : s.WF) (j : Fin s.ns) : Opposite s j (s.sym j) := ⟨hs.scheme j, hs.sym j⟩

theorem reversed_iff (hs : s.WF) (f f' : Fin s.ns → K) : Reversed s f f' ↔ f' = turn s f := by
  constructor
  · intro h
    funext j
    have := h (s.sym j) (s.sym (s.sym j)) (opposite_sym hs _)
    rwa [hs.sym_sym] at this
  · rintro rfl j j' ⟨h1, h2⟩
    have : j = s.sym j' := hs.sym_unique h1.symm fun i => by rw [h2 i, neg_neg]
    rw [this]
    rfl

/-- The moments of the populations turned round. -/
theorem moments_turn (hs : s.WF) {S : Kernel K s.ns nc d} {p : Fin s.ns → K} (h : Reversible s S p)
    (f : Fin s.ns → K) (i : Fin s.ns) : (S.M *ᵥ turn s f) i = p i * (S.M *ᵥ f) i := by
  simp only [Matrix.mulVec, dotProduct, turn, Finset.mul_sum]
  refine Finset.sum_bij' (fun j _ => s.sym j) (fun j _ => s.sym j) (fun _ _ => Finset.mem_univ _)
    (fun _ _ => Finset.mem_univ _) (fun j _ => hs.sym_sym j) (fun j _ => hs.sym_sym j) fun j _ => ?_
  have := h.moments i (s.sym j) j ⟨(hs.scheme j).symm, fun i => by rw [hs.sym, neg_neg]⟩
  rw [this]
  ring

/-- The collision acts in the same way on the populations turned round. -/
theorem collision_turn (hs : s.WF) {S : Kernel K s.ns nc d} (hM : S.M * S.invM = 1) {p : Fin s.ns → K}
    (h : Reversible s S p) (f : Fin s.ns → K) :
    collision S.M S.invM S.consm S.EQ S.s (turn s f) = turn s (collision S.M S.invM S.consm S.EQ S.s f) := by
  have hi : S.invM * S.M = 1 := mul_eq_one_comm.1 hM
  have hc : ∀ g, S.M *ᵥ collision S.M S.invM S.consm S.EQ S.s g = relaxed S.consm S.EQ S.s (S.M *ᵥ g) := by
    intro g
    unfold collision
    rw [Matrix.mulVec_mulVec, hM, Matrix.one_mulVec]
  have hm : S.M *ᵥ collision S.M S.invM S.consm S.EQ S.s (turn s f) =
      S.M *ᵥ turn s (collision S.M S.invM S.consm S.EQ S.s f) := by
    funext i
    rw [moments_turn hs h, hc, hc]
    have e : (S.M *ᵥ turn s f) ∘ S.consm = fun l => p (S.consm l) * ((S.M *ᵥ f) ∘ S.consm) l := by
      funext l
      simp only [Function.comp_apply, moments_turn hs h]
    simp only [relaxed]
    rw [e, h.equilibrium, h.rates, moments_turn hs h]
    ring
  have := congrArg (S.invM *ᵥ ·) hm
  simpa only [Matrix.mulVec_mulVec, hi, Matrix.one_mulVec] using this

/-- The collision without dissipation is its own inverse. -/
theorem collision_collision {S : Kernel K s.ns nc d} (hEQ : ∀ j w, S.EQ (S.consm j) w = w j) (hM : S.M * S.invM = 1)
    {p : Fin s.ns → K} (h : Reversible s S p) (f : Fin s.ns → K) :
    collision S.M S.invM S.consm S.EQ S.s (collision S.M S.invM S.consm S.EQ S.s f) = f := by
  have hi : S.invM * S.M = 1 := mul_eq_one_comm.1 hM
  have hc : ∀ g, S.M *ᵥ collision S.M S.invM S.consm S.EQ S.s g = relaxed S.consm S.EQ S.s (S.M *ᵥ g) := by
    intro g
    unfold collision
    rw [Matrix.mulVec_mulVec, hM, Matrix.one_mulVec]
  have hcons : ∀ m : Fin s.ns → K, relaxed S.consm S.EQ S.s m ∘ S.consm = m ∘ S.consm := by
    intro m
    funext l
    simp only [relaxed, hEQ, Function.comp_apply]
    ring
  have hm : S.M *ᵥ collision S.M S.invM S.consm S.EQ S.s (collision S.M S.invM S.consm S.EQ S.s f) = S.M *ᵥ f := by
    rw [hc, hc]
    funext i
    by_cases hci : Conserved S i
    · obtain ⟨l, rfl⟩ := hci
      exact congrFun ((hcons _).trans (hcons _)) l
    · rw [relaxed, hcons]
      simp only [relaxed]
      rcases h.relaxation i ((S.M *ᵥ f) ∘ S.consm) hci with h0 | h0 <;> rw [h0] <;> ring
  have := congrArg (S.invM *ᵥ ·) hm
  simpa only [Matrix.mulVec_mulVec, hi, Matrix.one_mulVec] using this

/-- The generated collision. -/
theorem collide_collision (S : Kernel K s.ns nc d) (hEQ : ∀ j w, S.EQ (S.consm j) w = w j)
    (hS : ∀ i, S.source i = none) (hrel : S.relVel = none) (a : Algo) (f : Fin s.ns → K) :
    collide S a f = collision S.M S.invM S.consm S.EQ S.s f := by
  unfold collide
  rw [prog_eq]
  obtain ⟨h3, h4⟩ := step_collision S hEQ hS f ⟨0, 0, 0⟩
  cases a with
  | base => simp only [hrel, Option.isSome_none]; exact h4
  | pull => simp only [hrel, Option.isSome_none]; exact h3

end local_

/-! ## Runs -/

section runs
variable {K : Type} [Field K] {n dim : Nat}

/-- What arrives in the cell `y` from the walls and the other cells. -/
def arrive (N : Fin dim → Nat) (vel : Fin n → Cell dim) (bc : K → Arr K n dim → Arr K n dim) (t : K) (G : Arr K n dim) :
    Arr K n dim := fun y j => bc t (periodic N G) (fun i => y i - vel j i) j

/-- When the transport can be taken back on the populations changed by `R`, and the collision is its own inverse and
commutes with `R`, the run is taken back. -/
theorem run_back (N : Fin dim → Nat) (vel : Fin n → Cell dim) (φ R : (Fin n → K) → Fin n → K) (hφφ : ∀ f, φ (φ f) = f)
    (hφR : ∀ f, φ (R f) = R (φ f)) (bc bc' : K → Arr K n dim → Arr K n dim) (dt : K) (P : Cell dim → Prop) (q : Nat)
    (hback : ∀ (t : K) (G H : Arr K n dim), (∀ y, P y → H y = R (arrive N vel bc t G y)) →
      ∀ y, P y → arrive N vel bc' ((q : K) * dt - dt - t) H y = R (G y))
    (G H : Arr K n dim) (h0 : ∀ y, P y → H y = R (φ (lbmRun N vel φ bc dt G q y))) :
    ∀ i ≤ q, ∀ y, P y → lbmRun N vel φ bc' dt H i y = R (φ (lbmRun N vel φ bc dt G (q - i) y)) := by
  intro i
  induction i with
  | zero => intro _ y hy; exact h0 y hy
  | succ i ih =>
    intro hi y hy
    have hstep : ∀ z, P z → lbmRun N vel φ bc' dt H i z =
        R (arrive N vel bc (((q - i - 1 : Nat) : K) * dt) (lbmRun N vel φ bc dt G (q - i - 1)) z) := by
      intro z hz
      rw [ih (by omega) z hz]
      congr 1
      obtain ⟨r, hr⟩ : ∃ r, q - i = r + 1 := ⟨q - i - 1, by omega⟩
      rw [hr, Nat.add_sub_cancel]
      show φ (φ (arrive N vel bc ((r : K) * dt) (lbmRun N vel φ bc dt G r) z)) = _
      rw [hφφ]
    have ht : (i : K) * dt = (q : K) * dt - dt - ((q - i - 1 : Nat) : K) * dt := by
      have : (q : K) = ((q - i - 1 : Nat) : K) + i + 1 := by
        exact_mod_cast congrArg (Nat.cast (R := K)) (by omega : q = (q - i - 1) + i + 1)
      rw [this]; ring
    show φ (arrive N vel bc' ((i : K) * dt) (lbmRun N vel φ bc' dt H i) y) = _
    rw [ht, hback _ _ _ hstep y hy, hφR]
    rfl

end runs

/-! ## Walls -/

section walls
variable {K : Type} [Field K] [LinearOrder K] [IsStrictOrderedRing K] [FloorRing K] {nc d dim : Nat}

section
variable {s : Sten dim} {D D' : WallData K dim s} {N w : Fin dim → Nat} {lo : Fin dim → K} {dx : K}
  {lab : Fin dim → Bool → Int} {ST : Domain.State K dim s.nu} {J : List (Method dim × List (Entry K dim s.ns))}

theorem ReversedWalls.wf {τ : K} (h : ReversedWalls D D' τ) (hD : D.WF lab) : D'.WF lab := by
  obtain ⟨h1, h2, h3, -⟩ := h
  cases D'
  simp only at h1 h2 h3
  subst h1 h2 h3
  exact ⟨hD.sten, hD.sound, hD.labels, hD.dict, hD.no999, hD.noFace⟩

theorem ReversedWalls.onGrid {τ : K} (h : ReversedWalls D D' τ) (hJ : OnGrid D (boxGrid N w lo dx lab s) ST J) :
    OnGrid D' (boxGrid N w lo dx lab s) ST J := by
  obtain ⟨h1, h2, h3, -⟩ := h
  exact ⟨hJ.wf, hJ.vel, h1 ▸ hJ.built, by rw [h2, h3]; exact hJ.insts⟩

theorem reflecting_free (hD : D.WF lab) (hJ : OnGrid D (boxGrid N w lo dx lab s) ST J) (hrefl : Reflecting D) (t : K) :
    Free s (flat s (withValues s (boxGrid N w lo dx lab s) D.ψ J t)) := by
  refine OnGrid.free hJ hD (fun label ms hl p hp => ?_) t
  rcases hrefl label ms hl p hp with h | h <;> rw [h] <;> trivial

theorem reflecting_reads (hD : D.WF lab) (hJ : OnGrid D (boxGrid N w lo dx lab s) ST J) (hrefl : Reflecting D) :
    ReadsFluid D N w lo dx lab ST J := by
  refine oneCell_reads D N w lo dx lab hD ST J hJ (hJ.oneCell hD fun label ms hl p hp => ?_)
  rcases hrefl label ms hl p hp with h | h <;> rw [h] <;> trivial

/-- The incoming population of a link with bounce-back or anti-bounce-back: the outgoing one up to the sign, plus the
difference of the imposed populations with the same sign; the same link for the two sets of walls. -/
theorem wallBc_return (hD : D.WF lab) (hJ : OnGrid D (boxGrid N w lo dx lab s) ST J) {τ : K}
    (hrev : ReversedWalls D D' τ) (hmeth : AllMethods D) (hrefl : Reflecting D)
    {y : Cell dim} (hy : y ∈ box N) (j : Fin s.ns)
    (ho : ¬ Open (ST.link (s.ux (s.sym j)) (fun i => y i + w i)).flag) :
    ∃ (ε : K) (label : Int) (x : Fin dim → K), (ε = 1 ∨ ε = -1) ∧ ∀ (t : K) (H : Arr K s.ns dim),
      wallBc D N w lo dx lab J t H (fun i => y i - s.vel j i) j =
        ε * H y (s.sym j) + (D.ψ label t x j - ε * D.ψ label t x (s.sym j)) ∧
      wallBc D' N w lo dx lab J t H (fun i => y i - s.vel j i) j =
        ε * H y (s.sym j) + (D'.ψ label t x j - ε * D'.ψ label t x (s.sym j)) := by
  simp only [Open, List.mem_cons, List.not_mem_nil, or_false, not_or] at ho
  set X : Cell dim := fun i => y i + w i with hX
  have hint : (boxGrid N w lo dx lab s).Interior X := interior_shift hy
  set label := (ST.link (s.ux (s.sym j)) X).flag with hlabel
  have hmem : label ∈ listOfLabels (boxGrid N w lo dx lab s) D.els :=
    hJ.label_mem (g := boxGrid N w lo dx lab s) hD hint _ ho.1
  obtain ⟨all, hall, -⟩ := instances_spec s (boxGrid N w lo dx lab s).total ST.link _ D.dico J hJ.insts
  obtain ⟨ms, hms⟩ : ∃ ms, D.dico label = some ms :=
    Option.isSome_iff_exists.1 ((allEntries_spec s _ ST.link _ D.dico all hall).1 label hmem ho.2.1 ho.2.2)
  obtain ⟨m, hm⟩ := hmeth label ms hms j
  have hmb := hrefl label ms hms _ hm
  let en : Entry K dim s.ns := ⟨j, fun i => y i - s.vel j i + w i, label, (ST.link (s.ux (s.sym j)) X).dist⟩
  have hsrc : source s en = X := by
    funext i; simp only [source, en, hX]; ring
  have hen : (m, en) ∈ entries s J := by
    rw [mem_entries s _ ST.link hD.sten _ D.dico J hJ.insts]
    refine ⟨label, hmem, ho.2.1, ho.2.2, by rw [hms]; exact hm, rfl, ?_, ?_, ?_⟩
    · rw [hsrc]; exact mem_cells_interior hint
    · rw [hsrc]
    · rw [hsrc]
  have hin : Boundary.inner s 1 en = X := by
    rw [← hsrc]; funext i; simp [Boundary.inner, source]
  have e : (fun i => X i - (w i : Int)) = y := by funext i; simp [hX]
  have hrefl' : Reflecting D' := by
    unfold Reflecting
    rw [hrev.dico]
    exact hrefl
  have hval : ∀ (E : WallData K dim s), E.WF lab → OnGrid E (boxGrid N w lo dx lab s) ST J → Reflecting E →
      ∀ (t : K) (H : Arr K s.ns dim), wallBc E N w lo dx lab J t H (fun i => y i - s.vel j i) j =
      value s m (fun k X => H (fun i => X i - w i) k) (fun k X => H (fun i => X i - w i) k)
        ⟨en, E.ψ label t (wallPoint s (boxGrid N w lo dx lab s) en)⟩ := by
    intro E hE hJE hrE t H
    have o := hJE.onDomain hE t
    have n1 := o.nodup_positions hE.sten
    unfold wallBc
    rw [boundaryCondition_written s _ n1 (reflecting_free hE hJE hrE t)]
    refine written_mem s n1 (q := (m, ⟨en, E.ψ label t (wallPoint s (boxGrid N w lo dx lab s) en)⟩)) ?_
      (fun k X => H (fun i => X i - w i) k)
    rw [mem_withValues]
    exact ⟨hen, rfl⟩
  rcases hmb with h | h
  · refine ⟨1, label, wallPoint s (boxGrid N w lo dx lab s) en, Or.inl rfl, fun t H => ?_⟩
    simp only at h
    rw [hval D hD hJ hrefl, hval D' (hrev.wf hD) (hrev.onGrid hJ) hrefl', h]
    simp only [value, rhs]
    rw [hin]
    simp only [e, one_mul]
    exact ⟨rfl, rfl⟩
  · refine ⟨-1, label, wallPoint s (boxGrid N w lo dx lab s) en, Or.inr rfl, fun t H => ?_⟩
    simp only at h
    rw [hval D hD hJ hrefl, hval D' (hrev.wf hD) (hrev.onGrid hJ) hrefl', h]
    simp only [value, rhs]
    rw [hin]
    simp only [e, neg_one_mul, sub_neg_eq_add]
    exact ⟨rfl, rfl⟩

/-- The transport of the populations turned round, with the walls turned round, takes the transport back. -/
theorem arrive_back (hD : D.WF lab) (hJ : OnGrid D (boxGrid N w lo dx lab s) ST J) {τ : K}
    (hrev : ReversedWalls D D' τ) (hmeth : AllMethods D) (hrefl : Reflecting D) (hseal : Sealed N w ST) (t : K)
    (G H : Arr K s.ns dim)
    (hH : ∀ y ∈ box N, fluidMap w ST y = true → H y = turn s (arrive N s.vel (wallBc D N w lo dx lab J) t G y))
    {y : Cell dim} (hy : y ∈ box N) (hyf : fluidMap w ST y = true) :
    arrive N s.vel (wallBc D' N w lo dx lab J) (τ - t) H y = turn s (G y) := by
  have hs := hD.sten
  have hfree := reflecting_free hD hJ hrefl
  have hrefl' : Reflecting D' := by
    unfold Reflecting
    rw [hrev.dico]
    exact hrefl
  have hfree' := reflecting_free (hrev.wf hD) (hrev.onGrid hJ) hrefl'
  have hN : ∀ i, 0 < N i := fun i => by
    have := (mem_box N y).1 hy i
    omega
  funext j
  unfold arrive
  by_cases ho : Open (ST.link (s.ux (s.sym j)) (fun i => y i + w i)).flag
  · rw [wallBc_open (hrev.wf hD) (hrev.onGrid hJ) hfree' j ho]
    have hv : ∀ i, y i + s.uvel (s.ux (s.sym j)) i = y i - s.vel j i := by
      intro i
      have := hs.sym j i
      unfold Sten.vel at this ⊢
      rw [this]; ring
    have hop : ∀ i, s.uvel (s.ux j) i = -s.uvel (s.ux (s.sym j)) i := by
      intro i
      have := hs.sym j i
      unfold Sten.vel at this
      rw [this, neg_neg]
    obtain ⟨h1, h2⟩ := hseal y hy hyf (s.ux (s.sym j)) (s.ux j) hop ho
    simp only [hv] at h1 h2
    have hy2 := mod_mem_box hN (fun i => y i - s.vel j i)
    show H (fun i => (y i - s.vel j i) % N i) j = _
    rw [hH _ hy2 h1]
    unfold turn arrive
    have ho2 : Open (ST.link (s.ux (s.sym (s.sym j))) (fun i => (y i - s.vel j i) % (N i : Int) + w i)).flag := by
      rw [hs.sym_sym]
      exact h2
    rw [wallBc_open hD hJ hfree (s.sym j) ho2]
    show G (fun i => ((y i - s.vel j i) % (N i : Int) - s.vel (s.sym j) i) % N i) (s.sym j) = _
    congr 1
    funext i
    rw [hs.sym j i]
    have := (mem_box N y).1 hy i
    rw [sub_neg_eq_add, Int.emod_add_emod, sub_add_cancel]
    exact Int.emod_eq_of_lt this.1 this.2
  · obtain ⟨ε, label, x, hε, hq⟩ := wallBc_return hD hJ hrev hmeth hrefl hy j ho
    rw [(hq (τ - t) _).2, periodic_box H hy, hH y hy hyf]
    unfold turn arrive
    rw [hs.sym_sym, (hq t _).1, periodic_box G hy]
    have hψ := (reversed_iff hs _ _).1 (hrev.values label t x)
    rw [hψ]
    simp only [turn, hs.sym_sym]
    rcases hε with rfl | rfl <;> ring

end

/-- **C108.** Without dissipation a run can be played backwards. A scheme with relaxation parameters 0 or 2 and moments
and equilibria which are even or odd functions of the velocity, in a domain without holes (periodic, or closed by walls
and obstacles with bounce-back or anti-bounce-back), has done `k + l` time steps. The populations are relaxed once and
turned round in all the fluid cells, and a second simulation is started from them, whose walls impose the states turned
round in the opposite order of time. After `k` steps its populations are those which the first run had after `l` steps,
relaxed and turned round; relaxed and turned round again, they are those of the first run. -/
theorem C108_backwards (hdim : dim ≤ 3) {s : Sten dim} (D D' : WallData K dim s) (lo : Fin dim → K) (dx : K)
    (lab : Fin dim → Bool → Int) (hD : D.WF lab) (g : Grid dim)
    (ST : Domain.State K dim s.nu) (J : List (Method dim × List (Entry K dim s.ns)))
    (hJ : OnGrid D (boxGrid g.N g.w lo dx lab s) ST J)
    (hseal : Sealed g.N g.w ST) (hmeth : AllMethods D) (hrefl : Reflecting D)
    (S : Kernel K s.ns nc d) (hfront : ∀ j, (S.consm j : Nat) < nc) (hEQ : ∀ j w, S.EQ (S.consm j) w = w j)
    (hM : S.M * S.invM = 1) (hS : ∀ i, S.source i = none) (hrel : S.relVel = none)
    (p : Fin s.ns → K) (hp : Reversible s S p) (a a' : Algo)
    (k l : Nat) (hrev : ReversedWalls D D' (((k + l : Nat) : K) * S.dt - S.dt))
    (Q : Proc g → Setup K s.ns nc d dim) (hQ : FluidRun D g lo dx lab S a Q)
    (Q' : Proc g → Setup K s.ns nc d dim) (hQ' : FluidRun D' g lo dx lab S a' Q')
    (σ₀ : Proc g → Simu K s.ns d dim) (h0 : ∀ c, (σ₀ c).Start (Q c))
    (σ : Proc g → Simu K s.ns d dim) (hσ : PRun g Q σ₀ (k + l) σ)
    (ρ : Proc g → Simu K s.ns d dim) (hρ : PRun g Q σ₀ l ρ)
    (τ₀ : Proc g → Simu K s.ns d dim) (h0' : ∀ c, (τ₀ c).Start (Q' c))
    (hτ₀ : ∀ c x, Owned (size g c) g.w x → fluidMap g.w ST (globalPos (first g c) g.w x) = true →
      Reversed s (collision S.M S.invM S.consm S.EQ S.s ((σ c).arr x)) ((τ₀ c).arr x))
    (τ : Proc g → Simu K s.ns d dim) (hτ : PRun g Q' τ₀ k τ)
    (c : Proc g) (x : Cell dim) (hx : Owned (size g c) g.w x)
    (hf : fluidMap g.w ST (globalPos (first g c) g.w x) = true) :
    Reversed s (collision S.M S.invM S.consm S.EQ S.s ((ρ c).arr x)) ((τ c).arr x) ∧
    Reversed s (collision S.M S.invM S.consm S.EQ S.s ((τ c).arr x)) ((ρ c).arr x) := by
  have hs := hD.sten
  have hD' := hrev.wf hD
  have hJ' := hrev.onGrid hJ
  have hrefl' : Reflecting D' := by
    unfold Reflecting
    rw [hrev.dico]
    exact hrefl
  have hmeth' : AllMethods D' := by
    unfold AllMethods
    rw [hrev.dico]
    exact hmeth
  have hfree := reflecting_free hD hJ hrefl
  have hfree' := reflecting_free hD' hJ' hrefl'
  have hlinks : AllLinks g.N g.w ST := by
    intro y hy hyf u
    by_cases h : Open (ST.link u (fun i => y i + g.w i)).flag
    · exact Or.inl (hseal y hy hyf u (s.usym u) (hD.sten.usym u) h).1
    · exact Or.inr h
  have hfb := fluidBoundary_walls D g.N g.w lo dx lab hD ST J hJ hfree hlinks hmeth (reflecting_reads hD hJ hrefl)
  have hfb' := fluidBoundary_walls D' g.N g.w lo dx lab hD' ST J hJ' hfree' hlinks hmeth'
    (reflecting_reads hD' hJ' hrefl')
  obtain ⟨G, hG⟩ := C15_global_array_exists g fun c => (σ₀ c).arr
  obtain ⟨H, hH⟩ := C15_global_array_exists g fun c => (τ₀ c).arr
  have run := fun i ρ hr => (C73_fluid_cells hdim g hQ.walls.large S hfront s.vel a _ Q (hQ.uniform hD ST hJ.built) _
    (sameBoundary_walls D g lo dx lab hD Q hQ.walls ST J hJ hfree) hfb σ₀ h0 G
    (fun c x hx _ => hG c x hx) i ρ hr).2
  have run' := (C73_fluid_cells hdim g hQ'.walls.large S hfront s.vel a' _ Q' (hQ'.uniform hD' ST hJ'.built) _
    (sameBoundary_walls D' g lo dx lab hD' Q' hQ'.walls ST J hJ' hfree') hfb' τ₀ h0' H
    (fun c x hx _ => hH c x hx) k τ hτ).2
  set φ : (Fin s.ns → K) → Fin s.ns → K := collision S.M S.invM S.consm S.EQ S.s with hφ
  have hca : ∀ a, collide S a = φ := fun a => funext fun f => collide_collision S hEQ hS hrel a f
  rw [hca] at run run'
  have hφφ : ∀ f, φ (φ f) = f := collision_collision hEQ hM hp
  have hφt : ∀ f, φ (turn s f) = turn s (φ f) := collision_turn hs hM hp
  have key := run_back g.N s.vel φ (turn s) hφφ hφt (wallBc D g.N g.w lo dx lab J) (wallBc D' g.N g.w lo dx lab J) S.dt
    (fun y => y ∈ box g.N ∧ fluidMap g.w ST y = true) (k + l)
    (fun t A B hAB y hy => arrive_back hD hJ hrev hmeth hrefl hseal t A B (fun z hz hzf => hAB z ⟨hz, hzf⟩) hy.1 hy.2)
    G H (by
      rintro y ⟨hy, hyf⟩
      obtain ⟨c, x, hx, rfl⟩ := exists_owned g _ hy
      have h1 := (reversed_iff hs _ _).1 (hτ₀ c x hx hyf)
      rw [← hH c x hx, h1, run (k + l) σ hσ c x hx hyf])
  have h1 : (τ c).arr x = turn s (φ ((ρ c).arr x)) := by
    rw [run' c x hx hf, key k (Nat.le_add_right _ _) _ ⟨owned_box g hx, hf⟩, run l ρ hρ c x hx hf, Nat.add_sub_cancel_left]
  refine ⟨(reversed_iff hs _ _).2 h1, (reversed_iff hs _ _).2 ?_⟩
  rw [h1, hφt, hφφ, turn_turn hs]

end walls

/-! ## Periodic domains -/

section periodic_
variable {K : Type} [Field K] [LinearOrder K] [IsStrictOrderedRing K] [FloorRing K] {nc d dim : Nat}

/-- **C108 on periodic domains**, for any decompositions and schedules of the messages: no boundary condition. -/
theorem C108_periodic (hdim : dim ≤ 3) {s : Sten dim} (hs : s.WF) (g : Grid dim) (hlarge : ∀ c i, g.w i ≤ size g c i)
    (hv : ∀ j i, |s.vel j i| ≤ g.w i)
    (S : Kernel K s.ns nc d) (hfront : ∀ j, (S.consm j : Nat) < nc) (hEQ : ∀ j w, S.EQ (S.consm j) w = w j)
    (hM : S.M * S.invM = 1) (hS : ∀ i, S.source i = none) (hrel : S.relVel = none)
    (p : Fin s.ns → K) (hp : Reversible s S p) (a a' : Algo) (k l : Nat)
    (Q : Proc g → Setup K s.ns nc d dim) (hQ : Uniform g S s.vel a Q) (hQb : ∀ c t A, (Q c).bc t A = A)
    (Q' : Proc g → Setup K s.ns nc d dim) (hQ' : Uniform g S s.vel a' Q') (hQb' : ∀ c t A, (Q' c).bc t A = A)
    (σ₀ : Proc g → Simu K s.ns d dim) (h0 : ∀ c, (σ₀ c).Start (Q c))
    (σ : Proc g → Simu K s.ns d dim) (hσ : PRun g Q σ₀ (k + l) σ)
    (ρ : Proc g → Simu K s.ns d dim) (hρ : PRun g Q σ₀ l ρ)
    (τ₀ : Proc g → Simu K s.ns d dim) (h0' : ∀ c, (τ₀ c).Start (Q' c))
    (hτ₀ : ∀ c x, Owned (size g c) g.w x →
      Reversed s (collision S.M S.invM S.consm S.EQ S.s ((σ c).arr x)) ((τ₀ c).arr x))
    (τ : Proc g → Simu K s.ns d dim) (hτ : PRun g Q' τ₀ k τ)
    (c : Proc g) (x : Cell dim) (hx : Owned (size g c) g.w x) :
    Reversed s (collision S.M S.invM S.consm S.EQ S.s ((ρ c).arr x)) ((τ c).arr x) ∧
    Reversed s (collision S.M S.invM S.consm S.EQ S.s ((τ c).arr x)) ((ρ c).arr x) := by
  obtain ⟨G, hG⟩ := C15_global_array_exists g fun c => (σ₀ c).arr
  obtain ⟨H, hH⟩ := C15_global_array_exists g fun c => (τ₀ c).arr
  have run := fun i ρ hr => (C42_global_partial hdim g hlarge S hfront s.vel a Q hQ _
    (sameBoundary_periodic g s.vel hv Q hQb) σ₀ h0 G hG i ρ hr).2
  have run' := (C42_global_partial hdim g hlarge S hfront s.vel a' Q' hQ' _
    (sameBoundary_periodic g s.vel hv Q' hQb') τ₀ h0' H hH k τ hτ).2
  set φ : (Fin s.ns → K) → Fin s.ns → K := collision S.M S.invM S.consm S.EQ S.s with hφ
  have hca : ∀ a, collide S a = φ := fun a => funext fun f => collide_collision S hEQ hS hrel a f
  rw [hca] at run run'
  have hφφ : ∀ f, φ (φ f) = f := collision_collision hEQ hM hp
  have hφt : ∀ f, φ (turn s f) = turn s (φ f) := collision_turn hs hM hp
  have key := run_back g.N s.vel φ (turn s) hφφ hφt (fun _ A => A) (fun _ A => A) S.dt (fun y => y ∈ box g.N) (k + l)
    (fun t A B hAB y hy => by
      have hN : ∀ i, 0 < g.N i := fun i => by
        have := (mem_box g.N y).1 hy i
        omega
      funext j
      show B (fun i => (y i - s.vel j i) % g.N i) j = _
      rw [hAB _ (mod_mem_box hN _)]
      show A (fun i => ((y i - s.vel j i) % (g.N i : Int) - s.vel (s.sym j) i) % g.N i) (s.sym j) = _
      unfold turn
      congr 1
      funext i
      have := (mem_box g.N y).1 hy i
      rw [hs.sym j i, sub_neg_eq_add, Int.emod_add_emod, sub_add_cancel]
      exact Int.emod_eq_of_lt this.1 this.2)
    G H (by
      intro y hy
      obtain ⟨c, x, hx, rfl⟩ := exists_owned g _ hy
      have h1 := (reversed_iff hs _ _).1 (hτ₀ c x hx)
      rw [← hH c x hx, h1, run (k + l) σ hσ c x hx])
  have h1 : (τ c).arr x = turn s (φ ((ρ c).arr x)) := by
    rw [run' c x hx, key k (Nat.le_add_right _ _) _ (owned_box g hx), run l ρ hρ c x hx, Nat.add_sub_cancel_left]
  refine ⟨(reversed_iff hs _ _).2 h1, (reversed_iff hs _ _).2 ?_⟩
  rw [h1, hφt, hφφ, turn_turn hs]

/-- **C108, the moments.** What the first conjunct of `C108_backwards` and `C108_periodic` means for the conserved
moments of a cell: those which are even in the velocity (the density) have their former values, those which are odd
(the momentum) the opposite ones. -/
theorem C108_moments {s : Sten dim} (hs : s.WF) (S : Kernel K s.ns nc d) (hEQ : ∀ j w, S.EQ (S.consm j) w = w j)
    (hM : S.M * S.invM = 1) (p : Fin s.ns → K) (hp : Reversible s S p) (f f' : Fin s.ns → K)
    (h : Reversed s (collision S.M S.invM S.consm S.EQ S.s f) f') (l : Fin nc) :
    (S.M *ᵥ f') (S.consm l) = p (S.consm l) * (S.M *ᵥ f) (S.consm l) := by
  rw [(reversed_iff hs _ _).1 h, moments_turn hs hp]
  congr 1
  unfold collision
  rw [Matrix.mulVec_mulVec, hM, Matrix.one_mulVec]
  simp only [relaxed, hEQ, Function.comp_apply]
  ring

/-- The moments which are not at the equilibrium are multiplied at each collision. -/
theorem deviation_iterate {s : Sten dim} (S : Kernel K s.ns nc d) (hEQ : ∀ j w, S.EQ (S.consm j) w = w j)
    (hM : S.M * S.invM = 1) (i : Fin s.ns) (r : K) (hr : ∀ v, S.s i v = r) (f : Fin s.ns → K) (k : Nat) :
    (S.M *ᵥ (collision S.M S.invM S.consm S.EQ S.s)^[k] f) ∘ S.consm = (S.M *ᵥ f) ∘ S.consm ∧
    (S.M *ᵥ (collision S.M S.invM S.consm S.EQ S.s)^[k] f) i - S.EQ i ((S.M *ᵥ f) ∘ S.consm) =
      (1 - r) ^ k * ((S.M *ᵥ f) i - S.EQ i ((S.M *ᵥ f) ∘ S.consm)) := by
  have hc : ∀ g, S.M *ᵥ collision S.M S.invM S.consm S.EQ S.s g = relaxed S.consm S.EQ S.s (S.M *ᵥ g) := by
    intro g
    unfold collision
    rw [Matrix.mulVec_mulVec, hM, Matrix.one_mulVec]
  induction k with
  | zero => exact ⟨rfl, by simp⟩
  | succ k ih =>
    rw [Function.iterate_succ_apply', hc]
    constructor
    · rw [← ih.1]
      funext l
      simp only [relaxed, hEQ, Function.comp_apply]
      ring
    · simp only [relaxed, ih.1, hr]
      rw [pow_succ]
      linear_combination (1 - r) * ih.2

/-- **C108 needs relaxation parameters 0 or 2.** With any other value for one moment, from no uniform state in which
this moment is not at its equilibrium a run on a periodic domain can be taken back in this way, whatever the number of
steps (even when everything else has the symmetry): energy has been dissipated, or created. -/
theorem C108_dissipation (hdim : dim ≤ 3) {s : Sten dim} (hs : s.WF) (g : Grid dim)
    (hlarge : ∀ c i, g.w i ≤ size g c i) (hv : ∀ j i, |s.vel j i| ≤ g.w i)
    (S : Kernel K s.ns nc d) (hfront : ∀ j, (S.consm j : Nat) < nc) (hEQ : ∀ j w, S.EQ (S.consm j) w = w j)
    (hM : S.M * S.invM = 1) (hS : ∀ i, S.source i = none) (hrel : S.relVel = none)
    (hturn : ∀ f, collision S.M S.invM S.consm S.EQ S.s (turn s f) = turn s (collision S.M S.invM S.consm S.EQ S.s f))
    (i : Fin s.ns) (r : K) (hr : ∀ v, S.s i v = r) (hr0 : r ≠ 0) (hr2 : r ≠ 2) (a a' : Algo) (k : Nat)
    (Q : Proc g → Setup K s.ns nc d dim) (hQ : Uniform g S s.vel a Q) (hQb : ∀ c t A, (Q c).bc t A = A)
    (Q' : Proc g → Setup K s.ns nc d dim) (hQ' : Uniform g S s.vel a' Q') (hQb' : ∀ c t A, (Q' c).bc t A = A)
    (f : Fin s.ns → K) (hf : (S.M *ᵥ f) i ≠ S.EQ i ((S.M *ᵥ f) ∘ S.consm))
    (σ₀ : Proc g → Simu K s.ns d dim) (h0 : ∀ c, (σ₀ c).Start (Q c))
    (hσ₀ : ∀ c x, Owned (size g c) g.w x → (σ₀ c).arr x = f)
    (σ : Proc g → Simu K s.ns d dim) (hσ : PRun g Q σ₀ k σ)
    (τ₀ : Proc g → Simu K s.ns d dim) (h0' : ∀ c, (τ₀ c).Start (Q' c))
    (hτ₀ : ∀ c x, Owned (size g c) g.w x →
      Reversed s (collision S.M S.invM S.consm S.EQ S.s ((σ c).arr x)) ((τ₀ c).arr x))
    (τ : Proc g → Simu K s.ns d dim) (hτ : PRun g Q' τ₀ k τ)
    (c : Proc g) (x : Cell dim) (hx : Owned (size g c) g.w x) :
    ¬ Reversed s (collision S.M S.invM S.consm S.EQ S.s ((τ c).arr x)) ((σ₀ c).arr x) := by
  have run := (C42_global_partial hdim g hlarge S hfront s.vel a Q hQ _
    (sameBoundary_periodic g s.vel hv Q hQb) σ₀ h0 (fun _ => f) hσ₀ k σ hσ).2
  set φ : (Fin s.ns → K) → Fin s.ns → K := collision S.M S.invM S.consm S.EQ S.s with hφ
  have hca : ∀ a, collide S a = φ := fun a => funext fun f => collide_collision S hEQ hS hrel a f
  have hunif : ∀ (f : Fin s.ns → K) q, lbmRun g.N s.vel φ (fun _ A => A) S.dt (fun _ => f) q = fun _ => φ^[q] f := by
    intro f q
    induction q with
    | zero => rfl
    | succ q ih =>
      show lbmStep g.N s.vel φ (fun _ A => A) (q * S.dt) (lbmRun _ _ _ _ _ _ q) = _
      rw [ih, Function.iterate_succ_apply']
      rfl
  rw [hca, hunif] at run
  have hτ₁ : ∀ c x, Owned (size g c) g.w x → (τ₀ c).arr x = turn s (φ^[k + 1] f) := by
    intro c x hx
    rw [(reversed_iff hs _ _).1 (hτ₀ c x hx), run c x hx, Function.iterate_succ_apply']
  have run' := (C42_global_partial hdim g hlarge S hfront s.vel a' Q' hQ' _
    (sameBoundary_periodic g s.vel hv Q' hQb') τ₀ h0' (fun _ => turn s (φ^[k + 1] f)) hτ₁ k τ hτ).2
  rw [hca, hunif] at run'
  have hit : ∀ q (f : Fin s.ns → K), φ^[q] (turn s f) = turn s (φ^[q] f) := by
    intro q f
    induction q with
    | zero => rfl
    | succ q ih => rw [Function.iterate_succ_apply', ih, hturn, Function.iterate_succ_apply']
  intro h
  have h1 := (reversed_iff hs _ _).1 h
  rw [hσ₀ c x hx, run' c x hx, hit, hturn, turn_turn hs, ← Function.iterate_add_apply,
    ← Function.iterate_succ_apply' φ] at h1
  have h2 := (deviation_iterate S hEQ hM i r hr f (k + (k + 1) + 1)).2
  rw [← hφ, ← h1] at h2
  have h3 : (1 - r) ^ (2 * (k + 1)) = 1 := by
    have h4 : (S.M *ᵥ f) i - S.EQ i ((S.M *ᵥ f) ∘ S.consm) ≠ 0 := sub_ne_zero.2 hf
    have h5 : k + (k + 1) + 1 = 2 * (k + 1) := by ring
    rw [h5] at h2
    exact mul_right_cancel₀ h4 (by rw [one_mul]; exact h2.symm)
  rw [pow_mul] at h3
  have h6 : (1 - r) ^ 2 = 1 := (pow_eq_one_iff_of_nonneg (sq_nonneg _) (Nat.succ_ne_zero k)).1 h3
  have h7 : r * (r - 2) = 0 := by linear_combination h6
  rcases mul_eq_zero.1 h7 with h8 | h8
  · exact hr0 h8
  · exact hr2 (by linear_combination h8)

end periodic_

end Pylbm.Sim
