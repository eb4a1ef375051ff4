import Verif.Sim.Rest
import Verif.Boundary.Wall
/-!
# C107: flows which the scheme and the walls keep exactly

A flow gives the populations at every point of space and at every time, not only at the centres of the cells. When the
collision carries it one time step further and the walls return it to the fluid, the simulation started from it computes
it without any error.
-/

set_option linter.unusedSectionVars false

namespace Pylbm.Sim
open Scheme Halo SchemeSpec Matrix HaloSpec Mpi Boundary

/-! ## Specification -/

section spec
variable {K : Type} [Field K] {n dim : Nat}

/-- The centre of the cell `y` of the global grid. -/
def cellPoint (lo : Fin dim → K) (dx : K) (y : Cell dim) : Fin dim → K := fun i => lo i + dx * ((y i : K) + 1 / 2)

/-- A flow: the populations at the time `t` and at the point `p`. -/
abbrev Flow (K : Type) (dim n : Nat) := K → (Fin dim → K) → Fin n → K

/-- The transport and the collision `φ` carry the flow from one time to the next. -/
def Solves (φ : (Fin n → K) → Fin n → K) (vel : Fin n → Cell dim) (dx dt : K) (F : Flow K dim n) : Prop :=
  ∀ t p, φ (fun j => F t (fun i => p i - dx * (vel j i : K)) j) = F (t + dt) p

/-- The flow is periodic along the axes `per`, with the period of the box. -/
def Repeats (N : Fin dim → Nat) (dx : K) (per : Fin dim → Prop) (F : Flow K dim n) : Prop :=
  ∀ t p q, (∀ i, q i = p i ∨ per i ∧ ∃ z : Int, q i = p i + dx * ((N i : K) * z)) → F t q = F t p

variable [LinearOrder K]

/-- The wall returns the flow to the fluid: at the point `p`, whose link meets the wall at the distance `d` (in units of
the link) in the direction opposite to the velocity `j`, the value of the boundary method `m` is the population `j` of
the flow at the other end of the link, from where it arrives at `p`. The velocity `j'` is opposite to `j`; `ψ` is the
state imposed by the user, taken where the link meets the wall. -/
def Returns (m : Method dim) (vel : Fin n → Cell dim) (dx d : K) (F ψ : Flow K dim n) (j j' : Fin n) (t : K)
    (p : Fin dim → K) : Prop :=
  reflection m d (F t p j') (F t p j) (F t (fun i => p i + dx * (vel j i : K)) j')
    (F t (fun i => if m = .neumannAxis i then p i else p i - dx * (vel j i : K)) j)
    (ψ t (fun i => p i - d * (dx * (vel j i : K))) j') (ψ t (fun i => p i - d * (dx * (vel j i : K))) j) =
  F t (fun i => p i - dx * (vel j i : K)) j

end spec

section walls
variable {K : Type} [Field K] [LinearOrder K] [IsStrictOrderedRing K] [FloorRing K] {nc d dim : Nat}

/-- Every link of a fluid cell on which no boundary condition acts leads to a fluid cell, and leaves the box only along
the axes `per`. -/
def OpenLinks {s : Sten dim} (N w : Fin dim → Nat) (per : Fin dim → Prop) (ST : Domain.State K dim s.nu) : Prop :=
  ∀ y ∈ box N, fluidMap w ST y = true → ∀ k : Fin s.nu, Open (ST.link k (fun i => y i + w i)).flag →
    periodic N (fluidMap w ST) (fun i => y i + s.uvel k i) = true ∧
    ∀ i, per i ∨ 0 ≤ y i + s.uvel k i ∧ y i + s.uvel k i < N i

/-- The boundary methods read cells of the box, up to the period along the axes `per`. -/
def ReadsInside {s : Sten dim} (D : WallData K dim s) (N w : Fin dim → Nat) (lo : Fin dim → K) (dx : K)
    (lab : Fin dim → Bool → Int) (per : Fin dim → Prop) (J : List (Method dim × List (Entry K dim s.ns))) : Prop :=
  ∀ t, ∀ q ∈ flat s (withValues s (boxGrid N w lo dx lab s) D.ψ J t), ∀ p ∈ Boundary.reads s q.1 q.2,
    ∀ i, per i ∨ 0 ≤ p.2 i - w i ∧ p.2 i - w i < N i

/-- The walls of the domain return the flow: on every link of a fluid cell with a boundary condition. -/
def WallsReturn {s : Sten dim} (D : WallData K dim s) (N w : Fin dim → Nat) (lo : Fin dim → K) (dx : K)
    (ST : Domain.State K dim s.nu) (F : Flow K dim s.ns) : Prop :=
  ∀ y ∈ box N, fluidMap w ST y = true → ∀ u (j j' : Fin s.ns), ¬ Open (ST.link u fun i => y i + w i).flag →
    (∀ i, s.uvel u i = -s.vel j i) → s.scheme j' = s.scheme j → (∀ i, s.vel j' i = -s.vel j i) →
    ∀ ms, D.dico (ST.link u fun i => y i + w i).flag = some ms → ∀ m, (s.scheme j, m) ∈ ms →
    ∀ t, Returns m s.vel dx (ST.link u fun i => y i + w i).dist F (D.ψ (ST.link u fun i => y i + w i).flag) j j' t
      (cellPoint lo dx y)

theorem allLinks_of_open {s : Sten dim} {N w : Fin dim → Nat} {per : Fin dim → Prop} {ST : Domain.State K dim s.nu}
    (h : OpenLinks N w per ST) : AllLinks N w ST := by
  intro y hy hyf k
  by_cases ho : Open (ST.link k (fun i => y i + w i)).flag
  · exact Or.inl (h y hy hyf k ho).1
  · exact Or.inr ho

/-- The methods which read one cell read the cell of the link. -/
theorem oneCell_inside {s : Sten dim} (D : WallData K dim s) (N w : Fin dim → Nat) (lo : Fin dim → K) (dx : K)
    (lab : Fin dim → Bool → Int) (hD : D.WF lab) (ST : Domain.State K dim s.nu)
    (J : List (Method dim × List (Entry K dim s.ns))) (hJ : OnGrid D (boxGrid N w lo dx lab s) ST J)
    (hone : ∀ p ∈ J, OneCell p.1) (per : Fin dim → Prop) : ReadsInside D N w lo dx lab per J := by
  intro t q hq p hp i
  right
  have hcell : p.2 = source s q.2.toEntry := by
    have h1 : OneCell q.1 := by
      obtain ⟨r, hr, hr'⟩ := List.mem_flatMap.1 hq
      obtain ⟨it, _, rfl⟩ := List.mem_map.1 hr'
      obtain ⟨r0, hr0, rfl⟩ := List.mem_map.1 hr
      exact hone r0 hr0
    have : p.2 = Boundary.inner s 1 q.2.toEntry := by
      cases hq1 : q.1 <;> rw [hq1] at h1 hp <;> simp only [OneCell] at h1 <;>
        simp only [Boundary.reads, List.mem_singleton] at hp <;> rw [hp]
    rw [this]
    funext j; simp [Boundary.inner, source]
  obtain ⟨h1, -⟩ := (hJ.onDomain hD t).item hD.sten (no999_list (g := boxGrid N w lo dx lab s) hD) hq
  have hn : (boxGrid N w lo dx lab s).n i = N i := by simp [Domain.Grid.n, boxGrid]
  have := h1 i
  rw [hn, ← hcell] at this
  change (w i : Int) ≤ p.2 i ∧ p.2 i < w i + N i at this
  omega

section
variable {s : Sten dim} {D : WallData K dim s} {N w : Fin dim → Nat} {lo : Fin dim → K} {dx : K}
  {lab : Fin dim → Bool → Int} {ST : Domain.State K dim s.nu} {J : List (Method dim × List (Entry K dim s.ns))}
  {per : Fin dim → Prop}

/-- A flow with the period of the box is its own periodic extension. -/
theorem periodic_flow {F : Flow K dim s.ns} (hF : Repeats N dx per F) (t : K) {y : Cell dim}
    (hy : ∀ i, per i ∨ 0 ≤ y i ∧ y i < N i) :
    periodic N (fun z => F t (cellPoint lo dx z)) y = F t (cellPoint lo dx y) := by
  unfold periodic
  apply hF
  intro i
  unfold cellPoint
  rcases hy i with h | h
  · right
    refine ⟨h, -(y i / N i), ?_⟩
    have e : (((y i % (N i : Int) : Int)) : K) = (y i : K) - (N i : K) * ((y i / (N i : Int) : Int) : K) := by
      rw [Int.emod_def]; push_cast; ring
    rw [e]; push_cast; ring
  · left
    beta_reduce
    rw [Int.emod_eq_of_lt h.1 h.2]

/-- The value of a boundary method on the array of a flow which the walls return. -/
theorem value_flow (m : Method dim) (it : Item K dim s.ns) (F ψ : Flow K dim s.ns) (t : K) (y : Cell dim)
    (hcell : it.cell = fun i => y i - s.vel it.k i + w i)
    (hψ : it.feq = ψ t fun i => cellPoint lo dx y i - it.dist * (dx * (s.vel it.k i : K)))
    (h : Returns m s.vel dx it.dist F ψ it.k (s.sym it.k) t (cellPoint lo dx y)) :
    value s m (fun k X => F t (cellPoint lo dx fun i => X i - w i) k)
      (fun k X => F t (cellPoint lo dx fun i => X i - w i) k) it =
      F t (cellPoint lo dx fun i => y i - s.vel it.k i) it.k := by
  have e0 : cellPoint lo dx (fun i => y i - s.vel it.k i) =
      fun i => cellPoint lo dx y i - dx * (s.vel it.k i : K) := by
    funext i; unfold cellPoint; push_cast; ring
  have e1 : (cellPoint lo dx fun i => Boundary.inner s 1 it.toEntry i - w i) = cellPoint lo dx y := by
    congr 1
    funext i
    unfold Boundary.inner
    rw [hcell]; ring
  have e2 : (cellPoint lo dx fun i => Boundary.inner s 2 it.toEntry i - w i) =
      fun i => cellPoint lo dx y i + dx * (s.vel it.k i : K) := by
    funext i
    unfold Boundary.inner cellPoint
    rw [hcell]; push_cast; ring
  rw [e0]
  unfold Returns at h
  rw [← h, ← hψ]
  cases m with
  | bounceBack => simp only [value, rhs, reflection, e1]
  | antiBounceBack => simp only [value, rhs, reflection, e1]
  | neumann => simp only [value, reflection, e1]
  | neumannAxis a =>
    simp only [value, reflection]
    congr 1
    funext i
    unfold cellPoint
    rw [hcell]
    by_cases hi : i = a
    · subst hi; simp only [if_true]; push_cast; ring
    · have : (Method.neumannAxis a : Method dim) ≠ .neumannAxis i := by
        intro hh; injection hh with hh; exact hi hh.symm
      simp only [hi, this, if_false]; push_cast; ring
  | bouzidiBounceBack =>
    simp only [value, rhs, reflection, load0, load1, weight, e1]
    split_ifs
    · simp only [e2]
    · ring
  | bouzidiAntiBounceBack =>
    simp only [value, rhs, reflection, load0, load1, weight, e1]
    split_ifs
    · simp only [e2]
    · ring

/-- What arrives in a fluid cell after the boundary conditions is the flow at the other end of the link. -/
theorem wallBc_flow (hD : D.WF lab) (hJ : OnGrid D (boxGrid N w lo dx lab s) ST J)
    (hfree : ∀ t, Free s (flat s (withValues s (boxGrid N w lo dx lab s) D.ψ J t)))
    (hlinks : OpenLinks N w per ST) (hmeth : AllMethods D) (hin : ReadsInside D N w lo dx lab per J)
    {F : Flow K dim s.ns} (hF : Repeats N dx per F) (hwall : WallsReturn D N w lo dx ST F) (t : K) {y : Cell dim}
    (hy : y ∈ box N) (hyf : fluidMap w ST y = true) (j : Fin s.ns) :
    wallBc D N w lo dx lab J t (periodic N fun z => F t (cellPoint lo dx z)) (fun i => y i - s.vel j i) j =
      F t (fun i => cellPoint lo dx y i - dx * (s.vel j i : K)) j := by
  have o := hJ.onDomain hD t
  have n1 := o.nodup_positions hD.sten
  have hsym : ∀ i, s.vel (s.sym j) i = -s.vel j i := fun i => hD.sten.sym j i
  have e0 : cellPoint lo dx (fun i => y i - s.vel j i) =
      fun i => cellPoint lo dx y i - dx * (s.vel j i : K) := by
    funext i; unfold cellPoint; push_cast; ring
  rw [← e0]
  unfold wallBc
  rw [boundaryCondition_written s _ n1 (hfree t)]
  by_cases hpos : (j, fun i => y i - s.vel j i + (w i : Int)) ∈
      positions s (flat s (withValues s (boxGrid N w lo dx lab s) D.ψ J t))
  · obtain ⟨⟨m, it⟩, hq, hqe⟩ := List.mem_map.1 hpos
    simp only [Prod.mk.injEq] at hqe
    obtain ⟨hk, hcell⟩ := hqe
    subst hk
    have w1 := written_mem s n1 hq (fun k X => periodic N (fun z => F t (cellPoint lo dx z)) (fun i => X i - w i) k)
    simp only [hcell] at w1
    rw [w1]
    have hr : ∀ p ∈ Boundary.reads s m it,
        (fun k X => periodic N (fun z => F t (cellPoint lo dx z)) (fun i => X i - (w i : Int)) k) p.1 p.2 =
        (fun k X => F t (cellPoint lo dx fun i => X i - (w i : Int)) k) p.1 p.2 := by
      intro p hp
      exact congrFun (periodic_flow hF t (hin t _ hq p hp)) p.1
    rw [value_congr s (f' := fun k X => F t (cellPoint lo dx fun i => X i - (w i : Int)) k)
      (g' := fun k X => F t (cellPoint lo dx fun i => X i - (w i : Int)) k) hr hr]
    obtain ⟨he, hψ⟩ := (mem_withValues s _ D.ψ J t m it).1 hq
    obtain ⟨label, hl0, hl1, hl2, hms, hlab, -, hflag, hdist⟩ :=
      (mem_entries s _ ST.link hD.sten _ D.dico J hJ.insts m it.toEntry).1 he
    have hsrc : source s it.toEntry = fun i => y i + (w i : Int) := by
      funext i; simp only [source, hcell]; ring
    rw [hsrc] at hflag hdist
    obtain ⟨ms, h4⟩ : ∃ ms, D.dico label = some ms := by
      cases h : D.dico label with
      | none => rw [h] at hms; simp at hms
      | some ms => exact ⟨ms, rfl⟩
    rw [h4] at hms
    have hpt : wallPoint s (boxGrid N w lo dx lab s) it.toEntry =
        fun i => cellPoint lo dx y i - it.dist * (dx * (s.vel it.k i : K)) := by
      funext i
      have := o.wall hD.sten (no999_list (g := boxGrid N w lo dx lab s) hD) hq i
      rw [this]
      simp only [hsrc]
      have e3 : (s.uvel (s.ux (s.sym it.k)) i : K) = -(s.vel it.k i : K) := by
        have := hD.sten.sym it.k i
        unfold Sten.vel at this ⊢
        rw [this]; push_cast; ring
      have e4 : (boxGrid N w lo dx lab s).dx = dx := rfl
      have e5 : (boxGrid N w lo dx lab s).cellCentre (fun i => y i + (w i : Int)) i = cellPoint lo dx y i := by
        simp [Domain.Grid.cellCentre, DomainSpec.centre, cellPoint, boxGrid]
      rw [e4, e5, hdist, e3]; ring
    have hl3 : label ≠ 999 := fun h => no999_list (g := boxGrid N w lo dx lab s) hD (h ▸ hl0)
    have hret := hwall y hy hyf (s.ux (s.sym it.k)) it.k (s.sym it.k)
      (by rw [hflag]; simp [Open, hl1, hl2, hl3]) (fun i => hsym i) (hD.sten.scheme _) hsym ms
      (by rw [hflag]; exact h4) m hms t
    rw [hflag, ← hdist] at hret
    refine value_flow m it F (D.ψ label) t y hcell ?_ hret
    rw [hψ, hlab, hpt]
  · rw [written_not_mem s hpos]
    have e : (fun i => y i - s.vel j i + (w i : Int) - w i) = fun i => y i - s.vel j i := by funext i; ring
    simp only [e]
    have ho : Open (ST.link (s.ux (s.sym j)) fun i => y i + (w i : Int)).flag := by
      by_contra h
      apply hpos
      unfold Open at h
      simp only [List.mem_cons, List.not_mem_nil, or_false, not_or] at h
      set X : Cell dim := fun i => y i + w i with hX
      have hint : (boxGrid N w lo dx lab s).Interior X := interior_shift hy
      set label := (ST.link (s.ux (s.sym j)) X).flag with hlabel
      have hmem : label ∈ listOfLabels (boxGrid N w lo dx lab s) D.els :=
        hJ.label_mem (g := boxGrid N w lo dx lab s) hD hint _ h.1
      obtain ⟨all, hall, -⟩ := instances_spec s (boxGrid N w lo dx lab s).total ST.link _ D.dico J hJ.insts
      obtain ⟨ms, hms⟩ : ∃ ms, D.dico label = some ms :=
        Option.isSome_iff_exists.1 ((allEntries_spec s _ ST.link _ D.dico all hall).1 label hmem h.2.1 h.2.2)
      obtain ⟨m, hm⟩ := hmeth label ms hms j
      let en : Entry K dim s.ns := ⟨j, fun i => y i - s.vel j i + w i, label,
        (ST.link (s.ux (s.sym j)) X).dist⟩
      have hsrc : source s en = X := by
        funext i; simp only [source, en, hX]; ring
      have hen : (m, en) ∈ entries s J := by
        rw [mem_entries s _ ST.link hD.sten _ D.dico J hJ.insts]
        refine ⟨label, hmem, h.2.1, h.2.2, by rw [hms]; exact hm, rfl, ?_, ?_, ?_⟩
        · rw [hsrc]; exact mem_cells_interior hint
        · rw [hsrc]
        · rw [hsrc]
      refine List.mem_map.2 ⟨(m, ⟨en, D.ψ label t (wallPoint s (boxGrid N w lo dx lab s) en)⟩), ?_, rfl⟩
      rw [mem_withValues]
      exact ⟨hen, rfl⟩
    have h2 := (hlinks y hy hyf _ ho).2
    refine congrFun (periodic_flow hF t ?_) j
    intro i
    refine (h2 i).imp_right fun h => ?_
    have e2 : y i + s.uvel (s.ux (s.sym j)) i = y i - s.vel j i := by
      have := hsym i
      unfold Sten.vel at this ⊢
      rw [this]; ring
    rw [e2] at h
    exact h

end

/-- **C107, any flow.** A flow which the transport and the collision carry from one time to the next, which has the
period of the box along the periodic axes and which the walls return to the fluid (`Returns`: a condition on each link,
with its distance and the state which the user imposes where the link meets the wall) is computed without error: a
simulation which starts with its populations holds, after any number of time steps, its populations at that time in
every fluid cell. Nonlinear schemes, sources, relative velocities, walls which depend on time and space, obstacles, any
decomposition and schedule of the messages. -/
theorem C107_flow (hdim : dim ≤ 3) {s : Sten dim} (D : WallData K dim s) (lo : Fin dim → K) (dx : K)
    (lab : Fin dim → Bool → Int) (hD : D.WF lab) (g : Grid dim)
    (ST : Domain.State K dim s.nu) (J : List (Method dim × List (Entry K dim s.ns)))
    (hJ : OnGrid D (boxGrid g.N g.w lo dx lab s) ST J)
    (hfree : ∀ t, Free s (flat s (withValues s (boxGrid g.N g.w lo dx lab s) D.ψ J t)))
    (per : Fin dim → Prop) (hlinks : OpenLinks g.N g.w per ST) (hmeth : AllMethods D)
    (hreads : ReadsFluid D g.N g.w lo dx lab ST J) (hin : ReadsInside D g.N g.w lo dx lab per J)
    (S : Kernel K s.ns nc d) (hfront : ∀ j, (S.consm j : Nat) < nc) (alg : Algo)
    (F : Flow K dim s.ns) (hF : Solves (collide S alg) s.vel dx S.dt F) (hper : Repeats g.N dx per F)
    (hwall : WallsReturn D g.N g.w lo dx ST F)
    (Q : Proc g → Setup K s.ns nc d dim) (hQ : FluidRun D g lo dx lab S alg Q)
    (σ₀ : Proc g → Simu K s.ns d dim) (h0 : ∀ c, (σ₀ c).Start (Q c))
    (ha : ∀ c x, Owned (size g c) g.w x → fluidMap g.w ST (globalPos (first g c) g.w x) = true →
      (σ₀ c).arr x = F 0 (cellPoint lo dx (globalPos (first g c) g.w x)))
    (k : Nat) (σ : Proc g → Simu K s.ns d dim) (hr : PRun g Q σ₀ k σ) (c : Proc g) (x : Cell dim)
    (hx : Owned (size g c) g.w x) (hf : fluidMap g.w ST (globalPos (first g c) g.w x) = true) :
    (σ c).arr x = F (k * S.dt) (cellPoint lo dx (globalPos (first g c) g.w x)) := by
  have hfb := fluidBoundary_walls D g.N g.w lo dx lab hD ST J hJ hfree (allLinks_of_open hlinks) hmeth hreads
  obtain ⟨_, h2⟩ := C73_fluid_cells hdim g hQ.walls.large S hfront s.vel alg _ Q (hQ.uniform hD ST hJ.built) _
    (sameBoundary_walls D g lo dx lab hD Q hQ.walls ST J hJ hfree) hfb σ₀ h0
    (fun y => F 0 (cellPoint lo dx y)) ha k σ hr
  rw [h2 c x hx hf]
  have key : ∀ k, ∀ y ∈ box g.N, fluidMap g.w ST y = true →
      lbmRun g.N s.vel (collide S alg) (wallBc D g.N g.w lo dx lab J) S.dt (fun y => F 0 (cellPoint lo dx y)) k y =
        F (k * S.dt) (cellPoint lo dx y) := by
    intro k
    induction k with
    | zero => intro y _ _; simp [lbmRun]
    | succ k ih =>
      intro y hy hyf
      show lbmStep g.N s.vel (collide S alg) (wallBc D g.N g.w lo dx lab J) _ _ y = _
      unfold lbmStep
      have e1 : (k + 1 : Nat) * S.dt = k * S.dt + S.dt := by push_cast; ring
      rw [e1, ← hF]
      congr 1
      funext j
      rw [← wallBc_flow hD hJ hfree hlinks hmeth hin hper hwall (k * S.dt) hy hyf j]
      refine hfb _ _ _ (fun z hz => ?_) y hy hyf j
      refine ih _ ?_ hz
      refine (mem_box _ _).2 fun i => ?_
      have hN : 0 < (g.N i : Int) := by
        have := (mem_box _ _).1 hy i
        omega
      exact ⟨Int.emod_nonneg _ hN.ne', Int.emod_lt_of_pos _ hN⟩
  exact key k _ (owned_box g hx) hf

end walls

end Pylbm.Sim
