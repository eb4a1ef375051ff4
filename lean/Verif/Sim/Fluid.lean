import Verif.Sim.Walls
/-!
# C73: with `check_isfluid` the fluid cells get the same values

`check_isfluid` (base.py 578-590) restricts the loops of `one_time_step` to the cells where
`in_or_out == valin`.  The other cells then keep old contents, which differ between the backends and between runs
with and without the setting; the theorems say that the fluid cells never see them.
-/

set_option linter.unusedSectionVars false

namespace Pylbm.Sim
open Scheme Halo SchemeSpec Matrix HaloSpec Mpi Boundary

section abstract
variable {K : Type} [Field K] {n nc d dim : Nat}

/-- All the processes use the same scheme and algorithm; their loops run over the owned cells, or with
`check_isfluid` over the owned cells which are fluid in the map `fl` of the global array. Backends and other
settings are free. -/
structure UniformFluid (g : Grid dim) (S : Kernel K n nc d) (vel : Fin n → Cell dim) (a : Algo)
    (fl : Cell dim → Bool) (Q : Proc g → Setup K n nc d dim) : Prop where
  scheme : ∀ c, (Q c).S = S
  vel : ∀ c, (Q c).vel = vel
  algo : ∀ c, (Q c).cfg.algo = a
  fluid : ∀ c, (Q c).cfg.checkFluid = true → ∀ x, Owned (size g c) g.w x →
    (Q c).fluid x = fl (globalPos (first g c) g.w x)
  nodup : ∀ c, (Q c).Lin.Nodup
  loops : ∀ c x, x ∈ (Q c).Lin ↔ Owned (size g c) g.w x
  split : ∀ c, ¬ ((Q c).backend = .c ∧ (Q c).cfg.split = true ∧ S.relVel.isSome = true)

/-- The values which reach the fluid cells after the boundary conditions `bc` depend only on the values of the
fluid cells (of the periodic extension). -/
def FluidBoundary (N : Fin dim → Nat) (vel : Fin n → Cell dim) (fl : Cell dim → Bool)
    (bc : K → Arr K n dim → Arr K n dim) : Prop :=
  ∀ (t : K) (H H' : Arr K n dim), (∀ y, periodic N fl y = true → H y = H' y) →
    ∀ y ∈ box N, fl y = true → ∀ j : Fin n,
      bc t H (fun i => y i - vel j i) j = bc t H' (fun i => y i - vel j i) j

/-- A cell of the global array has one owner. -/
theorem owner_unique (g : Grid dim) {c c' : Proc g} {x x' : Cell dim} (hx : Owned (size g c) g.w x)
    (hx' : Owned (size g c') g.w x') (he : globalPos (first g c) g.w x = globalPos (first g c') g.w x') :
    c = c' ∧ x = x' := by
  have hc : c = c' := by
    funext i
    apply Fin.ext
    have h1 := hx i
    have h2 := hx' i
    have h3 := congrFun he i
    have h4 := start_succ g c i
    have h5 := start_succ g c' i
    simp only [globalPos, first] at h3
    rw [start_eq g i _ (by omega), start_eq g i _ (by omega)] at h4
    rw [start_eq g i _ (by omega), start_eq g i _ (by omega)] at h5
    rw [start_eq g i (c i) (by omega), start_eq g i (c' i) (by omega)] at h3
    refine region_unique (g.N i) (g.p i) ((bound (g.N i) (g.p i) (c i) : Int) + x i - g.w i).toNat
      (c i) (c' i) ⟨by omega, by omega⟩ ⟨by omega, by omega⟩
  subst hc
  refine ⟨rfl, ?_⟩
  funext i
  have := congrFun he i
  simp only [globalPos] at this
  omega

/-- The owned cells of all the processes put together, completed by `G` where there is no owner. -/
theorem assemble (g : Grid dim) {α : Type} (A : Proc g → Cell dim → α) (G : Cell dim → α) :
    ∃ H : Cell dim → α, (∀ c x, Owned (size g c) g.w x → A c x = H (globalPos (first g c) g.w x)) ∧
      ∀ y, H y = G y ∨ ∃ c x, Owned (size g c) g.w x ∧ y = globalPos (first g c) g.w x ∧ H y = A c x := by
  classical
  refine ⟨fun y => if h : ∃ p : Proc g × Cell dim, Owned (size g p.1) g.w p.2 ∧
      globalPos (first g p.1) g.w p.2 = y then A h.choose.1 h.choose.2 else G y, fun c x hx => ?_, fun y => ?_⟩
  · have h : ∃ p : Proc g × Cell dim, Owned (size g p.1) g.w p.2 ∧
      globalPos (first g p.1) g.w p.2 = globalPos (first g c) g.w x := ⟨(c, x), hx, rfl⟩
    beta_reduce
    rw [dif_pos h]
    obtain ⟨h1, h2⟩ := h.choose_spec
    obtain ⟨h3, h4⟩ := owner_unique g h1 hx h2
    rw [h3, h4]
  · by_cases h : ∃ p : Proc g × Cell dim, Owned (size g p.1) g.w p.2 ∧ globalPos (first g p.1) g.w p.2 = y
    · right
      beta_reduce
      rw [dif_pos h]
      exact ⟨h.choose.1, h.choose.2, h.choose_spec.1, h.choose_spec.2.symm, rfl⟩
    · left
      beta_reduce
      rw [dif_neg h]

theorem owned_box (g : Grid dim) {c : Proc g} {x : Cell dim} (hx : Owned (size g c) g.w x) :
    globalPos (first g c) g.w x ∈ box g.N := by
  rw [mem_box]
  intro i
  have h1 := hx i
  have h2 := procGrid_sub g c i
  simp only [globalPos]
  constructor <;> omega

/-- One time step on all the processes from a state whose owned fluid cells hold `G`. -/
theorem step_fluid (hdim : dim ≤ 3) (g : Grid dim) (hlarge : ∀ c i, g.w i ≤ size g c i)
    (S : Kernel K n nc d) (hfront : ∀ j, (S.consm j : Nat) < nc) (vel : Fin n → Cell dim) (a : Algo)
    (fl : Cell dim → Bool) (Q : Proc g → Setup K n nc d dim) (hQ : UniformFluid g S vel a fl Q)
    (bc : K → Arr K n dim → Arr K n dim) (hbc : SameBoundary g vel Q bc) (hfl : FluidBoundary g.N vel fl bc)
    (σ : Proc g → Simu K n d dim) (t : K) (m : Nat)
    (hσ : ∀ c, Containers (Q c) (σ c) ∧ (σ c).t = t ∧ (σ c).nt = m) (G : Arr K n dim)
    (hG : ∀ c x, Owned (size g c) g.w x → fl (globalPos (first g c) g.w x) = true →
      (σ c).arr x = G (globalPos (first g c) g.w x))
    (eager : Proc g → Fin dim → Bool → Prop) (e : Nat) (s : State g (Fin n → K))
    (hreach : Reach g eager (fun c => (σ c).arr) e s) (hdone : s.Done) :
    (∀ c, Containers (Q c) ((σ c).apply { Q c with bc := fun t _ => (Q c).bc t (s.arr c) } .step) ∧
      ((σ c).apply { Q c with bc := fun t _ => (Q c).bc t (s.arr c) } .step).t = t + S.dt ∧
      ((σ c).apply { Q c with bc := fun t _ => (Q c).bc t (s.arr c) } .step).nt = m + 1) ∧
    ∀ c x, Owned (size g c) g.w x → fl (globalPos (first g c) g.w x) = true →
      ((σ c).apply { Q c with bc := fun t _ => (Q c).bc t (s.arr c) } .step).arr x =
        lbmStep g.N vel (collide S a) bc t G (globalPos (first g c) g.w x) := by
  refine ⟨fun c => ?_, fun c x hx hxf => ?_⟩
  · obtain ⟨h1, h2, h3⟩ := hσ c
    refine ⟨?_, ?_, ?_⟩
    · simp only [Simu.apply, Simu.setF]
      unfold Containers at h1 ⊢
      cases hb : (Q c).backend <;> simp only [hb] at h1 ⊢
      · exact h1.symm
      · exact Ne.symm h1
    · simp only [Simu.apply, Simu.setF]
      rw [h2, hQ.scheme c]
    · simp only [Simu.apply, Simu.setF]
      rw [h3]
  · set P : Setup K n nc d dim := { Q c with bc := fun t _ => (Q c).bc t (s.arr c) } with hP
    have hstep := C39_step_general P (σ c) (hσ c).1 (hQ.nodup c)
      (by intro j; have e : P.S = S := hQ.scheme c; revert j; rw [e]; exact hfront)
      (by
        have e : P.S = S := hQ.scheme c
        rw [e]; exact hQ.split c) x ⟨0, 0, 0⟩
    rw [if_pos ⟨(hQ.loops c x).2 hx, fun h => by
      show (Q c).fluid x = true
      rw [hQ.fluid c h x hx, hxf]⟩] at hstep
    have e1 : P.S = S := hQ.scheme c
    have e2 : P.vel = vel := hQ.vel c
    have e3 : P.cfg.algo = a := hQ.algo c
    rw [e1, e2, e3] at hstep
    show (Simu.apply P (σ c) .step).mem.buf (Simu.apply P (σ c) .step).F x = _
    rw [hstep]
    obtain ⟨H, hH1, hH2⟩ := assemble g (fun c => (σ c).arr) G
    have hper := fun x (hx : InLocal (size g c) g.w x) =>
      (C15_halo_update_periodic hdim g hlarge eager (fun c => (σ c).arr) H hH1 e s hreach hdone c x hx).1
    have hsame : ∀ y, periodic g.N fl y = true → periodic g.N H y = periodic g.N G y := by
      intro y hy
      unfold periodic at hy ⊢
      rcases hH2 (fun i => y i % g.N i) with h | ⟨c', x', ho, hp, h⟩
      · exact h
      · rw [h]
        rw [hp] at hy ⊢
        exact hG c' x' ho hy
    simp only [lbmStep, collide]
    congr 2
    funext j
    have h1 := hbc c (σ c).t (s.arr c) _ hper x hx j
    have h2 := hfl (σ c).t _ _ hsame _ (owned_box g hx) hxf j
    rw [h2, (hσ c).2.1] at h1
    rw [← h1, (hσ c).2.1]

/-- **C73, abstract boundary conditions.** After `k` time steps, with `check_isfluid` on some processes and
without it on others, each process holds on its owned fluid cells the values of the scheme on the global array. -/
theorem C73_fluid_cells (hdim : dim ≤ 3) (g : Grid dim) (hlarge : ∀ c i, g.w i ≤ size g c i)
    (S : Kernel K n nc d) (hfront : ∀ j, (S.consm j : Nat) < nc) (vel : Fin n → Cell dim) (a : Algo)
    (fl : Cell dim → Bool) (Q : Proc g → Setup K n nc d dim) (hQ : UniformFluid g S vel a fl Q)
    (bc : K → Arr K n dim → Arr K n dim) (hbc : SameBoundary g vel Q bc) (hfl : FluidBoundary g.N vel fl bc)
    (σ₀ : Proc g → Simu K n d dim) (h0 : ∀ c, (σ₀ c).Start (Q c)) (G : Arr K n dim)
    (hG : ∀ c x, Owned (size g c) g.w x → fl (globalPos (first g c) g.w x) = true →
      (σ₀ c).arr x = G (globalPos (first g c) g.w x))
    (k : Nat) (σ : Proc g → Simu K n d dim) (hr : PRun g Q σ₀ k σ) :
    (∀ c, Containers (Q c) (σ c) ∧ (σ c).t = k * S.dt ∧ (σ c).nt = k) ∧
    ∀ c x, Owned (size g c) g.w x → fl (globalPos (first g c) g.w x) = true →
      (σ c).arr x = lbmRun g.N vel (collide S a) bc S.dt G k (globalPos (first g c) g.w x) := by
  induction hr with
  | init =>
    refine ⟨fun c => ⟨(h0 c).1, ?_, (h0 c).2.2.2⟩, hG⟩
    rw [(h0 c).2.2.1]; simp
  | step k σ eager e s _ hreach hdone ih =>
    obtain ⟨h1, h2⟩ := step_fluid hdim g hlarge S hfront vel a fl Q hQ bc hbc hfl σ (k * S.dt) k ih.1 _ ih.2
      eager e s hreach hdone
    refine ⟨fun c => ⟨(h1 c).1, ?_, (h1 c).2.2⟩, h2⟩
    rw [(h1 c).2.1]; push_cast; ring

end abstract

section walls
variable {K : Type} [Field K] [LinearOrder K] [IsStrictOrderedRing K] [FloorRing K] {nc d dim : Nat}

/-- The fluid cells of the global array: `in_or_out == valin` in the domain `ST` of a single process, whose arrays
have `w` more cells on each side. -/
def fluidMap {nv : Nat} (w : Fin dim → Nat) (ST : Domain.State K dim nv) : Cell dim → Bool :=
  fun y => decide (ST.ioo (fun i => y i + w i) = 999)

/-- Every link of a fluid cell leads to a fluid cell or has a boundary condition. -/
def AllLinks {s : Sten dim} (N w : Fin dim → Nat) (ST : Domain.State K dim s.nu) : Prop :=
  ∀ y ∈ box N, fluidMap w ST y = true → ∀ k : Fin s.nu,
    periodic N (fluidMap w ST) (fun i => y i + s.uvel k i) = true ∨
    (ST.link k (fun i => y i + w i)).flag ∉ [999, -1, -2]

/-- Every scheme has a method on every label. -/
def AllMethods {s : Sten dim} (D : WallData K dim s) : Prop :=
  ∀ label ms, D.dico label = some ms → ∀ j : Fin s.ns, ∃ m, (s.scheme j, m) ∈ ms

/-- The methods read only fluid cells: true for the methods which read one cell, see `oneCell_reads`. -/
def ReadsFluid {s : Sten dim} (D : WallData K dim s) (N w : Fin dim → Nat) (lo : Fin dim → K) (dx : K)
    (lab : Fin dim → Bool → Int) (ST : Domain.State K dim s.nu)
    (J : List (Method dim × List (Entry K dim s.ns))) : Prop :=
  ∀ t, ∀ q ∈ flat s (withValues s (boxGrid N w lo dx lab s) D.ψ J t), ∀ p ∈ Boundary.reads s q.1 q.2,
    periodic N (fluidMap w ST) (fun i => p.2 i - w i) = true

theorem oneCell_reads {s : Sten dim} (D : WallData K dim s) (N w : Fin dim → Nat) (lo : Fin dim → K) (dx : K)
    (lab : Fin dim → Bool → Int) (hD : D.WF lab) (ST : Domain.State K dim s.nu)
    (J : List (Method dim × List (Entry K dim s.ns))) (hJ : OnGrid D (boxGrid N w lo dx lab s) ST J)
    (hone : ∀ p ∈ J, OneCell p.1) : ReadsFluid D N w lo dx lab ST J := by
  intro t q hq p hp
  have hcell : p.2 = source s q.2.toEntry := by
    have h1 : OneCell q.1 := by
      obtain ⟨r, hr, hr'⟩ := List.mem_flatMap.1 hq
      obtain ⟨it, _, rfl⟩ := List.mem_map.1 hr'
      obtain ⟨r0, hr0, rfl⟩ := List.mem_map.1 hr
      exact hone r0 hr0
    have : p.2 = Boundary.inner s 1 q.2.toEntry := by
      cases hq1 : q.1 <;> rw [hq1] at h1 hp <;> simp only [OneCell] at h1 <;>
        simp only [Boundary.reads, List.mem_singleton] at hp <;> rw [hp]
    rw [this]
    funext j; simp [Boundary.inner, source]
  obtain ⟨h1, -, h3, -⟩ := (hJ.onDomain hD t).item hD.sten (no999_list (g := boxGrid N w lo dx lab s) hD) hq
  have hn : ∀ i, (boxGrid N w lo dx lab s).n i = N i := fun i => by simp [Domain.Grid.n, boxGrid]
  unfold periodic fluidMap
  rw [decide_eq_true_eq, ← h3, ← hcell]
  congr 1
  funext i
  have := h1 i
  rw [hn, ← hcell] at this
  change (w i : Int) ≤ p.2 i ∧ p.2 i < w i + N i at this
  beta_reduce
  rw [Int.emod_eq_of_lt (by omega) (by omega)]
  ring

/-- The boundary conditions of walls and obstacles, on the fluid cells. -/
theorem fluidBoundary_walls {s : Sten dim} (D : WallData K dim s) (N w : Fin dim → Nat) (lo : Fin dim → K) (dx : K)
    (lab : Fin dim → Bool → Int) (hD : D.WF lab) (ST : Domain.State K dim s.nu)
    (J : List (Method dim × List (Entry K dim s.ns))) (hJ : OnGrid D (boxGrid N w lo dx lab s) ST J)
    (hfree : ∀ t, Free s (flat s (withValues s (boxGrid N w lo dx lab s) D.ψ J t)))
    (hlinks : AllLinks N w ST) (hmeth : AllMethods D) (hreads : ReadsFluid D N w lo dx lab ST J) :
    FluidBoundary N s.vel (fluidMap w ST) (wallBc D N w lo dx lab J) := by
  intro t H H' hHH y hy hyf j
  have o := hJ.onDomain hD t
  have n1 := o.nodup_positions hD.sten
  unfold wallBc
  rw [boundaryCondition_written s _ n1 (hfree t), boundaryCondition_written s _ n1 (hfree t)]
  by_cases hpos : (j, fun i => y i - s.vel j i + w i) ∈
      positions s (flat s (withValues s (boxGrid N w lo dx lab s) D.ψ J t))
  · obtain ⟨q, hq, hqe⟩ := List.mem_map.1 hpos
    simp only [Prod.mk.injEq] at hqe
    have w1 := written_mem s n1 hq (fun k X => H (fun i => X i - w i) k)
    have w2 := written_mem s n1 hq (fun k X => H' (fun i => X i - w i) k)
    rw [hqe.1, hqe.2] at w1 w2
    rw [w1, w2]
    have hr : ∀ p ∈ Boundary.reads s q.1 q.2, H (fun i => p.2 i - w i) p.1 = H' (fun i => p.2 i - w i) p.1 := by
      intro p hp
      rw [hHH _ (hreads t q hq p hp)]
    exact value_congr s hr hr
  · rw [written_not_mem s hpos, written_not_mem s hpos]
    have e : (fun i => y i - s.vel j i + w i - w i) = fun i => y i - s.vel j i := by funext i; ring
    simp only [e]
    rw [hHH]
    have hsym : ∀ i, s.vel (s.sym j) i = -s.vel j i := fun i => hD.sten.sym j i
    rcases hlinks y hy hyf (s.ux (s.sym j)) with h | h
    · have e2 : (fun i => y i + s.uvel (s.ux (s.sym j)) i) = fun i => y i - s.vel j i := by
        funext i
        have := hsym i
        unfold Sten.vel at this ⊢
        rw [this]; ring
      rwa [e2] at h
    · exfalso
      apply hpos
      simp only [List.mem_cons, List.not_mem_nil, or_false, not_or] at h
      set X : Cell dim := fun i => y i + w i with hX
      have hint : (boxGrid N w lo dx lab s).Interior X := by
        intro i
        have hn : (boxGrid N w lo dx lab s).n i = N i := by simp [Domain.Grid.n, boxGrid]
        have := (mem_box N y).1 hy i
        rw [hn]
        show (w i : Int) ≤ y i + w i ∧ y i + w i < w i + N i
        omega
      set label := (ST.link (s.ux (s.sym j)) X).flag with hlabel
      have hmem : label ∈ listOfLabels (boxGrid N w lo dx lab s) D.els :=
        hJ.label_mem (g := boxGrid N w lo dx lab s) hD hint _ h.1
      obtain ⟨all, hall, -⟩ := instances_spec s (boxGrid N w lo dx lab s).total ST.link _ D.dico J hJ.insts
      have hd : ∃ ms, D.dico label = some ms := by
        have := (allEntries_spec s _ ST.link _ D.dico all hall).1 label hmem h.2.1 h.2.2
        exact Option.isSome_iff_exists.1 this
      obtain ⟨ms, hms⟩ := hd
      obtain ⟨m, hm⟩ := hmeth label ms hms j
      let en : Entry K dim s.ns := ⟨j, fun i => y i - s.vel j i + w i, label,
        (ST.link (s.ux (s.sym j)) X).dist⟩
      have hsrc : source s en = X := by
        funext i; simp only [source, en, hX]; ring
      have hen : (m, en) ∈ entries s J := by
        rw [mem_entries s _ ST.link hD.sten _ D.dico J hJ.insts]
        refine ⟨label, hmem, h.2.1, h.2.2, by rw [hms]; exact hm, rfl, ?_, ?_, ?_⟩
        · rw [hsrc]; exact mem_cells_interior hint
        · rw [hsrc]
        · rw [hsrc]
      refine List.mem_map.2 ⟨(m, ⟨en, D.ψ label t (wallPoint s (boxGrid N w lo dx lab s) en)⟩), ?_, rfl⟩
      rw [mem_withValues]
      exact ⟨hen, rfl⟩

/-- When does every link of a fluid cell lead to a fluid cell or have a boundary condition?  In a box without
periodic face (nor label -1 or -2), with elements whose distances are seen (C59) and where no fluid element
re-opens a cell of a solid one. -/
theorem allLinks_closed {s : Sten dim} (D : WallData K dim s) (N w : Fin dim → Nat) (lo : Fin dim → K) (dx : K)
    (lab : Fin dim → Bool → Int) (hD : D.WF lab) (ST : Domain.State K dim s.nu)
    (J : List (Method dim × List (Entry K dim s.ns))) (hJ : OnGrid D (boxGrid N w lo dx lab s) ST J)
    (hlab : ∀ j side, lab j side ≠ -1 ∧ lab j side ≠ -2) (hels : ∀ l ∈ D.els, l ≠ -1 ∧ l ≠ -2)
    (hsees : ∀ e ∈ D.elems, ∀ c k, (boxGrid N w lo dx lab s).Interior c →
      e.Sees ((boxGrid N w lo dx lab s).cellCentre c) (fun j => dx * (s.uvel k j : K)))
    (hopen : ∀ c, (boxGrid N w lo dx lab s).Interior c → ST.ioo c = 999 →
      ∀ e ∈ D.elems, e.isFluid = false → e.inside ((boxGrid N w lo dx lab s).cellCentre c) = false) :
    AllLinks N w ST := by
  intro y hy hyf k
  set g := boxGrid N w lo dx lab s with hg
  set X : Cell dim := fun i => y i + w i with hX
  have hn : ∀ i, g.n i = N i := fun i => by simp [Domain.Grid.n, hg, boxGrid]
  have hint : g.Interior X := by
    intro i
    have := (mem_box N y).1 hy i
    rw [hn]
    show (w i : Int) ≤ y i + w i ∧ y i + w i < w i + N i
    omega
  have hf : ST.ioo X = 999 := of_decide_eq_true hyf
  have hglab : ∀ j side, g.label j side = lab j side := by
    intro j side
    cases side <;> simp [Domain.Grid.label, hg, boxGrid]
  have fin : ∀ l, Domain.LabelOf g D.elems l → l ∉ [999, -1, -2] := by
    rintro l (⟨f, -, rfl⟩ | ⟨e, he, x, v, h1, rfl⟩)
    · rw [hglab]
      have := hlab f.ax f.upper
      simp [hD.noFace, this]
    · have h2 := hD.labels e he x v h1
      have h3 := hels _ h2
      have h4 : e.border x v ≠ 999 := fun h => hD.no999 (h ▸ h2)
      simp [h3, h4]
  by_cases ht : g.Interior (g.target k X)
  · by_cases hto : ST.ioo (g.target k X) = 999
    · left
      unfold periodic fluidMap
      rw [decide_eq_true_eq, ← hto]
      congr 1
      funext i
      have := ht i
      rw [hn] at this
      change (w i : Int) ≤ y i + w i + s.uvel k i ∧ y i + w i + s.uvel k i < w i + N i at this
      show (y i + s.uvel k i) % (N i : Int) + w i = y i + w i + s.uvel k i
      rw [Int.emod_eq_of_lt (by omega) (by omega)]
      ring
    · right
      have h1 := Domain.C21_fluid_map g hJ.wf D.elems hD.sound ST hJ.built (g.target k X)
      have h2 : ST.ioo (g.target k X) = -1 := by
        rw [h1] at hto ⊢
        split_ifs at hto ⊢ with h
        · exact absurd rfl hto
        · rfl
      exact fin _ (Domain.C59_solid_links_flagged_partial g hJ.wf D.elems hD.sound hsees ST hJ.built X hint k hf
        ht h2).2.2
  · right
    have : ∃ f t, DomainSpec.Crosses (K := K) g.n (g.inner X) (g.vel k) f t := by
      unfold Domain.Grid.Interior at ht
      push Not at ht
      obtain ⟨i, hi⟩ := ht
      have hX := hint i
      rw [hn] at hi hX
      have e1 : g.inner X i = y i := by
        show y i + (w i : Int) - w i = y i; ring
      have e2 : g.vel k i = s.uvel k i := rfl
      change (w i : Int) ≤ y i + w i ∧ y i + w i < w i + N i at hX
      change (w i : Int) ≤ y i + w i + s.uvel k i → w i + N i ≤ y i + w i + s.uvel k i at hi
      rcases lt_or_ge (y i + s.uvel k i) 0 with h | h
      · have hv : s.uvel k i < 0 := by omega
        have hvK : (s.uvel k i : K) < 0 := by exact_mod_cast hv
        have h0 : (0 : K) ≤ y i := by exact_mod_cast (by omega : 0 ≤ y i)
        have h1 : (y i : K) + s.uvel k i ≤ -1 := by exact_mod_cast (by omega : y i + s.uvel k i ≤ -1)
        refine ⟨⟨i, false⟩, (-(1 / 2) - y i) / s.uvel k i, ?_, ?_, ?_⟩
        · exact div_pos_of_neg_of_neg (by linarith) hvK
        · rw [div_le_one_of_neg hvK]; linarith
        · show ((g.inner X i : Int) : K) + _ * ((g.vel k i : Int) : K) = _
          rw [e1, e2, div_mul_cancel₀ _ hvK.ne]
          simp [DomainSpec.facePos]
      · have h2 : (N i : Int) ≤ y i + s.uvel k i := by have := hi (by omega); omega
        have hv : 0 < s.uvel k i := by omega
        have hvK : (0 : K) < s.uvel k i := by exact_mod_cast hv
        have h0 : (y i : K) ≤ N i - 1 := by
          have : (y i : K) + 1 ≤ N i := by exact_mod_cast (by omega : y i + 1 ≤ N i)
          linarith
        have h1 : (N i : K) ≤ y i + s.uvel k i := by exact_mod_cast h2
        refine ⟨⟨i, true⟩, (N i - 1 / 2 - y i) / s.uvel k i, ?_, ?_, ?_⟩
        · exact div_pos (by linarith) hvK
        · rw [div_le_one hvK]; linarith
        · show ((g.inner X i : Int) : K) + _ * ((g.vel k i : Int) : K) = _
          rw [e1, e2, div_mul_cancel₀ _ hvK.ne']
          simp [DomainSpec.facePos, hn]
    obtain ⟨f, t, hX⟩ := this
    refine fin _ (Domain.C59_box_links_flagged_partial g hJ.wf D.elems hD.sound ST hJ.built X hint k
      (hopen X hint hf) f t ?_ hX).2.2.2
    show g.label f.ax f.upper ≠ -2
    rw [hglab]
    exact (hlab _ _).2

/-- All the processes use the same scheme and algorithm; with `check_isfluid` a process updates the owned cells
which are fluid in the domain it has built (base.py 578-590: `in_or_out[...] == valin`). -/
structure FluidRun {s : Sten dim} (D : WallData K dim s) (g : Grid dim) (lo : Fin dim → K) (dx : K)
    (lab : Fin dim → Bool → Int) (S : Kernel K s.ns nc d) (a : Algo) (Q : Proc g → Setup K s.ns nc d dim) :
    Prop where
  walls : WallRun D g lo dx lab Q
  scheme : ∀ c, (Q c).S = S
  vel : ∀ c, (Q c).vel = s.vel
  algo : ∀ c, (Q c).cfg.algo = a
  fluid : ∀ c, (Q c).cfg.checkFluid = true → ∀ st,
    Domain.build (procGrid g lo dx lab s c) D.elems = some st → ∀ x, (Q c).fluid x = decide (st.ioo x = 999)
  nodup : ∀ c, (Q c).Lin.Nodup
  loops : ∀ c x, x ∈ (Q c).Lin ↔ Owned (size g c) g.w x
  split : ∀ c, ¬ ((Q c).backend = .c ∧ (Q c).cfg.split = true ∧ S.relVel.isSome = true)

/-- The fluid cells of the processes are the fluid cells of a single process. -/
theorem FluidRun.uniform {s : Sten dim} {D : WallData K dim s} {g : Grid dim} {lo : Fin dim → K} {dx : K}
    {lab : Fin dim → Bool → Int} {S : Kernel K s.ns nc d} {a : Algo} {Q : Proc g → Setup K s.ns nc d dim}
    (h : FluidRun D g lo dx lab S a Q) (hD : D.WF lab) (ST : Domain.State K dim s.nu)
    (hST : Domain.build (boxGrid g.N g.w lo dx lab s) D.elems = some ST) :
    UniformFluid g S s.vel a (fluidMap g.w ST) Q where
  scheme := h.scheme
  vel := h.vel
  algo := h.algo
  nodup := h.nodup
  loops := h.loops
  split := h.split
  fluid := by
    intro c hc x hx
    obtain ⟨st, I, hI, -⟩ := h.walls.onGrid c
    have hn : ∀ i, (procGrid g lo dx lab s c).n i = size g c i := fun i => by
      simp [Domain.Grid.n, procGrid]
    rw [h.fluid c hc st hI.built, fluidMap,
      (Domain.C62_restriction_partial (procGrid g lo dx lab s c) hI.wf (fun i => procGrid_sub g c i) D.elems
        hD.sound st ST hI.built (by rw [procGrid_whole]; exact hST) x
        (by intro i; rw [hn]; exact hx i)).1]
    congr 3
    funext i
    simp only [globalPos, Domain.Grid.global, procGrid]
    ring

/-- **C73.** Walls and obstacles: two runs as in `C42_walls_partial`, with `check_isfluid` or without it on each
process of both, from initial values which agree on the fluid cells; every link of a fluid cell leads to a fluid
cell or has a boundary condition, whose method reads only fluid cells (`oneCell_reads`).  After any number of
steps the fluid cells hold the same values. -/
theorem C73_check_isfluid (hdim : dim ≤ 3) {s : Sten dim} (D : WallData K dim s) (lo : Fin dim → K) (dx : K)
    (lab : Fin dim → Bool → Int) (hD : D.WF lab) (g g' : Grid dim) (hN : g.N = g'.N) (hw : g.w = g'.w)
    (ST : Domain.State K dim s.nu) (J : List (Method dim × List (Entry K dim s.ns)))
    (hJ : OnGrid D (boxGrid g.N g.w lo dx lab s) ST J)
    (hfree : ∀ t, Free s (flat s (withValues s (boxGrid g.N g.w lo dx lab s) D.ψ J t)))
    (hlinks : AllLinks g.N g.w ST) (hmeth : AllMethods D) (hreads : ReadsFluid D g.N g.w lo dx lab ST J)
    (S : Kernel K s.ns nc d) (hfront : ∀ j, (S.consm j : Nat) < nc) (a : Algo)
    (Q : Proc g → Setup K s.ns nc d dim) (hQ : FluidRun D g lo dx lab S a Q)
    (Q' : Proc g' → Setup K s.ns nc d dim) (hQ' : FluidRun D g' lo dx lab S a Q')
    (σ₀ : Proc g → Simu K s.ns d dim) (h0 : ∀ c, (σ₀ c).Start (Q c))
    (σ₀' : Proc g' → Simu K s.ns d dim) (h0' : ∀ c, (σ₀' c).Start (Q' c)) (G : Arr K s.ns dim)
    (hG : ∀ c x, Owned (size g c) g.w x → fluidMap g.w ST (globalPos (first g c) g.w x) = true →
      (σ₀ c).arr x = G (globalPos (first g c) g.w x))
    (hG' : ∀ c x, Owned (size g' c) g'.w x → fluidMap g.w ST (globalPos (first g' c) g'.w x) = true →
      (σ₀' c).arr x = G (globalPos (first g' c) g'.w x))
    (k : Nat) (σ : Proc g → Simu K s.ns d dim) (hr : PRun g Q σ₀ k σ)
    (σ' : Proc g' → Simu K s.ns d dim) (hr' : PRun g' Q' σ₀' k σ')
    (c : Proc g) (x : Cell dim) (hx : Owned (size g c) g.w x)
    (c' : Proc g') (x' : Cell dim) (hx' : Owned (size g' c') g'.w x')
    (he : globalPos (first g c) g.w x = globalPos (first g' c') g'.w x')
    (hf : fluidMap g.w ST (globalPos (first g c) g.w x) = true) :
    (σ c).arr x = (σ' c').arr x' ∧ (σ c).t = (σ' c').t ∧ (σ c).nt = (σ' c').nt := by
  have hB := fluidBoundary_walls D g.N g.w lo dx lab hD ST J hJ hfree hlinks hmeth hreads
  obtain ⟨h1, h2⟩ := C73_fluid_cells hdim g hQ.walls.large S hfront s.vel a _ Q (hQ.uniform hD ST hJ.built) _
    (sameBoundary_walls D g lo dx lab hD Q hQ.walls ST J hJ hfree) hB σ₀ h0 G hG k σ hr
  have hf' : fluidMap g.w ST (globalPos (first g' c') g'.w x') = true := by rw [← he]; exact hf
  have e2 := h2 c x hx hf
  have hB' : FluidBoundary g'.N s.vel (fluidMap g.w ST) (wallBc D g'.N g'.w lo dx lab J) := by
    rw [← hN, ← hw]; exact hB
  rw [hN, hw] at hJ hfree
  obtain ⟨h1', h2'⟩ := C73_fluid_cells hdim g' hQ'.walls.large S hfront s.vel a _ Q'
    (by have := hQ'.uniform hD ST hJ.built; rw [← hw] at this; exact this) _
    (sameBoundary_walls D g' lo dx lab hD Q' hQ'.walls ST J hJ hfree) hB' σ₀' h0' G hG' k σ' hr'
  refine ⟨?_, ?_, ?_⟩
  · rw [e2, h2' c' x' hx' hf', he, hN, hw]
  · rw [(h1 c).2.1, (h1' c').2.1]
  · rw [(h1 c).2.2, (h1' c').2.2]

end walls

/-! ## A case -/

theorem plug_sees (x v : Fin 1 → ℚ) : plug.Sees x v := by
  unfold Domain.Elem.Sees
  simp only [plug, Bool.false_eq_true, if_false, decide_eq_false_iff_not, decide_eq_true_eq]
  intro h1 h2
  split_ifs with h3 h4
  · refine div_pos ?_ h3.1
    rcases lt_or_eq_of_le h3.2.1 with h | h
    · linarith
    · exact absurd ⟨h.ge, by linarith⟩ h1
  · refine div_pos_of_neg_of_neg ?_ h4.1
    rcases lt_or_eq_of_le h4.2.1 with h | h
    · linarith
    · exact absurd ⟨by linarith, h.ge⟩ h1
  · exfalso
    rcases lt_or_ge (x 0) 1 with h | h
    · exact h3 ⟨by linarith [h2.1], h.le, h2.1⟩
    · have : 2 < x 0 := by by_contra hh; exact h1 ⟨h, by linarith⟩
      exact h4 ⟨by linarith [h2.2], this.le, h2.2⟩

/-- The pipe with `check_isfluid`. -/
def pipeFluid (g : Grid 1) (b : Backend) (a : Algo) (c : Proc g) : Setup ℚ 2 1 0 1 :=
  { pipeSetup g b a c with
    cfg := { (pipeSetup g b a c).cfg with checkFluid := true }
    fluid := fun x => match Domain.build (procGrid g (fun _ => 0) 1 pipeLab sten2 c) pipe.elems with
      | none => true
      | some st => decide (st.ioo x = 999) }

theorem pipe_fluidRun (g : Grid 1) (b : Backend) (a : Algo)
    (hw : WallRun pipe g (fun _ => 0) 1 pipeLab (pipeSetup g b a)) :
    FluidRun pipe g (fun _ => 0) 1 pipeLab d1q2 a (pipeFluid g b a) ∧
    FluidRun pipe g (fun _ => 0) 1 pipeLab d1q2 a (pipeSetup g b a) := by
  have h := pipe_uniform g b a
  refine ⟨⟨⟨hw.large, hw.onGrid, hw.away⟩, h.scheme, h.vel, h.algo, ?_, h.nodup, h.loops, h.split⟩,
    ⟨hw, h.scheme, h.vel, h.algo, ?_, h.nodup, h.loops, h.split⟩⟩
  · intro c _ st hst x
    simp only [pipeFluid, hst]
  · intro c hc
    rw [h.all c] at hc
    exact absurd hc (by decide)

/-- A case for C73: the pipe on two processes with `check_isfluid` and on one process without it; the cell 1 is
solid, the others are fluid. -/
theorem pipe_case : FluidRun pipe grid7 (fun _ => 0) 1 pipeLab d1q2 .pull (pipeFluid grid7 .c .pull) ∧
    FluidRun pipe grid7one (fun _ => 0) 1 pipeLab d1q2 .pull (pipeSetup grid7one .numpy .pull) ∧
    AllMethods pipe ∧
    ∃ ST J, OnGrid pipe (boxGrid grid7.N grid7.w (fun _ => 0) 1 pipeLab sten2) ST J ∧
      AllLinks grid7.N grid7.w ST ∧ ReadsFluid pipe grid7.N grid7.w (fun _ => 0) 1 pipeLab ST J ∧
      (∀ t, Free sten2 (flat sten2 (withValues sten2 (boxGrid grid7.N grid7.w (fun _ => 0) 1 pipeLab sten2)
        pipe.ψ J t))) ∧
      (List.range 7).map (fun i => fluidMap grid7.w ST fun _ => (i : Int)) =
        [true, false, true, true, true, true, true] := by
  have h : ∀ c i, grid7.w i ≤ size grid7 c i := (large_iff grid7).2 (by decide)
  have h' : ∀ c i, grid7one.w i ≤ size grid7one c i := (large_iff grid7one).2 (by decide)
  have hs : ∀ c, (pipeData grid7 c).isSome := by decide +kernel
  have hs' : ∀ c, (pipeData grid7one c).isSome := by decide +kernel
  refine ⟨(pipe_fluidRun _ _ _ (pipe_wallRun grid7 h (by decide) hs _ _ (by decide +kernel) (by decide +kernel))).1,
    (pipe_fluidRun _ _ _ (pipe_wallRun grid7one h' (by decide) hs' _ _ (by decide +kernel)
      (by decide +kernel))).2, ?_, ?_⟩
  · intro l ms hl j
    have hj : sten2.scheme j = 0 := by revert j; decide
    simp only [pipe] at hl
    split_ifs at hl <;> cases hl <;> rw [hj] <;> simp
  · have hd : (pipeData grid7one fun i => ⟨0, grid7one.hp i⟩).map (fun p =>
        (List.range 7).map (fun i => fluidMap grid7.w p.1 fun _ => (i : Int))) =
        some [true, false, true, true, true, true, true] := by decide +kernel
    obtain ⟨⟨st, I⟩, hp⟩ := Option.isSome_iff_exists.1 (hs' fun i => ⟨0, grid7one.hp i⟩)
    rw [hp] at hd
    have ho := pipe_onGrid grid7one (by decide) _ hp
    have he : procGrid grid7one (fun _ => (0 : ℚ)) 1 pipeLab sten2 (fun i => ⟨0, grid7one.hp i⟩) =
        boxGrid grid7.N grid7.w (fun _ => 0) 1 pipeLab sten2 := by
      have e1 : first grid7one (fun i => ⟨0, grid7one.hp i⟩) = fun _ => 0 := by
        funext i; revert i; decide +kernel
      have e2 : size grid7one (fun i => ⟨0, grid7one.hp i⟩) = fun _ => 7 := by
        funext i; revert i; decide +kernel
      unfold procGrid boxGrid
      simp only [e1, e2]
      rfl
    rw [he] at ho
    have hone : ∀ label ms, pipe.dico label = some ms → ∀ p ∈ ms, OneCell p.2 := by
      intro l ms hl p hp
      simp only [pipe] at hl
      split_ifs at hl <;> cases hl <;> rw [List.mem_singleton.1 hp] <;> trivial
    refine ⟨st, I, ho, ?_, oneCell_reads pipe _ _ _ _ _ pipe_wf st I ho (ho.oneCell pipe_wf hone),
      fun t => ho.free pipe_wf hone t, Option.some.inj hd⟩
    refine allLinks_closed pipe _ _ _ _ _ pipe_wf st I ho ?_ ?_ ?_ ?_
    · intro j side; cases side <;> simp [pipeLab]
    · intro l hl; simp only [pipe, List.mem_singleton] at hl; subst hl; decide
    · intro e he c k _
      rw [List.mem_singleton.1 he]
      exact plug_sees _ _
    · intro c hc hf e he _
      rw [List.mem_singleton.1 he]
      have := Domain.C21_fluid_map _ ho.wf _ pipe_wf.sound st ho.built c
      rw [hf] at this
      split_ifs at this with h1
      have h2 := h1.2
      by_contra hh
      rw [Bool.not_eq_false] at hh
      change DomainSpec.material [(plug.isFluid, plug.inside)] _ = true at h2
      simp only [DomainSpec.material, hh, List.any_nil, Bool.false_eq_true, if_false, if_true] at h2
      exact absurd h2 (by decide)

end Pylbm.Sim
