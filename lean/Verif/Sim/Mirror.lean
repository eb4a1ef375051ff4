import Verif.Sim.Bounds
import Verif.Domain.Mirror
/-!
# The mirrored problem has the mirrored solution (C86)
-/

set_option linter.unusedSectionVars false

namespace Pylbm.Sim
open Scheme Halo SchemeSpec Matrix HaloSpec Mpi Boundary
open Domain (mirrorVec Elem Link C86_domain mirror_interior mirror_wf coord_eq)

section
variable {K : Type} [Field K] [LinearOrder K] [IsStrictOrderedRing K] [FloorRing K] {nc d dim : Nat}

/-! ## Specification -/

/-- The mirror image of a cell of the global array. -/
def flipCell (N : Fin dim → Nat) (fl : Fin dim → Bool) (y : Cell dim) : Cell dim :=
  fun i => if fl i then (N i : Int) - 1 - y i else y i

/-- The labels of the faces of the mirrored box. -/
def flipLab (fl : Fin dim → Bool) (lab : Fin dim → Bool → Int) : Fin dim → Bool → Int :=
  fun j side => lab j (if fl j then !side else side)

/-- The mirror permutes the velocities, those of each scheme among themselves. -/
structure MirrorStencil (s : Sten dim) (fl : Fin dim → Bool) (ρ : Equiv.Perm (Fin s.ns)) (π : Fin s.nu → Fin s.nu) :
    Prop where
  uvel : ∀ u, s.uvel (π u) = mirrorVec fl (s.uvel u)
  ux : ∀ j, s.ux (ρ j) = π (s.ux j)
  scheme : ∀ j, s.scheme (ρ j) = s.scheme j

/-- The mirror image of the obstacles and of the values imposed on the walls, with the same methods. -/
structure MirrorData {s : Sten dim} (D D' : WallData K dim s) (N w : Fin dim → Nat) (lo : Fin dim → K) (dx : K)
    (lab : Fin dim → Bool → Int) (fl : Fin dim → Bool) (ρ : Equiv.Perm (Fin s.ns)) : Prop where
  elems : List.Forall₂ (Elem.Mirrored (boxGrid N w lo dx lab s) fl) D.elems D'.elems
  els : D'.els = D.els
  dico : D'.dico = D.dico
  values : ∀ label t x j, D'.ψ label t ((boxGrid N w lo dx lab s).mirrorPoint fl x) (ρ j) = D.ψ label t x j

/-! ## Lemmas -/

theorem flip_flip (N : Fin dim → Nat) (fl : Fin dim → Bool) (y : Cell dim) :
    flipCell N fl (flipCell N fl y) = y := by
  funext i
  unfold flipCell
  split <;> omega

theorem flip_box (N : Fin dim → Nat) (fl : Fin dim → Bool) {y : Cell dim} (hy : y ∈ box N) :
    flipCell N fl y ∈ box N := by
  rw [mem_box] at hy ⊢
  intro i
  have := hy i
  unfold flipCell
  split <;> omega

theorem flip_mod (N : Fin dim → Nat) (fl : Fin dim → Bool) (y : Cell dim) :
    (fun i => flipCell N fl y i % (N i : Int)) = flipCell N fl fun i => y i % (N i : Int) := by
  funext i
  unfold flipCell
  beta_reduce
  split
  · rcases Nat.eq_zero_or_pos (N i) with h | h
    · simp [h]
    · have h1 := Int.emod_nonneg (y i) (b := (N i : Int)) (by omega)
      have h2 := Int.emod_lt_of_pos (y i) (b := (N i : Int)) (by omega)
      have h3 : ((N i : Int) - 1 - y i) % N i = ((N i : Int) - 1 - y i % N i) % N i :=
        Int.ModEq.sub_left _ (Int.mod_modEq _ _).symm
      rw [h3]
      exact Int.emod_eq_of_lt (by omega) (by omega)
  · rfl

section
variable {s : Sten dim} {D D' : WallData K dim s} {N w : Fin dim → Nat} {lo : Fin dim → K} {dx : K}
  {lab : Fin dim → Bool → Int} {ST ST' : Domain.State K dim s.nu}
  {J J' : List (Method dim × List (Entry K dim s.ns))} {fl : Fin dim → Bool} {ρ : Equiv.Perm (Fin s.ns)}
  {π : Fin s.nu → Fin s.nu}

theorem MirrorStencil.vel (h : MirrorStencil s fl ρ π) (j : Fin s.ns) : s.vel (ρ j) = mirrorVec fl (s.vel j) := by
  unfold Sten.vel
  rw [h.ux, h.uvel]

theorem MirrorStencil.sym (h : MirrorStencil s fl ρ π) (hs : s.WF) (j : Fin s.ns) : s.sym (ρ j) = ρ (s.sym j) := by
  apply hs.distinct
  · rw [hs.scheme, h.scheme, h.scheme, hs.scheme]
  · apply hs.inj
    funext i
    have e1 := hs.sym (ρ j) i
    have e2 := congrFun (h.vel (s.sym j)) i
    have e3 := congrFun (h.vel j) i
    have e4 := hs.sym j i
    unfold Sten.vel mirrorVec at *
    rw [e1, e2, e3]
    split <;> simp [e4]

/-- The mirror image of a cell of the arrays of a single process. -/
def arrCell (N w : Fin dim → Nat) (fl : Fin dim → Bool) (c : Cell dim) : Cell dim :=
  fun j => if fl j then (N j + 2 * w j : Int) - 1 - c j else c j

theorem arrCell_eq (c : Cell dim) : (boxGrid N w lo dx lab s).mirrorCell fl c = arrCell N w fl c := by
  funext j
  unfold Domain.Grid.mirrorCell arrCell Domain.Grid.total Domain.Grid.n boxGrid
  simp

theorem arrCell_arrCell (c : Cell dim) : arrCell N w fl (arrCell N w fl c) = c := by
  funext i
  unfold arrCell
  split <;> omega

theorem arrCell_flip (y : Cell dim) :
    arrCell N w fl (fun i => y i + (w i : Int)) = fun i => flipCell N fl y i + (w i : Int) := by
  funext i
  unfold arrCell flipCell
  beta_reduce
  split <;> omega

theorem boxGrid_mirror : (boxGrid N w lo dx lab s).mirror fl = boxGrid N w lo dx (flipLab fl lab) s := rfl

/-- The mirror image of an entry. -/
def mirrorEntry (N w : Fin dim → Nat) (fl : Fin dim → Bool) {n : Nat} (ρ : Equiv.Perm (Fin n)) (e : Entry K dim n) :
    Entry K dim n := ⟨ρ e.k, arrCell N w fl e.cell, e.label, e.dist⟩

/-- The mirror image of an item. -/
def mirrorItem (N w : Fin dim → Nat) (fl : Fin dim → Bool) {n : Nat} (ρ : Equiv.Perm (Fin n)) (it : Item K dim n) :
    Item K dim n := ⟨mirrorEntry N w fl ρ it.toEntry, it.feq ∘ ρ.symm⟩

/-- The inverse. -/
def unmirrorItem (N w : Fin dim → Nat) (fl : Fin dim → Bool) {n : Nat} (ρ : Equiv.Perm (Fin n)) (it : Item K dim n) :
    Item K dim n := ⟨⟨ρ.symm it.k, arrCell N w fl it.cell, it.label, it.dist⟩, it.feq ∘ ρ⟩

theorem mirror_unmirror (it : Item K dim s.ns) : mirrorItem N w fl ρ (unmirrorItem N w fl ρ it) = it := by
  unfold mirrorItem unmirrorItem mirrorEntry
  simp only [Equiv.apply_symm_apply, arrCell_arrCell]
  congr 1
  funext j
  simp

theorem inner_mirror (hM : MirrorStencil s fl ρ π) (n : Int) (e : Entry K dim s.ns) :
    Boundary.inner s n (mirrorEntry N w fl ρ e) = arrCell N w fl (Boundary.inner s n e) := by
  funext j
  have := congrFun (hM.vel e.k) j
  simp only [Boundary.inner, mirrorEntry, arrCell, this, mirrorVec]
  split <;> ring

theorem source_mirror (hM : MirrorStencil s fl ρ π) (e : Entry K dim s.ns) :
    source s (mirrorEntry N w fl ρ e) = arrCell N w fl (source s e) := by
  have := inner_mirror (N := N) (w := w) hM 1 e
  unfold Boundary.inner at this
  unfold source
  simpa using this

theorem reads_mirror (hs : s.WF) (hM : MirrorStencil s fl ρ π) (m : Method dim) (it : Item K dim s.ns) :
    Boundary.reads s m (mirrorItem N w fl ρ it) = (Boundary.reads s m it).map fun p => (ρ p.1, arrCell N w fl p.2) := by
  have e1 : (mirrorItem N w fl ρ it).toEntry = mirrorEntry N w fl ρ it.toEntry := rfl
  have e2 : (mirrorEntry N w fl ρ it.toEntry).k = ρ it.k := rfl
  have e3 : (mirrorEntry N w fl ρ it.toEntry).dist = it.dist := rfl
  cases m <;> simp only [Boundary.reads, e1, e2, e3, inner_mirror hM, hM.sym hs, List.map_cons, List.map_nil]
  · split_ifs <;> rfl
  · split_ifs <;> rfl
  · simp only [List.cons.injEq, and_true, Prod.mk.injEq, true_and]
    funext i
    have := congrFun (hM.vel it.k) i
    simp only [mirrorEntry, arrCell, this, mirrorVec]
    split <;> split <;> ring

theorem value_mirror (hs : s.WF) (hM : MirrorStencil s fl ρ π) (m : Method dim) (f f' : Dist K dim s.ns)
    (hf : ∀ j c, f' (ρ j) (arrCell N w fl c) = f j c) (it : Item K dim s.ns) :
    value s m f' f' (mirrorItem N w fl ρ it) = value s m f f it := by
  have e1 : (mirrorItem N w fl ρ it).toEntry = mirrorEntry N w fl ρ it.toEntry := rfl
  have e2 : (mirrorItem N w fl ρ it).k = ρ it.k := rfl
  have e4 : (mirrorEntry N w fl ρ it.toEntry).k = ρ it.k := rfl
  have e6 : (mirrorEntry N w fl ρ it.toEntry).dist = it.dist := rfl
  have e3 : rhs s m (mirrorItem N w fl ρ it) = rhs s m it := by
    have q : ∀ j, (mirrorItem N w fl ρ it).feq (ρ j) = it.feq j := fun j => by simp [mirrorItem]
    cases m <;> simp only [rhs, e2, hM.sym hs, q]
  cases m
  case neumannAxis j =>
    simp only [value, e2]
    rw [← hf]
    congr 1
    funext i
    have := congrFun (hM.vel it.k) i
    simp only [mirrorItem, mirrorEntry, arrCell, this, mirrorVec]
    split <;> split <;> ring
  all_goals simp only [value, load0, load1, e1, e3, e4, e6, inner_mirror hM, hM.sym hs, hf]

theorem entry_mirror (hD : D.WF lab) (hD' : D'.WF (flipLab fl lab)) (hJ : OnGrid D (boxGrid N w lo dx lab s) ST J)
    (hJ' : OnGrid D' (boxGrid N w lo dx (flipLab fl lab) s) ST' J') (hM : MirrorStencil s fl ρ π)
    (hMD : MirrorData D D' N w lo dx lab fl ρ) (m : Method dim) (e : Entry K dim s.ns)
    (hc : (boxGrid N w lo dx lab s).Interior (source s e)) :
    (m, e) ∈ entries s J ↔ (m, mirrorEntry N w fl ρ e) ∈ entries s J' := by
  have hL := (C86_domain (boxGrid N w lo dx lab s) hJ.wf (fun _ => rfl) (fun _ => rfl) fl π hM.uvel D.elems D'.elems
    hMD.elems hD.sound hD'.sound ST ST' hJ.built hJ'.built _ hc).2 (s.ux (s.sym e.k))
  rw [arrCell_eq, ← hM.ux, ← hM.sym hD.sten, ← source_mirror hM] at hL
  have hC : (boxGrid N w lo dx (flipLab fl lab) s).Interior (source s (mirrorEntry N w fl ρ e)) := by
    rw [source_mirror hM, ← arrCell_eq (lo := lo) (dx := dx) (lab := lab)]
    exact (mirror_interior _).2 hc
  rw [mem_entries s _ ST.link hD.sten _ D.dico J hJ.insts, mem_entries s _ ST'.link hD.sten _ D'.dico J' hJ'.insts]
  have hf := congrArg Link.flag hL
  have hd := congrArg Link.dist hL
  change _ = (ST.link (s.ux (s.sym e.k)) (source s e)).flag at hf
  change _ = (ST.link (s.ux (s.sym e.k)) (source s e)).dist at hd
  have hk : (mirrorEntry N w fl ρ e).k = ρ e.k := rfl
  rw [hk, hM.scheme, hMD.dico, hf, hd]
  constructor
  · rintro ⟨label, h1, h2, h3, h4, h5, -, h7, h8⟩
    have h999 : label ≠ 999 := fun hh => no999_list hD (hh ▸ h1)
    refine ⟨label, ?_, h2, h3, h4, h5, mem_cells_interior hC, h7, h8⟩
    have := hJ'.label_mem hD' hC (s.ux (s.sym (ρ e.k))) (by rw [hf, h7]; exact h999)
    rw [hf, h7] at this
    exact this
  · rintro ⟨label, h1, h2, h3, h4, h5, -, h7, h8⟩
    have h999 : label ≠ 999 := fun hh => no999_list hD' (hh ▸ h1)
    refine ⟨label, ?_, h2, h3, h4, h5, mem_cells_interior hc, h7, h8⟩
    have := hJ.label_mem hD hc (s.ux (s.sym e.k)) (by rw [h7]; exact h999)
    rw [h7] at this
    exact this

theorem wallPoint_mirror (hg : (boxGrid N w lo dx lab s).WF) (hM : MirrorStencil s fl ρ π) (e : Entry K dim s.ns)
    (hc : (boxGrid N w lo dx lab s).Interior (source s e)) :
    wallPoint s (boxGrid N w lo dx (flipLab fl lab) s) (mirrorEntry N w fl ρ e) =
      (boxGrid N w lo dx lab s).mirrorPoint fl (wallPoint s (boxGrid N w lo dx lab s) e) := by
  have hg' : (boxGrid N w lo dx (flipLab fl lab) s).WF := mirror_wf (fl := fl) hg
  funext i
  have h1 := hc i
  have h2 := abs_le.1 (hg.halo (s.ux e.k) i)
  have hcell : e.cell i = source s e i - s.uvel (s.ux e.k) i := by simp [source, Sten.vel]
  simp only [boxGrid, Domain.Grid.n] at h1 h2
  have hv := congrFun (hM.vel e.k) i
  have r1 : 0 ≤ e.cell i ∧ e.cell i < (boxGrid N w lo dx lab s).total i := by
    simp only [Domain.Grid.total, Domain.Grid.n, boxGrid]
    omega
  have r2 : 0 ≤ arrCell N w fl e.cell i ∧ arrCell N w fl e.cell i < (boxGrid N w lo dx (flipLab fl lab) s).total i := by
    simp only [Domain.Grid.total, Domain.Grid.n, boxGrid, arrCell] at r1 ⊢
    split <;> omega
  unfold wallPoint Domain.Grid.mirrorPoint Domain.Grid.point
  have hk : (mirrorEntry N w fl ρ e).k = ρ e.k := rfl
  have hk2 : (mirrorEntry N w fl ρ e).cell = arrCell N w fl e.cell := rfl
  beta_reduce
  rw [hk2, coord_eq hg i r1.1 r1.2, coord_eq hg' i r2.1 r2.2, hk, hv]
  simp only [mirrorEntry, boxGrid, DomainSpec.centre, mirrorVec, arrCell]
  split
  · push_cast; ring
  · rfl

theorem item_mirror (hD : D.WF lab) (hD' : D'.WF (flipLab fl lab)) (hJ : OnGrid D (boxGrid N w lo dx lab s) ST J)
    (hJ' : OnGrid D' (boxGrid N w lo dx (flipLab fl lab) s) ST' J') (hM : MirrorStencil s fl ρ π)
    (hMD : MirrorData D D' N w lo dx lab fl ρ) (t : K) (m : Method dim) (it : Item K dim s.ns) :
    (m, it) ∈ flat s (withValues s (boxGrid N w lo dx lab s) D.ψ J t) ↔
      (m, mirrorItem N w fl ρ it) ∈ flat s (withValues s (boxGrid N w lo dx (flipLab fl lab) s) D'.ψ J' t) := by
  have key : (boxGrid N w lo dx lab s).Interior (source s it.toEntry) →
      ((m, it) ∈ flat s (withValues s (boxGrid N w lo dx lab s) D.ψ J t) ↔
      (m, mirrorItem N w fl ρ it) ∈ flat s (withValues s (boxGrid N w lo dx (flipLab fl lab) s) D'.ψ J' t)) := by
    intro hc
    have e1 : (mirrorItem N w fl ρ it).toEntry = mirrorEntry N w fl ρ it.toEntry := rfl
    have e2 : (mirrorEntry N w fl ρ it.toEntry).label = it.label := rfl
    rw [mem_withValues, mem_withValues, e1, e2, wallPoint_mirror hJ.wf hM _ hc,
      entry_mirror hD hD' hJ hJ' hM hMD m it.toEntry hc]
    refine and_congr_right fun _ => ?_
    have hv := hMD.values it.label t (wallPoint s (boxGrid N w lo dx lab s) it.toEntry)
    constructor
    · intro h
      funext j
      obtain ⟨j, rfl⟩ := ρ.surjective j
      rw [hv, ← h]
      simp [mirrorItem]
    · intro h
      funext j
      rw [← hv, ← h]
      simp [mirrorItem]
  constructor
  · intro h
    exact (key ((hJ.onDomain hD t).item hD.sten (no999_list hD) h).1).1 h
  · intro h
    have hi := ((hJ'.onDomain hD' t).item hD.sten (no999_list hD') h).1
    have e1 : (mirrorItem N w fl ρ it).toEntry = mirrorEntry N w fl ρ it.toEntry := rfl
    simp only [e1] at hi
    rw [source_mirror hM, ← arrCell_eq (lo := lo) (dx := dx) (lab := lab) (s := s)] at hi
    exact (key ((mirror_interior (g := boxGrid N w lo dx lab s) (fl := fl) _).1 hi)).2 h

theorem free_mirror (hD : D.WF lab) (hD' : D'.WF (flipLab fl lab)) (hJ : OnGrid D (boxGrid N w lo dx lab s) ST J)
    (hJ' : OnGrid D' (boxGrid N w lo dx (flipLab fl lab) s) ST' J') (hM : MirrorStencil s fl ρ π)
    (hMD : MirrorData D D' N w lo dx lab fl ρ) (t : K)
    (hfree : Free s (flat s (withValues s (boxGrid N w lo dx lab s) D.ψ J t))) :
    Free s (flat s (withValues s (boxGrid N w lo dx (flipLab fl lab) s) D'.ψ J' t)) := by
  rintro ⟨m, it⟩ hq p hp hpos
  obtain ⟨⟨m', it'⟩, hr, hre⟩ := List.mem_map.1 hpos
  rw [← mirror_unmirror (N := N) (w := w) (fl := fl) (ρ := ρ) it] at hq hp
  rw [← mirror_unmirror (N := N) (w := w) (fl := fl) (ρ := ρ) it'] at hr hre
  rw [reads_mirror hD.sten hM] at hp
  obtain ⟨p', hp', rfl⟩ := List.mem_map.1 hp
  refine hfree _ ((item_mirror hD hD' hJ hJ' hM hMD t m _).2 hq) p' hp' ?_
  refine List.mem_map.2 ⟨_, (item_mirror hD hD' hJ hJ' hM hMD t m' _).2 hr, ?_⟩
  simp only [mirrorItem, mirrorEntry, Prod.mk.injEq, EmbeddingLike.apply_eq_iff_eq] at hre
  refine Prod.ext hre.1 ?_
  have := congrArg (arrCell N w fl) hre.2
  simpa only [arrCell_arrCell] using this

/-- The boundary conditions of the mirrored problem. -/
theorem wallBc_mirror (hD : D.WF lab) (hD' : D'.WF (flipLab fl lab)) (hJ : OnGrid D (boxGrid N w lo dx lab s) ST J)
    (hJ' : OnGrid D' (boxGrid N w lo dx (flipLab fl lab) s) ST' J') (hM : MirrorStencil s fl ρ π)
    (hMD : MirrorData D D' N w lo dx lab fl ρ) (t : K)
    (hfree : Free s (flat s (withValues s (boxGrid N w lo dx lab s) D.ψ J t))) (H H' : Arr K s.ns dim)
    (hH : ∀ y j, H' (flipCell N fl y) (ρ j) = H y j) (y : Cell dim) (j : Fin s.ns) :
    wallBc D' N w lo dx (flipLab fl lab) J' t H' (flipCell N fl y) (ρ j) = wallBc D N w lo dx lab J t H y j := by
  have n1 := (hJ.onDomain hD t).nodup_positions hD.sten
  have n2 := (hJ'.onDomain hD' t).nodup_positions hD.sten
  unfold wallBc
  rw [boundaryCondition_written s _ n1 hfree,
    boundaryCondition_written s _ n2 (free_mirror hD hD' hJ hJ' hM hMD t hfree), ← arrCell_flip]
  set f : Dist K dim s.ns := fun k X => H (fun i => X i - w i) k with hf
  set f' : Dist K dim s.ns := fun k X => H' (fun i => X i - w i) k with hf'
  have hff : ∀ j c, f' (ρ j) (arrCell N w fl c) = f j c := by
    intro j c
    rw [hf, hf']
    show H' (fun i => arrCell N w fl c i - w i) (ρ j) = H (fun i => c i - w i) j
    rw [← hH]
    congr 1
    funext i
    unfold arrCell flipCell
    beta_reduce
    split <;> omega
  clear_value f f'
  by_cases hpos : (j, fun i => y i + (w i : Int)) ∈ positions s (flat s (withValues s (boxGrid N w lo dx lab s) D.ψ J t))
  · obtain ⟨⟨m, it⟩, hq, hqe⟩ := List.mem_map.1 hpos
    simp only [Prod.mk.injEq] at hqe
    have hq' := (item_mirror hD hD' hJ hJ' hM hMD t m it).1 hq
    have w1 := written_mem s n1 hq f
    have w2 := written_mem s n2 hq' f'
    simp only [hqe.1, hqe.2] at w1
    have k1 : (mirrorItem N w fl ρ it).k = ρ j := by rw [← hqe.1]; rfl
    have k2 : (mirrorItem N w fl ρ it).cell = arrCell N w fl fun i => y i + (w i : Int) := by rw [← hqe.2]; rfl
    simp only [k1, k2] at w2
    rw [w1, w2, value_mirror hD.sten hM m f f' hff]
  · have hpos' : (ρ j, arrCell N w fl fun i => y i + (w i : Int)) ∉
        positions s (flat s (withValues s (boxGrid N w lo dx (flipLab fl lab) s) D'.ψ J' t)) := by
      intro h
      obtain ⟨⟨m, it⟩, hq, hqe⟩ := List.mem_map.1 h
      rw [← mirror_unmirror (N := N) (w := w) (fl := fl) (ρ := ρ) it] at hq hqe
      refine hpos (List.mem_map.2 ⟨_, (item_mirror hD hD' hJ hJ' hM hMD t m _).2 hq, ?_⟩)
      simp only [mirrorItem, mirrorEntry, Prod.mk.injEq, EmbeddingLike.apply_eq_iff_eq] at hqe
      refine Prod.ext hqe.1 ?_
      have := congrArg (arrCell N w fl) hqe.2
      simpa only [arrCell_arrCell] using this
    rw [written_not_mem s hpos, written_not_mem s hpos', hff]

theorem fluidMap_mirror (hD : D.WF lab) (hD' : D'.WF (flipLab fl lab)) (hJ : OnGrid D (boxGrid N w lo dx lab s) ST J)
    (hJ' : OnGrid D' (boxGrid N w lo dx (flipLab fl lab) s) ST' J') (hM : MirrorStencil s fl ρ π)
    (hMD : MirrorData D D' N w lo dx lab fl ρ) {y : Cell dim} (hy : y ∈ box N) :
    fluidMap w ST' (flipCell N fl y) = fluidMap w ST y := by
  have hc := interior_shift (N := N) (w := w) (lo := lo) (dx := dx) (lab := lab) (s := s) hy
  have := (C86_domain (boxGrid N w lo dx lab s) hJ.wf (fun _ => rfl) (fun _ => rfl) fl π hM.uvel D.elems D'.elems
    hMD.elems hD.sound hD'.sound ST ST' hJ.built hJ'.built _ hc).1
  rw [arrCell_eq, arrCell_flip] at this
  unfold fluidMap
  rw [this]

end

theorem periodic_flip {α : Type} (N : Fin dim → Nat) (fl : Fin dim → Bool) (G : Cell dim → α) (y : Cell dim) :
    periodic N G (flipCell N fl y) = periodic N (fun z => G (flipCell N fl z)) y := by
  unfold periodic
  rw [flip_mod]

/-! ## Property -/

/-- **C86.** The mirrored problem has the mirrored solution, also with walls, obstacles and imposed values: the second
simulation is set up with the mirror image of the elements, the labels of the opposite faces exchanged, the same
conditions with mirrored imposed values, on the same or another decomposition, with or without `check_isfluid`; the
mirror permutes the velocities and the collision commutes with it. If the populations of the fluid cells are mirror
images at the beginning, they are after any number of steps, for all orders of the messages. -/
theorem C86_mirror (hdim : dim ≤ 3) {s : Sten dim} (D D' : WallData K dim s) (lo : Fin dim → K) (dx : K)
    (lab : Fin dim → Bool → Int) (fl : Fin dim → Bool) (hD : D.WF lab) (hD' : D'.WF (flipLab fl lab))
    (g g' : Grid dim) (hN : g.N = g'.N) (hw : g.w = g'.w)
    (ρ : Equiv.Perm (Fin s.ns)) (π : Fin s.nu → Fin s.nu) (hM : MirrorStencil s fl ρ π)
    (hMD : MirrorData D D' g.N g.w lo dx lab fl ρ)
    (ST ST' : Domain.State K dim s.nu) (J J' : List (Method dim × List (Entry K dim s.ns)))
    (hJ : OnGrid D (boxGrid g.N g.w lo dx lab s) ST J)
    (hJ' : OnGrid D' (boxGrid g.N g.w lo dx (flipLab fl lab) s) ST' J')
    (hfree : ∀ t, Free s (flat s (withValues s (boxGrid g.N g.w lo dx lab s) D.ψ J t)))
    (hlinks : AllLinks g.N g.w ST) (hmeth : AllMethods D) (hreads : ReadsFluid D g.N g.w lo dx lab ST J)
    (S : Kernel K s.ns nc d) (hfront : ∀ j, (S.consm j : Nat) < nc) (a : Algo)
    (hφ : ∀ f, collide S a (f ∘ ρ) = collide S a f ∘ ρ)
    (Q : Proc g → Setup K s.ns nc d dim) (hQ : FluidRun D g lo dx lab S a Q)
    (Q' : Proc g' → Setup K s.ns nc d dim) (hQ' : FluidRun D' g' lo dx (flipLab fl lab) S a Q')
    (σ₀ : Proc g → Simu K s.ns d dim) (h0 : ∀ c, (σ₀ c).Start (Q c))
    (σ₀' : Proc g' → Simu K s.ns d dim) (h0' : ∀ c, (σ₀' c).Start (Q' c))
    (hsym : ∀ c x, Owned (size g c) g.w x → ∀ c' x', Owned (size g' c') g'.w x' →
      globalPos (first g' c') g'.w x' = flipCell g.N fl (globalPos (first g c) g.w x) →
      fluidMap g.w ST (globalPos (first g c) g.w x) = true → ∀ j, (σ₀' c').arr x' (ρ j) = (σ₀ c).arr x j)
    (k : Nat) (σ : Proc g → Simu K s.ns d dim) (hr : PRun g Q σ₀ k σ)
    (σ' : Proc g' → Simu K s.ns d dim) (hr' : PRun g' Q' σ₀' k σ')
    (c : Proc g) (x : Cell dim) (hx : Owned (size g c) g.w x)
    (c' : Proc g') (x' : Cell dim) (hx' : Owned (size g' c') g'.w x')
    (he : globalPos (first g' c') g'.w x' = flipCell g.N fl (globalPos (first g c) g.w x))
    (hf : fluidMap g.w ST (globalPos (first g c) g.w x) = true) (j : Fin s.ns) :
    (σ' c').arr x' (ρ j) = (σ c).arr x j := by
  have fb := fluidBoundary_walls D g.N g.w lo dx lab hD ST J hJ hfree hlinks hmeth hreads
  have hbc := fun t => wallBc_mirror hD hD' hJ hJ' hM hMD t (hfree t)
  have hshift : ∀ (y : Cell dim) l, (fun i => flipCell g.N fl y i - s.vel (ρ l) i) =
      flipCell g.N fl fun i => y i - s.vel l i := by
    intro y l
    funext i
    have := congrFun (hM.vel l) i
    simp only [flipCell, this, mirrorVec]
    split <;> ring
  have fb' : FluidBoundary g.N s.vel (fluidMap g.w ST') (wallBc D' g.N g.w lo dx (flipLab fl lab) J') := by
    intro t H H' hHH y hy hyf j
    obtain ⟨l, rfl⟩ := ρ.surjective j
    have hz := flip_box g.N fl hy
    have hzf := fluidMap_mirror hD hD' hJ hJ' hM hMD hz
    have hyz := flip_flip g.N fl y
    rw [hyz, hyf] at hzf
    generalize flipCell g.N fl y = z at hz hzf hyz
    rw [← hyz, hshift, hbc t (fun y j => H (flipCell g.N fl y) (ρ j)) H (fun _ _ => rfl),
      hbc t (fun y j => H' (flipCell g.N fl y) (ρ j)) H' (fun _ _ => rfl)]
    refine fb t _ _ (fun u hu => ?_) z hz hzf.symm l
    funext j
    rw [hHH]
    have hub : (fun i => u i % (g.N i : Int)) ∈ box g.N := mod_mem_box (fun i => by
      have := (mem_box _ _).1 hz i; omega) u
    have := fluidMap_mirror hD hD' hJ hJ' hM hMD hub
    unfold periodic at hu ⊢
    rw [flip_mod, this]
    exact hu
  have hJ'' : OnGrid D' (boxGrid g'.N g'.w lo dx (flipLab fl lab) s) ST' J' := by rw [← hN, ← hw]; exact hJ'
  obtain ⟨G, hG, -⟩ := assemble g (fun c x => (σ₀ c).arr x) (fun _ _ => 0)
  obtain ⟨_, h2⟩ := C73_fluid_cells hdim g hQ.walls.large S hfront s.vel a _ Q (hQ.uniform hD ST hJ.built) _
    (sameBoundary_walls D g lo dx lab hD Q hQ.walls ST J hJ hfree) fb σ₀ h0 G (fun c x hx _ => hG c x hx) k σ hr
  obtain ⟨_, h2'⟩ := C73_fluid_cells hdim g' hQ'.walls.large S hfront s.vel a _ Q' (hQ'.uniform hD' ST' hJ''.built) _
    (sameBoundary_walls D' g' lo dx (flipLab fl lab) hD' Q' hQ'.walls ST' J' hJ'' (fun t => by
      rw [← hN, ← hw]; exact free_mirror hD hD' hJ hJ' hM hMD t (hfree t))) (by rw [← hN, ← hw]; exact fb') σ₀' h0'
    (fun y j => G (flipCell g.N fl y) (ρ.symm j)) (by
      intro c' x' hx' hf'
      have hfw : fluidMap g.w ST' (globalPos (first g' c') g'.w x') = true := by rw [hw]; exact hf'
      have hb := flip_box g.N fl (hN ▸ owned_box g' hx')
      obtain ⟨c, x, hx, hxe⟩ := exists_owned g _ hb
      have he : globalPos (first g' c') g'.w x' = flipCell g.N fl (globalPos (first g c) g.w x) := by
        rw [hxe, flip_flip]
      have hfc := fluidMap_mirror hD hD' hJ hJ' hM hMD hb
      rw [flip_flip, hfw, ← hxe] at hfc
      funext j
      obtain ⟨l, rfl⟩ := ρ.surjective j
      rw [hsym c x hx c' x' hx' he hfc.symm l, hG c x hx, hxe, Equiv.symm_apply_apply]) k σ' hr'
  have hxb := owned_box g hx
  have hf' : fluidMap g'.w ST' (globalPos (first g' c') g'.w x') = true := by
    rw [he, ← hw, fluidMap_mirror hD hD' hJ hJ' hM hMD hxb, hf]
  rw [h2 c x hx hf, h2' c' x' hx' hf', he, ← hN, ← hw]
  have key : ∀ k (y : Cell dim) j, lbmRun g.N s.vel (collide S a) (wallBc D' g.N g.w lo dx (flipLab fl lab) J') S.dt
      (fun y j => G (flipCell g.N fl y) (ρ.symm j)) k (flipCell g.N fl y) (ρ j) =
      lbmRun g.N s.vel (collide S a) (wallBc D g.N g.w lo dx lab J) S.dt G k y j := by
    intro k
    induction k with
    | zero =>
      intro y j
      simp only [lbmRun, flip_flip, Equiv.symm_apply_apply]
    | succ k ih =>
      intro y j
      simp only [lbmRun]
      generalize lbmRun g.N s.vel (collide S a) (wallBc D' g.N g.w lo dx (flipLab fl lab) J') S.dt
        (fun y j => G (flipCell g.N fl y) (ρ.symm j)) k = A' at ih ⊢
      generalize lbmRun g.N s.vel (collide S a) (wallBc D g.N g.w lo dx lab J) S.dt G k = A at ih ⊢
      unfold lbmStep
      have e : ∀ f, collide S a f (ρ j) = collide S a (f ∘ ρ) j := fun f => (congrFun (hφ f) j).symm
      rw [e]
      congr 1
      funext l
      show wallBc D' g.N g.w lo dx (flipLab fl lab) J' _ (periodic g.N A')
        (fun i => flipCell g.N fl y i - s.vel (ρ l) i) (ρ l) = _
      rw [hshift]
      refine hbc _ _ _ (fun u q => ?_) _ l
      rw [periodic_flip]
      exact ih _ q
  exact key k _ j

/-- **C86, symmetric problems.** If the obstacles, the labels and the imposed values are their own mirror image and the
collision commutes with the mirror, symmetric populations stay symmetric: on any decomposition and for all orders of the
messages, the populations of mirrored fluid cells (which may be on different processes) remain mirror images. -/
theorem C86_symmetric (hdim : dim ≤ 3) {s : Sten dim} (D : WallData K dim s) (lo : Fin dim → K) (dx : K)
    (lab : Fin dim → Bool → Int) (fl : Fin dim → Bool) (hD : D.WF lab)
    (hlab : ∀ j side, fl j = true → lab j (!side) = lab j side) (g : Grid dim)
    (ρ : Equiv.Perm (Fin s.ns)) (π : Fin s.nu → Fin s.nu) (hM : MirrorStencil s fl ρ π)
    (hMD : MirrorData D D g.N g.w lo dx lab fl ρ)
    (ST : Domain.State K dim s.nu) (J : List (Method dim × List (Entry K dim s.ns)))
    (hJ : OnGrid D (boxGrid g.N g.w lo dx lab s) ST J)
    (hfree : ∀ t, Free s (flat s (withValues s (boxGrid g.N g.w lo dx lab s) D.ψ J t)))
    (hlinks : AllLinks g.N g.w ST) (hmeth : AllMethods D) (hreads : ReadsFluid D g.N g.w lo dx lab ST J)
    (S : Kernel K s.ns nc d) (hfront : ∀ j, (S.consm j : Nat) < nc) (a : Algo)
    (hφ : ∀ f, collide S a (f ∘ ρ) = collide S a f ∘ ρ)
    (Q : Proc g → Setup K s.ns nc d dim) (hQ : FluidRun D g lo dx lab S a Q)
    (σ₀ : Proc g → Simu K s.ns d dim) (h0 : ∀ c, (σ₀ c).Start (Q c))
    (hsym : ∀ c x, Owned (size g c) g.w x → ∀ c' x', Owned (size g c') g.w x' →
      globalPos (first g c') g.w x' = flipCell g.N fl (globalPos (first g c) g.w x) →
      fluidMap g.w ST (globalPos (first g c) g.w x) = true → ∀ j, (σ₀ c').arr x' (ρ j) = (σ₀ c).arr x j)
    (k : Nat) (σ : Proc g → Simu K s.ns d dim) (hr : PRun g Q σ₀ k σ)
    (c : Proc g) (x : Cell dim) (hx : Owned (size g c) g.w x)
    (c' : Proc g) (x' : Cell dim) (hx' : Owned (size g c') g.w x')
    (he : globalPos (first g c') g.w x' = flipCell g.N fl (globalPos (first g c) g.w x))
    (hf : fluidMap g.w ST (globalPos (first g c) g.w x) = true) (j : Fin s.ns) :
    (σ c').arr x' (ρ j) = (σ c).arr x j := by
  have hl : flipLab fl lab = lab := by
    funext j side
    unfold flipLab
    cases h : fl j
    · rfl
    · exact hlab j side h
  exact C86_mirror hdim D D lo dx lab fl hD (by rw [hl]; exact hD) g g rfl rfl ρ π hM hMD ST ST J J hJ
    (by rw [hl]; exact hJ) hfree hlinks hmeth hreads S hfront a hφ Q hQ Q (by rw [hl]; exact hQ) σ₀ h0 σ₀ h0 hsym k σ hr
    σ hr c x hx c' x' hx' he hf j

end

end Pylbm.Sim
