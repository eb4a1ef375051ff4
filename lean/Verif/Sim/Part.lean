import Verif.Sim.Fluid
import Verif.Sim.Bounds
import Verif.Scheme.Part
import Verif.Boundary.Part
import Verif.Domain.Velocities
/-!
# A scheme which does not use the others evolves as if it were alone (C103)
-/
set_option linter.unusedSectionVars false
namespace Pylbm.Sim
open Scheme hiding Entry
open Halo SchemeSpec Matrix HaloSpec Mpi Boundary

section
variable {K : Type} [Field K] [LinearOrder K] [IsStrictOrderedRing K] [FloorRing K] {nc nc₁ d dim : Nat}

/-! ## Specification -/

/-- The same elements, and the methods and imposed values of the part of the schemes. -/
structure PartWalls {s s₁ : Sten dim} (τ : Fin s₁.ns ↪ Fin s.ns) (ζ : Nat → Nat) (D : WallData K dim s)
    (D₁ : WallData K dim s₁) : Prop where
  elems : D₁.elems = D.elems
  els : D₁.els = D.els
  dico : ∀ label i (m : Method dim), (i, m) ∈ (D₁.dico label).getD [] ↔ (ζ i, m) ∈ (D.dico label).getD []
  values : ∀ label t x j, D₁.ψ label t x j = D.ψ label t x (τ j)

/-! ## Lemmas -/

section
variable {s s₁ : Sten dim} {τ : Fin s₁.ns ↪ Fin s.ns} {ζ : Nat → Nat}
  {D : WallData K dim s} {D₁ : WallData K dim s₁} {N w w₁ : Fin dim → Nat} {lo : Fin dim → K} {dx : K}
  {lab : Fin dim → Bool → Int} {ST : Domain.State K dim s.nu} {ST₁ : Domain.State K dim s₁.nu}
  {J : List (Method dim × List (Entry K dim s.ns))} {J₁ : List (Method dim × List (Entry K dim s₁.ns))}

/-- The entry of the part in the array of the whole. -/
def embedEntry (τ : Fin s₁.ns ↪ Fin s.ns) (w w₁ : Fin dim → Nat) (e : Entry K dim s₁.ns) : Entry K dim s.ns :=
  ⟨τ e.k, fun i => e.cell i + w i - w₁ i, e.label, e.dist⟩

/-- The item `it` of the whole is the item `it₁` of the part. -/
structure Embeds (τ : Fin s₁.ns ↪ Fin s.ns) (w w₁ : Fin dim → Nat) (it₁ : Item K dim s₁.ns) (it : Item K dim s.ns) :
    Prop where
  entry : it.toEntry = embedEntry τ w w₁ it₁.toEntry
  feq : ∀ j, it₁.feq j = it.feq (τ j)

theorem inner_embed (hP : PartSten s s₁ τ ζ) (n : Int) (e : Entry K dim s₁.ns) :
    Boundary.inner s n (embedEntry τ w w₁ e) = fun i => Boundary.inner s₁ n e i + w i - w₁ i := by
  funext j
  simp only [Boundary.inner, embedEntry, hP.vel]
  ring

theorem source_embed (hP : PartSten s s₁ τ ζ) (e : Entry K dim s₁.ns) :
    source s (embedEntry τ w w₁ e) = fun i => source s₁ e i + w i - w₁ i := by
  funext j
  simp only [source, embedEntry, hP.vel]
  ring

theorem reads_embed (hP : PartSten s s₁ τ ζ) (hs : s.WF) (hs₁ : s₁.WF) (m : Method dim) {it₁ : Item K dim s₁.ns}
    {it : Item K dim s.ns} (h : Embeds τ w w₁ it₁ it) :
    Boundary.reads s m it = (Boundary.reads s₁ m it₁).map fun p => (τ p.1, fun i => p.2 i + (w i : Int) - w₁ i) := by
  have e2 : (embedEntry τ w w₁ it₁.toEntry).k = τ it₁.k := rfl
  have e3 : (embedEntry τ w w₁ it₁.toEntry).dist = it₁.dist := rfl
  have e4 : (embedEntry τ w w₁ it₁.toEntry).cell = fun i => it₁.cell i + w i - w₁ i := rfl
  cases m <;> simp only [Boundary.reads, h.entry, e2, e3, e4, inner_embed hP, hP.sym hs hs₁, hP.vel, List.map_cons, List.map_nil]
  · split_ifs <;> rfl
  · split_ifs <;> rfl
  · simp only [List.cons.injEq, and_true, Prod.mk.injEq, true_and]
    funext i
    ring

theorem value_embed (hP : PartSten s s₁ τ ζ) (hs : s.WF) (hs₁ : s₁.WF) (m : Method dim) (f : Dist K dim s.ns)
    (f₁ : Dist K dim s₁.ns) (hf : ∀ j c, f₁ j c = f (τ j) fun i => c i + w i - w₁ i)
    {it₁ : Item K dim s₁.ns} {it : Item K dim s.ns} (h : Embeds τ w w₁ it₁ it) :
    value s₁ m f₁ f₁ it₁ = value s m f f it := by
  have e2 : (embedEntry τ w w₁ it₁.toEntry).k = τ it₁.k := rfl
  have e3 : (embedEntry τ w w₁ it₁.toEntry).dist = it₁.dist := rfl
  have e4 : (embedEntry τ w w₁ it₁.toEntry).cell = fun i => it₁.cell i + w i - w₁ i := rfl
  have er : rhs s m it = rhs s₁ m it₁ := by
    cases m <;> simp only [rhs, h.entry, e2, hP.sym hs hs₁, h.feq]
  cases m
  case neumannAxis j =>
    simp only [value, h.entry, e2, e4, hf, hP.vel]
    congr 1
    funext i
    ring
  all_goals simp only [value, load0, load1, h.entry, er, e2, e3, inner_embed hP, hP.sym hs hs₁, hf]

theorem sameBox (N w w₁ : Fin dim → Nat) (lo : Fin dim → K) (dx : K) (lab : Fin dim → Bool → Int) (s s₁ : Sten dim) :
    Domain.SameBox (boxGrid N w lo dx lab s) (boxGrid N w₁ lo dx lab s₁) := ⟨rfl, rfl, rfl, rfl, rfl, rfl⟩

theorem mem_labels_part (l : Int) (els : List Int) :
    l ∈ listOfLabels (boxGrid N w lo dx lab s) els ↔ l ∈ listOfLabels (boxGrid N w₁ lo dx lab s₁) els := by
  rw [mem_listOfLabels, mem_listOfLabels]
  exact Iff.rfl

/-- An entry comes from a cell of the box. -/
theorem entry_interior (hD : D.WF lab) (hJ : OnGrid D (boxGrid N w lo dx lab s) ST J) {m : Method dim}
    {e : Entry K dim s.ns} (h : (m, e) ∈ entries s J) : (boxGrid N w lo dx lab s).Interior (source s e) := by
  have o := hJ.onDomain hD 0
  exact (o.item hD.sten (no999_list (g := boxGrid N w lo dx lab s) hD)
    ((mem_withValues s (boxGrid N w lo dx lab s) D.ψ J 0 m ⟨e, D.ψ e.label 0 (wallPoint s (boxGrid N w lo dx lab s) e)⟩).2
      ⟨h, rfl⟩)).1

theorem entry_part (hP : PartSten s s₁ τ ζ) (hD : D.WF lab) (hD₁ : D₁.WF lab) (hW : PartWalls τ ζ D D₁)
    (hJ : OnGrid D (boxGrid N w lo dx lab s) ST J) (hJ₁ : OnGrid D₁ (boxGrid N w₁ lo dx lab s₁) ST₁ J₁) (m : Method dim)
    (e : Entry K dim s₁.ns) : (m, e) ∈ entries s₁ J₁ ↔ (m, embedEntry τ w w₁ e) ∈ entries s J := by
  have hB := sameBox N w w₁ lo dx lab s s₁
  have hp : Domain.SamePlace (boxGrid N w lo dx lab s) (boxGrid N w₁ lo dx lab s₁) (source s (embedEntry τ w w₁ e))
      (source s₁ e) := by
    intro j
    rw [source_embed hP]
    simp only [boxGrid]
    ring
  suffices h : (boxGrid N w lo dx lab s).Interior (source s (embedEntry τ w w₁ e)) →
      ((m, e) ∈ entries s₁ J₁ ↔ (m, embedEntry τ w w₁ e) ∈ entries s J) by
    constructor
    · intro h'
      exact (h ((hp.interior hB).2 (entry_interior hD₁ hJ₁ h'))).1 h'
    · intro h'
      exact (h (entry_interior hD hJ h')).2 h'
  intro hint
  have hint₁ := (hp.interior hB).1 hint
  have hk : (embedEntry τ w w₁ e).k = τ e.k := rfl
  have hl : (embedEntry τ w w₁ e).label = e.label := rfl
  have hd : (embedEntry τ w w₁ e).dist = e.dist := rfl
  have hv : (boxGrid N w lo dx lab s).vel (s.ux (s.sym (τ e.k))) = (boxGrid N w₁ lo dx lab s₁).vel (s₁.ux (s₁.sym e.k)) := by
    have := hP.vel (s₁.sym e.k)
    rw [← hP.sym hD.sten hD₁.sten] at this
    exact this
  have hL := (Domain.C103_domain _ hJ.wf _ hJ₁.wf hB D.elems hD.sound ST ST₁ hJ.built (by
    rw [← hW.elems]; exact hJ₁.built) _ _ hp).2 _ _ hv hint
  rw [mem_entries s₁ _ ST₁.link hD₁.sten _ D₁.dico J₁ hJ₁.insts,
    mem_entries s _ ST.link hD.sten _ D.dico J hJ.insts]
  simp only [hk, hl, hd, hL, hW.dico, hP.scheme, hW.els, mem_cells_interior hint, mem_cells_interior hint₁]
  refine exists_congr fun l => and_congr_left fun _ => ?_
  exact (mem_labels_part l D.els).symm

theorem wallPoint_part (hP : PartSten s s₁ τ ζ)
    (hJ : OnGrid D (boxGrid N w lo dx lab s) ST J) (hJ₁ : OnGrid D₁ (boxGrid N w₁ lo dx lab s₁) ST₁ J₁)
    (e : Entry K dim s₁.ns) (hc : (boxGrid N w₁ lo dx lab s₁).Interior (source s₁ e)) :
    wallPoint s (boxGrid N w lo dx lab s) (embedEntry τ w w₁ e) = wallPoint s₁ (boxGrid N w₁ lo dx lab s₁) e := by
  funext i
  have h1 := hc i
  have h2 : -(w₁ i : Int) ≤ s₁.uvel (s₁.ux e.k) i ∧ s₁.uvel (s₁.ux e.k) i ≤ (w₁ i : Int) :=
    abs_le.1 (hJ₁.wf.halo (s₁.ux e.k) i)
  have h3 : -(w i : Int) ≤ s.uvel (s.ux (τ e.k)) i ∧ s.uvel (s.ux (τ e.k)) i ≤ (w i : Int) :=
    abs_le.1 (hJ.wf.halo (s.ux (τ e.k)) i)
  have hv : s.uvel (s.ux (τ e.k)) i = s₁.uvel (s₁.ux e.k) i := congrFun (hP.vel e.k) i
  have hcell : e.cell i = source s₁ e i - s₁.uvel (s₁.ux e.k) i := by simp [source, Sten.vel]
  rw [hv] at h3
  unfold Domain.Grid.n at h1
  change (w₁ i : Int) ≤ source s₁ e i ∧ source s₁ e i < (w₁ i : Int) + (N i - 0 : Nat) at h1
  unfold wallPoint
  have : (boxGrid N w lo dx lab s).point (embedEntry τ w w₁ e).cell i = (boxGrid N w₁ lo dx lab s₁).point e.cell i := by
    unfold Domain.Grid.point
    rw [Domain.coord_eq hJ.wf i (by simp only [embedEntry]; omega)
        (by simp only [embedEntry, Domain.Grid.total, Domain.Grid.n, boxGrid]; omega),
      Domain.coord_eq hJ₁.wf i (by omega) (by simp only [Domain.Grid.total, Domain.Grid.n, boxGrid]; omega)]
    simp only [embedEntry, boxGrid]
    congr 1
    push_cast; ring
  rw [this]
  simp only [embedEntry, hP.vel]
  rfl

/-- The items of the part are those of the whole on its distribution functions. -/
theorem item_part (hP : PartSten s s₁ τ ζ) (hD : D.WF lab) (hD₁ : D₁.WF lab) (hW : PartWalls τ ζ D D₁)
    (hJ : OnGrid D (boxGrid N w lo dx lab s) ST J) (hJ₁ : OnGrid D₁ (boxGrid N w₁ lo dx lab s₁) ST₁ J₁) (t : K)
    (m : Method dim) :
    (∀ it₁, (m, it₁) ∈ flat s₁ (withValues s₁ (boxGrid N w₁ lo dx lab s₁) D₁.ψ J₁ t) →
      ∃ it, (m, it) ∈ flat s (withValues s (boxGrid N w lo dx lab s) D.ψ J t) ∧ Embeds τ w w₁ it₁ it) ∧
    ∀ it k, (m, it) ∈ flat s (withValues s (boxGrid N w lo dx lab s) D.ψ J t) → it.k = τ k →
      ∃ it₁, (m, it₁) ∈ flat s₁ (withValues s₁ (boxGrid N w₁ lo dx lab s₁) D₁.ψ J₁ t) ∧ Embeds τ w w₁ it₁ it := by
  refine ⟨fun it₁ h => ?_, fun it k h hk => ?_⟩
  · rw [mem_withValues] at h
    refine ⟨⟨embedEntry τ w w₁ it₁.toEntry, D.ψ it₁.label t (wallPoint s (boxGrid N w lo dx lab s)
      (embedEntry τ w w₁ it₁.toEntry))⟩, ?_, rfl, fun j => ?_⟩
    · rw [mem_withValues]
      exact ⟨(entry_part hP hD hD₁ hW hJ hJ₁ m _).1 h.1, rfl⟩
    · show it₁.feq j = D.ψ _ _ _ (τ j)
      rw [wallPoint_part hP hJ hJ₁ _ (entry_interior hD₁ hJ₁ h.1), ← hW.values, h.2]
  · rw [mem_withValues] at h
    let e : Entry K dim s₁.ns := ⟨k, fun i => it.cell i - w i + w₁ i, it.label, it.dist⟩
    have he : it.toEntry = embedEntry τ w w₁ e := by
      have hc : (fun i => it.cell i - (w i : Int) + w₁ i + w i - w₁ i) = it.cell := by funext i; ring
      simp only [embedEntry, e, hc, ← hk]
    have h1 : (m, e) ∈ entries s₁ J₁ := (entry_part hP hD hD₁ hW hJ hJ₁ m e).2 (by rw [← he]; exact h.1)
    refine ⟨⟨e, D₁.ψ e.label t (wallPoint s₁ (boxGrid N w₁ lo dx lab s₁) e)⟩, ?_, he, fun j => ?_⟩
    · rw [mem_withValues]
      exact ⟨h1, rfl⟩
    · rw [h.2, he, wallPoint_part hP hJ hJ₁ _ (entry_interior hD₁ hJ₁ h1)]
      exact hW.values _ _ _ _

theorem free_part (hP : PartSten s s₁ τ ζ) (hD : D.WF lab) (hD₁ : D₁.WF lab) (hW : PartWalls τ ζ D D₁)
    (hJ : OnGrid D (boxGrid N w lo dx lab s) ST J) (hJ₁ : OnGrid D₁ (boxGrid N w₁ lo dx lab s₁) ST₁ J₁) (t : K)
    (hfree : Free s (flat s (withValues s (boxGrid N w lo dx lab s) D.ψ J t))) :
    Free s₁ (flat s₁ (withValues s₁ (boxGrid N w₁ lo dx lab s₁) D₁.ψ J₁ t)) := by
  rintro ⟨m, it₁⟩ hq p hp hpos
  obtain ⟨⟨m', it₁'⟩, hr, rfl⟩ := List.mem_map.1 hpos
  obtain ⟨it, hit, hE⟩ := (item_part hP hD hD₁ hW hJ hJ₁ t m).1 it₁ hq
  obtain ⟨it', hit', hE'⟩ := (item_part hP hD hD₁ hW hJ hJ₁ t m').1 it₁' hr
  refine hfree _ hit (it'.k, it'.cell) ?_ (List.mem_map.2 ⟨_, hit', rfl⟩)
  show _ ∈ Boundary.reads s m it
  rw [reads_embed hP hD.sten hD₁.sten m hE]
  refine List.mem_map.2 ⟨_, hp, ?_⟩
  rw [hE'.entry]
  rfl

/-- The boundary conditions of the part. -/
theorem wallBc_part (hP : PartSten s s₁ τ ζ) (hD : D.WF lab) (hD₁ : D₁.WF lab) (hW : PartWalls τ ζ D D₁)
    (hJ : OnGrid D (boxGrid N w lo dx lab s) ST J) (hJ₁ : OnGrid D₁ (boxGrid N w₁ lo dx lab s₁) ST₁ J₁) (t : K)
    (hfree : Free s (flat s (withValues s (boxGrid N w lo dx lab s) D.ψ J t))) (H : Arr K s.ns dim)
    (H₁ : Arr K s₁.ns dim) (hH : ∀ y j, H₁ y j = H y (τ j)) (y : Cell dim)
    (j : Fin s₁.ns) : wallBc D₁ N w₁ lo dx lab J₁ t H₁ y j = wallBc D N w lo dx lab J t H y (τ j) := by
  have n1 := (hJ.onDomain hD t).nodup_positions hD.sten
  have n2 := (hJ₁.onDomain hD₁ t).nodup_positions hD₁.sten
  unfold wallBc
  rw [boundaryCondition_written s _ n1 hfree,
    boundaryCondition_written s₁ _ n2 (free_part hP hD hD₁ hW hJ hJ₁ t hfree)]
  set f : Dist K dim s.ns := fun k X => H (fun i => X i - w i) k with hf
  set f' : Dist K dim s₁.ns := fun k X => H₁ (fun i => X i - w₁ i) k with hf'
  have hff : ∀ j c, f' j c = f (τ j) fun i => c i + w i - w₁ i := fun j c => by
    simp only [hf, hf', hH]
    congr 1
    funext i
    ring
  clear_value f f'
  by_cases hpos : (j, fun i => y i + (w₁ i : Int)) ∈
      positions s₁ (flat s₁ (withValues s₁ (boxGrid N w₁ lo dx lab s₁) D₁.ψ J₁ t))
  · obtain ⟨⟨m, it₁⟩, hq, hqe⟩ := List.mem_map.1 hpos
    simp only [Prod.mk.injEq] at hqe
    obtain ⟨it, hit, hE⟩ := (item_part hP hD hD₁ hW hJ hJ₁ t m).1 it₁ hq
    have w1 := written_mem s n1 hit f
    have w2 := written_mem s₁ n2 hq f'
    simp only [hqe.1, hqe.2] at w2
    have k1 : it.k = τ j := by rw [hE.entry, ← hqe.1]; rfl
    have k2 : it.cell = fun i => y i + (w i : Int) := by
      rw [hE.entry]
      funext i
      simp only [embedEntry, hqe.2]
      ring
    simp only [k1, k2] at w1
    rw [w1, w2, value_embed hP hD.sten hD₁.sten m f f' hff hE]
  · have hpos' : ((τ j), fun i => y i + (w i : Int)) ∉
        positions s (flat s (withValues s (boxGrid N w lo dx lab s) D.ψ J t)) := by
      intro h
      obtain ⟨⟨m, it⟩, hq, hqe⟩ := List.mem_map.1 h
      simp only [Prod.mk.injEq] at hqe
      obtain ⟨it₁, hit, hE⟩ := (item_part hP hD hD₁ hW hJ hJ₁ t m).2 it j hq hqe.1
      refine hpos (List.mem_map.2 ⟨_, hit, ?_⟩)
      have e1 := hqe.1
      have e2 := hqe.2
      rw [hE.entry] at e1 e2
      refine Prod.ext (τ.injective e1) (funext fun i => ?_)
      have := congrFun e2 i
      simp only [embedEntry] at this ⊢
      omega
    rw [written_not_mem s hpos', written_not_mem s₁ hpos, hff]
    congr 1
    funext i
    ring

theorem fluidMap_part (hD : D.WF lab) (hW : PartWalls τ ζ D D₁) (hJ : OnGrid D (boxGrid N w lo dx lab s) ST J)
    (hJ₁ : OnGrid D₁ (boxGrid N w₁ lo dx lab s₁) ST₁ J₁) : fluidMap w₁ ST₁ = fluidMap w ST := by
  funext y
  unfold fluidMap
  rw [(Domain.C103_domain _ hJ.wf _ hJ₁.wf (sameBox N w w₁ lo dx lab s s₁) D.elems hD.sound ST ST₁ hJ.built (by
    rw [← hW.elems]; exact hJ₁.built) (fun i => y i + w i) (fun i => y i + w₁ i) (by
      intro j
      simp only [boxGrid]
      ring)).1]

end

/-! ## Properties -/

/-- **C103.** A problem with several schemes, and the same problem with a part of these schemes which does not use the
others (their equilibria, relaxation parameters, sources and relative velocity only use the moments of the part), on
the same or another decomposition, with halos which may have other widths, with walls, obstacles, imposed values and
sources, with or without `check_isfluid`. If the populations of the part are the same on the fluid cells at the beginning,
they are after any number of steps, whatever the other schemes do, for all orders of the messages; every moment of the
part, and every conserved moment of the part looked up by its symbol, is the same. Partial: without relative velocity and
with sources which do not use a moment already updated (`C103_sources_negation`), or with a relative velocity for the
Pull algorithm, without sources and when the relaxation parameters of the conserved moments are 0. -/
theorem C103_alone_partial (hdim : dim ≤ 3) {s s₁ : Sten dim} (τ : Fin s₁.ns ↪ Fin s.ns) (ζ : Nat → Nat)
    (hP : PartSten s s₁ τ ζ) (D : WallData K dim s) (D₁ : WallData K dim s₁) (lo : Fin dim → K) (dx : K)
    (lab : Fin dim → Bool → Int) (hD : D.WF lab) (hD₁ : D₁.WF lab) (hW : PartWalls τ ζ D D₁)
    (g g₁ : Grid dim) (hN : g.N = g₁.N)
    (ST : Domain.State K dim s.nu) (J : List (Method dim × List (Entry K dim s.ns)))
    (hJ : OnGrid D (boxGrid g.N g.w lo dx lab s) ST J)
    (ST₁ : Domain.State K dim s₁.nu) (J₁ : List (Method dim × List (Entry K dim s₁.ns)))
    (hJ₁ : OnGrid D₁ (boxGrid g₁.N g₁.w lo dx lab s₁) ST₁ J₁)
    (hfree : ∀ t, Free s (flat s (withValues s (boxGrid g.N g.w lo dx lab s) D.ψ J t)))
    (hlinks : AllLinks g.N g.w ST) (hmeth : AllMethods D) (hreads : ReadsFluid D g.N g.w lo dx lab ST J)
    (S : Kernel K s.ns nc d) (S₁ : Kernel K s₁.ns nc₁ d) (p : Fin s₁.ns ↪ Fin s.ns) (κ : Fin nc₁ ↪ Fin nc)
    (hS : PartScheme S S₁ p τ κ) (hfront : ∀ j, (S.consm j : Nat) < nc) (hfront₁ : ∀ j, (S₁.consm j : Nat) < nc₁)
    (a : Algo)
    (hcol : (S.relVel = none ∧ (∀ j w, S.EQ (S.consm j) w = w j) ∧ Triangular S.source ∧ Triangular S₁.source) ∨
      (S.relVel ≠ none ∧ a = .pull ∧ (∀ j, (S.consm j : Nat) = j) ∧ (∀ j, (S₁.consm j : Nat) = j) ∧
        (∀ j w, S.s (S.consm j) w = 0) ∧ ∀ i, S.source i = none))
    (Q : Proc g → Setup K s.ns nc d dim) (hQ : FluidRun D g lo dx lab S a Q)
    (Q₁ : Proc g₁ → Setup K s₁.ns nc₁ d dim) (hQ₁ : FluidRun D₁ g₁ lo dx lab S₁ a Q₁)
    (σ₀ : Proc g → Simu K s.ns d dim) (h0 : ∀ c, (σ₀ c).Start (Q c))
    (σ₀₁ : Proc g₁ → Simu K s₁.ns d dim) (h0₁ : ∀ c, (σ₀₁ c).Start (Q₁ c)) (G : Arr K s.ns dim)
    (hG : ∀ c x, Owned (size g c) g.w x → fluidMap g.w ST (globalPos (first g c) g.w x) = true →
      (σ₀ c).arr x = G (globalPos (first g c) g.w x))
    (hG₁ : ∀ c x, Owned (size g₁ c) g₁.w x → fluidMap g.w ST (globalPos (first g₁ c) g₁.w x) = true →
      ∀ j, (σ₀₁ c).arr x j = G (globalPos (first g₁ c) g₁.w x) (τ j))
    (k : Nat) (σ : Proc g → Simu K s.ns d dim) (hr : PRun g Q σ₀ k σ)
    (σ₁ : Proc g₁ → Simu K s₁.ns d dim) (hr₁ : PRun g₁ Q₁ σ₀₁ k σ₁)
    (c : Proc g) (x : Cell dim) (hx : Owned (size g c) g.w x)
    (c₁ : Proc g₁) (x₁ : Cell dim) (hx₁ : Owned (size g₁ c₁) g₁.w x₁)
    (he : globalPos (first g c) g.w x = globalPos (first g₁ c₁) g₁.w x₁)
    (hf : fluidMap g.w ST (globalPos (first g c) g.w x) = true) :
    (∀ j, (σ₁ c₁).arr x₁ j = (σ c).arr x (τ j)) ∧ (σ₁ c₁).t = (σ c).t ∧
      (∀ i, (S₁.M *ᵥ (σ₁ c₁).arr x₁) i = (S.M *ᵥ (σ c).arr x) (p i)) ∧
      ∀ j, (S₁.M *ᵥ (σ₁ c₁).arr x₁) (S₁.consm j) = (S.M *ᵥ (σ c).arr x) (S.consm (κ j)) := by
  have hJN : OnGrid D₁ (boxGrid g.N g₁.w lo dx lab s₁) ST₁ J₁ := by rw [hN]; exact hJ₁
  have hmap := fluidMap_part hD hW hJ hJN
  have fb := fluidBoundary_walls D g.N g.w lo dx lab hD ST J hJ hfree hlinks hmeth hreads
  have hbc := fun t => wallBc_part hP hD hD₁ hW hJ hJN t (hfree t)
  have hext : ∀ (H : Arr K s₁.ns dim) y j, H y j = Function.extend τ (H y) 0 (τ j) := fun H y j =>
    (τ.injective.extend_apply (H y) 0 j).symm
  have fb₁ : FluidBoundary g.N s₁.vel (fluidMap g.w ST) (wallBc D₁ g.N g₁.w lo dx lab J₁) := by
    intro t H H' hHH y hy hyf j
    rw [hbc t (fun y => Function.extend τ (H y) 0) H (hext H), hbc t (fun y => Function.extend τ (H' y) 0) H' (hext H'),
      ← hP.vel]
    refine fb t _ _ (fun u hu => ?_) y hy hyf (τ j)
    rw [hHH u hu]
  have hφ : ∀ f : Fin s.ns → K, (fun b => collide S a f (τ b)) = collide S₁ a fun b => f (τ b) := by
    intro f
    unfold collide
    rw [prog_eq, prog_eq]
    rcases hcol with ⟨hrel, hEQ, hT, hT₁⟩ | ⟨hrel, rfl, hp, hp₁, hs0, hsrc⟩
    · have := C103_collision_partial S S₁ p τ κ hS hEQ hT hT₁ f ⟨0, 0, 0⟩ ⟨0, 0, 0⟩
      rw [hrel, hS.noRel.1 hrel]
      cases a
      · exact this.2
      · exact this.1
    · have := C103_relative_partial S S₁ p τ κ hS hp hp₁ hrel hs0 hsrc f ⟨0, 0, 0⟩ ⟨0, 0, 0⟩
      rw [Option.isSome_iff_ne_none.2 hrel, Option.isSome_iff_ne_none.2 fun e => hrel (hS.noRel.2 e)]
      exact this
  obtain ⟨h1, h2⟩ := C73_fluid_cells hdim g hQ.walls.large S hfront s.vel a _ Q (hQ.uniform hD ST hJ.built) _
    (sameBoundary_walls D g lo dx lab hD Q hQ.walls ST J hJ hfree) fb σ₀ h0 G hG k σ hr
  have hun₁ := hQ₁.uniform hD₁ ST₁ hJ₁.built
  rw [hmap] at hun₁
  obtain ⟨h1', h2'⟩ := C73_fluid_cells hdim g₁ hQ₁.walls.large S₁ hfront₁ s₁.vel a (fluidMap g.w ST) Q₁ hun₁
    (wallBc D₁ g.N g₁.w lo dx lab J₁)
    (by
      have := sameBoundary_walls D₁ g₁ lo dx lab hD₁ Q₁ hQ₁.walls ST₁ J₁ hJ₁ (fun t => by
        rw [← hN]; exact free_part hP hD hD₁ hW hJ hJN t (hfree t))
      rw [hN]; exact this) (by rw [← hN]; exact fb₁) σ₀₁ h0₁ (fun y j => G y (τ j))
    (fun c x hx hf => funext fun j => hG₁ c x hx hf j) k σ₁ hr₁
  have key : ∀ k (y : Cell dim) j,
      lbmRun g.N s₁.vel (collide S₁ a) (wallBc D₁ g.N g₁.w lo dx lab J₁) S₁.dt (fun y j => G y (τ j)) k y j =
      lbmRun g.N s.vel (collide S a) (wallBc D g.N g.w lo dx lab J) S.dt G k y (τ j) := by
    intro k
    induction k with
    | zero => intro y j; rfl
    | succ k ih =>
      intro y j
      simp only [lbmRun]
      generalize lbmRun g.N s₁.vel (collide S₁ a) (wallBc D₁ g.N g₁.w lo dx lab J₁) S₁.dt
        (fun y j => G y (τ j)) k = A' at ih ⊢
      generalize lbmRun g.N s.vel (collide S a) (wallBc D g.N g.w lo dx lab J) S.dt G k = A at ih ⊢
      unfold lbmStep
      rw [hS.dt]
      have e : (fun l => wallBc D₁ g.N g₁.w lo dx lab J₁ (k * S.dt) (periodic g.N A') (fun i => y i - s₁.vel l i) l) =
          fun b => (fun l => wallBc D g.N g.w lo dx lab J (k * S.dt) (periodic g.N A) (fun i => y i - s.vel l i) l) (τ b) := by
        funext l
        beta_reduce
        rw [hbc (k * S.dt) (periodic g.N A) (periodic g.N A') (fun u q => ih _ q), hP.vel]
      rw [e]
      exact (congrFun (hφ fun l => wallBc D g.N g.w lo dx lab J (k * S.dt) (periodic g.N A) (fun i => y i - s.vel l i) l) j).symm
  have hmain : (σ₁ c₁).arr x₁ = fun b => (σ c).arr x (τ b) := by
    funext j
    rw [h2 c x hx hf, h2' c₁ x₁ hx₁ (he ▸ hf), ← he, ← hN]
    exact key k (globalPos (first g c) g.w x) j
  refine ⟨fun j => congrFun hmain j, ?_, fun i => ?_, fun j => ?_⟩
  · rw [(h1' c₁).2.1, (h1 c).2.1, hS.dt]
  · rw [hmain]
    exact (C103_moments _ _ p τ κ hS.toPart _).1 i
  · rw [hmain]
    exact (C103_moments _ _ p τ κ hS.toPart _).2 j

end

end Pylbm.Sim
