import Verif.Sim.Fluid
import Verif.Sim.Bounds
import Verif.Scheme.Order
import Verif.Boundary.Order
/-!
# The solution does not depend on the order of the moments, of the velocities and of the schemes (C100)
-/
set_option linter.unusedSectionVars false
namespace Pylbm.Sim
open Scheme Halo SchemeSpec Matrix HaloSpec Mpi Boundary

section
variable {K : Type} [Field K] [LinearOrder K] [IsStrictOrderedRing K] [FloorRing K] {nc d dim : Nat}

/-! ## Specification -/

/-- The same elements, methods and imposed values, written for the schemes and distribution functions in the other
order. -/
structure SameWalls {s : Sten dim} (τ : Equiv.Perm (Fin s.ns)) (ζ : Equiv.Perm Nat) (D : WallData K dim s)
    (D' : WallData K dim (s.relabel τ ζ)) : Prop where
  elems : D'.elems = D.elems
  els : D'.els = D.els
  given : ∀ label, (D'.dico label).isSome = (D.dico label).isSome
  dico : ∀ label i (m : Method dim), (ζ i, m) ∈ (D'.dico label).getD [] ↔ (i, m) ∈ (D.dico label).getD []
  values : ∀ label t x j, D'.ψ label t x j = D.ψ label t x (τ j)

/-! ## Lemmas -/

section
variable {s : Sten dim} {τ : Equiv.Perm (Fin s.ns)} {ζ : Equiv.Perm Nat}
  {D : WallData K dim s} {D' : WallData K dim (s.relabel τ ζ)} {N w : Fin dim → Nat} {lo : Fin dim → K} {dx : K}
  {lab : Fin dim → Bool → Int} {ST : Domain.State K dim s.nu}
  {J : List (Method dim × List (Entry K dim s.ns))} {J' : List (Method dim × List (Entry K dim (s.relabel τ ζ).ns))}

/-- The methods exist for the other order. -/
theorem onGrid_relabel (hW : SameWalls τ ζ D D') (hJ : OnGrid D (boxGrid N w lo dx lab s) ST J) :
    ∃ J', OnGrid D' (boxGrid N w lo dx lab (s.relabel τ ζ)) ST J' := by
  suffices h : (instances (s.relabel τ ζ) (boxGrid N w lo dx lab (s.relabel τ ζ)).total ST.link
      (listOfLabels (boxGrid N w lo dx lab (s.relabel τ ζ)) D'.els) D'.dico).isSome by
    obtain ⟨J', hJ'⟩ := Option.isSome_iff_exists.1 h
    exact ⟨J', hJ.wf, rfl, by rw [hW.elems]; exact hJ.built, hJ'⟩
  by_contra hn
  rw [Option.not_isSome_iff_eq_none] at hn
  have hi := hJ.insts
  unfold instances allEntries at hn hi
  simp only [Option.bind_eq_bind, Option.pure_def, Option.bind_eq_none_iff, Option.bind_eq_some_iff,
    Option.some.injEq] at hn hi
  obtain ⟨_, ⟨l, hl, _⟩, _⟩ := hi
  cases hm : (List.filter (fun label => decide (label ≠ -1 ∧ label ≠ -2))
      (listOfLabels (boxGrid N w lo dx lab (s.relabel τ ζ)) D'.els)).mapM fun label => (D'.dico label).map fun ms =>
        ms.flatMap (labelEntries (s.relabel τ ζ) (boxGrid N w lo dx lab (s.relabel τ ζ)).total ST.link label) with
  | some l' => exact absurd (hn l'.flatten ⟨l', hm, rfl⟩) (by simp)
  | none =>
    obtain ⟨a, ha, hna⟩ := (ListAux.mapM_eq_none_iff _ _).1 hm
    rw [Option.map_eq_none_iff] at hna
    have h2 : D.dico a = none := by
      have := hW.given a
      rw [hna] at this
      exact Option.not_isSome_iff_eq_none.1 (by rw [← this]; simp)
    have : (List.filter (fun label => decide (label ≠ -1 ∧ label ≠ -2))
      (listOfLabels (boxGrid N w lo dx lab s) D.els)).mapM (fun label => (D.dico label).map fun ms =>
        ms.flatMap (labelEntries s (boxGrid N w lo dx lab s).total ST.link label)) = none :=
      (ListAux.mapM_eq_none_iff _ _).2 ⟨a, by rw [hW.els] at ha; exact ha, by rw [h2]; rfl⟩
    rw [this] at hl
    exact absurd hl (by simp)

/-- The entry in the other order. -/
def relabelEntry (τ : Equiv.Perm (Fin s.ns)) (ζ : Equiv.Perm Nat) (e : Entry K dim s.ns) :
    Entry K dim (s.relabel τ ζ).ns := ⟨τ.symm e.k, e.cell, e.label, e.dist⟩

/-- The item in the other order. -/
def relabelItem (τ : Equiv.Perm (Fin s.ns)) (ζ : Equiv.Perm Nat) (it : Item K dim s.ns) :
    Item K dim (s.relabel τ ζ).ns := ⟨relabelEntry τ ζ it.toEntry, fun j => it.feq (τ j)⟩

/-- The inverse. -/
def unlabelItem (it : Item K dim (s.relabel τ ζ).ns) : Item K dim s.ns :=
  ⟨⟨τ it.k, it.cell, it.label, it.dist⟩, fun j => it.feq (τ.symm j)⟩

theorem relabel_unlabel (it : Item K dim (s.relabel τ ζ).ns) : relabelItem τ ζ (unlabelItem it) = it := by
  unfold relabelItem unlabelItem relabelEntry
  simp only [Equiv.symm_apply_apply]

theorem inner_relabel (n : Int) (e : Entry K dim s.ns) :
    Boundary.inner (s.relabel τ ζ) n (relabelEntry τ ζ e) = Boundary.inner s n e := by
  funext j
  simp only [Boundary.inner, relabelEntry, relabel_vel, Equiv.apply_symm_apply]

theorem source_relabel (e : Entry K dim s.ns) : source (s.relabel τ ζ) (relabelEntry τ ζ e) = source s e := by
  funext j
  simp only [source, relabelEntry, relabel_vel, Equiv.apply_symm_apply]

theorem sym_relabel (k : Fin s.ns) : (s.relabel τ ζ).sym (τ.symm k) = τ.symm (s.sym k) := by
  simp only [Sten.relabel, Equiv.apply_symm_apply]

theorem reads_relabel (m : Method dim) (it : Item K dim s.ns) :
    Boundary.reads (s.relabel τ ζ) m (relabelItem τ ζ it) =
      (Boundary.reads s m it).map fun p => (τ.symm p.1, p.2) := by
  have e1 : (relabelItem τ ζ it).toEntry = relabelEntry τ ζ it.toEntry := rfl
  have e2 : (relabelEntry τ ζ it.toEntry).k = τ.symm it.k := rfl
  have e3 : (relabelEntry τ ζ it.toEntry).dist = it.dist := rfl
  cases m <;> simp only [Boundary.reads, e1, e2, e3, inner_relabel, sym_relabel, Equiv.apply_symm_apply, List.map_cons, List.map_nil]
  · split_ifs <;> rfl
  · split_ifs <;> rfl
  · simp only [relabelEntry, relabel_vel, Equiv.apply_symm_apply]

theorem value_relabel (m : Method dim) (f : Dist K dim s.ns) (f' : Dist K dim (s.relabel τ ζ).ns)
    (hf : ∀ (j : Fin s.ns) c, f' (τ.symm j) c = f j c) (it : Item K dim s.ns) :
    value (s.relabel τ ζ) m f' f' (relabelItem τ ζ it) = value s m f f it := by
  have e1 : (relabelItem τ ζ it).toEntry = relabelEntry τ ζ it.toEntry := rfl
  have e2 : (relabelItem τ ζ it).k = τ.symm it.k := rfl
  have e4 : (relabelEntry τ ζ it.toEntry).k = τ.symm it.k := rfl
  have e6 : (relabelEntry τ ζ it.toEntry).dist = it.dist := rfl
  have e3 : rhs (s.relabel τ ζ) m (relabelItem τ ζ it) = rhs s m it := by
    have q : ∀ j : Fin s.ns, (relabelItem τ ζ it).feq (τ.symm j) = it.feq j := fun j => by simp [relabelItem]
    cases m <;> simp only [rhs, e2, sym_relabel, Equiv.apply_symm_apply, q]
  cases m
  case neumannAxis j =>
    simp only [value, e2]
    rw [← hf]
    simp only [relabelItem, relabelEntry, relabel_vel, Equiv.apply_symm_apply]
  all_goals simp only [value, load0, load1, e1, e3, e4, e6, inner_relabel, sym_relabel, Equiv.apply_symm_apply, hf]

theorem entry_relabel (hD : D.WF lab) (hJ : OnGrid D (boxGrid N w lo dx lab s) ST J)
    (hJ' : OnGrid D' (boxGrid N w lo dx lab (s.relabel τ ζ)) ST J') (hS : SameWalls τ ζ D D') (m : Method dim)
    (e : Entry K dim s.ns) : (m, e) ∈ entries s J ↔ (m, relabelEntry τ ζ e) ∈ entries (s.relabel τ ζ) J' := by
  rw [mem_entries s _ ST.link hD.sten _ D.dico J hJ.insts,
    mem_entries (s.relabel τ ζ) _ ST.link (relabel_wf hD.sten) _ D'.dico J' hJ'.insts]
  have hk : (relabelEntry τ ζ e).k = τ.symm e.k := rfl
  have h1 : (s.relabel τ ζ).scheme (τ.symm e.k) = ζ (s.scheme e.k) := by
    simp only [Sten.relabel, Equiv.apply_symm_apply]
  have h2 : (s.relabel τ ζ).ux (τ.symm (s.sym e.k)) = s.ux (s.sym e.k) := by
    simp only [Sten.relabel, Equiv.apply_symm_apply]
  simp only [hk, source_relabel, sym_relabel, Equiv.apply_symm_apply, h1, h2, hS.dico, hS.els]
  exact Iff.rfl

theorem wallPoint_relabel (e : Entry K dim s.ns) :
    wallPoint (s.relabel τ ζ) (boxGrid N w lo dx lab (s.relabel τ ζ)) (relabelEntry τ ζ e) =
      wallPoint s (boxGrid N w lo dx lab s) e := by
  funext i
  simp only [wallPoint, relabelEntry, relabel_vel, Equiv.apply_symm_apply]
  rfl

theorem item_relabel (hD : D.WF lab) (hJ : OnGrid D (boxGrid N w lo dx lab s) ST J)
    (hJ' : OnGrid D' (boxGrid N w lo dx lab (s.relabel τ ζ)) ST J') (hS : SameWalls τ ζ D D') (t : K) (m : Method dim)
    (it : Item K dim s.ns) :
    (m, it) ∈ flat s (withValues s (boxGrid N w lo dx lab s) D.ψ J t) ↔
      (m, relabelItem τ ζ it) ∈ flat (s.relabel τ ζ)
        (withValues (s.relabel τ ζ) (boxGrid N w lo dx lab (s.relabel τ ζ)) D'.ψ J' t) := by
  have e1 : (relabelItem τ ζ it).toEntry = relabelEntry τ ζ it.toEntry := rfl
  have e2 : (relabelEntry τ ζ it.toEntry).label = it.label := rfl
  rw [mem_withValues, mem_withValues, e1, e2, wallPoint_relabel, entry_relabel hD hJ hJ' hS m it.toEntry]
  refine and_congr_right fun _ => ?_
  constructor
  · intro h
    funext j
    rw [hS.values, ← h]
    rfl
  · intro h
    funext j
    have := congrFun h (τ.symm j)
    rw [hS.values] at this
    simpa [relabelItem] using this

theorem free_relabel (hD : D.WF lab) (hJ : OnGrid D (boxGrid N w lo dx lab s) ST J)
    (hJ' : OnGrid D' (boxGrid N w lo dx lab (s.relabel τ ζ)) ST J') (hS : SameWalls τ ζ D D') (t : K)
    (hfree : Free s (flat s (withValues s (boxGrid N w lo dx lab s) D.ψ J t))) :
    Free (s.relabel τ ζ) (flat (s.relabel τ ζ)
      (withValues (s.relabel τ ζ) (boxGrid N w lo dx lab (s.relabel τ ζ)) D'.ψ J' t)) := by
  rintro ⟨m, it⟩ hq p hp hpos
  obtain ⟨⟨m', it'⟩, hr, hre⟩ := List.mem_map.1 hpos
  rw [← relabel_unlabel it] at hq hp
  rw [← relabel_unlabel it'] at hr hre
  rw [reads_relabel] at hp
  obtain ⟨p', hp', rfl⟩ := List.mem_map.1 hp
  refine hfree _ ((item_relabel hD hJ hJ' hS t m _).2 hq) p' hp' ?_
  refine List.mem_map.2 ⟨_, (item_relabel hD hJ hJ' hS t m' _).2 hr, ?_⟩
  simp only [relabelItem, relabelEntry, Prod.mk.injEq, EmbeddingLike.apply_eq_iff_eq] at hre
  exact Prod.ext hre.1 hre.2

/-- The boundary conditions in the other order. -/
theorem wallBc_relabel (hD : D.WF lab) (hD' : D'.WF lab) (hJ : OnGrid D (boxGrid N w lo dx lab s) ST J)
    (hJ' : OnGrid D' (boxGrid N w lo dx lab (s.relabel τ ζ)) ST J') (hS : SameWalls τ ζ D D') (t : K)
    (hfree : Free s (flat s (withValues s (boxGrid N w lo dx lab s) D.ψ J t))) (H : Arr K s.ns dim)
    (H' : Arr K (s.relabel τ ζ).ns dim) (hH : ∀ y (j : Fin s.ns), H' y (τ.symm j) = H y j) (y : Cell dim)
    (j : Fin s.ns) : wallBc D' N w lo dx lab J' t H' y (τ.symm j) = wallBc D N w lo dx lab J t H y j := by
  have n1 := (hJ.onDomain hD t).nodup_positions hD.sten
  have n2 := (hJ'.onDomain hD' t).nodup_positions hD'.sten
  unfold wallBc
  rw [boundaryCondition_written s _ n1 hfree,
    boundaryCondition_written (s.relabel τ ζ) _ n2 (free_relabel hD hJ hJ' hS t hfree)]
  set f : Dist K dim s.ns := fun k X => H (fun i => X i - w i) k with hf
  set f' : Dist K dim (s.relabel τ ζ).ns := fun k X => H' (fun i => X i - w i) k with hf'
  have hff : ∀ (j : Fin s.ns) c, f' (τ.symm j) c = f j c := fun j c => hH _ _
  clear_value f f'
  by_cases hpos : (j, fun i => y i + (w i : Int)) ∈ positions s (flat s (withValues s (boxGrid N w lo dx lab s) D.ψ J t))
  · obtain ⟨⟨m, it⟩, hq, hqe⟩ := List.mem_map.1 hpos
    simp only [Prod.mk.injEq] at hqe
    have hq' := (item_relabel hD hJ hJ' hS t m it).1 hq
    have w1 := written_mem s n1 hq f
    have w2 := written_mem (s.relabel τ ζ) n2 hq' f'
    simp only [hqe.1, hqe.2] at w1
    have k1 : (relabelItem τ ζ it).k = τ.symm j := by rw [← hqe.1]; rfl
    have k2 : (relabelItem τ ζ it).cell = fun i => y i + (w i : Int) := by rw [← hqe.2]; rfl
    simp only [k1, k2] at w2
    rw [w1, w2, value_relabel m f f' hff]
  · have hpos' : ((τ.symm j : Fin (s.relabel τ ζ).ns), fun i => y i + (w i : Int)) ∉
        positions (s.relabel τ ζ) (flat (s.relabel τ ζ)
          (withValues (s.relabel τ ζ) (boxGrid N w lo dx lab (s.relabel τ ζ)) D'.ψ J' t)) := by
      intro h
      obtain ⟨⟨m, it⟩, hq, hqe⟩ := List.mem_map.1 h
      rw [← relabel_unlabel it] at hq hqe
      refine hpos (List.mem_map.2 ⟨_, (item_relabel hD hJ hJ' hS t m _).2 hq, ?_⟩)
      simp only [relabelItem, relabelEntry, Prod.mk.injEq, EmbeddingLike.apply_eq_iff_eq] at hqe
      exact Prod.ext hqe.1 hqe.2
    rw [written_not_mem s hpos, written_not_mem (s.relabel τ ζ) hpos', hff]

end

/-! ## Properties -/

/-- **C100.** The same problem with the moments, the velocities of the schemes and the schemes of the dictionary in
another order, on the same or another decomposition, with walls, obstacles, imposed values and sources, with or without
`check_isfluid`. If the populations of the fluid cells are the same up to the order at the beginning, they are after any
number of steps, for all orders of the messages; every moment, and every conserved moment looked up by its symbol, is the
same. Partial: without relative velocity and with sources which do not use a moment already updated, for both
orders; what is missing is false, see `C100_sources_negation` and `C100_relative_negation`. -/
theorem C100_order_partial (hdim : dim ≤ 3) {s : Sten dim} (τ : Equiv.Perm (Fin s.ns)) (ζ : Equiv.Perm Nat)
    (D : WallData K dim s) (D' : WallData K dim (s.relabel τ ζ)) (lo : Fin dim → K) (dx : K)
    (lab : Fin dim → Bool → Int) (hD : D.WF lab) (hD' : D'.WF lab) (hW : SameWalls τ ζ D D')
    (g g' : Grid dim) (hN : g.N = g'.N) (hw : g.w = g'.w) (ST : Domain.State K dim s.nu)
    (J : List (Method dim × List (Entry K dim s.ns)))
    (hJ : OnGrid D (boxGrid g.N g.w lo dx lab s) ST J)
    (hfree : ∀ t, Free s (flat s (withValues s (boxGrid g.N g.w lo dx lab s) D.ψ J t)))
    (hlinks : AllLinks g.N g.w ST) (hmeth : AllMethods D) (hreads : ReadsFluid D g.N g.w lo dx lab ST J)
    (S : Kernel K s.ns nc d) (S' : Kernel K (s.relabel τ ζ).ns nc d) (p : Equiv.Perm (Fin s.ns))
    (κ : Equiv.Perm (Fin nc)) (hS : SameScheme S S' p τ κ) (hfront : ∀ j, (S.consm j : Nat) < nc)
    (hfront' : ∀ j, (S'.consm j : Nat) < nc) (hrel : S.relVel = none) (hEQ : ∀ j w, S.EQ (S.consm j) w = w j)
    (hT : Triangular S.source) (hT' : Triangular S'.source) (a : Algo)
    (Q : Proc g → Setup K s.ns nc d dim) (hQ : FluidRun D g lo dx lab S a Q)
    (Q' : Proc g' → Setup K (s.relabel τ ζ).ns nc d dim) (hQ' : FluidRun D' g' lo dx lab S' a Q')
    (σ₀ : Proc g → Simu K s.ns d dim) (h0 : ∀ c, (σ₀ c).Start (Q c))
    (σ₀' : Proc g' → Simu K (s.relabel τ ζ).ns d dim) (h0' : ∀ c, (σ₀' c).Start (Q' c)) (G : Arr K s.ns dim)
    (hG : ∀ c x, Owned (size g c) g.w x → fluidMap g.w ST (globalPos (first g c) g.w x) = true →
      (σ₀ c).arr x = G (globalPos (first g c) g.w x))
    (hG' : ∀ c x, Owned (size g' c) g'.w x → fluidMap g.w ST (globalPos (first g' c) g'.w x) = true →
      ∀ j, (σ₀' c).arr x j = G (globalPos (first g' c) g'.w x) (τ j))
    (k : Nat) (σ : Proc g → Simu K s.ns d dim) (hr : PRun g Q σ₀ k σ)
    (σ' : Proc g' → Simu K (s.relabel τ ζ).ns d dim) (hr' : PRun g' Q' σ₀' k σ')
    (c : Proc g) (x : Cell dim) (hx : Owned (size g c) g.w x)
    (c' : Proc g') (x' : Cell dim) (hx' : Owned (size g' c') g'.w x')
    (he : globalPos (first g c) g.w x = globalPos (first g' c') g'.w x')
    (hf : fluidMap g.w ST (globalPos (first g c) g.w x) = true) :
    (∀ j, (σ' c').arr x' j = (σ c).arr x (τ j)) ∧ (σ' c').t = (σ c).t ∧
      (∀ i, (S'.M *ᵥ (σ' c').arr x') i = (S.M *ᵥ (σ c).arr x) (p i)) ∧
      ∀ j, (S'.M *ᵥ (σ' c').arr x') (S'.consm j) = (S.M *ᵥ (σ c).arr x) (S.consm (κ j)) := by
  obtain ⟨J', hJ'⟩ := onGrid_relabel hW hJ
  have fb := fluidBoundary_walls D g.N g.w lo dx lab hD ST J hJ hfree hlinks hmeth hreads
  have hbc := fun t => wallBc_relabel hD hD' hJ hJ' hW t (hfree t)
  have fb' : FluidBoundary g.N (s.relabel τ ζ).vel (fluidMap g.w ST) (wallBc D' g.N g.w lo dx lab J') := by
    intro t H H' hHH y hy hyf j
    have hj : j = τ.symm (τ j) := (τ.symm_apply_apply j).symm
    rw [hj, hbc t (fun y (j : Fin s.ns) => H y (τ.symm j)) H (fun _ _ => rfl),
      hbc t (fun y (j : Fin s.ns) => H' y (τ.symm j)) H' (fun _ _ => rfl)]
    rw [show (s.relabel τ ζ).vel (τ.symm (τ j)) = s.vel (τ j) by rw [τ.symm_apply_apply]; rfl]
    refine fb t _ _ (fun u hu => ?_) y hy hyf (τ j)
    funext l
    rw [hHH u hu]
  have hφ : ∀ f : Fin s.ns → K, collide S' a (f ∘ τ) = collide S a f ∘ τ := by
    intro f
    have := C100_collision_partial S S' p τ κ hS hEQ hT hT' f ⟨0, 0, 0⟩ ⟨0, 0, 0⟩
    unfold collide
    rw [prog_eq, prog_eq, hrel, hS.noRel.1 hrel]
    cases a
    · exact this.2
    · exact this.1
  obtain ⟨h1, h2⟩ := C73_fluid_cells hdim g hQ.walls.large S hfront s.vel a _ Q (hQ.uniform hD ST hJ.built) _
    (sameBoundary_walls D g lo dx lab hD Q hQ.walls ST J hJ hfree) fb σ₀ h0 G hG k σ hr
  have hJ2 : OnGrid D' (boxGrid g'.N g'.w lo dx lab (s.relabel τ ζ)) ST J' := by rw [← hN, ← hw]; exact hJ'
  have hun' := hQ'.uniform hD' ST hJ2.built
  rw [← hw] at hun'
  obtain ⟨h1', h2'⟩ := C73_fluid_cells hdim g' hQ'.walls.large S' hfront' (s.relabel τ ζ).vel a (fluidMap g.w ST) Q' hun'
    (wallBc D' g.N g.w lo dx lab J')
    (by
      have := sameBoundary_walls D' g' lo dx lab hD' Q' hQ'.walls ST J' hJ2 (fun t => by
        rw [← hN, ← hw]; exact free_relabel hD hJ hJ' hW t (hfree t))
      rw [hN, hw]; exact this) (by rw [← hN]; exact fb') σ₀' h0' (fun y j => G y (τ j))
    (fun c x hx hf => funext fun j => hG' c x hx hf j) k σ' hr'
  have key : ∀ k (y : Cell dim) (j : Fin s.ns),
      lbmRun g.N (s.relabel τ ζ).vel (collide S' a) (wallBc D' g.N g.w lo dx lab J') S'.dt
        (fun y j => G y (τ j)) k y (τ.symm j) =
      lbmRun g.N s.vel (collide S a) (wallBc D g.N g.w lo dx lab J) S.dt G k y j := by
    intro k
    induction k with
    | zero =>
      intro y j
      simp only [lbmRun, Equiv.apply_symm_apply]
    | succ k ih =>
      intro y j
      simp only [lbmRun]
      generalize lbmRun g.N (s.relabel τ ζ).vel (collide S' a) (wallBc D' g.N g.w lo dx lab J') S'.dt
        (fun y j => G y (τ j)) k = A' at ih ⊢
      generalize lbmRun g.N s.vel (collide S a) (wallBc D g.N g.w lo dx lab J) S.dt G k = A at ih ⊢
      unfold lbmStep
      rw [hS.dt]
      have e : (fun l => wallBc D' g.N g.w lo dx lab J' (k * S.dt) (periodic g.N A')
          (fun i => y i - (s.relabel τ ζ).vel l i) l) =
          (fun l => wallBc D g.N g.w lo dx lab J (k * S.dt) (periodic g.N A) (fun i => y i - s.vel l i) l) ∘ τ := by
        funext l
        have := hbc (k * S.dt) (periodic g.N A) (periodic g.N A') (fun u q => ih _ q) (fun i => y i - s.vel (τ l) i) (τ l)
        rw [τ.symm_apply_apply] at this
        exact this
      rw [e, hφ]
      simp only [Function.comp_apply, Equiv.apply_symm_apply]
  have hmain : (σ' c').arr x' = (σ c).arr x ∘ τ := by
    funext j
    rw [h2 c x hx hf, h2' c' x' hx' (he ▸ hf), ← he, ← hN]
    have := key k (globalPos (first g c) g.w x) (τ j)
    rw [τ.symm_apply_apply] at this
    exact this
  refine ⟨fun j => congrFun hmain j, ?_, fun i => ?_, fun j => ?_⟩
  · rw [(h1' c').2.1, (h1 c).2.1, hS.dt]
  · rw [hmain]
    exact (C100_moments _ _ p τ κ hS.toReordered _).1 i
  · rw [hmain]
    exact (C100_moments _ _ p τ κ hS.toReordered _).2 j

end

end Pylbm.Sim
