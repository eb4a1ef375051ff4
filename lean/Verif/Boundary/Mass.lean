import Verif.Boundary.Props
import Mathlib.Algebra.BigOperators.Group.Finset.Basic
import Mathlib.Algebra.BigOperators.Group.Finset.Sigma
import Mathlib.Algebra.BigOperators.Fin
/-!
# Bounce-back conserves mass: property C32
-/
set_option linter.unusedSectionVars false
namespace Pylbm.Boundary
open Domain DomainSpec BoundarySpec
open scoped BigOperators

section
variable {K : Type} [Field K] [LinearOrder K] [IsStrictOrderedRing K] {dim : Nat} (s : Sten dim)

/-- Sum of all the distribution values over a finite set of cells. -/
def mass (S : Finset (Cell dim)) (f : Dist K dim s.ns) : K := ∑ k, ∑ c ∈ S, f k c

/-- The transport phase, algorithm/base.py 288-296: `fnew[k, x] = f[k, x - v_k]` (on the interior
cells; the other cells are not used). -/
def stream (f : Dist K dim s.ns) : Dist K dim s.ns := fun k c => f k (fun j => c j - s.vel k j)

/-- C32, general form.  `S` is a finite set of cells, `w` the canonical representative of a cell
modulo the periodic directions (the identity when there is none), `f0` the array before the halo
exchange and `f = f0 ∘ w` after it.  The items of bounce-back are at the distinct positions
`(k, c - v_k)`, `c ∈ S`, whose representative is not in `S`.  Then bounce-back followed by the
transport changes the sum over `S` by exactly the sum of the inhomogeneous terms. -/
theorem C32_mass_general (hs : s.WF) (S : Finset (Cell dim)) (w : Cell dim → Cell dim)
    (hw : ∀ x y : Cell dim, w (fun j => w x j + y j) = w (fun j => x j + y j))
    (hwS : ∀ c ∈ S, w c = c) (items : List (Item K dim s.ns))
    (hn : (items.map fun it => (it.k, it.cell)).Nodup)
    (hpos : ∀ k x, (k, x) ∈ items.map (fun it => (it.k, it.cell)) ↔
      (fun j => x j + s.vel k j) ∈ S ∧ w x ∉ S)
    (f0 f : Dist K dim s.ns) (hf : ∀ k x, f k x = f0 k (w x))  :
    mass s S (stream s (update s .bounceBack items f)) =
      mass s S f0 + (items.map fun it => it.feq it.k - it.feq (s.sym it.k)).sum := by
  classical
  -- the reads are not written
  have hread : ∀ it ∈ items, (fun j => it.cell j + s.vel it.k j) ∈ S := fun it hit =>
    ((hpos it.k it.cell).1 (List.mem_map.2 ⟨it, hit, rfl⟩)).1
  have hinner : ∀ it : Item K dim s.ns, inner s 1 it.toEntry = fun j => it.cell j + s.vel it.k j := by
    intro it; funext j; simp [inner]
  have hfree : ∀ it ∈ items, ∀ p ∈ reads s .bounceBack it,
      p ∉ items.map (fun it => (it.k, it.cell)) := by
    intro it hit p hp hmem
    simp only [reads, List.mem_singleton] at hp
    have h1 := ((hpos p.1 p.2).1 hmem).2
    rw [hp] at h1
    simp only [hinner] at h1
    rw [hwS _ (hread it hit)] at h1
    exact h1 (hread it hit)
  have hup := (C35_disjoint_reads_partial s .bounceBack items items hn (List.Perm.refl _) hfree f).2
  set F := update s .bounceBack items f with hF
  -- values of the updated array
  have hval : ∀ it ∈ items, F it.k it.cell =
      f0 (s.sym it.k) (fun j => it.cell j + s.vel it.k j) + (it.feq it.k - it.feq (s.sym it.k)) := by
    intro it hit
    have := update_written s (m := .bounceBack) (items := items)
      (all := items.map fun it => (.bounceBack, it)) (done := [])
      (by unfold positions; simpa [List.map_map, Function.comp_def] using hn)
      (by
        intro q hq p hp' hmem
        obtain ⟨it', hit', rfl⟩ := List.mem_map.1 hq
        refine hfree it' hit' p hp' ?_
        unfold positions at hmem; simpa [List.map_map, Function.comp_def] using hmem) f
      ⟨[], by simp⟩
    simp only [written_nil, List.nil_append] at this
    rw [hF, this]
    have h2 := written_mem s (l := items.map fun it => ((.bounceBack : Method dim), it))
      (by unfold positions; simpa [List.map_map, Function.comp_def] using hn)
      (q := (.bounceBack, it)) (List.mem_map.2 ⟨it, hit, rfl⟩) f
    simp only at h2
    rw [h2]
    simp only [value, rhs, hinner, hf]
    rw [hwS _ (hread it hit)]
  have hkeep : ∀ k x, (k, x) ∉ items.map (fun it => (it.k, it.cell)) → F k x = f0 k (w x) := by
    intro k x hx
    have := update_written s (m := .bounceBack) (items := items)
      (all := items.map fun it => (.bounceBack, it)) (done := [])
      (by unfold positions; simpa [List.map_map, Function.comp_def] using hn)
      (by
        intro q hq p hp' hmem
        obtain ⟨it', hit', rfl⟩ := List.mem_map.1 hq
        refine hfree it' hit' p hp' ?_
        unfold positions at hmem; simpa [List.map_map, Function.comp_def] using hmem) f
      ⟨[], by simp⟩
    simp only [written_nil, List.nil_append] at this
    rw [hF, this, written_not_mem, hf]
    unfold positions
    simpa [List.map_map, Function.comp_def] using hx
  -- sums over pairs
  let P : Finset (Fin s.ns × Cell dim) := Finset.univ ×ˢ S
  have hP : ∀ p : Fin s.ns × Cell dim, p ∈ P ↔ p.2 ∈ S := by intro p; simp [P]
  let back : Fin s.ns × Cell dim → Cell dim := fun p j => p.2 j - s.vel p.1 j
  let σ : Fin s.ns × Cell dim → Fin s.ns × Cell dim := fun p =>
    if w (back p) ∈ S then (p.1, w (back p)) else (s.sym p.1, p.2)
  let τ : Fin s.ns × Cell dim → Fin s.ns × Cell dim := fun p =>
    if w (fun j => p.2 j + s.vel p.1 j) ∈ S then (p.1, w (fun j => p.2 j + s.vel p.1 j))
    else (s.sym p.1, p.2)
  have hm1 : mass s S (stream s F) = ∑ p ∈ P, F p.1 (back p) := by
    unfold mass; rw [Finset.sum_product]; rfl
  have hm2 : mass s S f0 = ∑ p ∈ P, f0 p.1 p.2 := by
    unfold mass; rw [Finset.sum_product]
  let δ : Fin s.ns × Cell dim → K := fun p =>
    F p.1 p.2 - f0 (s.sym p.1) (fun j => p.2 j + s.vel p.1 j)
  have hstep : ∀ p ∈ P, F p.1 (back p) = f0 (σ p).1 (σ p).2 +
      if w (back p) ∈ S then 0 else δ (p.1, back p) := by
    intro p hp
    by_cases hb : w (back p) ∈ S
    · simp only [σ, if_pos hb, add_zero]
      apply hkeep
      intro hmem
      exact ((hpos _ _).1 hmem).2 hb
    · simp only [σ, if_neg hb, δ]
      have : (fun j => back p j + s.vel p.1 j) = p.2 := by funext j; simp [back]
      rw [this]; ring
  have hσ : ∑ p ∈ P, f0 (σ p).1 (σ p).2 = ∑ p ∈ P, f0 p.1 p.2 := by
    refine Finset.sum_nbij' σ τ ?_ ?_ ?_ ?_ ?_
    · intro p hp
      rw [hP] at hp ⊢
      by_cases hb : w (back p) ∈ S
      · simp only [σ, if_pos hb]; exact hb
      · simp only [σ, if_neg hb]; exact hp
    · intro p hp
      rw [hP] at hp ⊢
      by_cases hb : w (fun j => p.2 j + s.vel p.1 j) ∈ S
      · simp only [τ, if_pos hb]; exact hb
      · simp only [τ, if_neg hb]; exact hp
    · intro p hp
      rw [hP] at hp
      by_cases hb : w (back p) ∈ S
      · have e1 : w (fun j => w (back p) j + s.vel p.1 j) = p.2 := by
          rw [hw]
          have : (fun j => back p j + s.vel p.1 j) = p.2 := by funext j; simp [back]
          rw [this, hwS _ hp]
        simp only [σ, if_pos hb, τ, e1, hp, if_true]
      · have e1 : (fun j => p.2 j + s.vel (s.sym p.1) j) = back p := by
          funext j; rw [hs.sym]; simp only [back]; ring
        simp only [σ, if_neg hb, τ, e1, hs.sym_sym]
    · intro p hp
      rw [hP] at hp
      by_cases hb : w (fun j => p.2 j + s.vel p.1 j) ∈ S
      · have e1 : w (fun j => w (fun j => p.2 j + s.vel p.1 j) j - s.vel p.1 j) = p.2 := by
          have e0 := hw (fun j => p.2 j + s.vel p.1 j) (fun j => -s.vel p.1 j)
          simp only [← sub_eq_add_neg] at e0
          rw [e0]
          have : (fun j => p.2 j + s.vel p.1 j - s.vel p.1 j) = p.2 := by funext j; ring
          rw [this, hwS _ hp]
        simp only [τ, if_pos hb, σ, back, e1, hp, if_true]
      · have e1 : (fun j => p.2 j - s.vel (s.sym p.1) j) = fun j => p.2 j + s.vel p.1 j := by
          funext j; rw [hs.sym]; ring
        simp only [τ, if_neg hb, σ, back, e1, hs.sym_sym]
    · intro p _; rfl
  have hδ : (∑ p ∈ P, if w (back p) ∈ S then 0 else δ (p.1, back p)) =
      (items.map fun it => it.feq it.k - it.feq (s.sym it.k)).sum := by
    have e1 : (items.map fun it => it.feq it.k - it.feq (s.sym it.k)).sum =
        ((items.map fun it => (it.k, it.cell)).map δ).sum := by
      rw [List.map_map]
      congr 1
      apply List.map_congr_left
      intro it hit
      simp only [Function.comp, δ]
      rw [hval it hit]; ring
    rw [e1, ← List.sum_toFinset _ hn]
    have e2 : (∑ p ∈ P, if w (back p) ∈ S then 0 else δ (p.1, back p)) =
        ∑ p ∈ P.filter (fun p => w (back p) ∉ S), δ (p.1, back p) := by
      rw [Finset.sum_filter]
      apply Finset.sum_congr rfl
      intro p _
      by_cases hb : w (back p) ∈ S <;> simp [hb]
    rw [e2]
    refine Finset.sum_nbij' (fun p => (p.1, back p)) (fun p => (p.1, fun j => p.2 j + s.vel p.1 j))
      ?_ ?_ ?_ ?_ ?_
    · intro p hp
      rw [Finset.mem_filter, hP] at hp
      rw [List.mem_toFinset, hpos]
      refine ⟨?_, hp.2⟩
      have : (fun j => back p j + s.vel p.1 j) = p.2 := by funext j; simp [back]
      rw [this]; exact hp.1
    · intro p hp
      rw [List.mem_toFinset, show p = (p.1, p.2) from rfl, hpos] at hp
      rw [Finset.mem_filter, hP]
      refine ⟨hp.1, ?_⟩
      have : back (p.1, fun j => p.2 j + s.vel p.1 j) = p.2 := by funext j; simp [back]
      rw [this]; exact hp.2
    · intro p _
      have : (fun j => back p j + s.vel p.1 j) = p.2 := by funext j; simp [back]
      simp only [this]
    · intro p _
      have : back (p.1, fun j => p.2 j + s.vel p.1 j) = p.2 := by funext j; simp [back]
      simp only [this]
    · intro p _; rfl
  rw [hm1, hm2, Finset.sum_congr rfl hstep, Finset.sum_add_distrib, hσ, hδ]

variable [FloorRing K]

/-- C32: on a domain built from any list of elements, where every link from a fluid cell to a cell
which is not fluid carries a label with a bounce-back condition, the boundary update followed by the
transport changes the sum of all the distribution values over the fluid cells by exactly the sum of
the inhomogeneous terms; in particular it is conserved by homogeneous bounce-back. -/
theorem C32_bounce_back_mass (hs : s.WF) (g : Grid K dim s.nu) (elems : List (Elem K dim))
    (st : State K dim s.nu) (labels : List Int) (dico : Int → Option (List (Nat × Method dim)))
    (items : List (Item K dim s.ns))
    (hI : OnDomain s g elems st labels dico [(.bounceBack, items)]) (h999 : (999 : Int) ∉ labels)
    (hclosed : ∀ c u, g.Interior c → st.ioo c = 999 → st.ioo (g.target u c) ≠ 999 →
      (st.link u c).flag ∈ labels ∧ (st.link u c).flag ≠ -1 ∧ (st.link u c).flag ≠ -2 ∧
      ∀ k, s.ux (s.sym k) = u →
        (s.scheme k, Method.bounceBack) ∈ (dico (st.link u c).flag).getD [])
    (S : Finset (Cell dim)) (hS : ∀ c, c ∈ S ↔ st.ioo c = 999) (f : Dist K dim s.ns) :
    mass s S (stream s (boundaryCondition s [(.bounceBack, items)] f)) =
      mass s S f + (items.map fun it => it.feq it.k - it.feq (s.sym it.k)).sum := by
  have hflat : flat s [(Method.bounceBack, items)] = items.map fun it => (.bounceBack, it) := by
    simp [flat]
  have hn : (items.map fun it => (it.k, it.cell)).Nodup := by
    have := hI.nodup_positions hs
    rw [hflat] at this
    unfold positions at this
    simpa [List.map_map, Function.comp_def] using this
  obtain ⟨insts, h1, h2⟩ := hI.perm
  refine C32_mass_general s hs S id (fun _ _ => rfl) (fun _ _ => rfl) items hn ?_ f f
    (fun _ _ => rfl)
  intro k x
  constructor
  · intro hmem
    obtain ⟨it, hit, hpe⟩ := List.mem_map.1 hmem
    simp only [Prod.mk.injEq] at hpe
    obtain ⟨rfl, rfl⟩ := hpe
    have := hI.item hs h999 (q := (.bounceBack, it)) (by rw [hflat]; exact List.mem_map.2 ⟨it, hit, rfl⟩)
    obtain ⟨-, -, a3, a4, -⟩ := this
    refine ⟨(hS _).2 a3, fun hh => ?_⟩
    rw [id, hS] at hh
    rw [hh] at a4
    exact absurd a4 (by norm_num)
  · rintro ⟨hc, hx⟩
    rw [hS] at hc
    rw [id, hS] at hx
    have hint : g.Interior (fun j => x j + s.vel k j) := by
      by_contra hni
      have := C21_fluid_map g hI.wf elems hI.sound st hI.built (fun j => x j + s.vel k j)
      rw [if_neg (fun h => hni h.1), hc] at this
      exact absurd this (by norm_num)
    have ht : g.target (s.ux (s.sym k)) (fun j => x j + s.vel k j) = x := by
      funext j
      have e1 := hs.sym k j
      unfold Sten.vel at e1
      simp only [Grid.target, hI.vel, e1, Sten.vel]
      ring
    obtain ⟨b1, b2, b3, b4⟩ := hclosed _ (s.ux (s.sym k)) hint hc (by rw [ht]; exact hx)
    have hmem := (mem_entries s g.total st.link hs labels dico insts h1 .bounceBack
      ⟨k, x, (st.link (s.ux (s.sym k)) (fun j => x j + s.vel k j)).flag,
        (st.link (s.ux (s.sym k)) (fun j => x j + s.vel k j)).dist⟩).2
      ⟨_, b1, b2, b3, b4 k rfl, rfl, mem_cells.2 (fun j => Grid.interior_range hint j), rfl, rfl⟩
    rw [← h2.mem_iff, hflat, List.map_map] at hmem
    obtain ⟨it, hit, he⟩ := List.mem_map.1 hmem
    simp only [Function.comp, Prod.mk.injEq, true_and] at he
    exact List.mem_map.2 ⟨it, hit, by rw [he]⟩

end
end Pylbm.Boundary
