import Verif.Sim.Fluid
/-!
# C78: conservation of the mass in domains with walls at rest
-/

set_option linter.unusedSectionVars false

namespace Pylbm.Sim
open Scheme Halo SchemeSpec Matrix HaloSpec Mpi Boundary

/-! ## The transport with reflections is a permutation of the populations -/

section abstract
variable {K : Type} [Field K] {n dim : Nat}

/-- If every new population is one of the old populations with the same weight, and no two of them are the same
one, the weighted total does not change. -/
theorem sum_permuted (P : Finset (Cell dim × Fin n)) (a : Fin n → K) (src : Cell dim × Fin n → Cell dim × Fin n)
    (hmaps : ∀ p ∈ P, src p ∈ P) (hinj : ∀ p ∈ P, ∀ q ∈ P, src p = src q → p = q)
    (ha : ∀ p ∈ P, a (src p).2 = a p.2) (A G : Arr K n dim) (hA : ∀ p ∈ P, A p.1 p.2 = G (src p).1 (src p).2) :
    ∑ p ∈ P, a p.2 * A p.1 p.2 = ∑ p ∈ P, a p.2 * G p.1 p.2 := by
  refine Finset.sum_bij (fun p _ => src p) hmaps (fun p hp q hq => hinj p hp q hq) ?_ ?_
  · intro q hq
    obtain ⟨p, hp, h⟩ := Finset.surj_on_of_inj_on_of_card_le (fun p (_ : p ∈ P) => src p) hmaps
      (fun p q hp hq => hinj p hp q hq) le_rfl q hq
    exact ⟨p, hp, h.symm⟩
  · intro p hp
    rw [ha p hp, hA p hp]

end abstract

section walls
variable {K : Type} [Field K] [LinearOrder K] [IsStrictOrderedRing K] [FloorRing K] {nc d dim : Nat}

/-- No boundary method acts on a link with this flag: no distance, periodic face or interface. -/
abbrev Open (flag : Int) : Prop := flag ∈ [(999 : Int), -1, -2]

/-- The domain has no hole: a link of a fluid cell on which no boundary method acts leads to a fluid cell
(through the periodic faces), and no boundary method acts on the same link seen from that cell. -/
def Sealed {s : Sten dim} (N w : Fin dim → Nat) (ST : Domain.State K dim s.nu) : Prop :=
  ∀ y ∈ box N, fluidMap w ST y = true → ∀ k k' : Fin s.nu, (∀ i, s.uvel k' i = -s.uvel k i) →
    Open (ST.link k (fun i => y i + w i)).flag →
    fluidMap w ST (fun i => (y i + s.uvel k i) % N i) = true ∧
    Open (ST.link k' (fun i => (y i + s.uvel k i) % N i + w i)).flag

/-- A weight which does not see the sign of the velocities, as that of the mass: it is the same for two
opposite velocities of a scheme. -/
def Even {s : Sten dim} (a : Fin s.ns → K) : Prop :=
  ∀ j j' : Fin s.ns, s.scheme j' = s.scheme j → (∀ i, s.vel j' i = -s.vel j i) → a j' = a j

/-- On every label the schemes which are seen by the weight use the method bounce-back, with a fluid at rest on
the wall (no value, or a value which is the same for opposite velocities). -/
structure AtRest {s : Sten dim} (D : WallData K dim s) (a : Fin s.ns → K) : Prop where
  method : ∀ label ms, D.dico label = some ms → ∀ j, a j ≠ 0 → ∀ m, (s.scheme j, m) ∈ ms → m = .bounceBack
  rest : ∀ label t x j j', s.scheme j' = s.scheme j → (∀ i, s.vel j' i = -s.vel j i) →
    D.ψ label t x j' = D.ψ label t x j

section
variable {s : Sten dim} {D : WallData K dim s} {N w : Fin dim → Nat} {lo : Fin dim → K} {dx : K}
  {lab : Fin dim → Bool → Int} {ST : Domain.State K dim s.nu} {J : List (Method dim × List (Entry K dim s.ns))}

theorem interior_shift {y : Cell dim} (hy : y ∈ box N) :
    (boxGrid N w lo dx lab s).Interior fun i => y i + w i := by
  intro i
  have hn : (boxGrid N w lo dx lab s).n i = N i := by simp [Domain.Grid.n, boxGrid]
  have := (mem_box N y).1 hy i
  rw [hn]
  show (w i : Int) ≤ y i + w i ∧ y i + w i < w i + N i
  omega

/-- The incoming population of a link on which no method acts is the one of the neighbour. -/
theorem wallBc_open (hD : D.WF lab) (hJ : OnGrid D (boxGrid N w lo dx lab s) ST J)
    (hfree : ∀ t, Free s (flat s (withValues s (boxGrid N w lo dx lab s) D.ψ J t)))
    {y : Cell dim} (j : Fin s.ns)
    (ho : Open (ST.link (s.ux (s.sym j)) (fun i => y i + w i)).flag) (t : K) (H : Arr K s.ns dim) :
    wallBc D N w lo dx lab J t H (fun i => y i - s.vel j i) j = H (fun i => y i - s.vel j i) j := by
  have o := hJ.onDomain hD t
  have n1 := o.nodup_positions hD.sten
  unfold wallBc
  rw [boundaryCondition_written s _ n1 (hfree t), written_not_mem]
  · have e : (fun i => y i - s.vel j i + w i - w i) = fun i => y i - s.vel j i := by funext i; ring
    simp only [e]
  · intro hpos
    obtain ⟨⟨m, it⟩, hq, hqe⟩ := List.mem_map.1 hpos
    simp only [Prod.mk.injEq] at hqe
    obtain ⟨he, -⟩ := (mem_withValues s _ D.ψ J t m it).1 hq
    obtain ⟨label, hl, h1, h2, -, -, -, h3, -⟩ :=
      (mem_entries s _ ST.link hD.sten _ D.dico J hJ.insts m it.toEntry).1 he
    have hsrc : source s it.toEntry = fun i => y i + w i := by
      funext i
      simp only [source, hqe.2, hqe.1]; ring
    rw [hsrc, hqe.1] at h3
    rw [h3] at ho
    have h999 : label ≠ 999 := fun h => no999_list (g := boxGrid N w lo dx lab s) hD (h ▸ hl)
    simp only [Open, List.mem_cons, List.not_mem_nil, or_false] at ho
    rcases ho with h | h | h
    · exact h999 h
    · exact h1 h
    · exact h2 h

/-- The incoming population of a link with bounce-back and a fluid at rest is the outgoing one. -/
theorem wallBc_bounce (hD : D.WF lab) (hJ : OnGrid D (boxGrid N w lo dx lab s) ST J)
    (hfree : ∀ t, Free s (flat s (withValues s (boxGrid N w lo dx lab s) D.ψ J t)))
    (hmeth : AllMethods D) {a : Fin s.ns → K} (hrest : AtRest D a)
    {y : Cell dim} (hy : y ∈ box N) (j : Fin s.ns) (hj : a j ≠ 0)
    (ho : ¬ Open (ST.link (s.ux (s.sym j)) (fun i => y i + w i)).flag) (t : K) (H : Arr K s.ns dim) :
    wallBc D N w lo dx lab J t H (fun i => y i - s.vel j i) j = H y (s.sym j) := by
  have o := hJ.onDomain hD t
  have n1 := o.nodup_positions hD.sten
  unfold wallBc
  rw [boundaryCondition_written s _ n1 (hfree t)]
  simp only [Open, List.mem_cons, List.not_mem_nil, or_false, not_or] at ho
  set X : Cell dim := fun i => y i + w i with hX
  have hint : (boxGrid N w lo dx lab s).Interior X := interior_shift hy
  set label := (ST.link (s.ux (s.sym j)) X).flag with hlabel
  have hmem : label ∈ listOfLabels (boxGrid N w lo dx lab s) D.els :=
    hJ.label_mem (g := boxGrid N w lo dx lab s) hD hint _ ho.1
  obtain ⟨all, hall, -⟩ := instances_spec s (boxGrid N w lo dx lab s).total ST.link _ D.dico J hJ.insts
  obtain ⟨ms, hms⟩ : ∃ ms, D.dico label = some ms :=
    Option.isSome_iff_exists.1 ((allEntries_spec s _ ST.link _ D.dico all hall).1 label hmem ho.2.1 ho.2.2)
  obtain ⟨m, hm⟩ := hmeth label ms hms j
  have hmb := hrest.method label ms hms j hj m hm
  let en : Entry K dim s.ns := ⟨j, fun i => y i - s.vel j i + w i, label, (ST.link (s.ux (s.sym j)) X).dist⟩
  have hsrc : source s en = X := by
    funext i; simp only [source, en, hX]; ring
  have hen : (m, en) ∈ entries s J := by
    rw [mem_entries s _ ST.link hD.sten _ D.dico J hJ.insts]
    refine ⟨label, hmem, ho.2.1, ho.2.2, by rw [hms]; exact hm, rfl, ?_, ?_, ?_⟩
    · rw [hsrc]; exact mem_cells_interior hint
    · rw [hsrc]
    · rw [hsrc]
  have hq : (m, (⟨en, D.ψ label t (wallPoint s (boxGrid N w lo dx lab s) en)⟩ : Item K dim s.ns)) ∈
      flat s (withValues s (boxGrid N w lo dx lab s) D.ψ J t) := by
    rw [mem_withValues]
    exact ⟨hen, rfl⟩
  have w1 := written_mem s n1 hq (fun k X => H (fun i => X i - w i) k)
  rw [w1, hmb]
  have hin : Boundary.inner s 1 en = X := by
    rw [← hsrc]; funext i; simp [Boundary.inner, source]
  have hψ := hrest.rest label t (wallPoint s (boxGrid N w lo dx lab s) en) j (s.sym j)
    (hD.sten.scheme j) (hD.sten.sym j)
  simp only [value, rhs]
  rw [hin]
  have e : (fun i => X i - (w i : Int)) = y := by funext i; simp [hX]
  simp only [e]
  change H y (s.sym j) + (D.ψ label t _ j - D.ψ label t _ (s.sym j)) = _
  rw [hψ, sub_self, add_zero]

/-- Where the population `j` of the cell `y` comes from. -/
def origin (N w : Fin dim → Nat) (ST : Domain.State K dim s.nu) (p : Cell dim × Fin s.ns) :
    Cell dim × Fin s.ns :=
  if Open (ST.link (s.ux (s.sym p.2)) (fun i => p.1 i + w i)).flag then
    (fun i => (p.1 i - s.vel p.2 i) % N i, p.2) else (p.1, s.sym p.2)

theorem mod_mem_box (hN : ∀ i, 0 < N i) (y : Cell dim) : (fun i => y i % (N i : Int)) ∈ box N := by
  rw [mem_box]
  intro i
  have : (0 : Int) < N i := by exact_mod_cast hN i
  exact ⟨Int.emod_nonneg _ this.ne', Int.emod_lt_of_pos _ this⟩

/-- If every population of the fluid cells is the one of its origin, the weighted total does not change. -/
theorem sum_origin (hD : D.WF lab) (hseal : Sealed N w ST) (a : Fin s.ns → K) (heven : Even a) (A G : Arr K s.ns dim)
    (hA : ∀ y ∈ box N, fluidMap w ST y = true → ∀ j, a j ≠ 0 →
      A y j = G (origin N w ST (y, j)).1 (origin N w ST (y, j)).2) :
    ∑ y ∈ box N with fluidMap w ST y = true, a ⬝ᵥ A y =
      ∑ y ∈ box N with fluidMap w ST y = true, a ⬝ᵥ G y := by
  classical
  simp only [dotProduct]
  set F := (box N).filter fun y => fluidMap w ST y = true with hF
  have hsum : ∀ A : Arr K s.ns dim, ∑ y ∈ F, ∑ j, a j * A y j =
      ∑ p ∈ F ×ˢ (Finset.univ.filter fun j => a j ≠ 0), a p.2 * A p.1 p.2 := by
    intro A
    rw [Finset.sum_product]
    refine Finset.sum_congr rfl fun y _ => ?_
    rw [Finset.sum_filter]
    refine Finset.sum_congr rfl fun j _ => ?_
    split_ifs with h
    · rfl
    · rw [not_not] at h; rw [h, zero_mul]
  rw [hsum A, hsum G]
  have hsym : ∀ j i, s.vel (s.sym j) i = -s.vel j i := fun j i => hD.sten.sym j i
  have hss : ∀ j, s.sym (s.sym j) = j := hD.sten.sym_sym
  have hmemF : ∀ y, y ∈ F ↔ y ∈ box N ∧ fluidMap w ST y = true := fun y => by rw [hF, Finset.mem_filter]
  have hpos : ∀ y ∈ F, ∀ i, 0 < N i := by
    intro y hy i
    have := (mem_box N y).1 ((hmemF y).1 hy).1 i
    omega
  have hopen : ∀ y ∈ F, ∀ j, Open (ST.link (s.ux (s.sym j)) (fun i => y i + w i)).flag →
      (fun i => (y i - s.vel j i) % (N i : Int)) ∈ F ∧
      Open (ST.link (s.ux j) (fun i => (y i - s.vel j i) % N i + w i)).flag := by
    intro y hy j h
    have hv : ∀ i, s.uvel (s.ux j) i = -s.uvel (s.ux (s.sym j)) i := by
      intro i
      have := hsym j i
      unfold Sten.vel at this
      rw [this, neg_neg]
    have h1 := hseal y ((hmemF y).1 hy).1 ((hmemF y).1 hy).2 (s.ux (s.sym j)) (s.ux j) hv h
    have e : ∀ i, y i + s.uvel (s.ux (s.sym j)) i = y i - s.vel j i := by
      intro i; have := hsym j i; unfold Sten.vel at this ⊢; rw [this]; ring
    simp only [e] at h1
    exact ⟨(hmemF _).2 ⟨mod_mem_box (hpos y hy) _, h1.1⟩, h1.2⟩
  refine sum_permuted _ a (origin N w ST) ?_ ?_ ?_ A G ?_
  · rintro ⟨y, j⟩ hp
    simp only [Finset.mem_product, Finset.mem_filter, Finset.mem_univ, true_and] at hp ⊢
    unfold origin
    split_ifs with h
    · exact ⟨(hopen y hp.1 j h).1, hp.2⟩
    · refine ⟨hp.1, ?_⟩
      rw [heven j (s.sym j) (hD.sten.scheme j) (hsym j)]
      exact hp.2
  · rintro ⟨y, j⟩ hp ⟨z, l⟩ hq he
    simp only [Finset.mem_product, Finset.mem_filter, Finset.mem_univ, true_and] at hp hq
    unfold origin at he
    split_ifs at he with h1 h2 h2
    · simp only [Prod.mk.injEq] at he
      obtain ⟨he, rfl⟩ := he
      simp only [Prod.mk.injEq, and_true]
      have hy := (mem_box N y).1 ((hmemF y).1 hp.1).1
      have hz := (mem_box N z).1 ((hmemF z).1 hq.1).1
      funext i
      have h3 : ((y i - s.vel j i) + s.vel j i) % (N i : Int) = ((z i - s.vel j i) + s.vel j i) % (N i : Int) := by
        rw [Int.add_emod, congrFun he i, ← Int.add_emod]
      simp only [sub_add_cancel] at h3
      rwa [Int.emod_eq_of_lt (hy i).1 (hy i).2, Int.emod_eq_of_lt (hz i).1 (hz i).2] at h3
    · exfalso
      simp only [Prod.mk.injEq] at he
      obtain ⟨he, rfl⟩ := he
      have h3 := (hopen y hp.1 _ h1).2
      apply h2
      have e : (fun i => (y i - s.vel (s.sym l) i) % (N i : Int) + w i) = fun i => z i + (w i : Int) := by
        funext i; rw [← congrFun he i]
      rw [e] at h3
      exact h3
    · exfalso
      simp only [Prod.mk.injEq] at he
      obtain ⟨he, rfl⟩ := he
      have h3 := (hopen z hq.1 _ h2).2
      apply h1
      have e : (fun i => (z i - s.vel (s.sym j) i) % (N i : Int) + w i) = fun i => y i + (w i : Int) := by
        funext i; rw [congrFun he i]
      rw [e] at h3
      exact h3
    · simp only [Prod.mk.injEq] at he ⊢
      refine ⟨he.1, ?_⟩
      rw [← hss j, he.2, hss l]
  · rintro ⟨y, j⟩ hp
    unfold origin
    split_ifs with h
    · rfl
    · exact heven j (s.sym j) (hD.sten.scheme j) (hsym j)
  · rintro ⟨y, j⟩ hp
    simp only [Finset.mem_product, Finset.mem_filter, Finset.mem_univ, true_and] at hp
    exact hA y ((hmemF y).1 hp.1).1 ((hmemF y).1 hp.1).2 j hp.2

theorem periodic_box (G : Arr K s.ns dim) {y : Cell dim} (hy : y ∈ box N) : periodic N G y = G y := by
  unfold periodic
  congr 1
  funext i
  have := (mem_box N y).1 hy i
  exact Int.emod_eq_of_lt this.1 this.2

/-- One step keeps the total over the fluid cells of a weight which the collision keeps. -/
theorem sum_walls (hD : D.WF lab) (hJ : OnGrid D (boxGrid N w lo dx lab s) ST J)
    (hfree : ∀ t, Free s (flat s (withValues s (boxGrid N w lo dx lab s) D.ψ J t)))
    (hmeth : AllMethods D) (hseal : Sealed N w ST) (a : Fin s.ns → K) (heven : Even a) (hrest : AtRest D a)
    (φ : (Fin s.ns → K) → Fin s.ns → K) (hφ : ∀ f, a ⬝ᵥ φ f = a ⬝ᵥ f) (t : K) (G : Arr K s.ns dim) :
    ∑ y ∈ box N with fluidMap w ST y = true, a ⬝ᵥ lbmStep N s.vel φ (wallBc D N w lo dx lab J) t G y =
      ∑ y ∈ box N with fluidMap w ST y = true, a ⬝ᵥ G y := by
  simp only [lbmStep, hφ]
  refine sum_origin hD hseal a heven
    (fun y j => wallBc D N w lo dx lab J t (periodic N G) (fun i => y i - s.vel j i) j) G ?_
  intro y hyb _ j hj
  unfold origin
  split_ifs with h
  · exact wallBc_open hD hJ hfree j h t _
  · simp only
    rw [wallBc_bounce hD hJ hfree hmeth hrest hyb j hj h t, periodic_box G hyb]

end

/-- The total over the fluid cells of the processes of a moment which the collision keeps. -/
theorem moment_walls (hdim : dim ≤ 3) {s : Sten dim} (D : WallData K dim s) (lo : Fin dim → K) (dx : K)
    (lab : Fin dim → Bool → Int) (hD : D.WF lab) (g : Grid dim)
    (ST : Domain.State K dim s.nu) (J : List (Method dim × List (Entry K dim s.ns)))
    (hJ : OnGrid D (boxGrid g.N g.w lo dx lab s) ST J)
    (hfree : ∀ t, Free s (flat s (withValues s (boxGrid g.N g.w lo dx lab s) D.ψ J t)))
    (hseal : Sealed g.N g.w ST) (hmeth : AllMethods D) (hreads : ReadsFluid D g.N g.w lo dx lab ST J)
    (S : Kernel K s.ns nc d) (hfront : ∀ j, (S.consm j : Nat) < nc) (a : Algo)
    (i : Fin s.ns) (heven : Even (S.M i)) (hrest : AtRest D (S.M i))
    (hφ : ∀ f, (S.M *ᵥ collide S a f) i = (S.M *ᵥ f) i)
    (Q : Proc g → Setup K s.ns nc d dim) (hQ : FluidRun D g lo dx lab S a Q)
    (σ₀ : Proc g → Simu K s.ns d dim) (h0 : ∀ c, (σ₀ c).Start (Q c))
    (k : Nat) (σ : Proc g → Simu K s.ns d dim) (hr : PRun g Q σ₀ k σ) :
    ∑ c : Proc g, ∑ x ∈ inner (size g c) g.w with fluidMap g.w ST (globalPos (first g c) g.w x) = true,
      (S.M *ᵥ (σ c).arr x) i =
    ∑ c : Proc g, ∑ x ∈ inner (size g c) g.w with fluidMap g.w ST (globalPos (first g c) g.w x) = true,
      (S.M *ᵥ (σ₀ c).arr x) i := by
  have hown : ∀ c x, x ∈ inner (size g c) g.w ↔ Owned (size g c) g.w x := by
    intro c x
    simp [inner, Owned]
  have hlinks : AllLinks g.N g.w ST := by
    intro y hy hyf u
    by_cases h : Open (ST.link u (fun i => y i + g.w i)).flag
    · exact Or.inl (hseal y hy hyf u (s.usym u) (hD.sten.usym u) h).1
    · exact Or.inr h
  obtain ⟨G, hG⟩ := C15_global_array_exists g fun c => (σ₀ c).arr
  obtain ⟨_, h2⟩ := C73_fluid_cells hdim g hQ.walls.large S hfront s.vel a _ Q (hQ.uniform hD ST hJ.built) _
    (sameBoundary_walls D g lo dx lab hD Q hQ.walls ST J hJ hfree)
    (fluidBoundary_walls D g.N g.w lo dx lab hD ST J hJ hfree hlinks hmeth hreads) σ₀ h0 G
    (fun c x hx _ => hG c x hx) k σ hr
  have hsum : ∀ k, ∑ y ∈ box g.N with fluidMap g.w ST y = true, S.M i ⬝ᵥ
      lbmRun g.N s.vel (collide S a) (wallBc D g.N g.w lo dx lab J) S.dt G k y =
      ∑ y ∈ box g.N with fluidMap g.w ST y = true, S.M i ⬝ᵥ G y := by
    intro k
    induction k with
    | zero => rfl
    | succ k ih =>
      rw [← ih]
      exact sum_walls hD hJ hfree hmeth hseal _ heven hrest _ hφ _ _
  have key : ∀ (τ : Proc g → Simu K s.ns d dim) (H : Arr K s.ns dim),
      (∀ c x, Owned (size g c) g.w x → fluidMap g.w ST (globalPos (first g c) g.w x) = true →
        (τ c).arr x = H (globalPos (first g c) g.w x)) →
      ∑ c : Proc g, ∑ x ∈ inner (size g c) g.w with fluidMap g.w ST (globalPos (first g c) g.w x) = true,
        (S.M *ᵥ (τ c).arr x) i = ∑ y ∈ box g.N with fluidMap g.w ST y = true, S.M i ⬝ᵥ H y := by
    intro τ H hH
    rw [Finset.sum_filter, ← sum_owned g fun y => if fluidMap g.w ST y = true then S.M i ⬝ᵥ H y else 0]
    refine Finset.sum_congr rfl fun c _ => ?_
    rw [Finset.sum_filter]
    refine Finset.sum_congr rfl fun x hx => ?_
    split_ifs with h
    · rw [hH c x ((hown c x).1 hx) h]; rfl
    · rfl
  rw [key σ _ h2, key σ₀ G fun c x hx _ => hG c x hx]
  exact hsum k

/-- **C78.** In a domain without holes, with bounce-back and a fluid at rest on all the walls and obstacles, the
total over the fluid cells of a conserved moment which does not see the sign of the velocities (the mass) is the
same after any number of time steps: any decomposition and schedule of the messages, Base and Pull, all backends,
nonlinear equilibria, no source and no relative velocity; the other schemes of a coupled simulation may have other
boundary conditions. -/
theorem C78_mass (hdim : dim ≤ 3) {s : Sten dim} (D : WallData K dim s) (lo : Fin dim → K) (dx : K)
    (lab : Fin dim → Bool → Int) (hD : D.WF lab) (g : Grid dim)
    (ST : Domain.State K dim s.nu) (J : List (Method dim × List (Entry K dim s.ns)))
    (hJ : OnGrid D (boxGrid g.N g.w lo dx lab s) ST J)
    (hfree : ∀ t, Free s (flat s (withValues s (boxGrid g.N g.w lo dx lab s) D.ψ J t)))
    (hseal : Sealed g.N g.w ST) (hmeth : AllMethods D) (hreads : ReadsFluid D g.N g.w lo dx lab ST J)
    (S : Kernel K s.ns nc d) (hfront : ∀ j, (S.consm j : Nat) < nc) (hEQ : ∀ j w, S.EQ (S.consm j) w = w j)
    (hM : S.M * S.invM = 1) (hS : ∀ i, S.source i = none) (hrel : S.relVel = none) (a : Algo)
    (l : Fin nc) (heven : Even (S.M (S.consm l))) (hrest : AtRest D (S.M (S.consm l)))
    (Q : Proc g → Setup K s.ns nc d dim) (hQ : FluidRun D g lo dx lab S a Q)
    (σ₀ : Proc g → Simu K s.ns d dim) (h0 : ∀ c, (σ₀ c).Start (Q c))
    (k : Nat) (σ : Proc g → Simu K s.ns d dim) (hr : PRun g Q σ₀ k σ) :
    ∑ c : Proc g, ∑ x ∈ inner (size g c) g.w with fluidMap g.w ST (globalPos (first g c) g.w x) = true,
      (S.M *ᵥ (σ c).arr x) (S.consm l) =
    ∑ c : Proc g, ∑ x ∈ inner (size g c) g.w with fluidMap g.w ST (globalPos (first g c) g.w x) = true,
      (S.M *ᵥ (σ₀ c).arr x) (S.consm l) := by
  refine moment_walls hdim D lo dx lab hD g ST J hJ hfree hseal hmeth hreads S hfront a _ heven hrest ?_ Q hQ σ₀ h0
    k σ hr
  intro f
  have hcol : collide S a f = collision S.M S.invM S.consm S.EQ S.s f := by
    unfold collide
    rw [prog_eq]
    obtain ⟨h3, h4⟩ := step_collision S hEQ hS f ⟨0, 0, 0⟩
    cases a with
    | base => simp only [hrel, Option.isSome_none]; exact h4
    | pull => simp only [hrel, Option.isSome_none]; exact h3
  rw [hcol]
  unfold collision
  rw [Matrix.mulVec_mulVec, hM, Matrix.one_mulVec]
  simp only [relaxed, hEQ, Function.comp_apply]
  ring

/-- **C78 with a relative velocity**, for the Pull algorithm; the hypotheses on the matrices of the change of frame
are those of `C46_pull`. -/
theorem C78_relative_velocity (hdim : dim ≤ 3) {s : Sten dim} (D : WallData K dim s) (lo : Fin dim → K) (dx : K)
    (lab : Fin dim → Bool → Int) (hD : D.WF lab) (g : Grid dim)
    (ST : Domain.State K dim s.nu) (J : List (Method dim × List (Entry K dim s.ns)))
    (hJ : OnGrid D (boxGrid g.N g.w lo dx lab s) ST J)
    (hfree : ∀ t, Free s (flat s (withValues s (boxGrid g.N g.w lo dx lab s) D.ψ J t)))
    (hseal : Sealed g.N g.w ST) (hmeth : AllMethods D) (hreads : ReadsFluid D g.N g.w lo dx lab ST J)
    (S : Kernel K s.ns nc d) (hfront : ∀ j, (S.consm j : Nat) < nc)
    (hM : S.M * S.invM = 1) (hT : ∀ u, S.Tmu u * S.Tu u = 1)
    (hclosed : ∀ u (j : Fin nc) (b : Fin s.ns), nc ≤ (b : Nat) → S.Tmu u (S.consm j) b = 0)
    (hS : ∀ i, S.source i = none) (hrel : S.relVel.isSome = true)
    (l : Fin nc) (heven : Even (S.M (S.consm l))) (hrest : AtRest D (S.M (S.consm l)))
    (Q : Proc g → Setup K s.ns nc d dim) (hQ : FluidRun D g lo dx lab S .pull Q)
    (σ₀ : Proc g → Simu K s.ns d dim) (h0 : ∀ c, (σ₀ c).Start (Q c))
    (k : Nat) (σ : Proc g → Simu K s.ns d dim) (hr : PRun g Q σ₀ k σ) :
    ∑ c : Proc g, ∑ x ∈ inner (size g c) g.w with fluidMap g.w ST (globalPos (first g c) g.w x) = true,
      (S.M *ᵥ (σ c).arr x) (S.consm l) =
    ∑ c : Proc g, ∑ x ∈ inner (size g c) g.w with fluidMap g.w ST (globalPos (first g c) g.w x) = true,
      (S.M *ᵥ (σ₀ c).arr x) (S.consm l) := by
  refine moment_walls hdim D lo dx lab hD g ST J hJ hfree hseal hmeth hreads S hfront .pull _ heven hrest ?_ Q hQ
    σ₀ h0 k σ hr
  intro f
  unfold collide
  rw [prog_eq]
  simp only [hrel]
  exact C46_pull S hM hT hclosed hS f ⟨0, 0, 0⟩ l

/-! ## Domains without holes -/

/-- A link which leaves the box crosses a face. -/
theorem crosses_of_leaves (n : Fin dim → Nat) (y v : Fin dim → Int) (hy : ∀ i, 0 ≤ y i ∧ y i < n i) (i : Fin dim)
    (hi : ¬ (0 ≤ y i + v i ∧ y i + v i < n i)) :
    ∃ side t, DomainSpec.Crosses (K := K) n y v ⟨i, side⟩ t := by
  have hX := hy i
  rcases lt_or_ge (y i + v i) 0 with h | h
  · have hv : v i < 0 := by omega
    have hvK : (v i : K) < 0 := by exact_mod_cast hv
    have h0 : (0 : K) ≤ y i := by exact_mod_cast (by omega : 0 ≤ y i)
    have h1 : (y i : K) + v i ≤ -1 := by exact_mod_cast (by omega : y i + v i ≤ -1)
    refine ⟨false, (-(1 / 2) - y i) / v i, ?_, ?_, ?_⟩
    · exact div_pos_of_neg_of_neg (by linarith) hvK
    · rw [div_le_one_of_neg hvK]; linarith
    · show (y i : K) + _ * (v i : K) = _
      rw [div_mul_cancel₀ _ hvK.ne]
      simp [DomainSpec.facePos]
  · have h2 : (n i : Int) ≤ y i + v i := by omega
    have hv : 0 < v i := by omega
    have hvK : (0 : K) < v i := by exact_mod_cast hv
    have h0 : (y i : K) ≤ n i - 1 := by
      have : (y i : K) + 1 ≤ n i := by exact_mod_cast (by omega : y i + 1 ≤ n i)
      linarith
    have h1 : (n i : K) ≤ y i + v i := by exact_mod_cast h2
    refine ⟨true, (n i - 1 / 2 - y i) / v i, ?_, ?_, ?_⟩
    · exact div_pos (by linarith) hvK
    · rw [div_le_one hvK]; linarith
    · show (y i : K) + _ * (v i : K) = _
      rw [div_mul_cancel₀ _ hvK.ne']
      simp [DomainSpec.facePos]

/-- **C78, closed boxes.** A box without periodic face, with elements whose distances are seen (C59) and no fluid
element which opens a solid cell again, has no hole. -/
theorem C78_closed_box {s : Sten dim} (D : WallData K dim s) (N w : Fin dim → Nat) (lo : Fin dim → K) (dx : K)
    (lab : Fin dim → Bool → Int) (hD : D.WF lab) (ST : Domain.State K dim s.nu)
    (J : List (Method dim × List (Entry K dim s.ns))) (hJ : OnGrid D (boxGrid N w lo dx lab s) ST J)
    (hlab : ∀ j side, lab j side ≠ -1 ∧ lab j side ≠ -2) (hels : ∀ l ∈ D.els, l ≠ -1 ∧ l ≠ -2)
    (hsees : ∀ e ∈ D.elems, ∀ c k, (boxGrid N w lo dx lab s).Interior c →
      e.Sees ((boxGrid N w lo dx lab s).cellCentre c) (fun j => dx * (s.uvel k j : K)))
    (hopen : ∀ c, (boxGrid N w lo dx lab s).Interior c → ST.ioo c = 999 →
      ∀ e ∈ D.elems, e.isFluid = false → e.inside ((boxGrid N w lo dx lab s).cellCentre c) = false) :
    Sealed N w ST := by
  intro y hy hyf k k' hk ho
  have hal := allLinks_closed D N w lo dx lab hD ST J hJ hlab hels hsees hopen y hy hyf k
  have h1 : fluidMap w ST (fun i => (y i + s.uvel k i) % N i) = true := hal.resolve_right fun h => h ho
  refine ⟨h1, ?_⟩
  set g := boxGrid N w lo dx lab s with hg
  have hn : ∀ i, g.n i = N i := fun i => by simp [Domain.Grid.n, hg, boxGrid]
  have hint : g.Interior fun i => y i + w i := interior_shift hy
  have hyb := (mem_box N y).1 hy
  have hin : ∀ i, 0 ≤ y i + s.uvel k i ∧ y i + s.uvel k i < N i := by
    by_contra hh
    push Not at hh
    obtain ⟨i, hi⟩ := hh
    obtain ⟨side, t, hX⟩ := crosses_of_leaves (K := K) N y (s.uvel k) hyb i (by push Not; exact hi)
    have hglab : ∀ j side, g.label j side = lab j side := by
      intro j side
      cases side <;> simp [Domain.Grid.label, hg, boxGrid]
    have he : g.inner (fun i => y i + w i) = y := by
      funext i; show y i + (w i : Int) - w i = y i; ring
    have hfl := (Domain.C59_box_links_flagged_partial g hJ.wf D.elems hD.sound ST hJ.built _ hint k
      (hopen _ hint (of_decide_eq_true hyf)) ⟨i, side⟩ t (by
        show g.label i side ≠ -2
        rw [hglab]; exact (hlab _ _).2) (by
        rw [he, show g.n = N from funext hn]; exact hX)).2.2.2
    rcases hfl with ⟨f, -, hf⟩ | ⟨e, he, x, v, h3, hf⟩
    · rw [hf, hglab] at ho
      have := hlab f.ax f.upper
      simp [Open, hD.noFace, this] at ho
    · have h4 := hD.labels e he x v h3
      have h5 := hels _ h4
      have h6 : e.border x v ≠ 999 := fun h => hD.no999 (h ▸ h4)
      rw [hf] at ho
      simp [Open, h5, h6] at ho
  have hz : (fun i => (y i + s.uvel k i) % (N i : Int)) = fun i => y i + s.uvel k i := by
    funext i; exact Int.emod_eq_of_lt (hin i).1 (hin i).2
  by_contra hno
  have e2 : (fun i => (y i + s.uvel k i) % (N i : Int) + w i) = fun i => y i + s.uvel k i + (w i : Int) := by
    funext i; rw [congrFun hz i]
  rw [e2] at hno
  have hint' : g.Interior fun i => y i + s.uvel k i + (w i : Int) :=
    interior_shift (y := fun i => y i + s.uvel k i) ((mem_box N _).2 hin)
  obtain ⟨c1, c2⟩ := Domain.C23_flagged_links g hJ.wf D.elems hD.sound ST hJ.built _ hint' k'
  have hd : (ST.link k' fun i => y i + s.uvel k i + (w i : Int)).dist ≠ 999 := by
    intro h
    apply hno
    rw [c2 h]; simp [Open]
  have h5 := (c1 hd).2.1
  have e3 : g.target k' (fun i => y i + s.uvel k i + (w i : Int)) = fun i => y i + (w i : Int) := by
    funext i
    show y i + s.uvel k i + (w i : Int) + s.uvel k' i = _
    rw [hk i]; ring
  rw [e3, of_decide_eq_true hyf] at h5
  exact absurd h5 (by norm_num)

/-- A crossing by a velocity with components -1, 0, 1 is halfway, and the link leaves the box in that direction. -/
theorem crosses_unit (n : Fin dim → Nat) (y v : Fin dim → Int) (hy : ∀ i, 0 ≤ y i ∧ y i < n i)
    (hv : ∀ i, |v i| ≤ 1) {f : DomainSpec.Face dim} {t : K} (h : DomainSpec.Crosses n y v f t) :
    t = 1 / 2 ∧ ¬ (0 ≤ y f.ax + v f.ax ∧ y f.ax + v f.ax < n f.ax) := by
  obtain ⟨h0, h1, h2⟩ := h
  obtain ⟨i, side⟩ := f
  simp only [DomainSpec.facePos] at h2 ⊢
  have hyi := hy i
  have hvi := abs_le.1 (hv i)
  have hyK : (0 : K) ≤ y i := by exact_mod_cast hyi.1
  have hyn : (y i : K) + 1 ≤ n i := by exact_mod_cast (by omega : y i + 1 ≤ n i)
  have hc : v i = -1 ∨ v i = 0 ∨ v i = 1 := by omega
  rcases hc with hc | hc | hc <;> rw [hc] at h2 ⊢ <;> push_cast at h2 <;> cases side <;>
    simp only [Bool.false_eq_true, if_false, if_true] at h2
  · have h3 : (y i : K) < 1 := by linarith
    have h4 : y i < 1 := by exact_mod_cast h3
    have h5 : y i = 0 := by omega
    rw [h5] at h2 ⊢
    refine ⟨?_, by omega⟩
    push_cast at h2; linarith
  · exfalso; linarith
  · exfalso; linarith
  · exfalso; linarith
  · exfalso; linarith
  · have h3 : (n i : K) < y i + 2 := by linarith
    have h4 : (n i : Int) < y i + 2 := by exact_mod_cast h3
    have h5 : (n i : Int) = y i + 1 := by omega
    have h6 : (n i : K) = y i + 1 := by exact_mod_cast h5
    refine ⟨?_, by omega⟩
    linarith

/-- **C78, boxes with periodic directions.** A box whose faces are, direction by direction, periodic on both sides
or labelled on both sides, with velocities whose components are -1, 0, 1, and with elements as in `C78_closed_box`
which do not touch the links leaving through a periodic face nor the cells of these links, has no hole. -/
theorem C78_channel {s : Sten dim} (D : WallData K dim s) (N w : Fin dim → Nat) (lo : Fin dim → K) (dx : K)
    (lab : Fin dim → Bool → Int) (hD : D.WF lab) (ST : Domain.State K dim s.nu)
    (J : List (Method dim × List (Entry K dim s.ns))) (hJ : OnGrid D (boxGrid N w lo dx lab s) ST J)
    (hv : ∀ k i, |s.uvel k i| ≤ 1)
    (hlab : ∀ j, (∀ side, lab j side = -1) ∨ ∀ side, lab j side ≠ -1 ∧ lab j side ≠ -2)
    (hels : ∀ l ∈ D.els, l ≠ -1 ∧ l ≠ -2)
    (hsees : ∀ e ∈ D.elems, ∀ c k, (boxGrid N w lo dx lab s).Interior c →
      e.Sees ((boxGrid N w lo dx lab s).cellCentre c) (fun j => dx * (s.uvel k j : K)))
    (hopen : ∀ c, (boxGrid N w lo dx lab s).Interior c → ST.ioo c = 999 →
      ∀ e ∈ D.elems, e.isFluid = false → e.inside ((boxGrid N w lo dx lab s).cellCentre c) = false)
    (hfar : ∀ e ∈ D.elems, ∀ y ∈ box N, ∀ k i, (∀ side, lab i side = -1) →
      ¬ (0 ≤ y i + s.uvel k i ∧ y i + s.uvel k i < N i) →
      e.inside ((boxGrid N w lo dx lab s).cellCentre fun i => y i + w i) = false ∧
      e.alpha ((boxGrid N w lo dx lab s).cellCentre fun i => y i + w i) (fun j => dx * (s.uvel k j : K)) ≤ 0) :
    Sealed N w ST := by
  set g := boxGrid N w lo dx lab s with hg
  have hn : ∀ i, g.n i = N i := fun i => by simp [Domain.Grid.n, hg, boxGrid]
  have hglab : ∀ j side, g.label j side = lab j side := by
    intro j side
    cases side <;> simp [Domain.Grid.label, hg, boxGrid]
  have hinner : ∀ y : Cell dim, g.inner (fun i => y i + w i) = y := by
    intro y; funext i; show y i + (w i : Int) - w i = y i; ring
  have hact : ∀ f, g.Active f := by
    intro f
    show g.label f.ax f.upper ≠ -2
    rw [hglab]
    rcases hlab f.ax with h | h
    · rw [h]; decide
    · exact (h _).2
  -- a link which leaves the box carries a distance
  have leaves : ∀ y ∈ box N, fluidMap w ST y = true → ∀ k i,
      ¬ (0 ≤ y i + s.uvel k i ∧ y i + s.uvel k i < N i) → (ST.link k fun i => y i + w i).dist ≠ 999 := by
    intro y hy hyf k i hi
    have hyb := (mem_box N y).1 hy
    obtain ⟨side, t, hX⟩ := crosses_of_leaves (K := K) N y (s.uvel k) hyb i hi
    have := Domain.C59_box_links_flagged_partial g hJ.wf D.elems hD.sound ST hJ.built _ (interior_shift hy) k
      (hopen _ (interior_shift hy) (of_decide_eq_true hyf)) ⟨i, side⟩ t (hact _) (by
        rw [hinner, show g.n = N from funext hn]; exact hX)
    intro hh
    rw [hh] at this
    norm_num at this
  -- the wall which it carries
  have wall : ∀ y ∈ box N, ∀ k, (ST.link k fun i => y i + w i).dist ≠ 999 →
      (∃ f, ∃ t : K, DomainSpec.FirstFace N g.Active y (s.uvel k) f t ∧
        (ST.link k fun i => y i + w i).flag = lab f.ax f.upper) ∨
      ∃ e ∈ D.elems, 0 < e.alpha (g.cellCentre fun i => y i + w i) (fun j => dx * (s.uvel k j : K)) ∧
        ¬ Open (ST.link k fun i => y i + w i).flag := by
    intro y hy k hd
    rcases Domain.C65_same_wall g hJ.wf D.elems hD.sound ST hJ.built _ k hd with ⟨f, h1, h2, -⟩ | ⟨e, he, h1, -, h2, -⟩
    · left
      rw [hinner, show g.n = N from funext hn] at h1
      rw [hglab] at h2
      exact ⟨f, _, h1, h2⟩
    · right
      refine ⟨e, he, h1, ?_⟩
      rw [h2]
      have h4 := hD.labels e he _ _ h1
      have h5 := hels _ h4
      have h6 : e.border (g.cellCentre fun i => y i + w i) (fun j => g.dx * (g.vel k j : K)) ≠ 999 :=
        fun h => hD.no999 (h ▸ h4)
      simp [Open, h5, h6]
  intro y hy hyf k k' hk ho
  have hyb := (mem_box N y).1 hy
  have hNpos : ∀ i, 0 < N i := fun i => by have := hyb i; omega
  by_cases hin : ∀ i, 0 ≤ y i + s.uvel k i ∧ y i + s.uvel k i < N i
  · -- the link stays in the box
    have hz : (fun i => (y i + s.uvel k i) % (N i : Int)) = fun i => y i + s.uvel k i := by
      funext i; exact Int.emod_eq_of_lt (hin i).1 (hin i).2
    have e2 : (fun i => (y i + s.uvel k i) % (N i : Int) + w i) = fun i => y i + s.uvel k i + (w i : Int) := by
      funext i; rw [congrFun hz i]
    rw [hz, e2]
    have hzb : (fun i => y i + s.uvel k i) ∈ box N := (mem_box N _).2 hin
    have htar : g.target k (fun i => y i + w i) = fun i => y i + s.uvel k i + (w i : Int) := by
      funext i; show y i + (w i : Int) + s.uvel k i = _; ring
    have hd : (ST.link k fun i => y i + w i).dist = 999 := by
      by_contra hd
      rcases wall y hy k hd with ⟨f, t, h1, -⟩ | ⟨e, -, -, h2⟩
      · exact (crosses_unit N y (s.uvel k) hyb (hv k) h1.2.1).2 (hin f.ax)
      · exact h2 ho
    have hfl : ST.ioo (fun i => y i + s.uvel k i + (w i : Int)) = 999 := by
      by_contra hno
      have h1 := Domain.C21_fluid_map g hJ.wf D.elems hD.sound ST hJ.built
        (fun i => y i + s.uvel k i + (w i : Int))
      have h2 : ST.ioo (fun i => y i + s.uvel k i + (w i : Int)) = -1 := by
        rw [h1] at hno ⊢
        split_ifs at hno ⊢ with h
        · exact absurd rfl hno
        · rfl
      rw [← htar] at h2
      have h3 := (Domain.C59_solid_links_flagged_partial g hJ.wf D.elems hD.sound hsees ST hJ.built _
        (interior_shift hy) k (of_decide_eq_true hyf) (by rw [htar]; exact interior_shift hzb) h2)
      rw [hd] at h3
      norm_num at h3
    refine ⟨decide_eq_true hfl, ?_⟩
    by_contra hno
    obtain ⟨c1, c2⟩ := Domain.C23_flagged_links g hJ.wf D.elems hD.sound ST hJ.built _ (interior_shift hzb) k'
    have hd' : (ST.link k' fun i => y i + s.uvel k i + (w i : Int)).dist ≠ 999 := by
      intro h
      apply hno
      rw [c2 h]; simp [Open]
    have h5 := (c1 hd').2.1
    have e3 : g.target k' (fun i => y i + s.uvel k i + (w i : Int)) = fun i => y i + (w i : Int) := by
      funext i
      show y i + s.uvel k i + (w i : Int) + s.uvel k' i = _
      rw [hk i]; ring
    rw [e3, of_decide_eq_true hyf] at h5
    exact absurd h5 (by norm_num)
  · -- the link leaves the box
    push Not at hin
    obtain ⟨i, hi⟩ := hin
    rcases wall y hy k (leaves y hy hyf k i (by push Not; exact hi)) with ⟨f, t, h1, h2⟩ | ⟨e, -, -, h2⟩
    swap
    · exact absurd ho h2
    obtain ⟨ht, hout⟩ := crosses_unit N y (s.uvel k) hyb (hv k) h1.2.1
    have hper : ∀ side, lab f.ax side = -1 := by
      rcases hlab f.ax with h | h
      · exact h
      · exfalso
        rw [h2] at ho
        have := h f.upper
        simp [Open, hD.noFace, this] at ho
    -- the other end of the link
    set z : Cell dim := fun i => (y i + s.uvel k i) % (N i : Int) with hz
    have hzb : z ∈ box N := mod_mem_box hNpos _
    have hzb' := (mem_box N z).1 hzb
    have same : ∀ i, (0 ≤ z i + s.uvel k' i ∧ z i + s.uvel k' i < N i) ↔
        (0 ≤ y i + s.uvel k i ∧ y i + s.uvel k i < N i) := by
      intro i
      have h3 := hyb i
      have h4 := abs_le.1 (hv k i)
      rw [hk i]
      have hzi : z i = (y i + s.uvel k i) % (N i : Int) := rfl
      clear_value z
      rcases lt_trichotomy (y i + s.uvel k i) 0 with h5 | h5 | h5
      · have h6 : y i + s.uvel k i = -1 := by omega
        have h7 : z i = N i - 1 := by
          rw [hzi, h6, Int.emod_eq_add_self_emod, Int.emod_eq_of_lt] <;> omega
        constructor <;> intro h <;> omega
      · rw [h5, Int.zero_emod] at hzi; constructor <;> intro h <;> omega
      · rcases lt_or_ge (y i + s.uvel k i) (N i) with h6 | h6
        · rw [Int.emod_eq_of_lt h5.le h6] at hzi; constructor <;> intro h <;> omega
        · have h7 : y i + s.uvel k i = N i := by omega
          rw [h7, Int.emod_self] at hzi
          constructor <;> intro h <;> omega
    have hzout : ¬ (0 ≤ z f.ax + s.uvel k' f.ax ∧ z f.ax + s.uvel k' f.ax < N f.ax) := fun h => hout ((same _).1 h)
    have hzfl : fluidMap w ST z = true := by
      apply decide_eq_true
      rw [Domain.C21_fluid_map g hJ.wf D.elems hD.sound ST hJ.built, if_pos]
      refine ⟨interior_shift hzb, ?_⟩
      have hfalse : ∀ e ∈ D.elems, e.inside (g.cellCentre fun i => z i + w i) = false :=
        fun e he => (hfar e he z hzb k' f.ax hper hzout).1
      have key : ∀ l : List (Domain.Elem K dim), (∀ e ∈ l, e.inside (g.cellCentre fun i => z i + w i) = false) →
          DomainSpec.material (Domain.regions l) (g.cellCentre fun i => z i + w i) = true := by
        intro l
        induction l with
        | nil => intro _; rfl
        | cons e l ih =>
          intro h
          have h3 := ih fun e' he' => h e' (List.mem_cons_of_mem _ he')
          have h4 := h e List.mem_cons_self
          simp only [Domain.regions, List.map_cons, DomainSpec.material] at h3 ⊢
          rw [h4, h3]
          simp
      exact key D.elems hfalse
    refine ⟨hzfl, ?_⟩
    rcases wall z hzb k' (leaves z hzb hzfl k' f.ax hzout) with ⟨f', t', h3, h4⟩ | ⟨e, he, h3, -⟩
    swap
    · exact absurd h3 (not_lt.2 (hfar e he z hzb k' f.ax hper hzout).2)
    have hax : f'.ax = f.ax := by
      obtain ⟨ht', hout'⟩ := crosses_unit N z (s.uvel k') hzb' (hv k') h3.2.1
      apply le_antisymm
      · obtain ⟨side, t2, hX⟩ := crosses_of_leaves (K := K) N z (s.uvel k') hzb' f.ax hzout
        rcases h3.2.2 _ t2 (hact _) hX with h | h
        · rw [ht', (crosses_unit N z (s.uvel k') hzb' (hv k') hX).1] at h
          exact absurd h (lt_irrefl _)
        · exact h.2
      · obtain ⟨side, t2, hX⟩ := crosses_of_leaves (K := K) N y (s.uvel k) hyb f'.ax fun h => hout' ((same _).2 h)
        rcases h1.2.2 _ t2 (hact _) hX with h | h
        · rw [ht, (crosses_unit N y (s.uvel k) hyb (hv k) hX).1] at h
          exact absurd h (lt_irrefl _)
        · exact h.2
    show Open (ST.link k' fun i => z i + w i).flag
    rw [h4, hax, hper]
    simp [Open]

end walls
end Pylbm.Sim
