import Verif.Sim.Mass
/-!
# C88: the solution travels at most one halo width per step, and only along the links of the fluid
-/
set_option linter.unusedSectionVars false
namespace Pylbm.Sim
open Scheme Halo SchemeSpec Matrix HaloSpec Mpi Boundary

variable {K : Type} [Field K] [LinearOrder K] [IsStrictOrderedRing K] [FloorRing K] {nc d dim : Nat}

/-! ## Specification -/

/-- The cell of the box which the periodic extension shows at the position `z`. -/
def wrap (N : Fin dim → Nat) (z : Cell dim) : Cell dim := fun i => z i % N i

/-- The cell `z` of the box is at most `r` cells away from `y` along each axis, around the box. -/
def Within (N r : Fin dim → Nat) (y z : Cell dim) : Prop :=
  ∃ e : Cell dim, (∀ i, |e i| ≤ r i) ∧ z = wrap N (fun i => y i + e i)

/-- The same geometry and methods with other imposed values. -/
def otherValues {s : Sten dim} (D : WallData K dim s) (ψ' : Int → K → (Fin dim → K) → Fin s.ns → K) :
    WallData K dim s := { D with ψ := ψ' }

/-- The values imposed at the time `t` on the links of the cell `y` are the same for `ψ` and `ψ'`. -/
def SameValues {s : Sten dim} (D : WallData K dim s) (ψ' : Int → K → (Fin dim → K) → Fin s.ns → K)
    (N w : Fin dim → Nat) (lo : Fin dim → K) (dx : K) (lab : Fin dim → Bool → Int)
    (J : List (Method dim × List (Entry K dim s.ns))) (t : K) (y : Cell dim) : Prop :=
  ∀ p ∈ entries s J, source s p.2 = (fun i => y i + w i) →
    D.ψ p.2.label t (wallPoint s (boxGrid N w lo dx lab s) p.2) =
      ψ' p.2.label t (wallPoint s (boxGrid N w lo dx lab s) p.2)

/-- A part of the fluid: a set of fluid cells of the box which contains the ends of its links without boundary
condition, and the cells read by its boundary conditions. -/
structure Part {s : Sten dim} (D : WallData K dim s) (N w : Fin dim → Nat) (lo : Fin dim → K) (dx : K)
    (lab : Fin dim → Bool → Int) (ST : Domain.State K dim s.nu) (J : List (Method dim × List (Entry K dim s.ns)))
    (A : Cell dim → Prop) : Prop where
  box : ∀ y, A y → y ∈ box N
  fluid : ∀ y, A y → fluidMap w ST y = true
  links : ∀ y, A y → ∀ k, (ST.link k (fun i => y i + w i)).flag ∈ ([999, -1, -2] : List Int) →
    A (wrap N fun i => y i + s.uvel k i)
  reads : ∀ y, A y → ∀ t, ∀ q ∈ flat s (withValues s (boxGrid N w lo dx lab s) D.ψ J t),
    source s q.2.toEntry = (fun i => y i + w i) → ∀ p ∈ Boundary.reads s q.1 q.2,
      A (wrap N fun i => p.2 i - w i)

/-! ## Lemmas -/

/-- Two runs on the global array which agree on the cells that matter: `A m` is the set of cells which matter after
`m` steps. -/
theorem lbmRun_agree {n : Nat} (N : Fin dim → Nat) (vel : Fin n → Cell dim) (φ : (Fin n → K) → Fin n → K)
    (bc bc' : K → Arr K n dim → Arr K n dim) (dt : K) (G G' : Arr K n dim) (k : Nat) (A : Nat → Cell dim → Prop)
    (hstep : ∀ m < k, ∀ y, A (m + 1) y → ∀ H H' : Arr K n dim, (∀ z, A m (wrap N z) → H z = H' z) → ∀ j,
      bc (m * dt) H (fun i => y i - vel j i) j = bc' (m * dt) H' (fun i => y i - vel j i) j)
    (h0 : ∀ y, A 0 y → G y = G' y) (m : Nat) (hm : m ≤ k) (y : Cell dim) (hy : A m y) :
    lbmRun N vel φ bc dt G m y = lbmRun N vel φ bc' dt G' m y := by
  induction m generalizing y with
  | zero => exact h0 y hy
  | succ m ih =>
    unfold lbmRun lbmStep
    congr 1
    funext j
    exact hstep m hm y hy _ _ (fun z hz => ih (by omega) _ hz) j

section walls
variable {s : Sten dim} {D : WallData K dim s} {N w : Fin dim → Nat} {lo : Fin dim → K} {dx : K}
  {lab : Fin dim → Bool → Int} {ST : Domain.State K dim s.nu} {J : List (Method dim × List (Entry K dim s.ns))}

theorem otherValues_wf (hD : D.WF lab) (ψ' : Int → K → (Fin dim → K) → Fin s.ns → K) : (otherValues D ψ').WF lab :=
  ⟨hD.sten, hD.sound, hD.labels, hD.dict, hD.no999, hD.noFace⟩

theorem otherValues_onGrid {g : Domain.Grid K dim s.nu} (hJ : OnGrid D g ST J)
    (ψ' : Int → K → (Fin dim → K) → Fin s.ns → K) : OnGrid (otherValues D ψ') g ST J :=
  ⟨hJ.wf, hJ.vel, hJ.built, hJ.insts⟩

theorem mem_positions {ψ : Int → K → (Fin dim → K) → Fin s.ns → K} {t : K} {g : Domain.Grid K dim s.nu}
    (p : Fin s.ns × Cell dim) : p ∈ positions s (flat s (withValues s g ψ J t)) ↔
      ∃ q ∈ entries s J, (q.2.k, q.2.cell) = p := by
  unfold positions
  simp only [List.mem_map]
  constructor
  · rintro ⟨⟨m, it⟩, hq, rfl⟩
    exact ⟨(m, it.toEntry), ((mem_withValues s g ψ J t m it).1 hq).1, rfl⟩
  · rintro ⟨⟨m, e⟩, hq, rfl⟩
    exact ⟨(m, ⟨e, ψ e.label t (wallPoint s g e)⟩), (mem_withValues s g ψ J t m _).2 ⟨hq, rfl⟩, rfl⟩

theorem reads_entry {m : Method dim} {it it' : Item K dim s.ns} (h : it.toEntry = it'.toEntry) :
    Boundary.reads s m it = Boundary.reads s m it' := by
  unfold Boundary.reads
  rw [h]

theorem free_values {g : Domain.Grid K dim s.nu} {ψ ψ' : Int → K → (Fin dim → K) → Fin s.ns → K} {t : K}
    (h : Free s (flat s (withValues s g ψ J t))) : Free s (flat s (withValues s g ψ' J t)) := by
  rintro ⟨m, it⟩ hq p hp hpos
  rw [mem_positions] at hpos
  have hq' := ((mem_withValues s g ψ' J t m it).1 hq).1
  refine h (m, ⟨it.toEntry, ψ it.label t (wallPoint s g it.toEntry)⟩)
    ((mem_withValues s g ψ J t m _).2 ⟨hq', rfl⟩) p ?_ ((mem_positions p).2 hpos)
  exact (reads_entry (m := m) (it := ⟨it.toEntry, ψ it.label t (wallPoint s g it.toEntry)⟩) (it' := it) rfl) ▸ hp

/-- What reaches the cell `y` depends on the cells read for `y`. -/
theorem wallBc_local (hD : D.WF lab) (hJ : OnGrid D (boxGrid N w lo dx lab s) ST J)
    (ψ' : Int → K → (Fin dim → K) → Fin s.ns → K) (t : K)
    (hfree : Free s (flat s (withValues s (boxGrid N w lo dx lab s) D.ψ J t)))
    {y : Cell dim} (hval : SameValues D ψ' N w lo dx lab J t y) (j : Fin s.ns) (H H' : Arr K s.ns dim)
    (hopen : (j, fun i => y i - s.vel j i + (w i : Int)) ∉
      positions s (flat s (withValues s (boxGrid N w lo dx lab s) D.ψ J t)) →
      H (fun i => y i - s.vel j i) j = H' (fun i => y i - s.vel j i) j)
    (hread : ∀ q ∈ flat s (withValues s (boxGrid N w lo dx lab s) D.ψ J t),
      source s q.2.toEntry = (fun i => y i + w i) → ∀ p ∈ Boundary.reads s q.1 q.2,
        H (fun i => p.2 i - w i) p.1 = H' (fun i => p.2 i - w i) p.1) :
    wallBc D N w lo dx lab J t H (fun i => y i - s.vel j i) j =
      wallBc (otherValues D ψ') N w lo dx lab J t H' (fun i => y i - s.vel j i) j := by
  have n1 := (hJ.onDomain hD t).nodup_positions hD.sten
  have n2 := ((otherValues_onGrid hJ ψ').onDomain (otherValues_wf hD ψ') t).nodup_positions hD.sten
  have hfree' : Free s (flat s (withValues s (boxGrid N w lo dx lab s) (otherValues D ψ').ψ J t)) := free_values hfree
  unfold wallBc
  rw [boundaryCondition_written s _ n1 hfree, boundaryCondition_written s _ n2 hfree']
  by_cases hpos : (j, fun i => y i - s.vel j i + (w i : Int)) ∈
      positions s (flat s (withValues s (boxGrid N w lo dx lab s) D.ψ J t))
  · obtain ⟨⟨m, it⟩, hq, hqe⟩ := List.mem_map.1 hpos
    simp only [Prod.mk.injEq] at hqe
    have hsrc : source s it.toEntry = fun i => y i + w i := by
      funext i
      simp only [source, hqe.1, hqe.2]; ring
    have hen := (mem_withValues s _ _ J t m it).1 hq
    have hq' : (m, it) ∈ flat s (withValues s (boxGrid N w lo dx lab s) (otherValues D ψ').ψ J t) := by
      refine (mem_withValues s _ _ J t m it).2 ⟨hen.1, hen.2.trans ?_⟩
      exact hval (m, it.toEntry) hen.1 hsrc
    have w1 := written_mem s n1 hq (fun k X => H (fun i => X i - w i) k)
    have w2 := written_mem s n2 hq' (fun k X => H' (fun i => X i - w i) k)
    rw [hqe.1, hqe.2] at w1 w2
    rw [w1, w2]
    have hr := hread (m, it) hq hsrc
    exact value_congr s hr hr
  · have hpos' : (j, fun i => y i - s.vel j i + (w i : Int)) ∉
        positions s (flat s (withValues s (boxGrid N w lo dx lab s) (otherValues D ψ').ψ J t)) := by
      rw [mem_positions] at hpos ⊢; exact hpos
    rw [written_not_mem s hpos, written_not_mem s hpos']
    have e : (fun i => y i - s.vel j i + w i - w i) = fun i => y i - s.vel j i := by funext i; ring
    simp only [e]
    exact hopen hpos

/-- The boundary conditions of a cell read cells at most one velocity away. -/
theorem reads_near {m : Method dim} {it : Item K dim s.ns} {p : Fin s.ns × Cell dim} (hp : p ∈ Boundary.reads s m it)
    (i : Fin dim) : |p.2 i - source s it.toEntry i| ≤ |s.vel it.k i| := by
  have h0 : (0 : Int) ≤ |s.vel it.k i| := abs_nonneg _
  have key : p.2 i = source s it.toEntry i ∨ p.2 i = source s it.toEntry i + s.vel it.k i ∨
      p.2 i = source s it.toEntry i - s.vel it.k i := by
    cases m <;> simp only [Boundary.reads, List.mem_cons, List.not_mem_nil, or_false] at hp
    · left; rw [hp]; simp [Boundary.inner, source]
    · rcases hp with rfl | rfl
      · left; simp [Boundary.inner, source]
      · split_ifs
        · right; left; simp [Boundary.inner, source]; ring
        · left; simp [Boundary.inner, source]
    · left; rw [hp]; simp [Boundary.inner, source]
    · rcases hp with rfl | rfl
      · left; simp [Boundary.inner, source]
      · split_ifs
        · right; left; simp [Boundary.inner, source]; ring
        · left; simp [Boundary.inner, source]
    · left; rw [hp]; simp [Boundary.inner, source]
    · rw [hp]
      by_cases h : i = ‹Fin dim›
      · left; simp [source, h]
      · right; right; simp [source, h]
  rcases key with h | h | h <;> rw [h]
  · simp
  · rw [add_sub_cancel_left]
  · rw [sub_sub_cancel_left, abs_neg]

theorem vel_le_halo (hJ : OnGrid D (boxGrid N w lo dx lab s) ST J) (j : Fin s.ns) (i : Fin dim) : |s.vel j i| ≤ w i := by
  have h1 := hJ.wf.halo (s.ux j) i
  have h2 := hJ.vel
  rw [h2] at h1
  exact h1

theorem closed_position (hD : D.WF lab) (hJ : OnGrid D (boxGrid N w lo dx lab s) ST J) (hmeth : AllMethods D)
    {y : Cell dim} (hy : y ∈ box N) (j : Fin s.ns) (t : K)
    (h : (ST.link (s.ux (s.sym j)) (fun i => y i + w i)).flag ∉ ([999, -1, -2] : List Int)) :
    (j, fun i => y i - s.vel j i + (w i : Int)) ∈
      positions s (flat s (withValues s (boxGrid N w lo dx lab s) D.ψ J t)) := by
  simp only [List.mem_cons, List.not_mem_nil, or_false, not_or] at h
  set X : Cell dim := fun i => y i + w i with hX
  have hint : (boxGrid N w lo dx lab s).Interior X := by
    intro i
    have hn : (boxGrid N w lo dx lab s).n i = N i := by simp [Domain.Grid.n, boxGrid]
    have := (mem_box N y).1 hy i
    rw [hn]
    show (w i : Int) ≤ y i + w i ∧ y i + w i < w i + N i
    omega
  set label := (ST.link (s.ux (s.sym j)) X).flag with hlabel
  have hmem : label ∈ listOfLabels (boxGrid N w lo dx lab s) D.els :=
    hJ.label_mem (g := boxGrid N w lo dx lab s) hD hint _ h.1
  obtain ⟨all, hall, -⟩ := instances_spec s (boxGrid N w lo dx lab s).total ST.link _ D.dico J hJ.insts
  have hd : ∃ ms, D.dico label = some ms := by
    have := (allEntries_spec s _ ST.link _ D.dico all hall).1 label hmem h.2.1 h.2.2
    exact Option.isSome_iff_exists.1 this
  obtain ⟨ms, hms⟩ := hd
  obtain ⟨m, hm⟩ := hmeth label ms hms j
  let en : Entry K dim s.ns := ⟨j, fun i => y i - s.vel j i + w i, label,
    (ST.link (s.ux (s.sym j)) X).dist⟩
  have hsrc : source s en = X := by
    funext i; simp only [source, en, hX]; ring
  have hen : (m, en) ∈ entries s J := by
    rw [mem_entries s _ ST.link hD.sten _ D.dico J hJ.insts]
    refine ⟨label, hmem, h.2.1, h.2.2, by rw [hms]; exact hm, rfl, ?_, ?_, ?_⟩
    · rw [hsrc]; exact mem_cells_interior hint
    · rw [hsrc]
    · rw [hsrc]
  exact (mem_positions _).2 ⟨_, hen, rfl⟩

/-- The values imposed on a cell are those of the labels of its links. -/
theorem sameValues_of_flags (hD : D.WF lab) (hJ : OnGrid D (boxGrid N w lo dx lab s) ST J)
    (ψ' : Int → K → (Fin dim → K) → Fin s.ns → K) (t : K) (y : Cell dim)
    (h : ∀ k, D.ψ (ST.link k (fun i => y i + w i)).flag t = ψ' (ST.link k (fun i => y i + w i)).flag t) :
    SameValues D ψ' N w lo dx lab J t y := by
  rintro ⟨m, e⟩ hp hsrc
  rw [mem_entries s _ ST.link hD.sten _ D.dico J hJ.insts] at hp
  obtain ⟨label, -, -, -, -, h1, -, h2, -⟩ := hp
  simp only at hsrc ⊢
  rw [h1, ← h2, hsrc, h]

/-- The conditions which read one cell read the cell of the link. -/
theorem oneCell_source (hone : ∀ p ∈ J, OneCell p.1) {t : K} {ψ : Int → K → (Fin dim → K) → Fin s.ns → K}
    {g : Domain.Grid K dim s.nu} {q : Method dim × Item K dim s.ns} (hq : q ∈ flat s (withValues s g ψ J t))
    {p : Fin s.ns × Cell dim} (hp : p ∈ Boundary.reads s q.1 q.2) : p.2 = source s q.2.toEntry := by
  have h1 : OneCell q.1 := by
    obtain ⟨r, hr, hr'⟩ := List.mem_flatMap.1 hq
    obtain ⟨it, _, rfl⟩ := List.mem_map.1 hr'
    obtain ⟨r0, hr0, rfl⟩ := List.mem_map.1 hr
    exact hone r0 hr0
  have : p.2 = Boundary.inner s 1 q.2.toEntry := by
    cases hq1 : q.1 <;> rw [hq1] at h1 hp <;> simp only [OneCell] at h1 <;>
      simp only [Boundary.reads, List.mem_singleton] at hp <;> rw [hp]
  rw [this]
  funext j; simp [Boundary.inner, source]

end walls

/-! ## Properties -/

theorem Within.trans {N r r' : Fin dim → Nat} {y x : Cell dim} {e : Cell dim} (he : ∀ i, |e i| ≤ r i)
    (h : Within N r' x y) : Within N (fun i => r' i + r i) x (wrap N fun i => y i + e i) := by
  obtain ⟨e', he', rfl⟩ := h
  refine ⟨fun i => e' i + e i, fun i => (abs_add_le _ _).trans ?_, ?_⟩
  · have := he i; have := he' i; push_cast; omega
  · funext i
    simp only [wrap]
    rw [Int.emod_add_emod, add_assoc]

/-- **C88, speed.** Two runs as in `C42_walls_partial`, with initial values which agree at most `k w` cells away from a
cell (`w` is the width of the halo, the largest velocity), and imposed values which agree in time to reach it: at the
step `m`, on the links of the cells at most `(k - 1 - m) w` cells away.  After `k` steps this cell holds the same values
in both runs. -/
theorem C88_speed (hdim : dim ≤ 3) {s : Sten dim} (D : WallData K dim s) (lo : Fin dim → K) (dx : K)
    (lab : Fin dim → Bool → Int) (hD : D.WF lab) (g g' : Grid dim) (hN : g.N = g'.N) (hw : g.w = g'.w)
    (ST : Domain.State K dim s.nu) (J : List (Method dim × List (Entry K dim s.ns)))
    (hJ : OnGrid D (boxGrid g.N g.w lo dx lab s) ST J)
    (hfree : ∀ t, Free s (flat s (withValues s (boxGrid g.N g.w lo dx lab s) D.ψ J t)))
    (S : Kernel K s.ns nc d) (hfront : ∀ j, (S.consm j : Nat) < nc) (a : Algo)
    (Q : Proc g → Setup K s.ns nc d dim) (hQ : Uniform g S s.vel a Q) (hQw : WallRun D g lo dx lab Q)
    (ψ' : Int → K → (Fin dim → K) → Fin s.ns → K)
    (Q' : Proc g' → Setup K s.ns nc d dim) (hQ' : Uniform g' S s.vel a Q')
    (hQw' : WallRun (otherValues D ψ') g' lo dx lab Q')
    (σ₀ : Proc g → Simu K s.ns d dim) (h0 : ∀ c, (σ₀ c).Start (Q c))
    (σ₀' : Proc g' → Simu K s.ns d dim) (h0' : ∀ c, (σ₀' c).Start (Q' c)) (G G' : Arr K s.ns dim)
    (hG : ∀ c x, Owned (size g c) g.w x → (σ₀ c).arr x = G (globalPos (first g c) g.w x))
    (hG' : ∀ c x, Owned (size g' c) g'.w x → (σ₀' c).arr x = G' (globalPos (first g' c) g'.w x))
    (k : Nat) (σ : Proc g → Simu K s.ns d dim) (hr : PRun g Q σ₀ k σ)
    (σ' : Proc g' → Simu K s.ns d dim) (hr' : PRun g' Q' σ₀' k σ')
    (c : Proc g) (x : Cell dim) (hx : Owned (size g c) g.w x)
    (c' : Proc g') (x' : Cell dim) (hx' : Owned (size g' c') g'.w x')
    (he : globalPos (first g c) g.w x = globalPos (first g' c') g'.w x')
    (hnear : ∀ z, Within g.N (fun i => k * g.w i) (globalPos (first g c) g.w x) z → G z = G' z)
    (hval : ∀ m < k, ∀ z, Within g.N (fun i => (k - 1 - m) * g.w i) (globalPos (first g c) g.w x) z →
      SameValues D ψ' g.N g.w lo dx lab J (m * S.dt) z) :
    (σ c).arr x = (σ' c').arr x' := by
  obtain ⟨-, h2⟩ := C42_global_partial hdim g hQw.large S hfront s.vel a Q hQ _
    (sameBoundary_walls D g lo dx lab hD Q hQw ST J hJ hfree) σ₀ h0 G hG k σ hr
  have hJ' := hJ
  have hfree' : ∀ t, Free s (flat s (withValues s (boxGrid g.N g.w lo dx lab s) (otherValues D ψ').ψ J t)) :=
    fun t => free_values (hfree t)
  rw [hN, hw] at hJ' hfree'
  obtain ⟨-, h2'⟩ := C42_global_partial hdim g' hQw'.large S hfront s.vel a Q' hQ' _
    (sameBoundary_walls (otherValues D ψ') g' lo dx lab (otherValues_wf hD ψ') Q' hQw' ST J (otherValues_onGrid hJ' ψ') hfree')
    σ₀' h0' G' hG' k σ' hr'
  rw [h2 c x hx, h2' c' x' hx', ← he, ← hN, ← hw]
  have hbox := (mem_box _ _).1 (owned_box g hx)
  generalize hy0 : globalPos (first g c) g.w x = y0 at *
  refine lbmRun_agree g.N s.vel (collide S a) _ _ S.dt G G' k
    (fun m z => Within g.N (fun i => (k - m) * g.w i) y0 z) ?_ ?_ k le_rfl y0 ?_
  · intro m hm y hy H H' hH j
    have hH' : ∀ e : Cell dim, (∀ i, |e i| ≤ g.w i) → H (fun i => y i + e i) = H' (fun i => y i + e i) := by
      intro e hee
      apply hH
      have := Within.trans hee hy
      have e1 : (fun i => (k - (m + 1)) * g.w i + g.w i) = fun i => (k - m) * g.w i := by
        funext i
        rw [show k - m = (k - (m + 1)) + 1 by omega]; ring
      rwa [e1] at this
    refine wallBc_local hD hJ ψ' _ (hfree _) (hval m hm y ?_) j H H' (fun _ => ?_) ?_
    · rwa [show k - 1 - m = k - (m + 1) by omega]
    · have := hH' (fun i => -s.vel j i) (fun i => by rw [abs_neg]; exact vel_le_halo hJ j i)
      exact congrFun this j
    · rintro ⟨mm, it⟩ hq hsrc p hp
      have := hH' (fun i => p.2 i - g.w i - y i) (fun i => by
        have h1 := reads_near hp i
        rw [hsrc] at h1
        have h2 := vel_le_halo hJ it.k i
        have h3 : p.2 i - (g.w i : Int) - y i = p.2 i - (y i + g.w i) := by ring
        rw [h3]
        exact h1.trans h2)
      have e : (fun i => y i + (p.2 i - (g.w i : Int) - y i)) = fun i => p.2 i - g.w i := by funext i; ring
      rw [e] at this
      exact congrFun this p.1
  · intro y hy
    exact hnear y (by simpa using hy)
  · refine ⟨fun _ => 0, by simp, ?_⟩
    funext i
    simp [wrap, Int.emod_eq_of_lt (hbox i).1 (hbox i).2]

/-- **C88, separate parts.** Two runs as in `C73_check_isfluid`, with initial values which agree on a part of the fluid
and imposed values which agree on its links.  Whatever happens elsewhere, after any number of steps the cells of this
part hold the same values in both runs. -/
theorem C88_separated (hdim : dim ≤ 3) {s : Sten dim} (D : WallData K dim s) (lo : Fin dim → K) (dx : K)
    (lab : Fin dim → Bool → Int) (hD : D.WF lab) (g g' : Grid dim) (hN : g.N = g'.N) (hw : g.w = g'.w)
    (ST : Domain.State K dim s.nu) (J : List (Method dim × List (Entry K dim s.ns)))
    (hJ : OnGrid D (boxGrid g.N g.w lo dx lab s) ST J)
    (hfree : ∀ t, Free s (flat s (withValues s (boxGrid g.N g.w lo dx lab s) D.ψ J t)))
    (hlinks : AllLinks g.N g.w ST) (hmeth : AllMethods D) (hreads : ReadsFluid D g.N g.w lo dx lab ST J)
    (S : Kernel K s.ns nc d) (hfront : ∀ j, (S.consm j : Nat) < nc) (a : Algo)
    (Q : Proc g → Setup K s.ns nc d dim) (hQ : FluidRun D g lo dx lab S a Q)
    (ψ' : Int → K → (Fin dim → K) → Fin s.ns → K)
    (Q' : Proc g' → Setup K s.ns nc d dim) (hQ' : FluidRun (otherValues D ψ') g' lo dx lab S a Q')
    (σ₀ : Proc g → Simu K s.ns d dim) (h0 : ∀ c, (σ₀ c).Start (Q c))
    (σ₀' : Proc g' → Simu K s.ns d dim) (h0' : ∀ c, (σ₀' c).Start (Q' c)) (G G' : Arr K s.ns dim)
    (hG : ∀ c x, Owned (size g c) g.w x → fluidMap g.w ST (globalPos (first g c) g.w x) = true →
      (σ₀ c).arr x = G (globalPos (first g c) g.w x))
    (hG' : ∀ c x, Owned (size g' c) g'.w x → fluidMap g.w ST (globalPos (first g' c) g'.w x) = true →
      (σ₀' c).arr x = G' (globalPos (first g' c) g'.w x))
    (k : Nat) (σ : Proc g → Simu K s.ns d dim) (hr : PRun g Q σ₀ k σ)
    (σ' : Proc g' → Simu K s.ns d dim) (hr' : PRun g' Q' σ₀' k σ')
    (A : Cell dim → Prop) (hA : Part D g.N g.w lo dx lab ST J A) (hGA : ∀ y, A y → G y = G' y)
    (hval : ∀ m < k, ∀ y, A y → SameValues D ψ' g.N g.w lo dx lab J (m * S.dt) y)
    (c : Proc g) (x : Cell dim) (hx : Owned (size g c) g.w x)
    (c' : Proc g') (x' : Cell dim) (hx' : Owned (size g' c') g'.w x')
    (he : globalPos (first g c) g.w x = globalPos (first g' c') g'.w x')
    (hxA : A (globalPos (first g c) g.w x)) :
    (σ c).arr x = (σ' c').arr x' := by
  have hB := fluidBoundary_walls D g.N g.w lo dx lab hD ST J hJ hfree hlinks hmeth hreads
  have hreads' : ReadsFluid (otherValues D ψ') g.N g.w lo dx lab ST J := by
    rintro t ⟨m, it⟩ hq p hp
    have hq' := ((mem_withValues s _ _ J t m it).1 hq).1
    refine hreads t (m, ⟨it.toEntry, D.ψ it.label t (wallPoint s (boxGrid g.N g.w lo dx lab s) it.toEntry)⟩)
      ((mem_withValues s _ _ J t m _).2 ⟨hq', rfl⟩) p ?_
    exact (reads_entry (m := m) (it := ⟨it.toEntry, D.ψ it.label t (wallPoint s (boxGrid g.N g.w lo dx lab s) it.toEntry)⟩) (it' := it) rfl) ▸ hp
  have hB' := fluidBoundary_walls (otherValues D ψ') g.N g.w lo dx lab (otherValues_wf hD ψ') ST J
    (otherValues_onGrid hJ ψ') (fun t => free_values (hfree t)) hlinks hmeth hreads'
  have hf := hA.fluid _ hxA
  obtain ⟨-, h2⟩ := C73_fluid_cells hdim g hQ.walls.large S hfront s.vel a _ Q (hQ.uniform hD ST hJ.built) _
    (sameBoundary_walls D g lo dx lab hD Q hQ.walls ST J hJ hfree) hB σ₀ h0 G hG k σ hr
  have hJ' := hJ
  have hfree' : ∀ t, Free s (flat s (withValues s (boxGrid g.N g.w lo dx lab s) (otherValues D ψ').ψ J t)) :=
    fun t => free_values (hfree t)
  have hB'' : FluidBoundary g'.N s.vel (fluidMap g.w ST) (wallBc (otherValues D ψ') g'.N g'.w lo dx lab J) := by
    rw [← hN, ← hw]; exact hB'
  rw [hN, hw] at hJ' hfree'
  obtain ⟨-, h2'⟩ := C73_fluid_cells hdim g' hQ'.walls.large S hfront s.vel a _ Q'
    (by have := hQ'.uniform (otherValues_wf hD ψ') ST hJ'.built; rw [← hw] at this; exact this) _
    (sameBoundary_walls (otherValues D ψ') g' lo dx lab (otherValues_wf hD ψ') Q' hQ'.walls ST J
      (otherValues_onGrid hJ' ψ') hfree') hB'' σ₀' h0' G' hG' k σ' hr'
  rw [h2 c x hx hf, h2' c' x' hx' (he ▸ hf), ← he, ← hN, ← hw]
  refine lbmRun_agree g.N s.vel (collide S a) _ _ S.dt G G' k (fun _ => A) ?_ hGA k le_rfl _ hxA
  intro m hm y hy H H' hH j
  refine wallBc_local hD hJ ψ' _ (hfree _) (hval m hm y hy) j H H' (fun hpos => ?_) ?_
  · have hop : (ST.link (s.ux (s.sym j)) (fun i => y i + g.w i)).flag ∈ ([999, -1, -2] : List Int) := by
      by_contra hcl
      exact hpos (closed_position hD hJ hmeth (hA.box y hy) j _ hcl)
    have h1 := hA.links y hy _ hop
    have e2 : (fun i => y i + s.uvel (s.ux (s.sym j)) i) = fun i => y i - s.vel j i := by
      funext i
      have := hD.sten.sym j i
      unfold Sten.vel at this ⊢
      rw [this]; ring
    rw [e2] at h1
    rw [hH _ h1]
  · intro q hq hsrc p hp
    rw [hH _ (hA.reads y hy _ q hq hsrc p hp)]

end Pylbm.Sim
