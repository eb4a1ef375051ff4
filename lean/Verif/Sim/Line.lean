import Verif.Sim.Poiseuille
import Verif.Sim.Bounds
/-!
# C112: simulations which do not depend on some coordinates

A channel: a box without element, periodic along all the axes but at most one. When the data do not depend on the
coordinates along the other axes, the simulation is a scheme on a line.
-/

set_option linter.unusedSectionVars false

namespace Pylbm.Sim
open Scheme Halo SchemeSpec Matrix HaloSpec Mpi Boundary

/-! ## Specification -/

section spec
variable {K : Type} [Field K] {n : Nat}

/-- What arrives in the cell `x` of a line of cells `0, …, N - 1` where the population `j` moves by `c j` cells. Beyond the ends
the line is periodic, or a wall (`side`: the upper one) sends back `out side j` times the population which leaves,
`back side j` times the population of the same velocity, and `given side j`. -/
def lineStream (N : Nat) (per : Bool) (c : Fin n → ℤ) (sym : Fin n → Fin n)
    (out back given : Bool → Fin n → K) (U : ℤ → Fin n → K) (x : ℤ) : Fin n → K :=
  fun j =>
    if per = true ∨ 0 ≤ x - c j ∧ x - c j < N then U ((x - c j) % N) j
    else out (decide (0 < x - c j)) j * U x (sym j) + back (decide (0 < x - c j)) j * U x j + given (decide (0 < x - c j)) j

/-- `k` steps on the line; the values given at the walls depend on the time. -/
def lineRun (N : Nat) (per : Bool) (c : Fin n → ℤ) (sym : Fin n → Fin n) (φ : (Fin n → K) → Fin n → K)
    (out back : Bool → Fin n → K) (given : K → Bool → Fin n → K) (dt : K) (U : ℤ → Fin n → K) : Nat → ℤ → Fin n → K
  | 0 => U
  | k + 1 => fun x => φ (lineStream N per c sym out back (given (k * dt)) (lineRun N per c sym φ out back given dt U k) x)

/-- A family of linear forms `A` of the populations carries the transport on a line to another one: the populations which
enter a form have its velocity, and the walls treat the form as a population of its own. -/
structure Carries {m : Nat} (A : Matrix (Fin m) (Fin n) K) (c : Fin n → ℤ) (sym : Fin n → Fin n)
    (out back : Bool → Fin n → K) (given : K → Bool → Fin n → K) (c' : Fin m → ℤ) (sym' : Fin m → Fin m)
    (out' back' : Bool → Fin m → K) (given' : K → Bool → Fin m → K) : Prop where
  speed : ∀ i j, A i j ≠ 0 → c' i = c j
  wall : ∀ side i, c' i ≠ 0 → ∀ f : Fin n → K, ∑ j, A i j * (out side j * f (sym j) + back side j * f j) =
    out' side i * (A *ᵥ f) (sym' i) + back' side i * (A *ᵥ f) i
  given : ∀ t side i, c' i ≠ 0 → (A *ᵥ given t side) i = given' t side i

theorem lineStream_map {m : Nat} {A : Matrix (Fin m) (Fin n) K} {c : Fin n → ℤ} {sym : Fin n → Fin n}
    {out back : Bool → Fin n → K} {given : K → Bool → Fin n → K} {c' : Fin m → ℤ} {sym' : Fin m → Fin m}
    {out' back' : Bool → Fin m → K} {given' : K → Bool → Fin m → K}
    (h : Carries A c sym out back given c' sym' out' back' given') (N : Nat) (per : Bool) (t : K) (U : ℤ → Fin n → K)
    (x : ℤ) (hx : 0 ≤ x ∧ x < N) :
    A *ᵥ lineStream N per c sym out back (given t) U x =
      lineStream N per c' sym' out' back' (given' t) (fun x => A *ᵥ U x) x := by
  funext i
  by_cases hin : per = true ∨ 0 ≤ x - c' i ∧ x - c' i < N
  · have e : ∀ j, A i j * lineStream N per c sym out back (given t) U x j = A i j * U ((x - c' i) % N) j := by
      intro j
      by_cases ha : A i j = 0
      · rw [ha, zero_mul, zero_mul]
      · have := h.speed i j ha
        unfold lineStream
        rw [← this, if_pos hin]
    simp only [Matrix.mulVec, dotProduct, e]
    unfold lineStream
    rw [if_pos hin]
    rfl
  · have hc : c' i ≠ 0 := by
      intro h0
      rw [h0] at hin
      apply hin
      right
      omega
    set side := decide (0 < x - c' i) with hs
    have e : ∀ j, A i j * lineStream N per c sym out back (given t) U x j =
        A i j * (out side j * U x (sym j) + back side j * U x j) + A i j * given t side j := by
      intro j
      by_cases ha : A i j = 0
      · rw [ha, zero_mul, zero_mul, zero_mul, add_zero]
      · have := h.speed i j ha
        unfold lineStream
        rw [← this, if_neg hin, ← hs, mul_add]
    have e1 := h.wall side i hc (U x)
    have e2 := h.given t side i hc
    simp only [Matrix.mulVec, dotProduct] at e1 e2
    simp only [Matrix.mulVec, dotProduct, e]
    rw [Finset.sum_add_distrib, e1, e2]
    unfold lineStream
    rw [if_neg hin]
    rfl

/-- Two schemes on lines with the same forms. -/
theorem lineRun_map {n₂ m : Nat} {A : Matrix (Fin m) (Fin n) K} {c : Fin n → ℤ} {sym : Fin n → Fin n}
    {out back : Bool → Fin n → K} {given : K → Bool → Fin n → K}
    {A₂ : Matrix (Fin m) (Fin n₂) K} {c₂ : Fin n₂ → ℤ} {sym₂ : Fin n₂ → Fin n₂}
    {out₂ back₂ : Bool → Fin n₂ → K} {given₂ : K → Bool → Fin n₂ → K} {c' : Fin m → ℤ} {sym' : Fin m → Fin m}
    {out' back' : Bool → Fin m → K} {given' : K → Bool → Fin m → K}
    (h : Carries A c sym out back given c' sym' out' back' given')
    (h₂ : Carries A₂ c₂ sym₂ out₂ back₂ given₂ c' sym' out' back' given') (N : Nat) (per : Bool) (dt : K)
    (φ : (Fin n → K) → Fin n → K) (φ₂ : (Fin n₂ → K) → Fin n₂ → K) (U : ℤ → Fin n → K) (U₂ : ℤ → Fin n₂ → K)
    (hφ : ∀ (k : Nat) (x : ℤ), 0 ≤ x ∧ x < N → ∀ f,
      A *ᵥ f = A₂ *ᵥ lineStream N per c₂ sym₂ out₂ back₂ (given₂ (k * dt))
        (lineRun N per c₂ sym₂ φ₂ out₂ back₂ given₂ dt U₂ k) x →
      A *ᵥ φ f = A₂ *ᵥ φ₂ (lineStream N per c₂ sym₂ out₂ back₂ (given₂ (k * dt))
        (lineRun N per c₂ sym₂ φ₂ out₂ back₂ given₂ dt U₂ k) x))
    (hU : ∀ x : ℤ, 0 ≤ x ∧ x < N → A *ᵥ U x = A₂ *ᵥ U₂ x) (k : Nat) (x : ℤ) (hx : 0 ≤ x ∧ x < N) :
    A *ᵥ lineRun N per c sym φ out back given dt U k x = A₂ *ᵥ lineRun N per c₂ sym₂ φ₂ out₂ back₂ given₂ dt U₂ k x := by
  induction k generalizing x with
  | zero => exact hU x hx
  | succ k ih =>
    refine hφ k x hx _ ?_
    rw [lineStream_map h N per _ _ x hx, lineStream_map h₂ N per _ _ x hx]
    funext i
    unfold lineStream
    have hN : 0 < (N : ℤ) := by omega
    simp only [ih _ ⟨Int.emod_nonneg _ hN.ne', Int.emod_lt_of_pos _ hN⟩, ih x hx]

end spec

section methods
variable {K : Type} [Field K] [LinearOrder K] [IsStrictOrderedRing K] {dim : Nat}

/-- What a method takes from the population which leaves, at a wall halfway between the cells. -/
def outPart : Method dim → K
  | .bounceBack | .bouzidiBounceBack => 1
  | .antiBounceBack | .bouzidiAntiBounceBack => -1
  | .neumann | .neumannAxis _ => 0

/-- What it takes from the population of the same velocity. -/
def backPart : Method dim → K
  | .neumann | .neumannAxis _ => 1
  | _ => 0

/-- What it takes from the state imposed by the user: `a` for the velocity which enters, `b` for the one which leaves. -/
def imposed (m : Method dim) (a b : K) : K :=
  match m with
  | .bounceBack | .bouzidiBounceBack => a - b
  | .antiBounceBack | .bouzidiAntiBounceBack => a + b
  | .neumann | .neumannAxis _ => 0

theorem reflection_half (m : Method dim) (hm : ∀ a, m ≠ .neumannAxis a) (out back next side a b : K) :
    reflection m (1 / 2) out back next side b a = outPart m * out + backPart m * back + imposed m a b := by
  cases m with
  | neumannAxis a => exact absurd rfl (hm a)
  | _ => simp [reflection, outPart, backPart, imposed]

end methods

section channel
variable {K : Type} [Field K] [LinearOrder K] [IsStrictOrderedRing K] [FloorRing K] {nc d dim : Nat}

/-- A channel across the axis `ax`: a box without element, periodic along the axes after `ax`; along `ax` it has walls or is
periodic. The velocities have components -1, 0, 1, and each scheme has a condition on the walls, other than `NeumannX`,
`NeumannY`, `NeumannZ`. -/
structure Channel {s : Sten dim} (D : WallData K dim s) (N w : Fin dim → Nat) (lo : Fin dim → K) (dx : K)
    (lab : Fin dim → Bool → Int) (ST : Domain.State K dim s.nu) (J : List (Method dim × List (Entry K dim s.ns)))
    (ax : Fin dim) : Prop where
  wf : D.WF lab
  onGrid : OnGrid D (boxGrid N w lo dx lab s) ST J
  empty : D.elems = []
  els : ∀ l ∈ D.els, l ≠ -1 ∧ l ≠ -2
  unit : ∀ k i, |s.uvel k i| ≤ 1
  across : PerAxis lab ax ∨ ∀ side, lab ax side ≠ -1 ∧ lab ax side ≠ -2
  along : ∀ j, j = ax ∨ ax < j ∧ PerAxis lab j
  methods : AllMethods D
  simple : ∀ l ms, D.dico l = some ms → ∀ q ∈ ms, ∀ a, q.2 ≠ .neumannAxis a

section
variable {s : Sten dim} {D : WallData K dim s} {N w : Fin dim → Nat} {lo : Fin dim → K} {dx : K}
  {lab : Fin dim → Bool → Int} {ST : Domain.State K dim s.nu} {J : List (Method dim × List (Entry K dim s.ns))}
  {ax : Fin dim}

theorem Channel.links (h : Channel D N w lo dx lab ST J ax) : OpenLinks N w (PerAxis lab) ST ∧
    ∀ y ∈ box N, ∀ k, ¬ Open (ST.link k fun i => y i + w i).flag → (ST.link k fun i => y i + w i).dist = 1 / 2 := by
  refine openLinks_channel D N w lo dx lab h.wf ST J h.onGrid h.empty h.els h.unit (fun j => ?_) (fun i j hi hj => ?_)
  · rcases h.along j with rfl | h'
    · exact h.across
    · exact Or.inl h'.2
  · rcases h.along i with rfl | h'
    · rcases h.along j with rfl | h''
      · exact absurd hj hi
      · exact h''.1
    · exact absurd h'.2 hi

/-- The links to the walls. -/
theorem Channel.wall (h : Channel D N w lo dx lab ST J ax) (y : Cell dim) (hy : y ∈ box N) (k : Fin s.nu)
    (ho : ¬ Open (ST.link k fun i => y i + w i).flag) : ¬ PerAxis lab ax ∧ ∃ side,
      (ST.link k fun i => y i + w i).flag = lab ax side ∧ y ax + s.uvel k ax = if side = true then (N ax : ℤ) else -1 := by
  set g := boxGrid N w lo dx lab s with hg
  have hn : ∀ i, g.n i = N i := fun i => by simp [Domain.Grid.n, hg, boxGrid]
  have hglab : ∀ j side, g.label j side = lab j side := by
    intro j side
    cases side <;> simp [Domain.Grid.label, hg, boxGrid]
  have hinner : g.inner (fun i => y i + w i) = y := by
    funext i; show y i + (w i : Int) - w i = y i; ring
  have hd : (ST.link k fun i => y i + w i).dist ≠ 999 := by
    intro h'
    apply ho
    rw [(Domain.C23_flagged_links g h.onGrid.wf D.elems h.wf.sound ST h.onGrid.built _ (interior_shift hy) k).2 h']
    simp [Open]
  rcases Domain.C65_same_wall g h.onGrid.wf D.elems h.wf.sound ST h.onGrid.built _ k hd with ⟨f, h1, h2, -⟩ | ⟨e, he, -⟩
  · rw [hinner, show g.n = N from funext hn] at h1
    rw [hglab] at h2
    have hnp : ¬ PerAxis lab f.ax := by
      intro hp
      apply ho
      rw [h2, hp f.upper]
      simp [Open]
    have hax : f.ax = ax := by
      rcases h.along f.ax with h' | h'
      · exact h'
      · exact absurd h'.2 hnp
    have h3 := h1.2.1.2.2
    rw [(crosses_unit N y (s.uvel k) ((mem_box N y).1 hy) (h.unit k) h1.2.1).1] at h3
    obtain ⟨i, side⟩ := f
    simp only at hax hnp h2
    subst hax
    have h4 : (y i : K) + 1 / 2 * (s.uvel k i : K) = DomainSpec.facePos N ⟨i, side⟩ := h3
    refine ⟨hnp, side, h2, ?_⟩
    have hyb := (mem_box N y).1 hy i
    have hu := abs_le.1 (h.unit k i)
    cases side
    · simp only [DomainSpec.facePos, Bool.false_eq_true, if_false] at h4 ⊢
      have h5 : (((2 * y i + s.uvel k i : ℤ)) : K) = ((-1 : ℤ) : K) := by
        push_cast
        linarith
      have := Int.cast_injective h5
      omega
    · simp only [DomainSpec.facePos, if_true] at h4 ⊢
      have h5 : (((2 * y i + s.uvel k i : ℤ)) : K) = ((2 * N i - 1 : ℤ) : K) := by
        push_cast
        linarith
      have := Int.cast_injective h5
      omega
  · rw [h.empty] at he; cases he

/-- The link, the label and the method of an item. -/
theorem Channel.item (h : Channel D N w lo dx lab ST J ax) {t : K} {m : Method dim} {it : Item K dim s.ns}
    (hq : (m, it) ∈ flat s (withValues s (boxGrid N w lo dx lab s) D.ψ J t)) :
    ∃ y ∈ box N, source s it.toEntry = (fun i => y i + (w i : ℤ)) ∧
      ¬ Open (ST.link (s.ux (s.sym it.k)) fun i => y i + w i).flag ∧ it.dist = 1 / 2 ∧
      (∃ ms, D.dico (ST.link (s.ux (s.sym it.k)) fun i => y i + w i).flag = some ms ∧ (s.scheme it.k, m) ∈ ms) ∧
      it.feq = D.ψ (ST.link (s.ux (s.sym it.k)) fun i => y i + w i).flag t
        (fun i => cellPoint lo dx y i - it.dist * (dx * (s.vel it.k i : K))) := by
  have o := h.onGrid.onDomain h.wf t
  obtain ⟨he, hψ⟩ := (mem_withValues s _ D.ψ J t m it).1 hq
  obtain ⟨label, hl0, hl1, hl2, hms, hlab, -, hflag, hdist⟩ :=
    (mem_entries s _ ST.link h.wf.sten _ D.dico J h.onGrid.insts m it.toEntry).1 he
  obtain ⟨h1, -⟩ := o.item h.wf.sten (no999_list (g := boxGrid N w lo dx lab s) h.wf) hq
  have hn : ∀ i, (boxGrid N w lo dx lab s).n i = N i := fun i => by simp [Domain.Grid.n, boxGrid]
  set y : Cell dim := fun i => source s it.toEntry i - w i with hy
  have hsrc : source s it.toEntry = fun i => y i + (w i : ℤ) := by
    funext i; simp [hy]
  have hyb : y ∈ box N := by
    refine (mem_box N y).2 fun i => ?_
    have := h1 i
    rw [hn] at this
    change (w i : Int) ≤ source s it.toEntry i ∧ source s it.toEntry i < w i + N i at this
    show 0 ≤ source s it.toEntry i - w i ∧ source s it.toEntry i - w i < N i
    omega
  rw [hsrc] at hflag hdist
  have hl3 : label ≠ 999 := fun h' => no999_list (g := boxGrid N w lo dx lab s) h.wf (h' ▸ hl0)
  have ho : ¬ Open (ST.link (s.ux (s.sym it.k)) fun i => y i + w i).flag := by
    rw [hflag]; simp [Open, hl1, hl2, hl3]
  obtain ⟨ms, h4⟩ : ∃ ms, D.dico label = some ms := by
    cases h' : D.dico label with
    | none => rw [h'] at hms; simp at hms
    | some ms => exact ⟨ms, rfl⟩
  rw [h4] at hms
  refine ⟨y, hyb, hsrc, ho, by rw [hdist]; exact h.links.2 y hyb _ ho, ⟨ms, by rw [hflag]; exact h4, hms⟩, ?_⟩
  have hpt : wallPoint s (boxGrid N w lo dx lab s) it.toEntry =
      fun i => cellPoint lo dx y i - it.dist * (dx * (s.vel it.k i : K)) := by
    funext i
    have := o.wall h.wf.sten (no999_list (g := boxGrid N w lo dx lab s) h.wf) hq i
    rw [this]
    simp only [hsrc]
    have e3 : (s.uvel (s.ux (s.sym it.k)) i : K) = -(s.vel it.k i : K) := by
      have := h.wf.sten.sym it.k i
      unfold Sten.vel at this ⊢
      rw [this]; push_cast; ring
    have e4 : (boxGrid N w lo dx lab s).dx = dx := rfl
    have e5 : (boxGrid N w lo dx lab s).cellCentre (fun i => y i + (w i : Int)) i = cellPoint lo dx y i := by
      simp [Domain.Grid.cellCentre, DomainSpec.centre, cellPoint, boxGrid]
    rw [e4, e5, hdist, e3]; ring
  rw [hψ, hlab, hpt, hflag]

/-- On walls halfway between the cells every method reads the cell of the link. -/
theorem Channel.reads (h : Channel D N w lo dx lab ST J ax) {t : K} {q : Method dim × Item K dim s.ns}
    (hq : q ∈ flat s (withValues s (boxGrid N w lo dx lab s) D.ψ J t)) {p : Fin s.ns × Cell dim}
    (hp : p ∈ Boundary.reads s q.1 q.2) : p.2 = source s q.2.toEntry := by
  obtain ⟨m, it⟩ := q
  obtain ⟨y, -, -, -, hd, ⟨ms, hms, hm⟩, -⟩ := h.item hq
  have hin : Boundary.inner s 1 it.toEntry = source s it.toEntry := by
    funext j; simp [Boundary.inner, source]
  have hs := h.simple _ ms hms _ hm
  rw [← hin]
  cases m with
  | neumannAxis a => exact absurd rfl (hs a)
  | bouzidiBounceBack =>
    simp only [Boundary.reads, hd, lt_irrefl, if_false, List.mem_cons, List.not_mem_nil, or_false] at hp
    rcases hp with rfl | rfl <;> rfl
  | bouzidiAntiBounceBack =>
    simp only [Boundary.reads, hd, lt_irrefl, if_false, List.mem_cons, List.not_mem_nil, or_false] at hp
    rcases hp with rfl | rfl <;> rfl
  | _ =>
    simp only [Boundary.reads, List.mem_singleton] at hp
    rw [hp]

theorem Channel.free (h : Channel D N w lo dx lab ST J ax) (t : K) :
    Free s (flat s (withValues s (boxGrid N w lo dx lab s) D.ψ J t)) := by
  intro q hq p hp hpos
  have hcell := h.reads hq hp
  have o := h.onGrid.onDomain h.wf t
  obtain ⟨r, hr, hre⟩ := List.mem_map.1 hpos
  have h1 := (o.item h.wf.sten (no999_list (g := boxGrid N w lo dx lab s) h.wf) hq).2.2.1
  have h2 := (o.item h.wf.sten (no999_list (g := boxGrid N w lo dx lab s) h.wf) hr).2.2.2.1
  rw [← hcell] at h1
  rw [show r.2.cell = p.2 from by rw [← hre]] at h2
  rw [h1] at h2
  exact absurd h2 (by norm_num)

theorem Channel.fluid (h : Channel D N w lo dx lab ST J ax) (y : Cell dim) (hy : y ∈ box N) : fluidMap w ST y = true := by
  apply decide_eq_true
  rw [Domain.C21_fluid_map _ h.onGrid.wf D.elems h.wf.sound ST h.onGrid.built,
    if_pos ⟨interior_shift hy, by rw [h.empty]; rfl⟩]

theorem Channel.readsFluid (h : Channel D N w lo dx lab ST J ax) : ReadsFluid D N w lo dx lab ST J := by
  intro t q hq p hp
  obtain ⟨m, it⟩ := q
  obtain ⟨y, hy, hsrc, -⟩ := h.item hq
  have := h.reads hq hp
  rw [hsrc] at this
  have e : (fun i => p.2 i - (w i : ℤ)) = y := by
    funext i; rw [this]; ring
  rw [e]
  unfold periodic
  have e' : (fun i => y i % (N i : ℤ)) = y := by
    funext i
    have := (mem_box N y).1 hy i
    exact Int.emod_eq_of_lt this.1 this.2
  rw [e']
  exact h.fluid y hy

end

/-- The values read by a method on a wall halfway between the cells. -/
theorem value_half {s : Sten dim} (f : Dist K dim s.ns) (m : Method dim) (hm : ∀ a, m ≠ .neumannAxis a)
    (it : Item K dim s.ns) (hd : it.dist = 1 / 2) :
    value s m f f it = outPart m * f (s.sym it.k) (source s it.toEntry) + backPart m * f it.k (source s it.toEntry) +
      imposed m (it.feq it.k) (it.feq (s.sym it.k)) := by
  have hin : Boundary.inner s 1 it.toEntry = source s it.toEntry := by
    funext j; simp [Boundary.inner, source]
  rw [← hin]
  cases m with
  | neumannAxis a => exact absurd rfl (hm a)
  | bounceBack => simp [value, rhs, outPart, backPart, imposed]
  | antiBounceBack => simp [value, rhs, outPart, backPart, imposed]
  | neumann => simp [value, outPart, backPart, imposed]
  | bouzidiBounceBack => simp [value, rhs, outPart, backPart, imposed, load0, load1, weight, hd]
  | bouzidiAntiBounceBack => simp [value, rhs, outPart, backPart, imposed, load0, load1, weight, hd]

/-- The walls of a channel: on each side the method of each population, and the values they impose, which depend on the
time and on the side only. -/
structure SideData {s : Sten dim} (D : WallData K dim s) (N : Fin dim → Nat) (lo : Fin dim → K) (dx : K)
    (lab : Fin dim → Bool → Int) (ax : Fin dim) (M : Bool → Fin s.ns → Method dim) (given : K → Bool → Fin s.ns → K) :
    Prop where
  method : ∀ side ms, D.dico (lab ax side) = some ms → ∀ j m, (s.scheme j, m) ∈ ms → m = M side j
  value : ∀ side t x j, x ax = (if side = true then lo ax + dx * N ax else lo ax) →
    imposed (M side j) (D.ψ (lab ax side) t x j) (D.ψ (lab ax side) t x (s.sym j)) = given t side j

section
variable {s : Sten dim} {D : WallData K dim s} {N w : Fin dim → Nat} {lo : Fin dim → K} {dx : K}
  {lab : Fin dim → Bool → Int} {ST : Domain.State K dim s.nu} {J : List (Method dim × List (Entry K dim s.ns))}
  {ax : Fin dim}

/-- What arrives in a cell when the array depends on one coordinate. -/
theorem Channel.bc (h : Channel D N w lo dx lab ST J ax) {M : Bool → Fin s.ns → Method dim}
    {given : K → Bool → Fin s.ns → K} (hM : SideData D N lo dx lab ax M given) (per : Bool)
    (hper : per = true ↔ PerAxis lab ax) (t : K) (U : ℤ → Fin s.ns → K) (y : Cell dim) (hy : y ∈ box N) (j : Fin s.ns) :
    wallBc D N w lo dx lab J t (periodic N fun z => U (z ax)) (fun i => y i - s.vel j i) j =
      if per = true ∨ 0 ≤ y ax - s.vel j ax ∧ y ax - s.vel j ax < N ax then U ((y ax - s.vel j ax) % N ax) j
      else outPart (M (decide (0 < y ax - s.vel j ax)) j) * U (y ax) (s.sym j) +
        backPart (M (decide (0 < y ax - s.vel j ax)) j) * U (y ax) j + given t (decide (0 < y ax - s.vel j ax)) j := by
  have o := h.onGrid.onDomain h.wf t
  have n1 := o.nodup_positions h.wf.sten
  have hvel : ∀ i, s.uvel (s.ux (s.sym j)) i = -s.vel j i := fun i => h.wf.sten.sym j i
  have hyb := (mem_box N y).1 hy
  unfold wallBc
  rw [boundaryCondition_written s _ n1 (h.free t)]
  by_cases hpos : (j, fun i => y i - s.vel j i + (w i : Int)) ∈
      positions s (flat s (withValues s (boxGrid N w lo dx lab s) D.ψ J t))
  · obtain ⟨⟨m, it⟩, hq, hqe⟩ := List.mem_map.1 hpos
    simp only [Prod.mk.injEq] at hqe
    obtain ⟨hk, hcell⟩ := hqe
    subst hk
    have w1 := written_mem s n1 hq (fun k X => periodic N (fun z => U (z ax)) (fun i => X i - w i) k)
    simp only [hcell] at w1
    rw [w1]
    obtain ⟨y', -, hsrc', ho, hd, ⟨ms, hms, hm⟩, hfeq⟩ := h.item hq
    have hsrc : source s it.toEntry = fun i => y i + (w i : Int) := by
      funext i; simp only [source, hcell]; ring
    obtain rfl : y' = y := by
      funext i
      have := congrFun (hsrc'.symm.trans hsrc) i
      simpa using this
    obtain ⟨hnp, side, hflag, hside⟩ := h.wall y' hy _ ho
    rw [value_half _ m (h.simple _ ms hms _ hm) it hd, hsrc]
    rw [hvel] at hside
    have hy' := hyb ax
    have hsd : decide (0 < y' ax - s.vel it.k ax) = side := by
      cases side
      · simp only [Bool.false_eq_true, if_false] at hside
        exact decide_eq_false (by omega)
      · simp only [if_true] at hside
        exact decide_eq_true (by omega)
    have hout : ¬ (per = true ∨ 0 ≤ y' ax - s.vel it.k ax ∧ y' ax - s.vel it.k ax < N ax) := by
      rw [hper]
      rintro (h' | h')
      · exact hnp h'
      · cases side
        · simp only [Bool.false_eq_true, if_false] at hside; omega
        · simp only [if_true] at hside; omega
    rw [if_neg hout, hsd]
    have hself : ∀ k, periodic N (fun z => U (z ax)) (fun i => y' i + (w i : ℤ) - w i) k = U (y' ax) k := by
      intro k
      simp only [periodic, add_sub_cancel_right]
      rw [Int.emod_eq_of_lt hy'.1 hy'.2]
    rw [hself, hself]
    rw [hflag] at hms hfeq
    rw [← hM.method side ms hms it.k m hm]
    congr 1
    rw [hfeq, hM.method side ms hms it.k m hm]
    refine hM.value side t _ it.k ?_
    rw [hd]
    unfold cellPoint
    have hu := abs_le.1 (h.unit (s.ux (s.sym it.k)) ax)
    rw [hvel] at hu
    cases side
    · simp only [Bool.false_eq_true, if_false] at hside ⊢
      have e1 : y' ax = 0 := by omega
      have e2 : s.vel it.k ax = 1 := by omega
      rw [e1, e2]; push_cast; ring
    · simp only [if_true] at hside ⊢
      have e1 : y' ax = (N ax : ℤ) - 1 := by omega
      have e2 : s.vel it.k ax = -1 := by omega
      rw [e1, e2]; push_cast; ring
  · rw [written_not_mem s hpos]
    have e : (fun i => y i - s.vel j i + (w i : Int) - w i) = fun i => y i - s.vel j i := by funext i; ring
    simp only [e]
    have ho : Open (ST.link (s.ux (s.sym j)) fun i => y i + (w i : Int)).flag := by
      by_contra ho
      apply hpos
      unfold Open at ho
      simp only [List.mem_cons, List.not_mem_nil, or_false, not_or] at ho
      set X : Cell dim := fun i => y i + w i with hX
      have hint : (boxGrid N w lo dx lab s).Interior X := interior_shift hy
      set label := (ST.link (s.ux (s.sym j)) X).flag with hlabel
      have hmem : label ∈ listOfLabels (boxGrid N w lo dx lab s) D.els :=
        h.onGrid.label_mem (g := boxGrid N w lo dx lab s) h.wf hint _ ho.1
      obtain ⟨all, hall, -⟩ := instances_spec s (boxGrid N w lo dx lab s).total ST.link _ D.dico J h.onGrid.insts
      obtain ⟨ms, hms⟩ : ∃ ms, D.dico label = some ms :=
        Option.isSome_iff_exists.1 ((allEntries_spec s _ ST.link _ D.dico all hall).1 label hmem ho.2.1 ho.2.2)
      obtain ⟨m, hm⟩ := h.methods label ms hms j
      let en : Entry K dim s.ns := ⟨j, fun i => y i - s.vel j i + w i, label,
        (ST.link (s.ux (s.sym j)) X).dist⟩
      have hsrc : source s en = X := by
        funext i; simp only [source, en, hX]; ring
      have hen : (m, en) ∈ entries s J := by
        rw [mem_entries s _ ST.link h.wf.sten _ D.dico J h.onGrid.insts]
        refine ⟨label, hmem, ho.2.1, ho.2.2, by rw [hms]; exact hm, rfl, ?_, ?_, ?_⟩
        · rw [hsrc]; exact mem_cells_interior hint
        · rw [hsrc]
        · rw [hsrc]
      refine List.mem_map.2 ⟨(m, ⟨en, D.ψ label t (wallPoint s (boxGrid N w lo dx lab s) en)⟩), ?_, rfl⟩
      rw [mem_withValues]
      exact ⟨hen, rfl⟩
    have h2 := (h.links.1 y hy (h.fluid y hy) _ ho).2 ax
    rw [hvel, ← sub_eq_add_neg] at h2
    rw [if_pos (by rw [hper]; exact h2)]
    rfl

end

/-- A simulation in a channel: its walls, its processes, and initial populations `U` which depend on the coordinate across
the channel. -/
structure ChannelRun {s : Sten dim} (D : WallData K dim s) (lo : Fin dim → K) (dx : K) (lab : Fin dim → Bool → Int)
    (g : Grid dim) (ST : Domain.State K dim s.nu) (J : List (Method dim × List (Entry K dim s.ns))) (ax : Fin dim)
    (M : Bool → Fin s.ns → Method dim) (given : K → Bool → Fin s.ns → K) (per : Bool)
    (S : Kernel K s.ns nc d) (alg : Algo) (Q : Proc g → Setup K s.ns nc d dim)
    (σ₀ : Proc g → Simu K s.ns d dim) (U : ℤ → Fin s.ns → K) : Prop where
  channel : Channel D g.N g.w lo dx lab ST J ax
  sides : SideData D g.N lo dx lab ax M given
  per : per = true ↔ PerAxis lab ax
  front : ∀ j, (S.consm j : Nat) < nc
  run : FluidRun D g lo dx lab S alg Q
  start : ∀ c, (σ₀ c).Start (Q c)
  init : ∀ c x, Owned (size g c) g.w x → (σ₀ c).arr x = U (globalPos (first g c) g.w x ax)

/-- **C112, the line.** A simulation in a channel whose initial populations depend on the coordinate across
the channel only, with walls which impose values depending on the time only, is after any number of steps, in every
process, the scheme on the line: any collision (nonlinear equilibria, sources, relative velocity), all the methods but
`NeumannX`, `NeumannY`, `NeumannZ`. -/
theorem C112_line (hdim : dim ≤ 3) {s : Sten dim} {D : WallData K dim s} {lo : Fin dim → K} {dx : K}
    {lab : Fin dim → Bool → Int} {g : Grid dim}
    {ST : Domain.State K dim s.nu} {J : List (Method dim × List (Entry K dim s.ns))} {ax : Fin dim}
    {M : Bool → Fin s.ns → Method dim} {given : K → Bool → Fin s.ns → K} {per : Bool}
    {S : Kernel K s.ns nc d} {alg : Algo} {Q : Proc g → Setup K s.ns nc d dim}
    {σ₀ : Proc g → Simu K s.ns d dim} {U : ℤ → Fin s.ns → K}
    (R : ChannelRun D lo dx lab g ST J ax M given per S alg Q σ₀ U)
    (k : Nat) (σ : Proc g → Simu K s.ns d dim) (hr : PRun g Q σ₀ k σ) (c : Proc g) (x : Cell dim)
    (hx : Owned (size g c) g.w x) :
    (σ c).arr x = lineRun (g.N ax) per (fun j => s.vel j ax) s.sym (collide S alg) (fun side j => outPart (M side j))
      (fun side j => backPart (M side j)) given S.dt U k (globalPos (first g c) g.w x ax) := by
  obtain ⟨h, hM, hper, hfront, hQ, h0, ha⟩ := R
  have hfb := fluidBoundary_walls D g.N g.w lo dx lab h.wf ST J h.onGrid h.free (allLinks_of_open h.links.1) h.methods
    h.readsFluid
  obtain ⟨_, h2⟩ := C73_fluid_cells hdim g hQ.walls.large S hfront s.vel alg _ Q (hQ.uniform h.wf ST h.onGrid.built) _
    (sameBoundary_walls D g lo dx lab h.wf Q hQ.walls ST J h.onGrid h.free) hfb σ₀ h0
    (fun y => U (y ax)) (fun c x hx _ => ha c x hx) k σ hr
  rw [h2 c x hx (h.fluid _ (owned_box g hx))]
  have key : ∀ k, ∀ y ∈ box g.N,
      lbmRun g.N s.vel (collide S alg) (wallBc D g.N g.w lo dx lab J) S.dt (fun y => U (y ax)) k y =
        lineRun (g.N ax) per (fun j => s.vel j ax) s.sym (collide S alg) (fun side j => outPart (M side j))
          (fun side j => backPart (M side j)) given S.dt U k (y ax) := by
    intro k
    induction k with
    | zero => intro y _; rfl
    | succ k ih =>
      intro y hy
      show lbmStep g.N s.vel (collide S alg) (wallBc D g.N g.w lo dx lab J) _ _ y = _
      unfold lbmStep
      show _ = collide S alg (lineStream _ _ _ _ _ _ _ _ _)
      congr 1
      funext j
      unfold lineStream
      rw [← h.bc hM per hper]
      swap
      · exact hy
      refine hfb _ _ _ (fun z hz => ?_) y hy (h.fluid y hy) j
      refine ih _ ?_
      refine (mem_box _ _).2 fun i => ?_
      have hN : 0 < (g.N i : Int) := by
        have := (mem_box _ _).1 hy i
        omega
      exact ⟨Int.emod_nonneg _ hN.ne', Int.emod_lt_of_pos _ hN⟩
  exact key k _ (owned_box g hx)

/-- When the simulation stays at its initial state, so does the line. -/
theorem ChannelRun.steady (hdim : dim ≤ 3) {s : Sten dim} {D : WallData K dim s} {lo : Fin dim → K} {dx : K}
    {lab : Fin dim → Bool → Int} {g : Grid dim}
    {ST : Domain.State K dim s.nu} {J : List (Method dim × List (Entry K dim s.ns))} {ax : Fin dim}
    {M : Bool → Fin s.ns → Method dim} {given : K → Bool → Fin s.ns → K} {per : Bool}
    {S : Kernel K s.ns nc d} {alg : Algo} {Q : Proc g → Setup K s.ns nc d dim}
    {σ₀ : Proc g → Simu K s.ns d dim} {U : ℤ → Fin s.ns → K}
    (R : ChannelRun D lo dx lab g ST J ax M given per S alg Q σ₀ U) (hN : ∀ i, 0 < g.N i)
    (hst : ∀ k σ, PRun g Q σ₀ k σ → ∀ c x, Owned (size g c) g.w x → (σ c).arr x = (σ₀ c).arr x)
    (k : Nat) (x : ℤ) (hx : 0 ≤ x ∧ x < g.N ax) :
    lineRun (g.N ax) per (fun j => s.vel j ax) s.sym (collide S alg) (fun side j => outPart (M side j))
      (fun side j => backPart (M side j)) given S.dt U k x = U x := by
  obtain ⟨σ, hσ⟩ := C42_run_exists hdim g R.run.walls.large Q σ₀ k
  obtain ⟨c, z, hz, hzx⟩ := exists_owned g (Function.update (fun _ => 0) ax x) ((mem_box _ _).2 fun i => by
    by_cases hi : i = ax
    · subst hi; simpa using hx
    · simp [hi, hN i])
  have h := C112_line hdim R k σ hσ c z hz
  rw [hst k σ hσ c z hz, R.init c z hz, hzx, Function.update_self] at h
  exact h.symm

/-- **C112, fewer dimensions.** Two simulations in channels with as many cells across and the same time step, in any
dimensions, with their own velocities, moments, methods and processes. If linear forms of the populations are carried by both
transports to the same line, if the collisions agree on them and if they are equal at the beginning, they are equal at all times, in
the cells of the same coordinate. -/
theorem C112_reduced {nc₂ d₂ dim₂ m : Nat} (hdim : dim ≤ 3) {s : Sten dim} {D : WallData K dim s} {lo : Fin dim → K}
    {dx : K} {lab : Fin dim → Bool → Int} {g : Grid dim}
    {ST : Domain.State K dim s.nu} {J : List (Method dim × List (Entry K dim s.ns))} {ax : Fin dim}
    {M : Bool → Fin s.ns → Method dim} {given : K → Bool → Fin s.ns → K} {per : Bool}
    {S : Kernel K s.ns nc d} {alg : Algo} {Q : Proc g → Setup K s.ns nc d dim}
    {σ₀ : Proc g → Simu K s.ns d dim} {U : ℤ → Fin s.ns → K}
    (R : ChannelRun D lo dx lab g ST J ax M given per S alg Q σ₀ U)
    (hdim₂ : dim₂ ≤ 3) {s₂ : Sten dim₂} {D₂ : WallData K dim₂ s₂} {lo₂ : Fin dim₂ → K}
    {dx₂ : K} {lab₂ : Fin dim₂ → Bool → Int} {g₂ : Grid dim₂}
    {ST₂ : Domain.State K dim₂ s₂.nu} {J₂ : List (Method dim₂ × List (Entry K dim₂ s₂.ns))} {ax₂ : Fin dim₂}
    {M₂ : Bool → Fin s₂.ns → Method dim₂} {given₂ : K → Bool → Fin s₂.ns → K}
    {S₂ : Kernel K s₂.ns nc₂ d₂} {alg₂ : Algo} {Q₂ : Proc g₂ → Setup K s₂.ns nc₂ d₂ dim₂}
    {τ₀ : Proc g₂ → Simu K s₂.ns d₂ dim₂} {U₂ : ℤ → Fin s₂.ns → K}
    (R₂ : ChannelRun D₂ lo₂ dx₂ lab₂ g₂ ST₂ J₂ ax₂ M₂ given₂ per S₂ alg₂ Q₂ τ₀ U₂)
    (hN : g₂.N ax₂ = g.N ax) (hdt : S₂.dt = S.dt)
    (A : Matrix (Fin m) (Fin s.ns) K) (A₂ : Matrix (Fin m) (Fin s₂.ns) K) (c' : Fin m → ℤ) (sym' : Fin m → Fin m)
    (out' back' : Bool → Fin m → K) (given' : K → Bool → Fin m → K)
    (hA : Carries A (fun j => s.vel j ax) s.sym (fun side j => outPart (M side j)) (fun side j => backPart (M side j)) given
      c' sym' out' back' given')
    (hA₂ : Carries A₂ (fun j => s₂.vel j ax₂) s₂.sym (fun side j => outPart (M₂ side j)) (fun side j => backPart (M₂ side j))
      given₂ c' sym' out' back' given')
    (hφ : ∀ f f₂, A *ᵥ f = A₂ *ᵥ f₂ → A *ᵥ collide S alg f = A₂ *ᵥ collide S₂ alg₂ f₂)
    (hU : ∀ x : ℤ, 0 ≤ x ∧ x < g.N ax → A *ᵥ U x = A₂ *ᵥ U₂ x)
    (k : Nat) (σ : Proc g → Simu K s.ns d dim) (hr : PRun g Q σ₀ k σ)
    (τ : Proc g₂ → Simu K s₂.ns d₂ dim₂) (hr₂ : PRun g₂ Q₂ τ₀ k τ) (c : Proc g) (x : Cell dim)
    (hx : Owned (size g c) g.w x) (c₂ : Proc g₂) (x₂ : Cell dim₂) (hx₂ : Owned (size g₂ c₂) g₂.w x₂)
    (hxx : globalPos (first g₂ c₂) g₂.w x₂ ax₂ = globalPos (first g c) g.w x ax) :
    A *ᵥ (σ c).arr x = A₂ *ᵥ (τ c₂).arr x₂ := by
  rw [C112_line hdim R k σ hr c x hx, C112_line hdim₂ R₂ k τ hr₂ c₂ x₂ hx₂, hxx, hN, hdt]
  exact lineRun_map hA hA₂ (g.N ax) per S.dt _ _ U U₂ (fun _ _ _ f hf => hφ f _ hf) hU k _ ((mem_box _ _).1 (owned_box g hx) ax)

end channel
end Pylbm.Sim
