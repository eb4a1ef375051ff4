import Verif.Sim.Fluid
import Verif.Domain.Units
/-!
# A change of units or of origin does not change the solution (C89)
-/
set_option linter.unusedSectionVars false
namespace Pylbm.Sim
open Scheme Halo SchemeSpec Matrix HaloSpec Mpi Boundary
open Domain (newCoords Elem Link C89_domain C89_coordinates)

variable {K : Type} [Field K] [LinearOrder K] [IsStrictOrderedRing K] [FloorRing K] {n nc d dim : Nat}

/-! ## Specification -/

/-- The same scheme in other units: the moment `i` is multiplied by `r i`, the velocities by `v`, the time by `τ`; the
equilibrium, the relaxation parameters, the relative velocity and the sources are the same functions written for the
new values. -/
structure InUnits (S S' : Kernel K n nc d) (r : Fin n → K) (v τ : K) : Prop where
  factor : ∀ i, r i ≠ 0
  time : τ ≠ 0
  M : ∀ i j, S'.M i j = r i * S.M i j
  invM : ∀ i j, S'.invM i j = S.invM i j / r j
  Tu : ∀ u i j, S'.Tu (fun l => v * u l) i j = r i * S.Tu u i j / r j
  Tmu : ∀ u i j, S'.Tmu (fun l => v * u l) i j = r i * S.Tmu u i j / r j
  consm : S'.consm = S.consm
  EQ : ∀ i w, S'.EQ i (fun l => r (S.consm l) * w l) = r i * S.EQ i w
  s : ∀ i w, S'.s i (fun l => r (S.consm l) * w l) = S.s i w
  noRel : S.relVel = none → S'.relVel = none
  rel : ∀ q, S.relVel = some q → ∃ q', S'.relVel = some q' ∧ ∀ w l, q' (fun l => r (S.consm l) * w l) l = v * q w l
  noSource : ∀ i, S.source i = none → S'.source i = none
  source : ∀ i q, S.source i = some q → ∃ q', S'.source i = some q' ∧ ∀ m, q' (fun l => r l * m l) = r i * q m / τ
  dt : S'.dt = τ * S.dt

/-- The obstacles and the imposed values (populations of the equilibrium) in other units and coordinates, with the same
methods. -/
structure OtherUnits {s : Sten dim} (D D' : WallData K dim s) (a : K) (b : Fin dim → K) (τ : K) : Prop where
  elems : List.Forall₂ (Elem.InCoords a b) D.elems D'.elems
  els : D'.els = D.els
  dico : D'.dico = D.dico
  values : ∀ label t x, D'.ψ label (τ * t) (newCoords a b x) = D.ψ label t x

/-! ## Lemmas -/

/-- The values at one cell in the two systems of units. -/
structure LocalUnits (r : Fin n → K) (v : K) (x x' : Local K n d) : Prop where
  m : ∀ i, x'.m i = r i * x.m i
  fnew : x'.fnew = x.fnew
  u : x'.u = fun l => v * x.u l

section
variable {S S' : Kernel K n nc d} {r : Fin n → K} {v τ : K}

theorem InUnits.momMatrix (h : InUnits S S' r v τ) (rel : Bool) (u : Fin d → K) (i j : Fin n) :
    (if rel then S'.Tu (fun l => v * u l) * S'.M else S'.M) i j = r i * (if rel then S.Tu u * S.M else S.M) i j := by
  cases rel
  · exact h.M i j
  · simp only [if_true, Matrix.mul_apply, Finset.mul_sum]
    refine Finset.sum_congr rfl fun l _ => ?_
    rw [h.Tu, h.M]
    field_simp [h.factor l]

theorem InUnits.backMatrix (h : InUnits S S' r v τ) (rel : Bool) (u : Fin d → K) (i j : Fin n) :
    (if rel then S'.invM * S'.Tmu (fun l => v * u l) else S'.invM) i j =
      (if rel then S.invM * S.Tmu u else S.invM) i j / r j := by
  cases rel
  · exact h.invM i j
  · simp only [if_true, Matrix.mul_apply, Finset.sum_div]
    refine Finset.sum_congr rfl fun l _ => ?_
    rw [h.Tmu, h.invM]
    field_simp [h.factor l, h.factor j]

theorem update_units {r : Fin n → K} {m m' : Fin n → K} (hm : ∀ l, m' l = r l * m l) (i : Fin n) {y y' : K}
    (hy : y' = r i * y) (l : Fin n) : Function.update m' i y' l = r l * Function.update m i y l := by
  by_cases hl : l = i
  · subst hl; simp [hy]
  · simp [hl, hm]

theorem InUnits.cons (h : InUnits S S' r v τ) {m m' : Fin n → K} (hm : ∀ l, m' l = r l * m l) :
    S'.cons m' = fun l => r (S.consm l) * S.cons m l := by
  funext l
  unfold Kernel.cons
  rw [h.consm, hm]

theorem InUnits.exec (h : InUnits S S' r v τ) (f : Fin n → K) {x x' : Local K n d} (hx : LocalUnits r v x x')
    (st : Stmt n d) : LocalUnits r v (S.exec f x st) (S'.exec f x' st) := by
  cases st with
  | shift k => exact ⟨hx.m, by simp only [Kernel.exec]; rw [hx.fnew], hx.u⟩
  | mom fromNew rel i =>
    refine ⟨update_units hx.m i ?_, hx.fnew, hx.u⟩
    unfold Kernel.dot
    rw [Finset.mul_sum, hx.fnew, hx.u]
    refine Finset.sum_congr rfl fun j _ => ?_
    rw [h.momMatrix]; ring
  | vel i =>
    refine ⟨hx.m, hx.fnew, ?_⟩
    simp only [Kernel.exec]
    cases hq : S.relVel with
    | none => rw [h.noRel hq]; exact hx.u
    | some q =>
      obtain ⟨q', h1, h2⟩ := h.rel q hq
      rw [h1]
      simp only
      funext l
      rw [h.cons hx.m, h2, hx.u]
      by_cases hl : l = i
      · subst hl; simp
      · simp [hl]
  | relax rel i =>
    refine ⟨update_units hx.m i ?_, hx.fnew, hx.u⟩
    rw [h.cons hx.m, h.s, hx.m]
    have : (if rel then Kernel.dot (S'.Tu x'.u) i (fun j => S'.EQ j fun l => r (S.consm l) * S.cons x.m l)
          else S'.EQ i fun l => r (S.consm l) * S.cons x.m l) =
        r i * if rel then Kernel.dot (S.Tu x.u) i (fun j => S.EQ j (S.cons x.m)) else S.EQ i (S.cons x.m) := by
      cases rel
      · exact h.EQ i _
      · simp only [if_true]
        unfold Kernel.dot
        rw [Finset.mul_sum]
        refine Finset.sum_congr rfl fun j _ => ?_
        rw [hx.u, h.Tu]
        beta_reduce
        rw [h.EQ]
        field_simp [h.factor j]
    rw [this]
    ring
  | eqm i =>
    refine ⟨update_units hx.m i ?_, hx.fnew, hx.u⟩
    rw [h.cons hx.m, h.EQ]
  | src i =>
    simp only [Kernel.exec]
    cases hq : S.source i with
    | none => rw [h.noSource i hq]; exact hx
    | some q =>
      obtain ⟨q', h1, h2⟩ := h.source i q hq
      rw [h1]
      refine ⟨update_units hx.m i ?_, hx.fnew, hx.u⟩
      have hm : x'.m = fun l => r l * x.m l := funext hx.m
      rw [hm, h2, h.dt]
      have := h.time
      field_simp
  | back rel i =>
    refine ⟨hx.m, ?_, hx.u⟩
    simp only [Kernel.exec]
    rw [hx.fnew, hx.u]
    congr 1
    unfold Kernel.dot
    refine Finset.sum_congr rfl fun j _ => ?_
    rw [h.backMatrix, hx.m]
    field_simp [h.factor j]

theorem InUnits.run (h : InUnits S S' r v τ) (f : Fin n → K) (p : List (Stmt n d)) :
    ∀ {x x' : Local K n d}, LocalUnits r v x x' → LocalUnits r v (S.run f x p) (S'.run f x' p) := by
  unfold Kernel.run
  induction p with
  | nil => exact fun hx => hx
  | cons st p ih => exact fun hx => ih (h.exec f hx st)

end

theorem lbmRun_units (N : Fin dim → Nat) (vel : Fin n → Cell dim) (φ : (Fin n → K) → Fin n → K)
    (bc bc' : K → Arr K n dim → Arr K n dim) (dt τ : K) (hbc : ∀ t, bc' (τ * t) = bc t) (G : Arr K n dim) (k : Nat) :
    lbmRun N vel φ bc' (τ * dt) G k = lbmRun N vel φ bc dt G k := by
  induction k with
  | zero => rfl
  | succ k ih =>
    unfold lbmRun
    rw [ih, show (k : K) * (τ * dt) = τ * (k * dt) by ring]
    unfold lbmStep
    rw [hbc]

theorem newCoords_surj {a : K} (ha : 0 < a) (b : Fin dim → K) (x : Fin dim → K) :
    ∃ y, newCoords a b y = x := by
  refine ⟨fun j => (x j - b j) / a, ?_⟩
  funext j
  unfold newCoords
  field_simp [ha.ne']
  ring

theorem scale_surj {a : K} (ha : 0 < a) (x : Fin dim → K) : ∃ y : Fin dim → K, (fun j => a * y j) = x := by
  refine ⟨fun j => x j / a, ?_⟩
  funext j
  field_simp [ha.ne']

theorem inCoords_sound {a : K} (ha : 0 < a) {b : Fin dim → K} {e e' : Elem K dim} (h : e.InCoords a b e')
    (he : e.Sound) : e'.Sound := by
  constructor
  · intro x hx j
    obtain ⟨y, rfl⟩ := newCoords_surj ha b x
    rw [h.inside] at hx
    have := he.inside y hx j
    rw [h.bl, h.ur]
    unfold newCoords
    constructor
    · linarith [mul_le_mul_of_nonneg_left this.1 ha.le]
    · linarith [mul_le_mul_of_nonneg_left this.2 ha.le]
  · intro x v hx
    obtain ⟨y, rfl⟩ := newCoords_surj ha b x
    obtain ⟨u, rfl⟩ := scale_surj ha v
    rw [h.alpha] at hx ⊢
    obtain ⟨h1, h2⟩ := he.hit y u hx
    refine ⟨h1, fun j => ?_⟩
    rw [h.bl, h.ur]
    unfold newCoords
    constructor
    · linarith [mul_le_mul_of_nonneg_left (h2 j).1 ha.le]
    · linarith [mul_le_mul_of_nonneg_left (h2 j).2 ha.le]

theorem forall₂_mem_right {α β : Type} {R : α → β → Prop} {l : List α} {l' : List β} (h : List.Forall₂ R l l') {y : β}
    (hy : y ∈ l') : ∃ x ∈ l, R x y := by
  induction h with
  | nil => simp at hy
  | cons h1 _ ih =>
    rcases List.mem_cons.1 hy with rfl | h2
    · exact ⟨_, List.mem_cons_self, h1⟩
    · obtain ⟨x, hx, hR⟩ := ih h2
      exact ⟨x, List.mem_cons_of_mem _ hx, hR⟩

section
variable {s : Sten dim} {D D' : WallData K dim s} {N w : Fin dim → Nat} {lo : Fin dim → K} {dx : K}
  {lab : Fin dim → Bool → Int} {ST : Domain.State K dim s.nu}
  {J : List (Method dim × List (Entry K dim s.ns))} {a τ : K} {b : Fin dim → K}

theorem OtherUnits.wf (h : OtherUnits D D' a b τ) (ha : 0 < a) (hD : D.WF lab) : D'.WF lab where
  sten := hD.sten
  sound := fun e' he' => by
    obtain ⟨e, he, hR⟩ := forall₂_mem_right h.elems he'
    exact inCoords_sound ha hR (hD.sound e he)
  labels := fun e' he' x v hpos => by
    obtain ⟨e, he, hR⟩ := forall₂_mem_right h.elems he'
    obtain ⟨y, rfl⟩ := newCoords_surj ha b x
    obtain ⟨u, rfl⟩ := scale_surj ha v
    rw [hR.alpha] at hpos
    rw [hR.border, h.els]
    exact hD.labels e he y u hpos
  dict := by rw [h.dico]; exact hD.dict
  no999 := by rw [h.els]; exact hD.no999
  noFace := hD.noFace

theorem instances_congr (shape : Fin dim → Nat) (link link' : Fin s.nu → Cell dim → Link K dim)
    (h : ∀ c k, (link' k c).dist = (link k c).dist ∧ (link' k c).flag = (link k c).flag) (labels : List Int)
    (dico : Int → Option (List (Nat × Method dim))) :
    instances s shape link' labels dico = instances s shape link labels dico := by
  have hb : boundaryVelocity s shape link' = boundaryVelocity s shape link := by
    funext label u
    unfold boundaryVelocity
    simp only [fun c k => (h c k).1, fun c k => (h c k).2]
  unfold instances allEntries
  have hl : labelEntries s shape link' = labelEntries s shape link := by
    funext label p
    unfold labelEntries
    rw [hb]
  rw [hl]

theorem onGrid_units (h : OtherUnits D D' a b τ) (ha : 0 < a) (hpos : ∀ j, 0 < N j)
    (hJ : OnGrid D (boxGrid N w lo dx lab s) ST J) :
    ∃ ST', OnGrid D' (boxGrid N w (newCoords a b lo) (a * dx) lab s) ST' J ∧ ∀ y, fluidMap w ST' y = fluidMap w ST y := by
  have ht : ∀ j, 0 < (boxGrid N w lo dx lab s).total j := by
    intro j
    have := hpos j
    simp only [Domain.Grid.total, Domain.Grid.n, boxGrid]
    omega
  obtain ⟨h1, h2⟩ := C89_domain (boxGrid N w lo dx lab s) hJ.wf ht a ha b D.elems D'.elems h.elems
  rw [hJ.built] at h1
  obtain ⟨ST', hST'⟩ := Option.isSome_iff_exists.1 (h1.trans rfl)
  have h3 := h2 ST ST' hJ.built hST'
  refine ⟨ST', ⟨?_, rfl, hST', ?_⟩, fun y => ?_⟩
  · exact hJ.wf.inCoords ha
  · have e : instances s (boxGrid N w lo dx lab s).total ST'.link (listOfLabels (boxGrid N w lo dx lab s) D'.els) D'.dico =
        some J := by
      rw [instances_congr _ ST.link ST'.link (fun c k => (h3 c).2 k), h.els, h.dico]
      exact hJ.insts
    exact e
  · unfold fluidMap
    rw [(h3 _).1]

theorem withValues_units (h : OtherUnits D D' a b τ) (ha : 0 < a) (hD : D.WF lab)
    (hJ : OnGrid D (boxGrid N w lo dx lab s) ST J) (t : K) :
    withValues s (boxGrid N w (newCoords a b lo) (a * dx) lab s) D'.ψ J (τ * t) =
      withValues s (boxGrid N w lo dx lab s) D.ψ J t := by
  unfold withValues
  refine List.map_congr_left fun p hp => ?_
  congr 1
  refine List.map_congr_left fun e he => ?_
  have hmem : (p.1, e) ∈ entries s J := by
    unfold entries
    exact List.mem_flatMap.2 ⟨p, hp, List.mem_map.2 ⟨e, he, rfl⟩⟩
  have hi := ((hJ.onDomain hD t).item hD.sten (no999_list hD)
    ((mem_withValues s _ D.ψ J t p.1 ⟨e, D.ψ e.label t (wallPoint s (boxGrid N w lo dx lab s) e)⟩).2 ⟨hmem, rfl⟩)).1
  have hw : wallPoint s (boxGrid N w (newCoords a b lo) (a * dx) lab s) e =
      newCoords a b (wallPoint s (boxGrid N w lo dx lab s) e) := by
    have hr : ∀ j, 0 ≤ e.cell j ∧ e.cell j < (boxGrid N w lo dx lab s).total j := by
      intro j
      have h1 := hi j
      have h2 := abs_le.1 (hJ.wf.halo (s.ux e.k) j)
      have hcell : e.cell j = source s e j - s.uvel (s.ux e.k) j := by simp [source, Sten.vel]
      simp only [boxGrid, Domain.Grid.n, Domain.Grid.total] at h1 h2 ⊢
      omega
    have hc := C89_coordinates (boxGrid N w lo dx lab s) hJ.wf a ha b e.cell hr
    funext j
    have hcj := congrFun hc j
    have e1 : (boxGrid N w (newCoords a b lo) (a * dx) lab s).point e.cell j =
      newCoords a b ((boxGrid N w lo dx lab s).point e.cell) j := hcj
    unfold wallPoint
    rw [e1]
    simp only [newCoords, boxGrid]
    ring
  rw [hw, h.values]

end

/-! ## Properties -/

/-- **C89, collision.** A scheme written in other units has the same collision, with any equilibrium, relaxation
parameters, sources and relative velocity; and the moments of the same populations are multiplied by their factors. -/
theorem C89_collision (S S' : Kernel K n nc d) (r : Fin n → K) (v τ : K) (h : InUnits S S' r v τ) (al : Algo) :
    collide S' al = collide S al ∧ ∀ f i, (S'.M *ᵥ f) i = r i * (S.M *ᵥ f) i := by
  constructor
  · funext f
    unfold collide
    have hp : prog S' al = prog S al := by
      have : S'.relVel.isSome = S.relVel.isSome := by
        cases hq : S.relVel with
        | none => rw [h.noRel hq]
        | some q => obtain ⟨q', h1, -⟩ := h.rel q hq; rw [h1]; rfl
      unfold prog
      rw [this]
    rw [hp]
    exact (h.run f _ ⟨fun i => by simp, rfl, by funext l; simp⟩).fnew
  · intro f i
    simp only [Matrix.mulVec, dotProduct, Finset.mul_sum]
    refine Finset.sum_congr rfl fun j _ => ?_
    rw [h.M]; ring

/-- **C89, matrices.** With homogeneous polynomials, the matrices which the constructor of a scheme builds for the
velocity `v λ` are those of the scheme in other units. -/
theorem C89_matrices (la v : K) (hv : v ≠ 0) (vel : Fin n → Fin dim → Int) (P : Fin n → (Fin dim → K) → K)
    (deg : Fin n → Nat) (hP : ∀ i c x, P i (fun l => c * x l) = c ^ deg i * P i x) (A A' : Matrix (Fin n) (Fin n) K)
    (hA : Scheme.inv (localM la vel P) = some A) (hA' : Scheme.inv (localM (v * la) vel P) = some A') :
    (∀ i j, localM (v * la) vel P i j = v ^ deg i * localM la vel P i j) ∧
    (∀ i j, A' i j = A i j / v ^ deg j) ∧
    ∀ u i j, localTu (v * la) vel P A' (fun l => v * u l) i j = v ^ deg i * localTu la vel P A u i j / v ^ deg j := by
  have h1 : ∀ i j, localM (v * la) vel P i j = v ^ deg i * localM la vel P i j := by
    intro i j
    unfold localM
    simp only [Matrix.of_apply]
    rw [← hP]
    congr 1; funext l; ring
  have h2 : ∀ u i j, localMu (v * la) vel P (fun l => v * u l) i j = v ^ deg i * localMu la vel P u i j := by
    intro u i j
    unfold localMu
    simp only [Matrix.of_apply]
    rw [← hP]
    congr 1; funext l; ring
  have hinv : ∀ (B C : Matrix (Fin n) (Fin n) K), Scheme.inv B = some C → C * B = 1 := by
    intro B C h
    unfold Scheme.inv at h
    split at h
    · rename_i hd
      rw [← Option.some.inj h]
      exact Matrix.nonsing_inv_mul _ (isUnit_iff_ne_zero.2 hd)
    · exact absurd h (by simp)
  have hl := hinv _ _ hA
  have hl' := hinv _ _ hA'
  have h3 : A' = Matrix.of fun i j => A i j / v ^ deg j := by
    have hm : (Matrix.of fun i j => A i j / v ^ deg j) * localM (v * la) vel P = 1 := by
      rw [← hl]
      ext i j
      simp only [Matrix.mul_apply, Matrix.of_apply]
      refine Finset.sum_congr rfl fun l _ => ?_
      rw [h1]
      field_simp [pow_ne_zero (deg l) hv]
    have hr := mul_eq_one_comm.1 hl'
    calc A' = 1 * A' := (Matrix.one_mul _).symm
      _ = (Matrix.of fun i j => A i j / v ^ deg j) := by rw [← hm, Matrix.mul_assoc, hr, Matrix.mul_one]
  refine ⟨h1, fun i j => by rw [h3]; rfl, fun u i j => ?_⟩
  unfold localTu
  simp only [Matrix.mul_apply, Finset.mul_sum, Finset.sum_div]
  refine Finset.sum_congr rfl fun l _ => ?_
  rw [h2, h3, Matrix.of_apply]
  field_simp

/-- **C89.** The same problem written with another unit of length (factor `a`), another origin (`b`) and another unit of
time (factor `τ`): box, space step, elements, imposed values and scheme, on the same or another decomposition, with or
without `check_isfluid`. If the populations of the fluid cells are the same at the beginning, they are after any number
of steps, for all orders of the messages; and the moments are the same up to their units. -/
theorem C89_units (hdim : dim ≤ 3) {s : Sten dim} (D D' : WallData K dim s) (lo : Fin dim → K) (dx : K)
    (lab : Fin dim → Bool → Int) (hD : D.WF lab) (a : K) (ha : 0 < a) (b : Fin dim → K) (τ : K)
    (hU : OtherUnits D D' a b τ) (g g' : Grid dim) (hN : g.N = g'.N) (hw : g.w = g'.w)
    (ST : Domain.State K dim s.nu) (J : List (Method dim × List (Entry K dim s.ns)))
    (hJ : OnGrid D (boxGrid g.N g.w lo dx lab s) ST J)
    (hfree : ∀ t, Free s (flat s (withValues s (boxGrid g.N g.w lo dx lab s) D.ψ J t)))
    (hlinks : AllLinks g.N g.w ST) (hmeth : AllMethods D) (hreads : ReadsFluid D g.N g.w lo dx lab ST J)
    (S S' : Kernel K s.ns nc d) (hfront : ∀ j, (S.consm j : Nat) < nc) (r : Fin s.ns → K) (v : K)
    (hS : InUnits S S' r v τ) (al : Algo)
    (Q : Proc g → Setup K s.ns nc d dim) (hQ : FluidRun D g lo dx lab S al Q)
    (Q' : Proc g' → Setup K s.ns nc d dim) (hQ' : FluidRun D' g' (newCoords a b lo) (a * dx) lab S' al Q')
    (σ₀ : Proc g → Simu K s.ns d dim) (h0 : ∀ c, (σ₀ c).Start (Q c))
    (σ₀' : Proc g' → Simu K s.ns d dim) (h0' : ∀ c, (σ₀' c).Start (Q' c)) (G : Arr K s.ns dim)
    (hG : ∀ c x, Owned (size g c) g.w x → fluidMap g.w ST (globalPos (first g c) g.w x) = true →
      (σ₀ c).arr x = G (globalPos (first g c) g.w x))
    (hG' : ∀ c x, Owned (size g' c) g'.w x → fluidMap g.w ST (globalPos (first g' c) g'.w x) = true →
      (σ₀' c).arr x = G (globalPos (first g' c) g'.w x))
    (k : Nat) (σ : Proc g → Simu K s.ns d dim) (hr : PRun g Q σ₀ k σ)
    (σ' : Proc g' → Simu K s.ns d dim) (hr' : PRun g' Q' σ₀' k σ')
    (c : Proc g) (x : Cell dim) (hx : Owned (size g c) g.w x)
    (c' : Proc g') (x' : Cell dim) (hx' : Owned (size g' c') g'.w x')
    (he : globalPos (first g c) g.w x = globalPos (first g' c') g'.w x')
    (hf : fluidMap g.w ST (globalPos (first g c) g.w x) = true) :
    (σ' c').arr x' = (σ c).arr x ∧ (σ' c').t = τ * (σ c).t ∧
      ∀ i, (S'.M *ᵥ (σ' c').arr x') i = r i * (S.M *ᵥ (σ c).arr x) i := by
  have hpos : ∀ j, 0 < g.N j := by
    intro j
    have := (mem_box _ _).1 (owned_box g hx) j
    omega
  obtain ⟨ST', hJ', hfl⟩ := onGrid_units hU ha hpos hJ
  have hfl' : fluidMap g.w ST' = fluidMap g.w ST := funext hfl
  have hD' := hU.wf ha hD
  have hval := withValues_units hU ha hD hJ
  have hback : ∀ t, τ * (t / τ) = t := fun t => mul_div_cancel₀ t hS.time
  have hfree' : ∀ t, Free s (flat s (withValues s (boxGrid g.N g.w (newCoords a b lo) (a * dx) lab s) D'.ψ J t)) := by
    intro t
    have := hfree (t / τ)
    rwa [← hval, hback] at this
  have hbc : ∀ t, wallBc D' g.N g.w (newCoords a b lo) (a * dx) lab J (τ * t) = wallBc D g.N g.w lo dx lab J t := by
    intro t
    funext H y j
    unfold wallBc
    rw [hval]
  have hB := fluidBoundary_walls D g.N g.w lo dx lab hD ST J hJ hfree hlinks hmeth hreads
  have hB' : FluidBoundary g.N s.vel (fluidMap g.w ST) (wallBc D' g.N g.w (newCoords a b lo) (a * dx) lab J) := by
    intro t
    rw [← hback t, hbc]
    exact hB _
  have hcol := C89_collision S S' r v τ hS al
  obtain ⟨h1, h2⟩ := C73_fluid_cells hdim g hQ.walls.large S hfront s.vel al _ Q (hQ.uniform hD ST hJ.built) _
    (sameBoundary_walls D g lo dx lab hD Q hQ.walls ST J hJ hfree) hB σ₀ h0 G hG k σ hr
  have hun' : UniformFluid g' S' s.vel al (fluidMap g.w ST) Q' := by
    have hb := hJ'.built
    rw [hN, hw] at hb
    have := hQ'.uniform hD' ST' hb
    rw [← hw, hfl'] at this
    exact this
  have hJ2 := hJ'
  have hB2 := hB'
  rw [hN, hw] at hJ2 hfree'
  rw [hN] at hB2
  have hB3 : FluidBoundary g'.N s.vel (fluidMap g.w ST) (wallBc D' g'.N g'.w (newCoords a b lo) (a * dx) lab J) := by
    rw [← hw]; exact hB2
  obtain ⟨h1', h2'⟩ := C73_fluid_cells hdim g' hQ'.walls.large S' (by rw [hS.consm]; exact hfront) s.vel al _ Q' hun' _
    (sameBoundary_walls D' g' (newCoords a b lo) (a * dx) lab hD' Q' hQ'.walls ST' J hJ2 hfree') hB3 σ₀' h0' G hG' k σ' hr'
  have hmain : (σ' c').arr x' = (σ c).arr x := by
    rw [h2 c x hx hf, h2' c' x' hx' (he ▸ hf), ← he, ← hN, ← hw, hcol.1, hS.dt, lbmRun_units _ _ _ _ _ _ _ hbc]
  refine ⟨hmain, ?_, fun i => ?_⟩
  · rw [(h1' c').2.1, (h1 c).2.1, hS.dt]; ring
  · rw [hmain, hcol.2]

end Pylbm.Sim
