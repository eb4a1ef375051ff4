import Verif.Scheme.Props
import Verif.Scheme.Matrices
/-!
# The entries of the schemes in the global vectors: property C77

Model of the part of `Scheme.__init__` which puts the entries of the elementary schemes together, and of
`_get_equilibrium`.
-/
namespace Pylbm.Scheme
open Matrix SchemeSpec
set_option linter.unusedSectionVars false

section assembly
variable {K : Type} [Field K] {dim nc d : Nat}

/-! ## Model -/

/-- One element of the list `schemes`: the velocities of its stencil and the entries of the dictionary.  An
expression is a function of the values of the conserved moments.  `meq` is the entry `equilibrium`, empty when it is
not given (the code tests its truth value); `feq` is the function of the entry `feq` with its arguments. -/
structure Entry (K : Type) (dim nc : Nat) where
  vel : List (Fin dim → Int)
  polynomials : List ((Fin dim → K) → K)
  relax : List ((Fin nc → K) → K)
  meq : List ((Fin nc → K) → K)
  feq : Option (List (Fin dim → Int) → List ((Fin nc → K) → K))

/-- `stencil.nv`. -/
def sizes (es : List (Entry K dim nc)) : List Nat := es.map fun e => e.vel.length

/-- The velocities of the scheme `k`, `stencil.get_all_velocities(k)`, stencil.py 812-815. -/
def velOf (es : List (Entry K dim nc)) (k : Nat) : List (Fin dim → Int) := ((es[k]?).map Entry.vel).getD []

/-- `self.P[nv_ptr[k] : nv_ptr[k + 1]][i]`, scheme.py 168-169 and 481: the polynomials of all the schemes are put in
one list, then cut. -/
def polyAt (es : List (Entry K dim nc)) (k i : Nat) : (Fin dim → K) → K :=
  (es.flatMap Entry.polynomials).getD (ptr (sizes es) k + i) fun _ => 0

/-- `M_[k]`, scheme.py 483-492. -/
def blockM (la : K) (es : List (Entry K dim nc)) (k : Nat) :
    Matrix (Fin (velOf es k).length) (Fin (velOf es k).length) K :=
  localM la (fun j => (velOf es k)[j]) fun i => polyAt es k i

/-- `M`, scheme.py 504-519. -/
def wholeM (la : K) (es : List (Entry K dim nc)) : Nat → Nat → K :=
  fillBlocks (sizes es) (fun k => entry (blockM la es k)) fun _ _ => 0

/-- `invM`, scheme.py 501-519. -/
noncomputable def wholeInvM (la : K) (es : List (Entry K dim nc)) : Nat → Nat → K :=
  fillBlocks (sizes es) (fun k => entry ((inv (blockM la es k)).getD 0)) fun _ _ => 0

/-- The part of the scheme `k` in `_get_equilibrium`, scheme.py 204-222: `none` when both entries are given
(`sys.exit`) or when the length of the vector of `feq` is not the number of velocities (SymPy's `ShapeError`); nothing
at all when no entry is given. -/
def equilibriumOf (la : K) (es : List (Entry K dim nc)) (k : Nat) (e : Entry K dim nc) :
    Option (List ((Fin nc → K) → K)) :=
  match e.meq, e.feq with
  | _ :: _, some _ => none
  | [], none => some []
  | meq@(_ :: _), none => some meq
  | [], some g =>
    let v := g (velOf es k)
    if v.length = e.vel.length then
      some ((List.range e.vel.length).map fun i => fun w => ((List.range e.vel.length).map fun j =>
        wholeM la es (ptr (sizes es) k + i) (ptr (sizes es) k + j) * (v.getD j fun _ => 0) w).sum)
    else none

/-- `_get_equilibrium`, scheme.py 202-223. -/
def getEquilibrium (la : K) (es : List (Entry K dim nc)) : Option (List ((Fin nc → K) → K)) :=
  (es.zipIdx.mapM fun p => equilibriumOf la es p.2 p.1).map List.flatten

/-- `Scheme.__init__`, scheme.py 136-173, without relative velocity and before the reordering, for given positions
of the conserved moments.  `_check_entry_size` (243-256) only writes a message in the log.  `none` when the
polynomials are too few (`IndexError`, scheme.py 492), when a block is not invertible (scheme.py 501), when the
equilibrium fails, and when a vector has not the size of the scheme: the products of `relaxation_local`
(algorithm/base.py 404-427) then raise a `ShapeError` (symbolic.py 60-63). -/
noncomputable def assemble (la : K) (es : List (Entry K dim nc)) (consm : Fin nc → Fin (sizes es).sum) :
    Option (Data K (sizes es).sum nc d) :=
  open Classical in
  let s := es.flatMap Entry.relax
  if (sizes es).sum ≤ (es.flatMap Entry.polynomials).length ∧
      (∀ k < es.length, (inv (blockM la es k)).isSome) ∧ s.length = (sizes es).sum then
    match getEquilibrium la es with
    | none => none
    | some eq =>
      if eq.length = (sizes es).sum then
        some { M := toMatrix _ (wholeM la es), invM := toMatrix _ (wholeInvM la es), Tu := fun _ => 1,
               Tmu := fun _ => 1, EQ := fun i => eq.getD i fun _ => 0, s := fun i => s.getD i fun _ => 0, consm }
      else none
  else none

/-! ## Specification -/

/-- The entries have the sizes of the stencils. -/
structure Entry.Fits (e : Entry K dim nc) : Prop where
  polynomials : e.polynomials.length = e.vel.length
  relax : e.relax.length = e.vel.length
  equilibrium : (e.feq = none ∧ e.meq.length = e.vel.length) ∨
    (e.meq = [] ∧ ∃ g, e.feq = some g ∧ (g e.vel).length = e.vel.length)

/-! ## Proofs -/

theorem flat_at {α β : Type} (es : List α) (f : α → List β) (g : α → Nat) (k i : Nat) (hk : k < es.length)
    (hf : ∀ e ∈ es, (f e).length = g e) (hi : i < g es[k]) (z : β) :
    (es.flatMap f).getD (ptr (es.map g) k + i) z = (f es[k]).getD i z := by
  induction es generalizing k with
  | nil => simp at hk
  | cons e es ih =>
    have he := hf e (by simp)
    cases k with
    | zero =>
      simp only [List.getElem_cons_zero] at hi ⊢
      simp only [ptr, List.take_zero, List.sum_nil, zero_add, List.flatMap_cons]
      rw [List.getD_eq_getElem?_getD, List.getD_eq_getElem?_getD, List.getElem?_append_left (by omega)]
    | succ k =>
      simp only [List.getElem_cons_succ] at hi ⊢
      have e1 : ptr ((e :: es).map g) (k + 1) = g e + ptr (es.map g) k := by simp [ptr]
      rw [e1, List.flatMap_cons, List.getD_eq_getElem?_getD, List.getElem?_append_right (by omega),
        ← List.getD_eq_getElem?_getD,
        show g e + ptr (es.map g) k + i - (f e).length = ptr (es.map g) k + i by omega]
      exact ih k (by simpa using hk) (fun e h => hf e (by simp [h])) hi

theorem sizes_get (es : List (Entry K dim nc)) (k : Nat) (hk : k < es.length) :
    (sizes es)[k]'(by simpa [sizes] using hk) = es[k].vel.length := by simp [sizes]

theorem velOf_eq (es : List (Entry K dim nc)) (k : Nat) (hk : k < es.length) : velOf es k = es[k].vel := by
  simp [velOf, hk]

theorem ptr_lt (es : List (Entry K dim nc)) (k i : Nat) (hk : k < es.length) (hi : i < es[k].vel.length) :
    ptr (sizes es) k + i < (sizes es).sum := by
  have hk' : k < (sizes es).length := by simpa [sizes] using hk
  have h1 := ptr_succ (sizes es) k hk'
  have h2 := ptr_mono (sizes es) (show k + 1 ≤ _ from hk')
  rw [ptr_length] at h2
  rw [sizes_get es k hk] at h1
  omega

/-- A vector cut to the block of a scheme. -/
def cut (es : List (Entry K dim nc)) (k : Nat) (f : Fin (sizes es).sum → K) : Fin (velOf es k).length → K :=
  fun j => if h : ptr (sizes es) k + j < (sizes es).sum then f ⟨_, h⟩ else 0

/-- Product of a block matrix and a vector, on the block of a scheme. -/
theorem cut_mulVec (es : List (Entry K dim nc)) (B : ∀ k, Matrix (Fin (velOf es k).length) (Fin (velOf es k).length) K)
    (k : Nat) (hk : k < es.length) (f : Fin (sizes es).sum → K) :
    cut es k (toMatrix _ (fillBlocks (sizes es) (fun k => entry (B k)) fun _ _ => 0) *ᵥ f) = B k *ᵥ cut es k f := by
  funext i
  have hv := velOf_eq es k hk
  have hk' : k < (sizes es).length := by simpa [sizes] using hk
  have hlt : ∀ j : Fin (velOf es k).length, ptr (sizes es) k + j < (sizes es).sum := fun j =>
    ptr_lt es k j hk (by rw [← hv]; exact j.2)
  have hsz : ∀ j : Fin (velOf es k).length, (j : Nat) < (sizes es)[k] := fun j => by
    rw [sizes_get es k hk, ← hv]; exact j.2
  rw [cut, dif_pos (hlt i)]
  simp only [Matrix.mulVec, dotProduct, toMatrix, Matrix.of_apply]
  have hinj : Function.Injective fun j : Fin (velOf es k).length => (⟨_, hlt j⟩ : Fin _) := by
    intro x y hxy
    have := congrArg Fin.val hxy
    simp only at this
    exact Fin.ext (by omega)
  symm
  rw [← Finset.sum_subset (Finset.subset_univ (Finset.univ.image
    fun j : Fin (velOf es k).length => (⟨_, hlt j⟩ : Fin _)))]
  · rw [Finset.sum_image (fun x _ y _ h => hinj h)]
    apply Finset.sum_congr rfl
    intro j _
    rw [(fillBlocks_spec (sizes es) (fun k => entry (B k)) _).1 k hk' i j (hsz i) (hsz j), cut, dif_pos (hlt j)]
    simp [entry]
  · intro b _ hb
    rw [(fillBlocks_spec (sizes es) _ _).2, zero_mul]
    rintro k' hk2 i' j' hi' hj' ⟨ha, hb'⟩
    obtain ⟨rfl, rfl⟩ := ptr_unique _ hk' hk2 (hsz i) hi' ha
    have hj2 : j' < (velOf es k).length := by rwa [sizes_get es k hk, ← hv] at hj'
    exact hb (Finset.mem_image.2 ⟨⟨j', hj2⟩, Finset.mem_univ _, Fin.ext hb'.symm⟩)

theorem equilibriumOf_some (la : K) (es : List (Entry K dim nc)) (k : Nat) (hk : k < es.length) (hfit : es[k].Fits) :
    ∃ l, equilibriumOf la es k es[k] = some l ∧ l.length = es[k].vel.length ∧
      (es[k].feq = none → l = es[k].meq) ∧
      ∀ g, es[k].feq = some g → ∀ i, i < es[k].vel.length →
        l.getD i (fun _ => 0) = fun w => ((List.range es[k].vel.length).map fun j =>
          wholeM la es (ptr (sizes es) k + i) (ptr (sizes es) k + j) * ((g es[k].vel).getD j fun _ => 0) w).sum := by
  rcases hfit.equilibrium with ⟨h1, h2⟩ | ⟨h1, g, h2, h3⟩
  · refine ⟨es[k].meq, ?_, h2, fun _ => rfl, fun g hg => by rw [h1] at hg; simp at hg⟩
    unfold equilibriumOf
    rw [h1]
    cases es[k].meq <;> rfl
  · refine ⟨_, by unfold equilibriumOf; rw [h1, h2]; simp only [velOf_eq es k hk, if_pos h3]; rfl, by simp,
      fun h => by rw [h2] at h; simp at h, fun g' hg i hi => ?_⟩
    rw [h2] at hg
    obtain rfl := Option.some.inj hg
    simp [List.getD_eq_getElem?_getD, hi]

theorem mapM_zipIdx {α β : Type} (f : Nat → α → Option β) (es : List α) (m : Nat) :
    (∀ l, (es.zipIdx m).mapM (fun p => f p.2 p.1) = some l →
      l.length = es.length ∧ ∀ k (hk : k < es.length), ∃ b, f (m + k) es[k] = some b ∧ l[k]? = some b) ∧
    ((∀ k (hk : k < es.length), (f (m + k) es[k]).isSome) →
      ((es.zipIdx m).mapM (fun p => f p.2 p.1)).isSome) := by
  induction es generalizing m with
  | nil => simp
  | cons e es ih =>
    obtain ⟨ih1, ih2⟩ := ih (m + 1)
    constructor
    · intro l hl
      rw [List.zipIdx_cons, List.mapM_cons] at hl
      simp only [Option.bind_eq_bind, Option.bind_eq_some_iff, Option.pure_def, Option.some.injEq] at hl
      obtain ⟨b, hb, l', hl', rfl⟩ := hl
      obtain ⟨h1, h2⟩ := ih1 l' hl'
      refine ⟨by simp [h1], fun k hk => ?_⟩
      cases k with
      | zero => exact ⟨b, hb, rfl⟩
      | succ k =>
        obtain ⟨b', h3, h4⟩ := h2 k (by simpa using hk)
        exact ⟨b', by rw [show m + (k + 1) = m + 1 + k by omega]; simpa using h3, by simpa using h4⟩
    · intro h
      rw [List.zipIdx_cons, List.mapM_cons]
      obtain ⟨b, hb⟩ := Option.isSome_iff_exists.1 (h 0 (by simp))
      obtain ⟨l', hl'⟩ := Option.isSome_iff_exists.1 (ih2 fun k hk => by
        have := h (k + 1) (by simpa using hk)
        rw [show m + (k + 1) = m + 1 + k by omega] at this
        simpa using this)
      simp only [Nat.add_zero, List.getElem_cons_zero] at hb
      simp [hb, hl']

/-- The vector of the equilibria when the sizes are right. -/
theorem getEquilibrium_at (la : K) (es : List (Entry K dim nc)) (hfit : ∀ e ∈ es, e.Fits) :
    ∃ eq, getEquilibrium la es = some eq ∧ eq.length = (sizes es).sum ∧
      ∀ k (hk : k < es.length), ∃ l, equilibriumOf la es k es[k] = some l ∧
        ∀ i, i < es[k].vel.length → eq.getD (ptr (sizes es) k + i) (fun _ => 0) = l.getD i fun _ => 0 := by
  obtain ⟨h1, h2⟩ := mapM_zipIdx (fun k e => equilibriumOf la es k e) es 0
  have hsome := fun k (hk : k < es.length) => equilibriumOf_some la es k hk (hfit _ (List.getElem_mem hk))
  obtain ⟨ll, hll⟩ := Option.isSome_iff_exists.1 (h2 fun k hk => by
    obtain ⟨l, hl, _⟩ := hsome k hk
    rw [Nat.zero_add, hl]; rfl)
  obtain ⟨h3, h4⟩ := h1 ll hll
  have hlen : ll.map List.length = sizes es := by
    apply List.ext_getElem
    · simp [sizes, h3]
    · intro k hk hk'
      have hk2 : k < es.length := by simpa [sizes] using hk'
      obtain ⟨b, hb, hb'⟩ := h4 k hk2
      rw [Nat.zero_add] at hb
      obtain ⟨l, hl, hl2, _⟩ := hsome k hk2
      rw [hl] at hb
      obtain rfl := Option.some.inj hb
      rw [List.getElem?_eq_getElem (by omega)] at hb'
      rw [List.getElem_map, Option.some.inj hb', hl2, sizes_get es k hk2]
  refine ⟨ll.flatten, by simp [getEquilibrium, hll], ?_, fun k hk => ?_⟩
  · rw [List.length_flatten, hlen]
  · obtain ⟨b, hb, hb'⟩ := h4 k hk
    rw [Nat.zero_add] at hb
    refine ⟨b, hb, fun i hi => ?_⟩
    obtain ⟨l, hl, hl2, _⟩ := hsome k hk
    rw [hl] at hb
    obtain rfl := Option.some.inj hb
    have hkl : k < ll.length := by omega
    rw [List.getElem?_eq_getElem hkl] at hb'
    have := flat_at ll id List.length k i hkl (fun e _ => rfl) (by rw [Option.some.inj hb', hl2]; exact hi) fun _ => 0
    rw [hlen, List.flatMap_id, Option.some.inj hb'] at this
    exact this

theorem assemble_spec (la : K) (es : List (Entry K dim nc)) (consm : Fin nc → Fin (sizes es).sum)
    (D : Data K (sizes es).sum nc d) (h : assemble la es consm = some D) :
    (∀ k < es.length, (inv (blockM la es k)).isSome) ∧ D.M = toMatrix _ (wholeM la es) ∧
    D.invM = toMatrix _ (wholeInvM la es) ∧ D.consm = consm ∧
    (∀ i, D.s i = (es.flatMap Entry.relax).getD i fun _ => 0) ∧
    ∃ eq, getEquilibrium la es = some eq ∧ ∀ i, D.EQ i = eq.getD i fun _ => 0 := by
  unfold assemble at h
  simp only at h
  split_ifs at h with h1
  cases he : getEquilibrium la es with
  | none => rw [he] at h; simp at h
  | some eq =>
    rw [he] at h
    simp only at h
    split_ifs at h with h2
    obtain rfl := Option.some.inj h
    exact ⟨h1.2.1, rfl, rfl, rfl, fun _ => rfl, eq, rfl, fun _ => rfl⟩

theorem sum_range_list (m : Nat) (f : Nat → K) : ((List.range m).map f).sum = ∑ j : Fin m, f j := by
  induction m with
  | zero => simp
  | succ m ih =>
    rw [List.range_succ, List.map_append, List.sum_append, ih, Fin.sum_univ_castSucc]
    simp

theorem polyAt_eq (es : List (Entry K dim nc)) (hfit : ∀ e ∈ es, e.Fits) (k i : Nat) (hk : k < es.length)
    (hi : i < es[k].vel.length) : es[k].polynomials[i]? = some (polyAt es k i) := by
  have := flat_at es Entry.polynomials (fun e => e.vel.length) k i hk (fun e he => (hfit e he).polynomials) hi
    (fun _ => (0 : K))
  unfold polyAt sizes
  rw [this, List.getD_eq_getElem?_getD]
  have := (hfit _ (List.getElem_mem hk)).polynomials
  rw [List.getElem?_eq_getElem (by omega)]
  rfl

/-- The equilibrium of a scheme given by `feq`, on its block. -/
theorem cut_equilibrium (la : K) (es : List (Entry K dim nc)) (hfit : ∀ e ∈ es, e.Fits)
    (consm : Fin nc → Fin (sizes es).sum) (D : Data K (sizes es).sum nc d) (h : assemble la es consm = some D)
    (k : Nat) (hk : k < es.length) (g) (hg : es[k].feq = some g) (w : Fin nc → K) :
    cut es k (fun i => D.EQ i w) = blockM la es k *ᵥ fun j => ((g es[k].vel).getD j fun _ => 0) w := by
  obtain ⟨_, _, _, _, _, eq, heq, hEQ⟩ := assemble_spec la es consm D h
  obtain ⟨eq', h1, _, h3⟩ := getEquilibrium_at la es hfit
  rw [heq] at h1
  obtain rfl := Option.some.inj h1
  obtain ⟨l, hl, h4⟩ := h3 k hk
  obtain ⟨l', hl', _, _, h5⟩ := equilibriumOf_some la es k hk (hfit _ (List.getElem_mem hk))
  rw [hl] at hl'
  obtain rfl := Option.some.inj hl'
  have hv := velOf_eq es k hk
  funext i
  have hi : (i : Nat) < es[k].vel.length := by rw [← hv]; exact i.2
  have hk' : k < (sizes es).length := by simpa [sizes] using hk
  rw [cut, dif_pos (ptr_lt es k i hk hi), hEQ, h4 i hi, h5 g hg i hi]
  simp only
  rw [← hv, sum_range_list]
  simp only [Matrix.mulVec, dotProduct]
  apply Finset.sum_congr rfl
  intro j _
  have hj : (j : Nat) < es[k].vel.length := by rw [← hv]; exact j.2
  congr 1
  unfold wholeM
  rw [(fillBlocks_spec (sizes es) _ _).1 k hk' i j (by rw [sizes_get es k hk]; exact hi)
    (by rw [sizes_get es k hk]; exact hj)]
  simp [entry]

theorem block_inv (la : K) (es : List (Entry K dim nc)) (k : Nat) (h : (inv (blockM la es k)).isSome)
    (x : Fin (velOf es k).length → K) : ((inv (blockM la es k)).getD 0) *ᵥ (blockM la es k *ᵥ x) = x := by
  obtain ⟨B, hB⟩ := Option.isSome_iff_exists.1 h
  rw [hB, Option.getD_some, Matrix.mulVec_mulVec, (inv_spec hB).2, Matrix.one_mulVec]

/-! ## The property -/

/-- **C77, construction.** When the entries have the sizes of the stencils and the matrices of the schemes are
invertible, the construction succeeds. -/
theorem C77_succeeds (la : K) (es : List (Entry K dim nc)) (hfit : ∀ e ∈ es, e.Fits)
    (consm : Fin nc → Fin (sizes es).sum)
    (hdet : ∀ k (hk : k < es.length), ∀ P : Fin es[k].vel.length → (Fin dim → K) → K,
      (∀ i : Fin es[k].vel.length, es[k].polynomials[(i : Nat)]? = some (P i)) →
      (Matrix.of fun i j : Fin es[k].vel.length => P i fun x => (es[k].vel[j] x : K) * la).det ≠ 0) :
    ∃ D : Data K (sizes es).sum nc d, assemble la es consm = some D := by
  obtain ⟨eq, h1, h2, _⟩ := getEquilibrium_at la es hfit
  have hl : ∀ (f : Entry K dim nc → List ((Fin dim → K) → K)), (∀ e ∈ es, (f e).length = e.vel.length) →
      (es.flatMap f).length = (sizes es).sum := by
    intro f hf
    rw [List.length_flatMap]
    exact congrArg List.sum (List.map_congr_left hf)
  have hl' : (es.flatMap Entry.relax).length = (sizes es).sum := by
    rw [List.length_flatMap]
    exact congrArg List.sum (List.map_congr_left fun e he => (hfit e he).relax)
  apply Option.isSome_iff_exists.1
  unfold assemble
  simp only
  have hinv : ∀ k < es.length, (inv (blockM la es k)).isSome := by
    intro k hk
    have hv := velOf_eq es k hk
    have hd := hdet k hk (fun i => polyAt es k i) (fun i => polyAt_eq es hfit k i hk i.2)
    unfold inv
    rw [if_pos]
    · rfl
    · have gen : ∀ l, l = es[k].vel → (localM la (fun j : Fin l.length => l[j]) fun i => polyAt es k i).det ≠ 0 := by
        rintro l rfl
        exact hd
      exact gen _ hv
  rw [if_pos ⟨(hl _ fun e he => (hfit e he).polynomials).ge, hinv, hl'⟩, h1]
  simp only
  rw [if_pos h2]
  rfl

/-- **C77, what is refused**: a scheme which is built has not both `feq` and `equilibrium`, the function `feq` gives one
value for each velocity, and the relaxation parameters are as many as the velocities, all schemes together (but not
scheme by scheme, `C77_sizes_negation`). -/
theorem C77_refused (la : K) (es : List (Entry K dim nc)) (consm : Fin nc → Fin (sizes es).sum)
    (D : Data K (sizes es).sum nc d) (h : assemble la es consm = some D) :
    (∀ e ∈ es, e.meq = [] ∨ e.feq = none) ∧ (∀ e ∈ es, ∀ g, e.feq = some g → (g e.vel).length = e.vel.length) ∧
    (es.map fun e => e.relax.length).sum = (es.map fun e => e.vel.length).sum := by
  unfold assemble at h
  simp only at h
  split_ifs at h with h1
  have hk : ∀ k (hk : k < es.length), (equilibriumOf la es k es[k]).isSome := by
    intro k hk
    cases hg : getEquilibrium la es with
    | none => rw [hg] at h; simp at h
    | some eq =>
      unfold getEquilibrium at hg
      rw [Option.map_eq_some_iff] at hg
      obtain ⟨ll, hll, _⟩ := hg
      obtain ⟨b, hb, _⟩ := ((mapM_zipIdx (fun k e => equilibriumOf la es k e) es 0).1 ll hll).2 k hk
      rw [Nat.zero_add] at hb
      rw [hb]; rfl
  refine ⟨fun e he => ?_, fun e he g hg => ?_, ?_⟩
  · obtain ⟨k, hkl, rfl⟩ := List.getElem_of_mem he
    have := hk k hkl
    unfold equilibriumOf at this
    cases hm : es[k].meq with
    | nil => exact .inl rfl
    | cons a l =>
      cases hf : es[k].feq with
      | none => exact .inr rfl
      | some g => rw [hm, hf] at this; simp at this
  · obtain ⟨k, hkl, rfl⟩ := List.getElem_of_mem he
    have := hk k hkl
    unfold equilibriumOf at this
    cases hm : es[k].meq with
    | nil =>
      rw [hm, hg] at this
      simp only [velOf_eq es k hkl] at this
      by_contra hne
      rw [if_neg hne] at this
      simp at this
    | cons a l => rw [hm, hg] at this; simp at this
  · have := h1.2.2
    rw [List.length_flatMap] at this
    exact this

/-- **C77, places.** The entry `i` of the scheme `k` is the entry of the global vectors at the place of the `i`-th
velocity of this scheme, and the matrices are those of the polynomials of each scheme. -/
theorem C77_places (la : K) (es : List (Entry K dim nc)) (hfit : ∀ e ∈ es, e.Fits)
    (consm : Fin nc → Fin (sizes es).sum) (D : Data K (sizes es).sum nc d) (h : assemble la es consm = some D)
    (k : Nat) (hk : k < es.length) (i : Nat) (hi : i < es[k].vel.length) (a : Fin (sizes es).sum)
    (ha : (a : Nat) = ((es.take k).map fun e => e.vel.length).sum + i) :
    es[k].relax[i]? = some (D.s a) ∧ (es[k].feq = none → es[k].meq[i]? = some (D.EQ a)) ∧
    (∀ (f : Fin (sizes es).sum → K) (p), es[k].polynomials[i]? = some p →
      ∀ fk : Fin es[k].vel.length → K,
      (∀ (j : Fin es[k].vel.length) (b : Fin (sizes es).sum),
        (b : Nat) = ((es.take k).map fun e => e.vel.length).sum + j → f b = fk j) →
      (D.M *ᵥ f) a = ∑ j : Fin es[k].vel.length, p (fun x => (es[k].vel[j] x : K) * la) * fk j) ∧
    D.M * D.invM = 1 ∧ D.invM * D.M = 1 := by
  have hp : ((es.take k).map fun e => e.vel.length).sum = ptr (sizes es) k := by
    simp [ptr, sizes, List.map_take]
  rw [hp] at ha
  rw [hp]
  have hv := velOf_eq es k hk
  obtain ⟨hinv, hM, hI, _, hs, eq, heq, hEQ⟩ := assemble_spec la es consm D h
  refine ⟨?_, ?_, ?_, ?_⟩
  · rw [hs, ha, sizes, flat_at es Entry.relax (fun e => e.vel.length) k i hk (fun e he => (hfit e he).relax) hi,
      List.getD_eq_getElem?_getD]
    have := (hfit _ (List.getElem_mem hk)).relax
    rw [List.getElem?_eq_getElem (by omega)]
    rfl
  · intro hf
    obtain ⟨eq', h1, _, h3⟩ := getEquilibrium_at la es hfit
    rw [heq] at h1
    obtain rfl := Option.some.inj h1
    obtain ⟨l, hl, h4⟩ := h3 k hk
    obtain ⟨l', hl', h6, h5, _⟩ := equilibriumOf_some la es k hk (hfit _ (List.getElem_mem hk))
    rw [hl] at hl'
    obtain rfl := Option.some.inj hl'
    rw [hEQ, ha, h4 i hi, ← h5 hf, List.getD_eq_getElem?_getD, List.getElem?_eq_getElem (by omega)]
    rfl
  · intro f p hpol fk hfk
    rw [polyAt_eq es hfit k i hk hi] at hpol
    obtain rfl := Option.some.inj hpol
    have h1 := congrFun (cut_mulVec es (fun k => blockM la es k) k hk f) ⟨i, by rw [hv]; exact hi⟩
    have h2 : cut es k (toMatrix _ (wholeM la es) *ᵥ f) ⟨i, by rw [hv]; exact hi⟩ = (D.M *ᵥ f) a := by
      rw [cut, dif_pos (ptr_lt es k i hk hi), hM]
      congr 1
      exact Fin.ext ha.symm
    rw [← h2]
    refine h1.trans ?_
    simp only [Matrix.mulVec, dotProduct, blockM, localM, Matrix.of_apply]
    have gen : ∀ l, l = es[k].vel → (∑ j : Fin l.length, polyAt es k i (fun x => (l[j] x : K) * la) *
        (if h : ptr (sizes es) k + j < (sizes es).sum then f ⟨_, h⟩ else 0)) =
        ∑ j : Fin es[k].vel.length, polyAt es k i (fun x => (es[k].vel[j] x : K) * la) * fk j := by
      rintro l rfl
      apply Finset.sum_congr rfl
      intro j _
      rw [dif_pos (ptr_lt es k j hk j.2), hfk j _ rfl]
    exact gen _ hv
  · rw [hM, hI]
    have key : ∀ X Y : ∀ k, Matrix (Fin (velOf es k).length) (Fin (velOf es k).length) K,
        (∀ k < es.length, X k * Y k = 1) →
        toMatrix (sizes es).sum (fillBlocks (sizes es) (fun k => entry (X k)) fun _ _ => 0) *
          toMatrix (sizes es).sum (fillBlocks (sizes es) (fun k => entry (Y k)) fun _ _ => 0) = 1 := by
      intro X Y hXY
      apply toMatrix_inverse
      intro k hk i l hi hl
      have hk' : k < es.length := by simpa [sizes] using hk
      rw [sizes_get es k hk', ← velOf_eq es k hk'] at hi hl ⊢
      have := congrFun (congrFun (hXY k hk') ⟨i, hi⟩) ⟨l, hl⟩
      rw [Matrix.mul_apply, Matrix.one_apply] at this
      simp only [Fin.mk.injEq] at this
      rw [← this, Finset.sum_range]
      apply Finset.sum_congr rfl
      intro b _
      simp [entry, hi, hl]
    refine ⟨key _ _ fun k hk => ?_, key _ _ fun k hk => ?_⟩
    · obtain ⟨B, hB⟩ := Option.isSome_iff_exists.1 (hinv k hk)
      rw [hB]; exact (inv_spec hB).1
    · obtain ⟨B, hB⟩ := Option.isSome_iff_exists.1 (hinv k hk)
      rw [hB]; exact (inv_spec hB).2

/-- **C77, `feq`.** The distribution functions of the equilibrium of a scheme given by `feq` are the values of `feq`
at its velocities. -/
theorem C77_feq (la : K) (es : List (Entry K dim nc)) (hfit : ∀ e ∈ es, e.Fits)
    (consm : Fin nc → Fin (sizes es).sum) (D : Data K (sizes es).sum nc d) (h : assemble la es consm = some D)
    (k : Nat) (hk : k < es.length) (g) (hg : es[k].feq = some g) (w : Fin nc → K) (j : Nat)
    (hj : j < es[k].vel.length) (a : Fin (sizes es).sum)
    (ha : (a : Nat) = ((es.take k).map fun e => e.vel.length).sum + j) :
    ∃ q, (g es[k].vel)[j]? = some q ∧ (D.invM *ᵥ fun i => D.EQ i w) a = q w := by
  have hp : ((es.take k).map fun e => e.vel.length).sum = ptr (sizes es) k := by
    simp [ptr, sizes, List.map_take]
  rw [hp] at ha
  have hv := velOf_eq es k hk
  obtain ⟨hinv, _, hI, _⟩ := assemble_spec la es consm D h
  have hgl : (g es[k].vel).length = es[k].vel.length := by
    rcases (hfit _ (List.getElem_mem hk)).equilibrium with ⟨h1, _⟩ | ⟨_, g', h1, h2⟩
    · rw [hg] at h1; simp at h1
    · rw [hg] at h1
      obtain rfl := Option.some.inj h1
      exact h2
  refine ⟨(g es[k].vel)[j]'(by omega), List.getElem?_eq_getElem (by omega), ?_⟩
  have h1 := congrFun (cut_mulVec es (fun k => (inv (blockM la es k)).getD 0) k hk fun i => D.EQ i w)
    ⟨j, by rw [hv]; exact hj⟩
  rw [cut_equilibrium la es hfit consm D h k hk g hg w, block_inv la es k (hinv k hk)] at h1
  rw [cut, dif_pos (ptr_lt es k j hk hj)] at h1
  refine (congrArg (D.invM *ᵥ fun i => D.EQ i w) (Fin.ext ha : a = ⟨_, ptr_lt es k j hk hj⟩)).trans ?_
  rw [hI]
  refine h1.trans ?_
  simp [List.getD_eq_getElem?_getD, List.getElem?_eq_getElem (show j < (g es[k].vel).length by omega)]

/-- **C77, BGK.** When a scheme is given by `feq` and its relaxation parameters are all `ω`, its distribution functions
relax towards `feq`: `f_j → (1 - ω) f_j + ω feq_j`, whatever the polynomials of the scheme and the other schemes. -/
theorem C77_bgk (la : K) (es : List (Entry K dim nc)) (hfit : ∀ e ∈ es, e.Fits)
    (consm : Fin nc → Fin (sizes es).sum) (D : Data K (sizes es).sum nc d) (h : assemble la es consm = some D)
    (k : Nat) (hk : k < es.length) (g) (hg : es[k].feq = some g) (ω : (Fin nc → K) → K)
    (hω : ∀ r ∈ es[k].relax, r = ω) (f : Fin (sizes es).sum → K) (j : Nat)
    (hj : j < es[k].vel.length) (a : Fin (sizes es).sum)
    (ha : (a : Nat) = ((es.take k).map fun e => e.vel.length).sum + j) :
    let w : Fin nc → K := fun c => (D.M *ᵥ f) (consm c)
    ∃ q, (g es[k].vel)[j]? = some q ∧
      collision D.M D.invM D.consm D.EQ D.s f a = (1 - ω w) * f a + ω w * q w := by
  intro w
  obtain ⟨q, hq, hqa⟩ := C77_feq la es hfit consm D h k hk g hg w j hj a ha
  refine ⟨q, hq, ?_⟩
  obtain ⟨hinv, hM, hI, hc, _⟩ := assemble_spec la es consm D h
  have hp : ((es.take k).map fun e => e.vel.length).sum = ptr (sizes es) k := by
    simp [ptr, sizes, List.map_take]
  have hv := velOf_eq es k hk
  have hw : (D.M *ᵥ f) ∘ D.consm = w := by rw [hc]; rfl
  have h1 : cut es k (relaxed D.consm D.EQ D.s (D.M *ᵥ f)) =
      (1 - ω w) • cut es k (D.M *ᵥ f) + ω w • cut es k (fun i => D.EQ i w) := by
    funext i
    have hi : (i : Nat) < es[k].vel.length := by rw [← hv]; exact i.2
    have hs := (C77_places la es hfit consm D h k hk i hi ⟨_, ptr_lt es k i hk hi⟩ (by rw [hp])).1
    have hs' := hω _ (List.mem_of_getElem? hs)
    simp only [Pi.add_apply, Pi.smul_apply, smul_eq_mul, cut, dif_pos (ptr_lt es k i hk hi), relaxed, hw, hs']
  have key : ∀ x : Fin (sizes es).sum → K, (D.invM *ᵥ x) a =
      (((inv (blockM la es k)).getD 0) *ᵥ cut es k x) ⟨j, by rw [hv]; exact hj⟩ := by
    intro x
    rw [← cut_mulVec es (fun k => (inv (blockM la es k)).getD 0) k hk x, cut, dif_pos (ptr_lt es k j hk hj), hI]
    congr 1
    exact Fin.ext (by rw [ha, hp])
  unfold collision
  rw [key, h1, Matrix.mulVec_add, Matrix.mulVec_smul, Matrix.mulVec_smul, Pi.add_apply, Pi.smul_apply, Pi.smul_apply,
    ← key, ← key, hqa, smul_eq_mul, smul_eq_mul, Matrix.mulVec_mulVec,
    (C77_places la es hfit consm D h k hk j hj a ha).2.2.2.2, Matrix.one_mulVec]

/-- **C77, generated code (partial).** The same for the functions of both algorithms generated from the reordered
scheme, without source term and without relative velocity, when the conserved moments keep their order: what is missing
is false, see `C36_order_negation`, `C45_coupled_negation`. -/
theorem C77_code_partial (la : K) (es : List (Entry K dim nc)) (hfit : ∀ e ∈ es, e.Fits)
    (consm : Fin nc → Fin (sizes es).sum) (D : Data K (sizes es).sum nc d) (h : assemble la es consm = some D)
    (hn : nc ≤ (sizes es).sum) (hinj : Function.Injective consm) (hord : ∀ j : Fin nc, (j : Nat) ≤ (consm j : Nat))
    (hEQ : ∀ j w, D.EQ (consm j) w = w j)
    (S : Kernel K (sizes es).sum nc d) (hS : S.toData = D.permute hn) (hsrc : ∀ i, S.source i = none)
    (k : Nat) (hk : k < es.length) (g) (hg : es[k].feq = some g) (ω : (Fin nc → K) → K)
    (hω : ∀ r ∈ es[k].relax, r = ω) (f : Fin (sizes es).sum → K) (x : Local K (sizes es).sum d) (j : Nat)
    (hj : j < es[k].vel.length) (a : Fin (sizes es).sum)
    (ha : (a : Nat) = ((es.take k).map fun e => e.vel.length).sum + j) :
    let w : Fin nc → K := fun c => (D.M *ᵥ f) (consm c)
    ∃ q, (g es[k].vel)[j]? = some q ∧
      (S.run f x (pullStep _ nc d false)).fnew a = (1 - ω w) * f a + ω w * q w ∧
      (S.run f x (baseStep _ nc d false)).fnew a = (1 - ω w) * f a + ω w * q w := by
  intro w
  obtain ⟨q, hq, hqa⟩ := C77_bgk la es hfit consm D h k hk g hg ω hω f j hj a ha
  have hc := (assemble_spec la es consm D h).2.2.2.1
  subst hc
  obtain ⟨h1, h2⟩ := C36_collision_partial hn D hinj hord
  have hEQ' : ∀ j w, S.EQ (S.consm j) w = w j := by
    intro j w
    rw [hS, (h1 j).2.2, hEQ]
  obtain ⟨h3, h4⟩ := step_collision S hEQ' hsrc f x
  refine ⟨q, hq, ?_, ?_⟩
  · rw [h3, hS, h2]; exact hqa
  · rw [h4, hS, h2]; exact hqa

end assembly

/-! ## Concrete cases -/

/-- A D1Q2 scheme (velocities 1 and -1, polynomials 1 and X) given by `feq = (u / 2 + u ^ 2 / 4, u / 2 - u ^ 2 / 4)`
where `u` is the conserved moment `c`. -/
def burgers (c : Fin 2) (r : List ((Fin 2 → ℚ) → ℚ)) : Entry ℚ 1 2 where
  vel := [fun _ => 1, fun _ => -1]
  polynomials := [fun _ => 1, fun x => x 0]
  relax := r
  meq := []
  feq := some fun v => v.map fun v w => w c / 2 + (v 0 : ℚ) * w c ^ 2 / 4

/-- The blocks of two such schemes are invertible. -/
theorem burgers_det (r r' : List ((Fin 2 → ℚ) → ℚ)) (k : Nat) (hk : k < 2) :
    (inv (blockM 1 [burgers 0 r, burgers 1 r'] k)).isSome := by
  unfold inv
  rw [if_pos]
  · rfl
  · have : k = 0 ∨ k = 1 := by omega
    rcases this with rfl | rfl
    · show (Matrix.of ![![(1 : ℚ), 1], ![((1 : Int) : ℚ) * 1, ((-1 : Int) : ℚ) * 1]]).det ≠ 0
      rw [Matrix.det_fin_two]
      norm_num
    · show (Matrix.of ![![(1 : ℚ), 1], ![((1 : Int) : ℚ) * 1, ((-1 : Int) : ℚ) * 1]]).det ≠ 0
      rw [Matrix.det_fin_two]
      norm_num

/-- **C77: entries of wrong sizes are accepted when the sizes compensate** (scheme.py 243-256 only writes a message in
the log): with three relaxation parameters for the first scheme and one for the second, the third parameter of the
first scheme is used for the first moment of the second scheme. -/
theorem C77_sizes_negation : ∃ (e₀ e₁ : Entry ℚ 1 2) (consm : Fin 2 → Fin (sizes [e₀, e₁]).sum)
    (D : Data ℚ (sizes [e₀, e₁]).sum 2 0) (a : Fin (sizes [e₀, e₁]).sum), assemble 1 [e₀, e₁] consm = some D ∧
    ¬ e₀.Fits ∧ e₁.relax ≠ [] ∧ (a : Nat) = e₀.vel.length ∧ e₀.relax[2]? = some (D.s a) ∧ D.s a ∉ e₁.relax := by
  obtain ⟨D, hD⟩ : ∃ D, assemble (d := 0) 1 [burgers 0 [fun _ => 0, fun _ => 1, fun _ => 3 / 2], burgers 1 [fun _ => 0]]
      ![⟨0, by decide⟩, ⟨2, by decide⟩] = some D := by
    apply Option.isSome_iff_exists.1
    unfold assemble
    simp only
    rw [if_pos ⟨by decide, burgers_det _ _, by decide⟩]
    rfl
  refine ⟨_, _, _, D, ⟨2, by decide⟩, hD, fun h => ?_, ?_, rfl, ?_, ?_⟩
  · have := h.relax
    revert this
    decide
  · simp [burgers]
  · rw [(assemble_spec _ _ _ _ hD).2.2.2.2.1]; rfl
  · rw [(assemble_spec _ _ _ _ hD).2.2.2.2.1]
    intro h
    have h2 := congrFun (List.mem_singleton.1 h) 0
    revert h2
    decide +kernel

/-- Two coupled schemes, relaxation parameters 3/2 and 1. -/
def pair : List (Entry ℚ 1 2) :=
  [burgers 0 [fun _ => 3 / 2, fun _ => 3 / 2], burgers 1 [fun _ => 1, fun _ => 1]]

/-- The positions of the conserved moments of `pair`. -/
def pairPos : Fin 2 → Fin (sizes pair).sum := ![⟨0, by decide⟩, ⟨2, by decide⟩]

/-- The hypotheses of the theorems are met by two coupled schemes. -/
example : ∃ D : Data ℚ (sizes pair).sum 2 0, assemble 1 pair pairPos = some D ∧ (∀ e ∈ pair, e.Fits) ∧
    (∀ j w, D.EQ (pairPos j) w = w j) ∧ Function.Injective pairPos ∧ ∀ j : Fin 2, (j : Nat) ≤ (pairPos j : Nat) := by
  have hfit : ∀ e ∈ pair, e.Fits := by
    intro e he
    simp only [pair, List.mem_cons, List.not_mem_nil, or_false] at he
    rcases he with rfl | rfl <;> exact ⟨rfl, rfl, Or.inr ⟨rfl, _, rfl, rfl⟩⟩
  obtain ⟨D, hD⟩ : ∃ D : Data ℚ (sizes pair).sum 2 0, assemble 1 pair pairPos = some D := by
    apply Option.isSome_iff_exists.1
    unfold assemble
    simp only
    rw [if_pos ⟨by decide, burgers_det _ _, by decide⟩]
    rfl
  refine ⟨D, hD, hfit, fun j w => ?_, by decide, by decide⟩
  obtain ⟨_, _, _, _, _, eq, heq, hEQ⟩ := assemble_spec _ _ _ _ hD
  have : getEquilibrium 1 pair = some _ := rfl
  rw [this] at heq
  obtain rfl := Option.some.inj heq
  have e1 : wholeM 1 pair 0 0 = 1 := by decide +kernel
  have e2 : wholeM 1 pair 0 1 = 1 := by decide +kernel
  have e3 : wholeM 1 pair 2 2 = 1 := by decide +kernel
  have e4 : wholeM 1 pair 2 3 = 1 := by decide +kernel
  rw [hEQ]
  fin_cases j
  · show wholeM 1 pair 0 0 * (w 0 / 2 + ((1 : Int) : ℚ) * w 0 ^ 2 / 4) +
      (wholeM 1 pair 0 1 * (w 0 / 2 + ((-1 : Int) : ℚ) * w 0 ^ 2 / 4) + 0) = w 0
    rw [e1, e2]; push_cast; ring
  · show wholeM 1 pair 2 2 * (w 1 / 2 + ((1 : Int) : ℚ) * w 1 ^ 2 / 4) +
      (wholeM 1 pair 2 3 * (w 1 / 2 + ((-1 : Int) : ℚ) * w 1 ^ 2 / 4) + 0) = w 1
    rw [e3, e4]; push_cast; ring

end Pylbm.Scheme
