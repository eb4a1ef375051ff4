import Verif.Scheme.Permute
import Verif.Scheme.Matrices
/-!
# C104: one dictionary used for several objects

The matrices of SymPy are mutable objects, and `Scheme` keeps the one which the user has put in the dictionary under the
key `M` (scheme.py 161-162), then swaps its rows in place (230-238).  The memory is modelled explicitly here: a dictionary
and the schemes built from it contain references.
-/
namespace Pylbm.Scheme
open Matrix SchemeSpec

/-! ## Model -/

section model
variable {K : Type} [Field K] {n nc d : Nat}

/-- The matrices in memory: the content of each, and the first free place. -/
structure Memory (K : Type) (n : Nat) where
  mat : Nat → Matrix (Fin n) (Fin n) K
  next : Nat

/-- Where the matrix of the moments comes from, scheme.py 160-171: the object under the key `M`, or the polynomials (the
matrix which is computed from them by `_create_moments_matrices` for the given velocities is `assemble` of C77). -/
inductive Source (K : Type) (n : Nat)
  | object (ref : Nat)
  | polynomials (M : Matrix (Fin n) (Fin n) K)

/-- The equilibrium: in moments (`equilibrium`) or in distribution functions (`feq`), as functions of the values of the
conserved moments. -/
inductive Equil (K : Type) (n nc : Nat)
  | moments (e : Fin n → (Fin nc → K) → K)
  | distributions (f : Fin n → (Fin nc → K) → K)

/-- The entries of a dictionary with one scheme (several schemes in one dictionary always use polynomials, scheme.py 161).
The translation matrices are those of the polynomials. -/
structure Desc (K : Type) (n nc d : Nat) where
  source : Source K n
  eq : Equil K n nc
  s : Fin n → (Fin nc → K) → K
  Tu : (Fin d → K) → Matrix (Fin n) (Fin n) K
  Tmu : (Fin d → K) → Matrix (Fin n) (Fin n) K

/-- The attributes of a scheme; `M` is a reference, the other matrices belong to the object (they are created by
`inv`, `eye` and products). -/
structure Obj (K : Type) (n nc d : Nat) where
  ref : Nat
  invM : Matrix (Fin n) (Fin n) K
  Tu : (Fin d → K) → Matrix (Fin n) (Fin n) K
  Tmu : (Fin d → K) → Matrix (Fin n) (Fin n) K
  EQ : Fin n → (Fin nc → K) → K
  s : Fin n → (Fin nc → K) → K
  consm : Fin nc → Fin n

/-- What is read from the attributes. -/
def Obj.data (o : Obj K n nc d) (μ : Memory K n) : Data K n nc d :=
  ⟨μ.mat o.ref, o.invM, o.Tu, o.Tmu, o.EQ, o.s, o.consm⟩

/-- `self.M`, scheme.py 161-171: the object of the user itself, or a new one. -/
def takeM (μ : Memory K n) : Source K n → Nat × Memory K n
  | .object r => (r, μ)
  | .polynomials M => (μ.next, ⟨Function.update μ.mat μ.next M, μ.next + 1⟩)

/-- `self.Tu` and `self.Tmu`: identity for a given matrix, scheme.py 164-165. -/
def takeT (src : Source K n) (T : (Fin d → K) → Matrix (Fin n) (Fin n) K) : (Fin d → K) → Matrix (Fin n) (Fin n) K :=
  match src with
  | .object _ => fun _ => 1
  | .polynomials _ => T

/-- `_get_equilibrium`, scheme.py 202-223, with the matrix in use. -/
def takeEq (M : Matrix (Fin n) (Fin n) K) : Equil K n nc → Fin n → (Fin nc → K) → K
  | .moments e => e
  | .distributions f => fun i w => ∑ j, M i j * f j w

/-- `leq.index(c)`, scheme.py 599-607: the first entry of the equilibrium which is the conserved moment; expressions are
compared as functions (the product of `feq` is simplified before, scheme.py 221). -/
noncomputable def position (EQ : Fin n → (Fin nc → K) → K) (j : Fin nc) : Option (Fin n) :=
  open Classical in (List.finRange n).find? fun i => decide (EQ i = fun w => w j)

/-- The positions of all the conserved moments; `none` is the `ValueError` of `index`. -/
noncomputable def positions (EQ : Fin n → (Fin nc → K) → K) : Option (Fin nc → Fin n) :=
  open Classical in
  if h : ∀ j, (position EQ j).isSome then some fun j => (position EQ j).get (h j) else none

/-- `Scheme.__init__`, scheme.py 136-190: the memory is changed by the creation of matrices and by the swaps, which are
done in place. -/
noncomputable def construct (h : nc ≤ n) (μ : Memory K n) (e : Desc K n nc d) : Option (Obj K n nc d × Memory K n) :=
  let t := takeM μ e.source
  match Scheme.inv (t.2.mat t.1) with
  | none => none
  | some B =>
    let EQ := takeEq (t.2.mat t.1) e.eq
    match positions EQ with
    | none => none
    | some c =>
      let D := Data.permute h ⟨t.2.mat t.1, B, takeT e.source e.Tu, takeT e.source e.Tmu, EQ, e.s, c⟩
      some (⟨t.1, D.invM, D.Tu, D.Tmu, D.EQ, D.s, D.consm⟩, ⟨Function.update t.2.mat t.1 D.M, t.2.next⟩)

/-- Several constructions one after the other. -/
noncomputable def constructs (h : nc ≤ n) : Memory K n → List (Desc K n nc d) → Option (List (Obj K n nc d) × Memory K n)
  | μ, [] => some ([], μ)
  | μ, e :: es => match construct h μ e with
    | none => none
    | some (o, μ') => match constructs h μ' es with
      | none => none
      | some (os, μ'') => some (o :: os, μ'')

end model

/-! ## Specification -/

section spec
variable {K : Type} [Field K] {n nc d : Nat}

/-- The object of the user exists. -/
def Desc.Known (μ : Memory K n) (e : Desc K n nc d) : Prop := ∀ r, e.source = .object r → r < μ.next

/-- With a matrix, the conserved moments are the first ones, in their order. -/
def Desc.Settled (μ : Memory K n) (e : Desc K n nc d) : Prop :=
  ∀ r, e.source = .object r → ∀ (j : Fin nc) (i : Fin n), position (takeEq (μ.mat r) e.eq) j = some i → (i : Nat) = j

end spec

/-! ## Proofs -/

section proofs
variable {K : Type} [Field K] {n nc d : Nat}

omit [Field K] in
theorem position_spec {EQ : Fin n → (Fin nc → K) → K} {j : Fin nc} {i : Fin n} (h : position EQ j = some i) :
    EQ i = fun w => w j := by
  classical
  unfold position at h
  have := List.find?_some h
  simpa using this

omit [Field K] in
theorem positions_spec {EQ : Fin n → (Fin nc → K) → K} {c : Fin nc → Fin n} (h : positions EQ = some c) (j : Fin nc) :
    position EQ j = some (c j) := by
  unfold positions at h
  split_ifs at h with h1
  obtain rfl := Option.some.inj h
  simp

/-- Two conserved moments are different functions. -/
theorem positions_injective {EQ : Fin n → (Fin nc → K) → K} {c : Fin nc → Fin n} (h : positions EQ = some c) :
    Function.Injective c := by
  intro a b hab
  have ha := position_spec (positions_spec h a)
  have hb := position_spec (positions_spec h b)
  rw [hab, hb] at ha
  by_contra hne
  have := congrFun ha (Pi.single a 1)
  rw [Pi.single_eq_same, Pi.single_eq_of_ne (fun e => hne e.symm)] at this
  exact zero_ne_one this

theorem rho_settled (h : nc ≤ n) (c : Fin nc → Fin n) (hc : ∀ j, (c j : Nat) = j) : rho h c nc = 1 := by
  have : ∀ k, k ≤ nc → rho h c k = 1 := by
    intro k
    induction k with
    | zero => intro _; exact rho_zero h c
    | succ k ih =>
      intro hk
      ext a
      rw [rho_succ h c k (by omega), ih (by omega), show (⟨k, by omega⟩ : Fin n) = c ⟨k, by omega⟩ from
        Fin.ext (hc ⟨k, by omega⟩).symm, Equiv.swap_self]
      rfl
  exact this nc le_rfl

/-- The cases where a construction succeeds, and its result. -/
theorem construct_eq (h : nc ≤ n) (μ : Memory K n) (e : Desc K n nc d) (o : Obj K n nc d) (μ' : Memory K n) :
    construct h μ e = some (o, μ') ↔ ∃ B c, Scheme.inv ((takeM μ e.source).2.mat (takeM μ e.source).1) = some B ∧
      positions (takeEq ((takeM μ e.source).2.mat (takeM μ e.source).1) e.eq) = some c ∧
      o = ⟨(takeM μ e.source).1, Matrix.of fun a b => B a (rho h c nc b),
        fun u => Matrix.of fun a b => takeT e.source e.Tu u (rho h c nc a) (rho h c nc b),
        fun u => Matrix.of fun a b => takeT e.source e.Tmu u (rho h c nc a) (rho h c nc b),
        takeEq ((takeM μ e.source).2.mat (takeM μ e.source).1) e.eq ∘ rho h c nc, e.s ∘ rho h c nc, Fin.castLE h⟩ ∧
      μ' = ⟨Function.update (takeM μ e.source).2.mat (takeM μ e.source).1
        (Matrix.of fun a => (takeM μ e.source).2.mat (takeM μ e.source).1 (rho h c nc a)), (takeM μ e.source).2.next⟩ := by
  unfold construct
  simp only
  cases hB : Scheme.inv ((takeM μ e.source).2.mat (takeM μ e.source).1) with
  | none => simp
  | some B =>
    simp only
    cases hc : positions (takeEq ((takeM μ e.source).2.mat (takeM μ e.source).1) e.eq) with
    | none => simp
    | some c =>
      simp only [permute_eq, Option.some.injEq, Prod.mk.injEq]
      constructor
      · rintro ⟨rfl, rfl⟩
        exact ⟨B, c, rfl, rfl, rfl, rfl⟩
      · rintro ⟨_, _, rfl, rfl, rfl, rfl⟩
        exact ⟨rfl, rfl⟩

/-- The construction with a given matrix. -/
theorem construct_object (h : nc ≤ n) (μ : Memory K n) (e : Desc K n nc d) (r : Nat) (hr : e.source = .object r)
    (B : Matrix (Fin n) (Fin n) K) (c : Fin nc → Fin n) (hB : Scheme.inv (μ.mat r) = some B)
    (hc : positions (takeEq (μ.mat r) e.eq) = some c) :
    construct h μ e = some (⟨r, Matrix.of fun a b => B a (rho h c nc b),
        fun u => Matrix.of fun a b => takeT e.source e.Tu u (rho h c nc a) (rho h c nc b),
        fun u => Matrix.of fun a b => takeT e.source e.Tmu u (rho h c nc a) (rho h c nc b),
        takeEq (μ.mat r) e.eq ∘ rho h c nc, e.s ∘ rho h c nc, Fin.castLE h⟩,
      ⟨Function.update μ.mat r (Matrix.of fun a => μ.mat r (rho h c nc a)), μ.next⟩) := by
  rw [construct_eq]
  exact ⟨B, c, by rw [hr]; exact hB, by rw [hr]; exact hc, by rw [hr]; rfl, by rw [hr]; rfl⟩

/-- The content of the matrix which is taken. -/
def content (μ : Memory K n) : Source K n → Matrix (Fin n) (Fin n) K
  | .object r => μ.mat r
  | .polynomials M => M

omit [Field K] in
theorem takeM_mat (μ : Memory K n) (src : Source K n) : (takeM μ src).2.mat (takeM μ src).1 = content μ src := by
  cases src <;> simp [takeM, content]

omit [Field K] in
theorem takeM_old (μ : Memory K n) (src : Source K n) (r : Nat) (hr : r < μ.next) : (takeM μ src).2.mat r = μ.mat r := by
  cases src with
  | object => rfl
  | polynomials M => simp only [takeM]; rw [Function.update_of_ne (by omega)]

omit [Field K] in
theorem takeM_next (μ : Memory K n) (src : Source K n) (hk : ∀ r, src = .object r → r < μ.next) :
    μ.next ≤ (takeM μ src).2.next ∧ (takeM μ src).1 < (takeM μ src).2.next := by
  cases src with
  | object r => exact ⟨le_rfl, hk r rfl⟩
  | polynomials M => simp [takeM]

/-- What a construction does to the memory. -/
theorem construct_frame (h : nc ≤ n) (μ : Memory K n) (e : Desc K n nc d) (hk : e.Known μ) (o : Obj K n nc d)
    (μ' : Memory K n) (ho : construct h μ e = some (o, μ')) :
    μ.next ≤ μ'.next ∧ o.ref < μ'.next ∧ (e.Settled μ → ∀ r < μ.next, μ'.mat r = μ.mat r) := by
  obtain ⟨B, c, _, hc, rfl, rfl⟩ := (construct_eq h μ e o μ').1 ho
  obtain ⟨h1, h2⟩ := takeM_next μ e.source hk
  refine ⟨h1, h2, fun hs r hr => ?_⟩
  by_cases hrr : r = (takeM μ e.source).1
  · cases hsrc : e.source with
    | polynomials M => rw [hsrc] at hrr; simp only [takeM] at hrr; omega
    | object r' =>
      rw [hsrc] at hrr
      simp only [takeM] at hrr
      subst hrr
      have hset := hs r hsrc
      rw [hsrc] at hc
      simp only [takeM] at hc
      have : rho h c nc = 1 := rho_settled h c fun j => hset j (c j) (positions_spec hc j)
      simp only [takeM, Function.update_self, this]
      rfl
  · simp only
    rw [Function.update_of_ne hrr, takeM_old μ e.source r hr]

/-- The result of a construction only depends on the content of the matrix. -/
theorem construct_agree (h : nc ≤ n) (μ ν : Memory K n) (e : Desc K n nc d) (hμ : content μ e.source = content ν e.source)
    (o : Obj K n nc d) (μ' : Memory K n) (ho : construct h μ e = some (o, μ')) :
    ∃ o' ν', construct h ν e = some (o', ν') ∧ o.data μ' = o'.data ν' := by
  obtain ⟨B, c, hB, hc, rfl, rfl⟩ := (construct_eq h μ e o μ').1 ho
  rw [takeM_mat] at hB hc
  refine ⟨_, _, (construct_eq h ν e _ _).2 ⟨B, c, by rw [takeM_mat, ← hμ]; exact hB, by rw [takeM_mat, ← hμ]; exact hc,
    rfl, rfl⟩, ?_⟩
  simp only [Obj.data, Function.update_self, takeM_mat, hμ]

omit [Field K] in
theorem content_eq {μ ν : Memory K n} (e : Desc K n nc d) (hk : e.Known μ) (h : ∀ r < μ.next, ν.mat r = μ.mat r) :
    content ν e.source = content μ e.source := by
  cases hs : e.source with
  | object r => exact h r (hk r hs)
  | polynomials M => rfl

theorem settled_mono {μ ν : Memory K n} (e : Desc K n nc d) (hk : e.Known μ) (hs : e.Settled μ)
    (h : ∀ r < μ.next, ν.mat r = μ.mat r) : e.Settled ν := by
  intro r hr j i hp
  rw [h r (hk r hr)] at hp
  exact hs r hr j i hp

/-- The inverse of a matrix with its rows in another order. -/
theorem inv_rows {M B : Matrix (Fin n) (Fin n) K} (h : Scheme.inv M = some B) (p : Equiv.Perm (Fin n)) :
    Scheme.inv (Matrix.of fun a => M (p a)) = some (Matrix.of fun a b => B a (p b)) := by
  have hprod : (Matrix.of fun a => M (p a)) * (Matrix.of fun a b => B a (p b)) = 1 := by
    ext a b
    have := congrFun (congrFun (inv_spec h).1 (p a)) (p b)
    simp only [Matrix.mul_apply, Matrix.of_apply, Matrix.one_apply] at this ⊢
    rw [this]
    simp
  unfold Scheme.inv
  have hdet : (Matrix.of fun a => M (p a)).det ≠ 0 := by
    intro h0
    have := congrArg Matrix.det hprod
    rw [Matrix.det_mul, h0, zero_mul, Matrix.det_one] at this
    exact zero_ne_one this
  rw [if_pos hdet, Matrix.inv_eq_right_inv hprod]

theorem rows_injective {M B : Matrix (Fin n) (Fin n) K} (h : Scheme.inv M = some B) : Function.Injective M := by
  intro a b hab
  have h1 := congrFun (congrFun (inv_spec h).1 a) b
  have h2 := congrFun (congrFun (inv_spec h).1 b) b
  rw [Matrix.mul_apply] at h1 h2
  rw [hab, h2, Matrix.one_apply_eq, Matrix.one_apply] at h1
  by_contra hne
  rw [if_neg hne] at h1
  exact one_ne_zero h1

/-! ## The property -/

/-- **C104.**  Any number of schemes, built one after the other from any dictionaries: if the dictionaries give polynomials,
or a matrix where the conserved moments are the first ones, then every construction which would succeed alone succeeds,
the matrices of the user are not changed, and at the end each scheme is what it would be if it were the only one. -/
theorem C104_several_partial (h : nc ≤ n) (es : List (Desc K n nc d)) (μ : Memory K n) (hk : ∀ e ∈ es, e.Known μ)
    (hs : ∀ e ∈ es, e.Settled μ) (hok : ∀ e ∈ es, (construct h μ e).isSome) :
    ∃ os μ', constructs h μ es = some (os, μ') ∧ (∀ r < μ.next, μ'.mat r = μ.mat r) ∧ os.length = es.length ∧
      ∀ k (hk : k < es.length), ∃ o o' μ₁, os[k]? = some o ∧ construct h μ es[k] = some (o', μ₁) ∧
        o.data μ' = o'.data μ₁ := by
  suffices H : ∀ (ν : Memory K n), μ.next ≤ ν.next → (∀ r < μ.next, ν.mat r = μ.mat r) →
      ∃ os μ', constructs h ν es = some (os, μ') ∧ (∀ r < ν.next, μ'.mat r = ν.mat r) ∧ os.length = es.length ∧
      ∀ k (hk : k < es.length), ∃ o o' μ₁, os[k]? = some o ∧ construct h μ es[k] = some (o', μ₁) ∧
        o.data μ' = o'.data μ₁ from H μ le_rfl fun _ _ => rfl
  induction es with
  | nil => exact fun ν _ _ => ⟨[], ν, rfl, fun _ _ => rfl, rfl, fun k hk => absurd hk (by simp)⟩
  | cons e es ih =>
    intro ν hn hν
    obtain ⟨⟨o', μ₁⟩, ho'⟩ := Option.isSome_iff_exists.1 (hok e (by simp))
    have hke := hk e (by simp)
    obtain ⟨o, ν', ho, hdata⟩ := construct_agree h μ ν e (content_eq e hke hν).symm o' μ₁ ho'
    obtain ⟨f1, f2, f3⟩ := construct_frame h ν e (fun r hr => lt_of_lt_of_le (hke r hr) hn) o ν' ho
    have f3 := f3 (settled_mono e hke (hs e (by simp)) hν)
    obtain ⟨os, μ', h1, h2, h3, h4⟩ := ih (fun e he => hk e (by simp [he])) (fun e he => hs e (by simp [he]))
      (fun e he => hok e (by simp [he])) ν' (by omega) fun r hr => by rw [f3 r (by omega), hν r hr]
    refine ⟨o :: os, μ', by simp [constructs, ho, h1], fun r hr => by rw [h2 r (by omega), f3 r hr], by simp [h3],
      fun k hk => ?_⟩
    cases k with
    | zero => exact ⟨o, o', μ₁, rfl, ho', by rw [hdata, Obj.data, Obj.data, h2 _ f2]⟩
    | succ k => simpa using h4 k (by simpa using hk)

/-- **C104 is false for a matrix given by the user where the conserved moments are not the first ones** (but are placed
correctly by the first construction, C36).  The second scheme built from the same dictionary has another matrix with the same equilibrium, relaxation
parameters and conserved moments: every conserved moment which has been moved is read with the row of another moment.
And the matrix of the first scheme is changed too: it is no more the inverse of its `invM`. -/
theorem C104_matrix_negation (h : nc ≤ n) (μ : Memory K n) (e : Desc K n nc d) (r : Nat) (hr : e.source = .object r)
    (q : Fin n → (Fin nc → K) → K) (hq : e.eq = .moments q)
    (hpos : ∀ j i, position q j = some i → (j : Nat) ≤ (i : Nat)) (o₁ : Obj K n nc d) (μ₁ : Memory K n)
    (h₁ : construct h μ e = some (o₁, μ₁)) :
    ∃ o₂ μ₂, construct h μ₁ e = some (o₂, μ₂) ∧ (o₁.data μ₁).M * o₁.invM = 1 ∧
      o₂.EQ = o₁.EQ ∧ o₂.s = o₁.s ∧ o₂.consm = o₁.consm ∧
      ∀ j i, position q j = some i → (i : Nat) ≠ j →
        (o₁.data μ₁).M (o₁.consm j) = μ.mat r i ∧ (o₂.data μ₂).M (o₂.consm j) ≠ μ.mat r i ∧
        (o₁.data μ₂).M * o₁.invM ≠ 1 := by
  obtain ⟨B, c, hB, hc, rfl, rfl⟩ := (construct_eq h μ e o₁ μ₁).1 h₁
  simp only [hr, takeM, hq, takeEq] at hB hc ⊢
  have hB₁ := inv_rows hB (rho h c nc)
  refine ⟨_, _, (construct_eq h _ e _ _).2 ⟨_, c, by simpa only [hr, takeM, Function.update_self] using hB₁,
    by simpa only [hq, takeEq] using hc, rfl, rfl⟩, ?_, ?_, rfl, rfl, ?_⟩
  · simp only [Obj.data, Function.update_self]
    exact (inv_spec hB₁).1
  · simp only [hq, takeEq]
  · intro j i hp hij
    have hcj : c j = i := by
      have := positions_spec hc j
      rw [hp] at this
      exact (Option.some.inj this).symm
    have hfront := (rho_front_iff h c (positions_injective hc)).2 fun j => hpos j (c j) (positions_spec hc j)
    have hne : rho h c nc i ≠ i := by
      intro he
      have := hfront j
      rw [hcj] at this
      have h3 := (rho h c nc).injective (this.trans he.symm)
      exact hij (congrArg Fin.val h3).symm
    simp only [Obj.data, hr, takeM, Function.update_self]
    refine ⟨?_, ?_, ?_⟩
    · funext b
      simp only [Matrix.of_apply]
      rw [hfront j, hcj]
    · intro heq
      apply hne
      apply rows_injective hB
      rw [← heq]
      funext b
      simp only [Matrix.of_apply]
      rw [hfront j, hcj]
    · intro heq
      have h1 := (inv_spec hB₁).1
      have h2 := congrArg (fun A => A * Matrix.of fun a => μ.mat r (rho h c nc a)) heq
      simp only [Matrix.mul_assoc, Matrix.one_mul] at h2
      rw [(inv_spec hB₁).2, Matrix.mul_one] at h2
      have h3 := congrFun h2 (Fin.castLE h j)
      apply hne
      apply rows_injective hB
      funext b
      have h4 := congrFun h3 b
      simp only [Matrix.of_apply] at h4
      rw [hfront j, hcj] at h4
      exact h4

/-- **C104 is false for `feq` with such a matrix**: the second scheme has the matrix and the equilibrium of the first one,
but the relaxation parameters are those of the dictionary, not moved with the moments. -/
theorem C104_feq_negation (h : nc ≤ n) (μ : Memory K n) (e : Desc K n nc d) (r : Nat) (hr : e.source = .object r)
    (f : Fin n → (Fin nc → K) → K) (hf : e.eq = .distributions f)
    (hpos : ∀ j i, position (takeEq (μ.mat r) e.eq) j = some i → (j : Nat) ≤ (i : Nat))
    (huniq : ∀ (j : Fin nc) (i i' : Fin n), takeEq (μ.mat r) e.eq i = (fun w => w j) →
      takeEq (μ.mat r) e.eq i' = (fun w => w j) → i = i')
    (o₁ : Obj K n nc d) (μ₁ : Memory K n) (h₁ : construct h μ e = some (o₁, μ₁)) :
    ∃ o₂ μ₂, construct h μ₁ e = some (o₂, μ₂) ∧ o₂.data μ₂ = { o₁.data μ₁ with s := e.s } ∧
      ∀ j i, position (takeEq (μ.mat r) e.eq) j = some i → o₁.s (o₁.consm j) = e.s i ∧ o₂.s (o₂.consm j) = e.s (o₂.consm j) ∧
        ((i : Nat) ≠ j → o₂.consm j ≠ i) := by
  obtain ⟨B, c, hB, hc, rfl, rfl⟩ := (construct_eq h μ e o₁ μ₁).1 h₁
  simp only [hr, takeM] at hB hc ⊢
  have hB₁ := inv_rows hB (rho h c nc)
  have hfront := (rho_front_iff h c (positions_injective hc)).2 fun j => hpos j (c j) (positions_spec hc j)
  have hEQ : takeEq (Matrix.of fun a => μ.mat r (rho h c nc a)) e.eq = takeEq (μ.mat r) e.eq ∘ rho h c nc := by
    rw [hf]
    rfl
  have hpos₁ : ∀ j, position (takeEq (μ.mat r) e.eq ∘ rho h c nc) j = some (Fin.castLE h j) := by
    intro j
    have hval : (takeEq (μ.mat r) e.eq ∘ rho h c nc) (Fin.castLE h j) = fun w => w j := by
      rw [Function.comp_apply, hfront j]
      exact position_spec (positions_spec hc j)
    cases hp : position (takeEq (μ.mat r) e.eq ∘ rho h c nc) j with
    | none =>
      exfalso
      unfold position at hp
      have := List.find?_eq_none.1 hp (Fin.castLE h j) (List.mem_finRange _)
      simp only [hval] at this
      simp at this
    | some a =>
      have ha := position_spec hp
      have := huniq j _ _ ha hval
      rw [(rho h c nc).injective this]
  have hc₁ : positions (takeEq (μ.mat r) e.eq ∘ rho h c nc) = some (Fin.castLE h) := by
    unfold positions
    rw [dif_pos (fun j => by rw [hpos₁ j]; rfl)]
    congr 1
    funext j
    simp [hpos₁ j]
  have hone : rho h (Fin.castLE h) nc = 1 := rho_settled h _ fun j => rfl
  refine ⟨_, _, (construct_eq h _ e _ _).2 ⟨_, Fin.castLE h, by simpa only [hr, takeM, Function.update_self] using hB₁,
    by simpa only [hr, takeM, Function.update_self, hEQ] using hc₁, rfl, rfl⟩, ?_, ?_⟩
  · simp only [Obj.data, hr, takeM, Function.update_self, hone, hEQ]
    simp only [takeT, Data.mk.injEq, and_true]
    refine ⟨rfl, rfl, ?_, ?_, rfl, rfl⟩ <;>
    · funext u
      ext a b
      by_cases hab : a = b <;> simp [Matrix.one_apply, hab]
  · intro j i hp
    have hcj : c j = i := by
      have := positions_spec hc j
      rw [hp] at this
      exact (Option.some.inj this).symm
    refine ⟨?_, ?_, ?_⟩
    · simp only [Function.comp_apply]
      rw [hfront j, hcj]
    · simp only [hone]
      rfl
    · intro hij he
      exact hij (congrArg Fin.val he).symm

end proofs

/-! ## Cases -/

/-- A memory where the user has put the matrix of the moments `q`, `rho`, `e` of D1Q3. -/
def mem3 : Memory ℚ 3 := ⟨fun _ => !![0, 1, -1; 1, 1, 1; 0, 1, 1], 1⟩

/-- D1Q3 given by this matrix, with the conserved moment `rho`. -/
def desc3 : Desc ℚ 3 1 0 :=
  ⟨.object 0, .moments ![fun w => w 0 / 2, fun w => w 0, fun w => w 0 / 3], ![fun _ => 3 / 2, fun _ => 0, fun _ => 1],
    fun _ => 1, fun _ => 1⟩

/-- The same with polynomials. -/
def poly3 : Desc ℚ 3 1 0 := { desc3 with source := .polynomials !![0, 1, -1; 1, 1, 1; 0, 1, 1] }

theorem find_skip {α : Type} (P : α → Prop) [∀ a, Decidable (P a)] (a : α) (l : List α) (h : ¬ P a) :
    (a :: l).find? (fun i => decide (P i)) = l.find? fun i => decide (P i) := by simp [h]

theorem position3 : position (![fun w => w 0 / 2, fun w => w 0, fun w => w 0 / 3] : Fin 3 → (Fin 1 → ℚ) → ℚ) 0 = some 1 := by
  classical
  unfold position
  have h0 : ¬ ((fun w : Fin 1 → ℚ => w 0 / 2) = fun w => w 0) := fun h => by
    have := congrFun h 1
    norm_num at this
  rw [show List.finRange 3 = [0, 1, 2] by decide]
  refine (find_skip (fun i : Fin 3 => (![fun w => w 0 / 2, fun w => w 0, fun w => w 0 / 3] : Fin 3 → (Fin 1 → ℚ) → ℚ) i =
    fun w : Fin 1 → ℚ => w 0) 0 _ h0).trans ?_
  rw [List.find?_cons_of_pos (a := (1 : Fin 3)) (by simp)]

theorem inv3 : Scheme.inv (mem3.mat 0) = some !![0, 1, -1; 1 / 2, 0, 1 / 2; -1 / 2, 0, 1 / 2] := by
  have hp : (!![0, 1, -1; 1, 1, 1; 0, 1, 1] : Matrix (Fin 3) (Fin 3) ℚ) * !![0, 1, -1; 1 / 2, 0, 1 / 2; -1 / 2, 0, 1 / 2] = 1 := by
    decide +kernel
  unfold Scheme.inv
  have hdet : (mem3.mat 0).det ≠ 0 := by
    intro h0
    have := congrArg Matrix.det hp
    rw [Matrix.det_mul, show (!![0, 1, -1; 1, 1, 1; 0, 1, 1] : Matrix (Fin 3) (Fin 3) ℚ).det = 0 from h0, zero_mul,
      Matrix.det_one] at this
    exact zero_ne_one this
  rw [if_pos hdet, mem3, Matrix.inv_eq_right_inv hp]

theorem positions3 :
    positions (![fun w => w 0 / 2, fun w => w 0, fun w => w 0 / 3] : Fin 3 → (Fin 1 → ℚ) → ℚ) = some fun _ => 1 := by
  unfold positions
  have hj : ∀ j : Fin 1, position (![fun w => w 0 / 2, fun w => w 0, fun w => w 0 / 3] : Fin 3 → (Fin 1 → ℚ) → ℚ) j = some 1 :=
    fun j => by fin_cases j; exact position3
  rw [dif_pos fun j => by rw [hj j]; rfl]
  congr 1
  funext j
  simp [hj j]

theorem construct3 : (construct (by omega) mem3 desc3).isSome ∧ (construct (by omega) mem3 poly3).isSome := by
  have hc := positions3
  constructor
  · rw [Option.isSome_iff_exists]
    exact ⟨_, (construct_eq _ _ _ _ _).2 ⟨_, _, inv3, hc, rfl, rfl⟩⟩
  · rw [Option.isSome_iff_exists]
    exact ⟨_, (construct_eq _ _ _ _ _).2 ⟨_, _, by rw [takeM_mat]; exact inv3, hc, rfl, rfl⟩⟩

/-- The case of `C104_several_partial`: the description with polynomials used three times. -/
example : (∀ e ∈ [poly3, poly3, poly3], e.Known mem3) ∧ (∀ e ∈ [poly3, poly3, poly3], e.Settled mem3) ∧
    ∀ e ∈ [poly3, poly3, poly3], (construct (by omega) mem3 e).isSome := by
  have h : ∀ e ∈ [poly3, poly3, poly3], e = poly3 := by simp
  refine ⟨fun e he r hr => ?_, fun e he r hr => ?_, fun e he => ?_⟩
  · rw [h e he] at hr; exact absurd hr (by simp [poly3])
  · rw [h e he] at hr; exact absurd hr (by simp [poly3])
  · rw [h e he]; exact construct3.2

/-- The case of `C104_matrix_negation`: the same scheme with the matrix, whose conserved moment is the second one. -/
example : ∃ o₁ μ₁, construct (by omega) mem3 desc3 = some (o₁, μ₁) ∧ desc3.source = .object 0 ∧
    (∀ j i, position (![fun w => w 0 / 2, fun w => w 0, fun w => w 0 / 3] : Fin 3 → (Fin 1 → ℚ) → ℚ) j = some i →
      (j : Nat) ≤ (i : Nat)) := by
  obtain ⟨⟨o, μ⟩, h⟩ := Option.isSome_iff_exists.1 construct3.1
  exact ⟨o, μ, h, rfl, fun j i _ => by omega⟩

/-- The same equilibrium given by the distribution functions. -/
def feq3 : Desc ℚ 3 1 0 :=
  { desc3 with eq := .distributions ![fun w => 2 / 3 * w 0, fun w => 5 / 12 * w 0, fun w => -1 / 12 * w 0] }

/-- The case of `C104_feq_negation`. -/
example : feq3.source = .object 0 ∧ (∃ o₁ μ₁, construct (by omega) mem3 feq3 = some (o₁, μ₁)) ∧
    (∀ (j : Fin 1) (i i' : Fin 3), takeEq (mem3.mat 0) feq3.eq i = (fun w => w j) →
      takeEq (mem3.mat 0) feq3.eq i' = (fun w => w j) → i = i') ∧ position (takeEq (mem3.mat 0) feq3.eq) 0 = some 1 := by
  have he : takeEq (mem3.mat 0) feq3.eq = ![fun w => w 0 / 2, fun w => w 0, fun w => w 0 / 3] := by
    funext i w
    fin_cases i <;> simp [takeEq, feq3, mem3, Fin.sum_univ_three] <;> ring
  refine ⟨rfl, ?_, ?_, by rw [he]; exact position3⟩
  · exact ⟨_, _, construct_object (by omega) mem3 feq3 0 rfl _ _ inv3 (by rw [he]; exact positions3)⟩
  · have h1 : ∀ (j : Fin 1) (i : Fin 3), takeEq (mem3.mat 0) feq3.eq i = (fun w => w j) → i = 1 := by
      intro j i hi
      rw [he] at hi
      have := congrFun hi 1
      fin_cases i
      · norm_num at this
      · rfl
      · norm_num at this
    intro j i i' hi hi'
    rw [h1 j i hi, h1 j i' hi']

/-- **C104, consequence.**  Two simulations with the same dictionary: the first one keeps the mass in each collision, the
second one does not (the kernels are those of the schemes at the time of their construction). -/
theorem C104_mass_negation : ∃ o₁ μ₁ o₂ μ₂, construct (by omega) mem3 desc3 = some (o₁, μ₁) ∧
    construct (by omega) μ₁ desc3 = some (o₂, μ₂) ∧
    (∀ f, ∑ k, collision (o₁.data μ₁).M o₁.invM o₁.consm o₁.EQ o₁.s f k = ∑ k, f k) ∧
    ∃ f, ∑ k, collision (o₂.data μ₂).M o₂.invM o₂.consm o₂.EQ o₂.s f k ≠ ∑ k, f k := by
  have hρ : ∀ a : Fin 3, rho (by omega) (fun _ : Fin 1 => (1 : Fin 3)) 1 a = ![1, 0, 2] a := by decide +kernel
  have h₁ := construct_object (by omega) mem3 desc3 0 rfl _ _ inv3 positions3
  have h₂ := construct_object (by omega) ⟨Function.update mem3.mat 0 (Matrix.of fun a => mem3.mat 0
    (rho (by omega) (fun _ : Fin 1 => (1 : Fin 3)) 1 a)), mem3.next⟩ desc3 0 rfl _ _
    (by simp only [Function.update_self]; exact inv_rows inv3 (rho (by omega) (fun _ : Fin 1 => (1 : Fin 3)) 1)) positions3
  refine ⟨_, _, _, _, h₁, h₂, fun f => ?_, ![1, 2, 0], ?_⟩
  · simp [collision, relaxed, Obj.data, desc3, takeEq, hρ, Matrix.mulVec, dotProduct, Fin.sum_univ_three, mem3]
    ring
  · simp [collision, relaxed, Obj.data, desc3, takeEq, hρ, Matrix.mulVec, dotProduct, Fin.sum_univ_three, mem3,
      Matrix.vecHead, Matrix.vecTail]
    norm_num

end Pylbm.Scheme
