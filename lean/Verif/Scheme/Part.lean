import Verif.Scheme.Assembly
import Verif.Scheme.Order
/-!
# A part of the schemes which does not depend on the others (C103): construction and collision
-/
namespace Pylbm.Scheme
open Matrix SchemeSpec
set_option linter.unusedSectionVars false

section
variable {K : Type} [Field K] {n n₁ nc nc₁ d dim : Nat}

/-! ## Specification -/

/-- The scheme `D₁` is a part of the scheme `D` which does not depend on the rest: its moment `a` is the moment `p a` of
`D`, its distribution function `b` is the distribution function `τ b`, its conserved moment `j` is the conserved moment
`κ j`; the matrices couple nothing else to them, their equilibria and relaxation parameters only use the conserved
moments of the part. Nothing is said of the rest, which may use all the conserved moments. -/
structure Part (D : Data K n nc d) (D₁ : Data K n₁ nc₁ d) (p τ : Fin n₁ ↪ Fin n) (κ : Fin nc₁ ↪ Fin nc) : Prop where
  M : ∀ a b, D.M (p a) (τ b) = D₁.M a b
  M_other : ∀ a b, b ∉ Set.range τ → D.M (p a) b = 0
  invM : ∀ b a, D.invM (τ b) (p a) = D₁.invM b a
  invM_other : ∀ b a, a ∉ Set.range p → D.invM (τ b) a = 0
  Tu : ∀ u a b, D.Tu u (p a) (p b) = D₁.Tu u a b
  Tu_other : ∀ u a b, b ∉ Set.range p → D.Tu u (p a) b = 0
  Tmu : ∀ u a b, D.Tmu u (p a) (p b) = D₁.Tmu u a b
  Tmu_other : ∀ u a b, b ∉ Set.range p → D.Tmu u (p a) b = 0
  EQ : ∀ a w, D.EQ (p a) w = D₁.EQ a fun j => w (κ j)
  s : ∀ a w, D.s (p a) w = D₁.s a fun j => w (κ j)
  consm : ∀ j, D.consm (κ j) = p (D₁.consm j)

/-- The same for the data of the kernels: same time step, same relative velocity, and sources which only use the
moments of the part. -/
structure PartScheme (S : Kernel K n nc d) (S₁ : Kernel K n₁ nc₁ d) (p τ : Fin n₁ ↪ Fin n) (κ : Fin nc₁ ↪ Fin nc) :
    Prop extends Part S.toData S₁.toData p τ κ where
  dt : S₁.dt = S.dt
  noRel : S.relVel = none ↔ S₁.relVel = none
  rel : ∀ v v₁, S.relVel = some v → S₁.relVel = some v₁ → ∀ w, v w = v₁ fun j => w (κ j)
  noSource : ∀ a, S.source (p a) = none ↔ S₁.source a = none
  source : ∀ a r r₁, S.source (p a) = some r → S₁.source a = some r₁ → ∀ m : Fin n → K, r m = r₁ fun b => m (p b)

/-- A scheme in a dictionary with more conserved moments, where its own are those of number `κ j`. -/
def Entry.within (κ : Fin nc₁ ↪ Fin nc) (e : Entry K dim nc₁) : Entry K dim nc where
  vel := e.vel
  polynomials := e.polynomials
  relax := e.relax.map fun r w => r fun j => w (κ j)
  meq := e.meq.map fun r w => r fun j => w (κ j)
  feq := e.feq.map fun g v => (g v).map fun r w => r fun j => w (κ j)

/-! ## Lemmas -/

variable {D : Data K n nc d} {D₁ : Data K n₁ nc₁ d} {p τ : Fin n₁ ↪ Fin n} {κ : Fin nc₁ ↪ Fin nc}

theorem sum_part (τ : Fin n₁ ↪ Fin n) (g : Fin n → K) (h : ∀ b, b ∉ Set.range τ → g b = 0) :
    ∑ b, g b = ∑ b, g (τ b) :=
  (Fintype.sum_of_injective τ τ.injective (fun b => g (τ b)) g (fun i hi => h i hi) fun _ => rfl).symm

theorem Part.moments (h : Part D D₁ p τ κ) (f : Fin n → K) :
    (fun a => (D.M *ᵥ f) (p a)) = D₁.M *ᵥ fun b => f (τ b) := by
  funext a
  simp only [Matrix.mulVec, dotProduct]
  rw [sum_part τ _ fun b hb => by rw [h.M_other a b hb, zero_mul]]
  simp only [h.M]

theorem Part.populations (h : Part D D₁ p τ κ) (m : Fin n → K) :
    (fun b => (D.invM *ᵥ m) (τ b)) = D₁.invM *ᵥ fun a => m (p a) := by
  funext b
  simp only [Matrix.mulVec, dotProduct]
  rw [sum_part p _ fun a ha => by rw [h.invM_other b a ha, zero_mul]]
  simp only [h.invM]

theorem Part.frame (h : Part D D₁ p τ κ) (u : Fin d → K) (m : Fin n → K) :
    (fun a => (D.Tu u *ᵥ m) (p a)) = D₁.Tu u *ᵥ fun a => m (p a) := by
  funext b
  simp only [Matrix.mulVec, dotProduct]
  rw [sum_part p _ fun a ha => by rw [h.Tu_other u b a ha, zero_mul]]
  simp only [h.Tu]

theorem Part.unframe (h : Part D D₁ p τ κ) (u : Fin d → K) (m : Fin n → K) :
    (fun a => (D.Tmu u *ᵥ m) (p a)) = D₁.Tmu u *ᵥ fun a => m (p a) := by
  funext b
  simp only [Matrix.mulVec, dotProduct]
  rw [sum_part p _ fun a ha => by rw [h.Tmu_other u b a ha, zero_mul]]
  simp only [h.Tmu]

theorem Part.conserved (h : Part D D₁ p τ κ) (m : Fin n → K) :
    (fun j => (m ∘ D.consm) (κ j)) = (fun a => m (p a)) ∘ D₁.consm := by
  funext j
  simp only [Function.comp_apply, h.consm]

theorem Part.relax (h : Part D D₁ p τ κ) (m : Fin n → K) :
    (fun a => relaxed D.consm D.EQ D.s m (p a)) = relaxed D₁.consm D₁.EQ D₁.s fun a => m (p a) := by
  funext a
  unfold relaxed
  rw [h.EQ, h.s, h.conserved]

theorem Part.eq_conserved (h : Part D D₁ p τ κ) (hEQ : ∀ j w, D.EQ (D.consm j) w = w j) (j : Fin nc₁)
    (w : Fin nc₁ → K) : D₁.EQ (D₁.consm j) w = w j := by
  have e : (fun i => Function.extend κ w 0 (κ i)) = w := funext fun i => κ.injective.extend_apply w 0 i
  have := h.EQ (D₁.consm j) (Function.extend κ w 0)
  rw [e, ← h.consm, hEQ, κ.injective.extend_apply] at this
  exact this.symm

theorem Part.s_conserved (h : Part D D₁ p τ κ) (hs : ∀ j w, D.s (D.consm j) w = 0) (j : Fin nc₁)
    (w : Fin nc₁ → K) : D₁.s (D₁.consm j) w = 0 := by
  have e : (fun i => Function.extend κ w 0 (κ i)) = w := funext fun i => κ.injective.extend_apply w 0 i
  have := h.s (D₁.consm j) (Function.extend κ w 0)
  rw [e, ← h.consm, hs] at this
  exact this.symm

theorem PartScheme.half {S : Kernel K n nc d} {S₁ : Kernel K n₁ nc₁ d} (h : PartScheme S S₁ p τ κ) (m : Fin n → K) :
    (fun a => euler S.dt S.source m (p a)) = euler S₁.dt S₁.source fun a => m (p a) := by
  funext a
  unfold euler
  cases h1 : S.source (p a) with
  | none => rw [(h.noSource a).1 h1]
  | some r =>
    cases h2 : S₁.source a with
    | none => rw [(h.noSource a).2 h2] at h1; exact absurd h1 (by simp)
    | some r' => simp only [h.source a r r' h1 h2, h.dt]

/-- The inverse matrices follow from the moment matrices. -/
theorem invM_part (D : Data K n nc d) (D₁ : Data K n₁ nc₁ d) (p τ : Fin n₁ ↪ Fin n)
    (hM : ∀ a b, D.M (p a) (τ b) = D₁.M a b) (hO : ∀ a b, b ∉ Set.range τ → D.M (p a) b = 0)
    (h : D.M * D.invM = 1) (h₁ : D₁.invM * D₁.M = 1) :
    (∀ b a, D.invM (τ b) (p a) = D₁.invM b a) ∧ ∀ b a, a ∉ Set.range p → D.invM (τ b) a = 0 := by
  have key : ∀ c b, D.invM (τ b) c = ∑ a, D₁.invM b a * (if p a = c then 1 else 0) := by
    intro c b
    have e1 : (fun a => ∑ b, D₁.M a b * D.invM (τ b) c) = fun a => if p a = c then (1 : K) else 0 := by
      funext a
      have := congrFun (congrFun h (p a)) c
      rw [Matrix.mul_apply, Matrix.one_apply, sum_part τ _ fun b hb => by rw [hO a b hb, zero_mul]] at this
      simp only [hM] at this
      exact this
    have e2 : D₁.M *ᵥ (fun b => D.invM (τ b) c) = fun a => if p a = c then (1 : K) else 0 := e1
    have e3 : (fun b => D.invM (τ b) c) = D₁.invM *ᵥ fun a => if p a = c then (1 : K) else 0 := by
      rw [← e2, Matrix.mulVec_mulVec, h₁, Matrix.one_mulVec]
    exact congrFun e3 b
  refine ⟨fun b a => ?_, fun b a ha => ?_⟩
  · rw [key, Finset.sum_eq_single a]
    · simp
    · intro a' _ hne
      rw [if_neg (fun e => hne (p.injective e)), mul_zero]
    · simp
  · rw [key]
    refine Finset.sum_eq_zero fun a' _ => ?_
    rw [if_neg (fun e => ha ⟨a', e⟩), mul_zero]

theorem assemble_frame (la : K) (es : List (Entry K dim nc)) (consm : Fin nc → Fin (sizes es).sum)
    (D : Data K (sizes es).sum nc d) (h : assemble la es consm = some D) (u : Fin d → K) : D.Tu u = 1 ∧ D.Tmu u = 1 := by
  unfold assemble at h
  simp only at h
  split_ifs at h with h1
  cases he : getEquilibrium la es with
  | none => rw [he] at h; simp at h
  | some eq =>
    rw [he] at h
    simp only at h
    split_ifs at h with h2
    obtain rfl := Option.some.inj h
    exact ⟨rfl, rfl⟩

theorem getD_within (κ : Fin nc₁ ↪ Fin nc) (l : List ((Fin nc₁ → K) → K)) (j : Nat) (w : Fin nc → K) :
    (l.map fun r w => r fun j => w (κ j)).getD j (fun _ => 0) w = l.getD j (fun _ => 0) fun j => w (κ j) := by
  rw [List.getD_eq_getElem?_getD, List.getD_eq_getElem?_getD, List.getElem?_map]
  cases l[j]? <;> rfl

theorem within_fits {e : Entry K dim nc₁} (h : (e.within κ).Fits) : e.Fits where
  polynomials := h.polynomials
  relax := by have := h.relax; simpa [Entry.within] using this
  equilibrium := by
    rcases h.equilibrium with ⟨h1, h2⟩ | ⟨h1, g, h2, h3⟩
    · left
      simp only [Entry.within, Option.map_eq_none_iff, List.length_map] at h1 h2
      exact ⟨h1, h2⟩
    · right
      simp only [Entry.within, List.map_eq_nil_iff, Option.map_eq_some_iff] at h1 h2 h3
      obtain ⟨g', h4, rfl⟩ := h2
      exact ⟨h1, g', h4, by simpa using h3⟩


/-- The number of velocities before the scheme `k`. -/
abbrev before (es : List (Entry K dim nc)) (k : Nat) : Nat := ((es.take k).map fun e => e.vel.length).sum

theorem before_eq (es : List (Entry K dim nc)) (k : Nat) : before es k = ptr (sizes es) k := by
  simp [before, ptr, sizes, List.map_take]

/-- The rows of the assembled moment matrix. -/
theorem assembled_M (la : K) (es : List (Entry K dim nc)) (hfit : ∀ e ∈ es, e.Fits)
    (consm : Fin nc → Fin (sizes es).sum) (D : Data K (sizes es).sum nc d) (h : assemble la es consm = some D)
    (k : Nat) (hk : k < es.length) (e : Entry K dim nc) (he : es[k] = e) (i : Nat) (hi : i < e.vel.length)
    (a : Fin (sizes es).sum) (ha : (a : Nat) = before es k + i) (P) (hP : e.polynomials[i]? = some P) :
    (∀ j (hj : j < e.vel.length) (b : Fin (sizes es).sum), (b : Nat) = before es k + j →
      D.M a b = P fun x => (e.vel[j] x : K) * la) ∧
    ∀ b : Fin (sizes es).sum, (∀ j < e.vel.length, (b : Nat) ≠ before es k + j) → D.M a b = 0 := by
  subst he
  obtain ⟨-, -, h3, -⟩ := C77_places la es hfit consm D h k hk i hi a ha
  have key : ∀ b : Fin (sizes es).sum, D.M a b = ∑ j : Fin es[k].vel.length, P (fun x => (es[k].vel[j] x : K) * la) *
      (if (b : Nat) = before es k + j then 1 else 0) := by
    intro b
    have := h3 (Pi.single b 1) P hP (fun j => if (b : Nat) = before es k + j then 1 else 0) (fun j b' hb' => by
      by_cases hbb : b' = b
      · subst hbb
        rw [Pi.single_eq_same, if_pos hb']
      · rw [Pi.single_eq_of_ne hbb, if_neg]
        intro hb
        exact hbb (Fin.ext (hb'.trans hb.symm)))
    rw [← this]
    simp
  refine ⟨fun j hj b hb => ?_, fun b hb => ?_⟩
  · rw [key, Finset.sum_eq_single ⟨j, hj⟩]
    · rw [if_pos hb, mul_one]
      rfl
    · intro j' _ hne
      rw [if_neg, mul_zero]
      intro hb'
      exact hne (Fin.ext (by simp only; omega))
    · simp
  · rw [key]
    refine Finset.sum_eq_zero fun j _ => ?_
    rw [if_neg (hb j j.2), mul_zero]

/-- The equilibrium of a scheme given by `feq`. -/
theorem assembled_feq (la : K) (es : List (Entry K dim nc)) (hfit : ∀ e ∈ es, e.Fits)
    (consm : Fin nc → Fin (sizes es).sum) (D : Data K (sizes es).sum nc d) (h : assemble la es consm = some D)
    (k : Nat) (hk : k < es.length) (e : Entry K dim nc) (he : es[k] = e) (i : Nat) (hi : i < e.vel.length)
    (a : Fin (sizes es).sum) (ha : (a : Nat) = before es k + i) (P) (hP : e.polynomials[i]? = some P) (g)
    (hg : e.feq = some g) (w : Fin nc → K) :
    D.EQ a w = ∑ j : Fin e.vel.length, P (fun x => (e.vel[j] x : K) * la) * ((g e.vel).getD j fun _ => 0) w := by
  subst he
  obtain ⟨-, -, h3, h4, -⟩ := C77_places la es hfit consm D h k hk i hi a ha
  have := h3 (D.invM *ᵥ fun i => D.EQ i w) P hP (fun j => ((g es[k].vel).getD j fun _ => 0) w) (fun j b hb => by
    obtain ⟨q, hq, hq'⟩ := C77_feq la es hfit consm D h k hk g hg w j j.2 b hb
    rw [hq', List.getD_eq_getElem?_getD, hq]
    rfl)
  rw [Matrix.mulVec_mulVec, h4, Matrix.one_mulVec] at this
  exact this

/-! ## Properties -/

/-- **C103, dictionary.** A dictionary `es₁`, and a dictionary `es` with more schemes and conserved moments, where the
scheme `k` of `es₁` is the scheme `σ k`: the assembled scheme of `es₁` is a part of that of `es` which does not depend on
the rest. -/
theorem C103_dictionary (la : K) (es : List (Entry K dim nc)) (es₁ : List (Entry K dim nc₁)) (hfit : ∀ e ∈ es, e.Fits)
    (κ : Fin nc₁ ↪ Fin nc) (σ : Nat → Nat) (hσ : Function.Injective σ)
    (hes : ∀ k (hk : k < es₁.length), es[σ k]? = some (es₁[k].within κ))
    (consm : Fin nc → Fin (sizes es).sum) (consm₁ : Fin nc₁ → Fin (sizes es₁).sum)
    (hcons : ∀ j k i (hk : k < es₁.length), i < es₁[k].vel.length → (consm₁ j : Nat) = before es₁ k + i →
      (consm (κ j) : Nat) = before es (σ k) + i)
    (D : Data K (sizes es).sum nc d) (h : assemble la es consm = some D)
    (D₁ : Data K (sizes es₁).sum nc₁ d) (h₁ : assemble la es₁ consm₁ = some D₁) :
    ∃ p : Fin (sizes es₁).sum ↪ Fin (sizes es).sum, Part D D₁ p p κ ∧
      ∀ k i (hk : k < es₁.length), i < es₁[k].vel.length → ∀ a : Fin (sizes es₁).sum, (a : Nat) = before es₁ k + i →
        (p a : Nat) = before es (σ k) + i := by
  have hk' : ∀ k, k < es₁.length → σ k < es.length := fun k hk => (List.getElem?_eq_some_iff.1 (hes k hk)).1
  have hek : ∀ k (hk : k < es₁.length), es[σ k]'(hk' k hk) = es₁[k].within κ := fun k hk =>
    (List.getElem?_eq_some_iff.1 (hes k hk)).2
  have hfit₁ : ∀ e ∈ es₁, e.Fits := by
    intro e he
    obtain ⟨k, hk, rfl⟩ := List.getElem_of_mem he
    exact within_fits (κ := κ) (hfit _ (hek k hk ▸ List.getElem_mem (hk' k hk)))
  have hblock : ∀ a : Fin (sizes es₁).sum, ∃ k i, ∃ hk : k < es₁.length, i < es₁[k].vel.length ∧
      (a : Nat) = before es₁ k + i := by
    intro a
    obtain ⟨k, hk, i, hi, ha⟩ := exists_ptr (sizes es₁) a a.2
    have hk2 : k < es₁.length := by simpa [sizes] using hk
    rw [sizes_get es₁ k hk2] at hi
    exact ⟨k, i, hk2, hi, by rw [before_eq]; exact ha⟩
  have huniq : ∀ {nc : Nat} (es : List (Entry K dim nc)) k k' i i' (hk : k < es.length) (hk' : k' < es.length),
      i < es[k].vel.length → i' < es[k'].vel.length → before es k + i = before es k' + i' → k = k' ∧ i = i' := by
    intro nc es k k' i i' hk hk' hi hi' e
    rw [before_eq, before_eq] at e
    exact ptr_unique (sizes es) (by simpa [sizes] using hk) (by simpa [sizes] using hk')
      (by rw [sizes_get es k hk]; exact hi) (by rw [sizes_get es k' hk']; exact hi') e
  have hlt : ∀ k i (hk : k < es₁.length), i < es₁[k].vel.length → before es (σ k) + i < (sizes es).sum := by
    intro k i hk hi
    rw [before_eq]
    exact ptr_lt es (σ k) i (hk' k hk) (by rw [hek k hk]; exact hi)
  have hlt₁ : ∀ k i (hk : k < es₁.length), i < es₁[k].vel.length → before es₁ k + i < (sizes es₁).sum := by
    intro k i hk hi
    rw [before_eq]
    exact ptr_lt es₁ k i hk hi
  choose bk bi hbk hbi hab using hblock
  let pf : Fin (sizes es₁).sum → Fin (sizes es).sum := fun a => ⟨before es (σ (bk a)) + bi a, hlt _ _ (hbk a) (hbi a)⟩
  have hpf : ∀ k i (hk : k < es₁.length), i < es₁[k].vel.length → ∀ a : Fin (sizes es₁).sum,
      (a : Nat) = before es₁ k + i → (pf a : Nat) = before es (σ k) + i := by
    intro k i hk hi a ha
    obtain ⟨e1, e2⟩ := huniq es₁ _ _ _ _ (hbk a) hk (hbi a) hi ((hab a).symm.trans ha)
    simp only [pf, e1, e2]
  have hinj : Function.Injective pf := by
    intro a a' e
    have e' := congrArg Fin.val e
    obtain ⟨e1, e2⟩ := huniq es _ _ _ _ (hk' _ (hbk a)) (hk' _ (hbk a')) (by rw [hek _ (hbk a)]; exact hbi a)
      (by rw [hek _ (hbk a')]; exact hbi a') e'
    have e3 := hσ e1
    apply Fin.ext
    rw [hab a, hab a', e2, e3]
  obtain ⟨-, -, -, hDc, -, -⟩ := assemble_spec la es consm D h
  obtain ⟨-, -, -, hDc₁, -, -⟩ := assemble_spec la es₁ consm₁ D₁ h₁
  -- the polynomials
  have hpoly : ∀ a, ∃ P, (es₁[bk a]'(hbk a)).polynomials[bi a]? = some P := by
    intro a
    have := (hfit₁ _ (List.getElem_mem (hbk a))).polynomials
    exact ⟨_, List.getElem?_eq_getElem (by rw [this]; exact hbi a)⟩
  choose P hP using hpoly
  have row := fun a => assembled_M la es hfit consm D h (σ (bk a)) (hk' _ (hbk a)) _ (hek _ (hbk a)) (bi a) (hbi a) (pf a)
    rfl (P a) (hP a)
  have row₁ := fun a => assembled_M la es₁ hfit₁ consm₁ D₁ h₁ (bk a) (hbk a) _ rfl (bi a) (hbi a) a (hab a) (P a) (hP a)
  have hM : ∀ a b, D.M (pf a) (pf b) = D₁.M a b := by
    intro a b
    by_cases hb : bk b = bk a
    · have hbi' : bi b < (es₁[bk a]'(hbk a)).vel.length := by
        have := hbi b
        simp only [hb] at this
        exact this
      rw [(row a).1 (bi b) hbi' (pf b) (by simp only [pf, hb]),
        (row₁ a).1 (bi b) hbi' b (by rw [hab b, hb])]
      rfl
    · rw [(row a).2, (row₁ a).2]
      · intro j hj e
        exact hb (huniq es₁ _ _ _ _ (hbk b) (hbk a) (hbi b) hj ((hab b).symm.trans e)).1
      · intro j hj e
        refine hb (hσ (huniq es _ _ _ _ (hk' _ (hbk b)) (hk' _ (hbk a)) (by rw [hek _ (hbk b)]; exact hbi b)
          (by rw [hek _ (hbk a)]; exact hj) e).1)
  have hO : ∀ a b, b ∉ Set.range pf → D.M (pf a) b = 0 := by
    intro a b hb
    refine (row a).2 b fun j hj e => hb ⟨⟨before es₁ (bk a) + j, hlt₁ _ _ (hbk a) hj⟩, Fin.ext ?_⟩
    rw [hpf (bk a) j (hbk a) hj _ rfl, e]
  have hinvs : D.M * D.invM = 1 ∧ D₁.invM * D₁.M = 1 ∨ IsEmpty (Fin (sizes es₁).sum) := by
    rcases isEmpty_or_nonempty (Fin (sizes es₁).sum) with hE | ⟨⟨a⟩⟩
    · exact Or.inr hE
    · left
      exact ⟨(C77_places la es hfit consm D h (σ (bk a)) (hk' _ (hbk a)) (bi a) (by rw [hek _ (hbk a)]; exact hbi a)
        (pf a) rfl).2.2.2.1,
        (C77_places la es₁ hfit₁ consm₁ D₁ h₁ (bk a) (hbk a) (bi a) (hbi a) a (hab a)).2.2.2.2⟩
  have hTu : ∀ u, D.Tu u = 1 ∧ D.Tmu u = 1 := fun u => assemble_frame la es consm D h u
  have hTu₁ : ∀ u, D₁.Tu u = 1 ∧ D₁.Tmu u = 1 := fun u => assemble_frame la es₁ consm₁ D₁ h₁ u
  refine ⟨⟨pf, hinj⟩, ?_, hpf⟩
  have hI : (∀ b a, D.invM (pf b) (pf a) = D₁.invM b a) ∧ ∀ b a, a ∉ Set.range pf → D.invM (pf b) a = 0 := by
    rcases hinvs with ⟨i1, i2⟩ | hE
    · exact invM_part D D₁ ⟨pf, hinj⟩ ⟨pf, hinj⟩ hM hO i1 i2
    · exact ⟨fun b => hE.elim b, fun b => hE.elim b⟩
  have one : ∀ a b, (1 : Matrix (Fin (sizes es).sum) (Fin (sizes es).sum) K) (pf a) (pf b) =
      (1 : Matrix (Fin (sizes es₁).sum) (Fin (sizes es₁).sum) K) a b := by
    intro a b
    rw [Matrix.one_apply, Matrix.one_apply]
    simp only [hinj.eq_iff]
  have zero : ∀ a b, b ∉ Set.range pf → (1 : Matrix (Fin (sizes es).sum) (Fin (sizes es).sum) K) (pf a) b = 0 := by
    intro a b hb
    rw [Matrix.one_apply, if_neg fun e => hb ⟨a, e⟩]
  constructor
  · exact hM
  · exact hO
  · exact hI.1
  · exact hI.2
  · intro u a b; rw [(hTu u).1, (hTu₁ u).1]; exact one a b
  · intro u a b hb; rw [(hTu u).1]; exact zero a b hb
  · intro u a b; rw [(hTu u).2, (hTu₁ u).2]; exact one a b
  · intro u a b hb; rw [(hTu u).2]; exact zero a b hb
  · intro a w
    have pl := C77_places la es hfit consm D h (σ (bk a)) (hk' _ (hbk a)) (bi a) (by rw [hek _ (hbk a)]; exact hbi a)
      (pf a) rfl
    have pl₁ := C77_places la es₁ hfit₁ consm₁ D₁ h₁ (bk a) (hbk a) (bi a) (hbi a) a (hab a)
    rcases hf : (es₁[bk a]'(hbk a)).feq with _ | g
    · have e1 := pl.2.1 (by rw [hek _ (hbk a)]; simp [Entry.within, hf])
      have e2 := pl₁.2.1 hf
      rw [hek _ (hbk a)] at e1
      simp only [Entry.within, List.getElem?_map, e2, Option.map_some, Option.some.injEq] at e1
      exact (congrFun e1 w).symm
    · show D.EQ (pf a) w = _
      rw [assembled_feq la es hfit consm D h (σ (bk a)) (hk' _ (hbk a)) _ (hek _ (hbk a)) (bi a) (hbi a) (pf a)
        rfl (P a) (hP a) (fun v => (g v).map fun r w => r fun j => w (κ j)) (by simp [Entry.within, hf]) w,
        assembled_feq la es₁ hfit₁ consm₁ D₁ h₁ (bk a) (hbk a) _ rfl (bi a) (hbi a) a (hab a) (P a) (hP a) g hf]
      refine Finset.sum_congr rfl fun j _ => ?_
      congr 1
      exact getD_within κ _ _ w
  · intro a w
    have e1 := (C77_places la es hfit consm D h (σ (bk a)) (hk' _ (hbk a)) (bi a) (by rw [hek _ (hbk a)]; exact hbi a)
      (pf a) rfl).1
    have e2 := (C77_places la es₁ hfit₁ consm₁ D₁ h₁ (bk a) (hbk a) (bi a) (hbi a) a (hab a)).1
    rw [hek _ (hbk a)] at e1
    simp only [Entry.within, List.getElem?_map, e2, Option.map_some, Option.some.injEq] at e1
    exact (congrFun e1 w).symm
  · intro j
    rw [hDc, hDc₁]
    apply Fin.ext
    show _ = (pf _ : Nat)
    rw [hcons j _ _ (hbk (consm₁ j)) (hbi (consm₁ j)) (hab (consm₁ j))]

/-- **C103, construction of the scheme.** The part is still a part after the constructor has put the conserved moments in
front, if no conserved moment is before its position in the list of the conserved moments (C36). -/
theorem C103_construction (h : nc ≤ n) (h₁ : nc₁ ≤ n₁) (D : Data K n nc d) (D₁ : Data K n₁ nc₁ d) (p τ : Fin n₁ ↪ Fin n)
    (κ : Fin nc₁ ↪ Fin nc) (hR : Part D D₁ p τ κ) (hinj : Function.Injective D.consm)
    (hc : ∀ j : Fin nc, (j : Nat) ≤ (D.consm j : Nat)) (hc₁ : ∀ j : Fin nc₁, (j : Nat) ≤ (D₁.consm j : Nat)) :
    ∃ q, Part (D.permute h) (D₁.permute h₁) q τ κ := by
  have hinj₁ : Function.Injective D₁.consm := by
    intro i j hij
    have := congrArg p hij
    rw [← hR.consm, ← hR.consm] at this
    exact κ.injective (hinj this)
  have hr := (rho_front_iff h D.consm hinj).2 hc
  have hr₁ := (rho_front_iff h₁ D₁.consm hinj₁).2 hc₁
  refine ⟨((rho h₁ D₁.consm nc₁).toEmbedding.trans p).trans (rho h D.consm nc).symm.toEmbedding, ?_⟩
  set q := ((rho h₁ D₁.consm nc₁).toEmbedding.trans p).trans (rho h D.consm nc).symm.toEmbedding with hq
  have e : ∀ a, rho h D.consm nc (q a) = p (rho h₁ D₁.consm nc₁ a) := fun a => by simp [hq]
  have out : ∀ b, b ∉ Set.range q → rho h D.consm nc b ∉ Set.range p := by
    rintro b hb ⟨a, ha⟩
    refine hb ⟨(rho h₁ D₁.consm nc₁).symm a, (rho h D.consm nc).injective ?_⟩
    rw [e, Equiv.apply_symm_apply, ha]
  rw [permute_eq, permute_eq]
  constructor <;> simp only [Matrix.of_apply, Function.comp_apply, e]
  · exact fun a b => hR.M _ _
  · exact fun a b hb => hR.M_other _ _ hb
  · exact fun a b => hR.invM _ _
  · exact fun a b hb => hR.invM_other _ _ (out _ hb)
  · exact fun u a b => hR.Tu _ _ _
  · exact fun u a b hb => hR.Tu_other _ _ _ (out _ hb)
  · exact fun u a b => hR.Tmu _ _ _
  · exact fun u a b hb => hR.Tmu_other _ _ _ (out _ hb)
  · exact fun a w => hR.EQ _ _
  · exact fun a w => hR.s _ _
  · intro j
    apply (rho h D.consm nc).injective
    rw [e, hr, hr₁, hR.consm]

/-- **C103, moments.** The moments of the part are computed from its distribution functions alone. -/
theorem C103_moments (D : Data K n nc d) (D₁ : Data K n₁ nc₁ d) (p τ : Fin n₁ ↪ Fin n) (κ : Fin nc₁ ↪ Fin nc)
    (hR : Part D D₁ p τ κ) (f : Fin n → K) :
    (∀ a, (D₁.M *ᵥ fun b => f (τ b)) a = (D.M *ᵥ f) (p a)) ∧
    ∀ j, (D₁.M *ᵥ fun b => f (τ b)) (D₁.consm j) = (D.M *ᵥ f) (D.consm (κ j)) := by
  have := hR.moments f
  refine ⟨fun a => (congrFun this a).symm, fun j => ?_⟩
  rw [hR.consm]
  exact (congrFun this _).symm

/-- **C103, collision (partial).** Without relative velocity, the step at one cell gives to the distribution functions of
the part what the step of the part alone gives, whatever the others are and become, for both algorithms, with
sources which do not use a moment already updated. What is missing is false: see `C103_sources_negation`; for the
relative velocity `C103_relative_partial`. -/
theorem C103_collision_partial (S : Kernel K n nc d) (S₁ : Kernel K n₁ nc₁ d) (p τ : Fin n₁ ↪ Fin n) (κ : Fin nc₁ ↪ Fin nc)
    (hR : PartScheme S S₁ p τ κ) (hEQ : ∀ j w, S.EQ (S.consm j) w = w j) (hT : Triangular S.source)
    (hT₁ : Triangular S₁.source) (f : Fin n → K) (x : Local K n d) (x₁ : Local K n₁ d) :
    (fun b => (S.run f x (pullStep n nc d false)).fnew (τ b)) =
      (S₁.run (fun b => f (τ b)) x₁ (pullStep n₁ nc₁ d false)).fnew ∧
    (fun b => (S.run f x (baseStep n nc d false)).fnew (τ b)) =
      (S₁.run (fun b => f (τ b)) x₁ (baseStep n₁ nc₁ d false)).fnew := by
  have hEQ₁ := hR.toPart.eq_conserved hEQ
  have key : (fun b => sourceCollision S.M S.invM S.consm S.EQ S.s S.dt S.source f (τ b)) =
      sourceCollision S₁.M S₁.invM S₁.consm S₁.EQ S₁.s S₁.dt S₁.source fun b => f (τ b) := by
    unfold sourceCollision
    rw [hR.populations, hR.half, hR.relax, hR.half, hR.moments]
  rw [(C45_step_partial S₁ hEQ₁ hT₁ _ _).1, (C45_step_partial S₁ hEQ₁ hT₁ _ _).2, (C45_step_partial S hEQ hT _ _).1,
    (C45_step_partial S hEQ hT _ _).2]
  exact ⟨key, key⟩

/-- **C103, relative velocity (partial).** The same with a relative velocity which only uses the conserved moments of the
part, for the Pull algorithm without sources, when the relaxation parameters of the conserved moments are 0. Missing:
the other algorithm, sources, other parameters of the conserved moments. -/
theorem C103_relative_partial (S : Kernel K n nc d) (S₁ : Kernel K n₁ nc₁ d) (p τ : Fin n₁ ↪ Fin n) (κ : Fin nc₁ ↪ Fin nc)
    (hR : PartScheme S S₁ p τ κ) (hpos : ∀ j, (S.consm j : Nat) = j) (hpos₁ : ∀ j, (S₁.consm j : Nat) = j)
    (hv : S.relVel ≠ none) (hs : ∀ j w, S.s (S.consm j) w = 0) (hS : ∀ i, S.source i = none)
    (f : Fin n → K) (x : Local K n d) (x₁ : Local K n₁ d) :
    (fun b => (S.run f x (pullStep n nc d true)).fnew (τ b)) =
      (S₁.run (fun b => f (τ b)) x₁ (pullStep n₁ nc₁ d true)).fnew := by
  obtain ⟨v, hv1⟩ := Option.ne_none_iff_exists'.1 hv
  obtain ⟨v₁, hv2⟩ := Option.ne_none_iff_exists'.1 (fun e => hv (hR.noRel.2 e))
  have hS₁ : ∀ i, S₁.source i = none := fun i => (hR.noSource i).1 (hS _)
  rw [C46_frame_partial S hpos v hv1 hs hS, C46_frame_partial S₁ hpos₁ v₁ hv2 (hR.toPart.s_conserved hs) hS₁]
  unfold relativeCollision
  have hw : (fun j => (S₁.M *ᵥ fun b => f (τ b)) (S₁.consm j)) = fun j => (fun i => (S.M *ᵥ f) (S.consm i)) (κ j) := by
    funext j
    exact (C103_moments _ _ p τ κ hR.toPart f).2 j
  set w : Fin nc → K := fun i => (S.M *ᵥ f) (S.consm i) with hwd
  simp only [hw, ← hR.rel v v₁ hv1 hv2 w]
  rw [← Matrix.mulVec_mulVec, ← Matrix.mulVec_mulVec, hR.populations, hR.unframe]
  congr 2
  funext a
  have e1 := congrFun (hR.frame (v w) (S.M *ᵥ f)) a
  have e2 := congrFun (hR.frame (v w) fun j => S.EQ j w) a
  beta_reduce at e1 e2
  rw [e1, e2, hR.moments, hR.s]
  simp only [hR.EQ]

end

/-! ## Coupled sources -/

/-- Three moments `a, b, c` where only `c` is conserved. -/
def alone3 : Data ℚ 3 1 0 where
  M := 1
  invM := 1
  Tu := fun _ => 1
  Tmu := fun _ => 1
  EQ := ![fun w => w 0, fun w => 2 * w 0, fun w => w 0]
  s := fun _ _ => 0
  consm := ![2]

/-- The same scheme after a scheme of two moments, the first of which is conserved. -/
def beside2 : Data ℚ 5 2 0 where
  M := 1
  invM := 1
  Tu := fun _ => 1
  Tmu := fun _ => 1
  EQ := ![fun w => w 0, fun w => w 0 * w 1, fun w => w 1, fun w => 2 * w 1, fun w => w 1]
  s := fun _ _ => 0
  consm := ![0, 4]

/-- The place of the scheme `alone3` in `beside2`. -/
abbrev place3 : Fin 3 ↪ Fin 5 := ⟨![2, 3, 4], by decide⟩

/-- The place of its moments in the reordered scheme. -/
abbrev place3' : Fin 3 ↪ Fin 5 := ⟨![1, 3, 2], by decide⟩

/-- The number of its conserved moment. -/
abbrev second1 : Fin 1 ↪ Fin 2 := ⟨![1], by decide⟩

/-- The reordered scheme, with the sources `a' = b` and `b' = -a`. -/
def aloneK : Kernel ℚ 3 1 0 := { alone3.permute (by omega) with
  relVel := none
  source := ![none, some fun m => -m 2, some fun m => m 1]
  dt := 1 }

/-- The same in the larger scheme. -/
def besideK : Kernel ℚ 5 2 0 := { beside2.permute (by omega) with
  relVel := none
  source := ![none, none, some fun m => m 3, some fun m => -m 2, none]
  dt := 1 }

/-- **C103 is false for coupled sources**: a scheme whose two moments turn, alone or after another scheme which it does
not use. The order of its moments is not the same in the two reordered schemes, and the step has another result. -/
theorem C103_sources_negation : Part beside2 alone3 place3 place3 second1 ∧
    besideK.toData = beside2.permute (by omega) ∧ aloneK.toData = alone3.permute (by omega) ∧
    PartScheme besideK aloneK place3' place3 second1 ∧
    (∀ j : Fin 2, (j : Nat) ≤ (beside2.consm j : Nat)) ∧ (∀ j : Fin 1, (j : Nat) ≤ (alone3.consm j : Nat)) ∧
    (∀ j w, besideK.EQ (besideK.consm j) w = w j) ∧ ∃ (f : Fin 5 → ℚ) (x : Local ℚ 5 0) (x₁ : Local ℚ 3 0),
    (fun b => (besideK.run f x (pullStep 5 2 0 false)).fnew (place3 b)) ≠
      (aloneK.run (fun b => f (place3 b)) x₁ (pullStep 3 1 0 false)).fnew := by
  have e : besideK.toData = beside2.permute (by omega) := rfl
  have e₁ : aloneK.toData = alone3.permute (by omega) := rfl
  have R : ∀ {x y : ℚ}, decide (x = y) = true → x = y := of_decide_eq_true
  have q : ∀ {b : Fin 5} {P : Prop} (p : Fin 3 ↪ Fin 5), (b ∉ Finset.univ.map p → P) → b ∉ Set.range p → P := by
    intro b P p h hb
    exact h (by simpa using hb)
  refine ⟨?_, e, e₁, ?_, by decide, by decide, ?_, ![0, 0, 1, 1, 0], ⟨0, 0, 0⟩, ⟨0, 0, 0⟩, by decide +kernel⟩
  · constructor
    · intro a b; fin_cases a <;> fin_cases b <;> exact R (by decide +kernel)
    · exact fun a b => q _ (by revert a b; decide +kernel)
    · intro a b; fin_cases a <;> fin_cases b <;> exact R (by decide +kernel)
    · exact fun a b => q _ (by revert a b; decide +kernel)
    · intro u; rw [Subsingleton.elim u 0]; intro a b; fin_cases a <;> fin_cases b <;> exact R (by decide +kernel)
    · intro u a b; show _ → (1 : Matrix (Fin 5) (Fin 5) ℚ) _ _ = 0; exact q _ (by revert a b; decide +kernel)
    · intro u; rw [Subsingleton.elim u 0]; intro a b; fin_cases a <;> fin_cases b <;> exact R (by decide +kernel)
    · intro u a b; show _ → (1 : Matrix (Fin 5) (Fin 5) ℚ) _ _ = 0; exact q _ (by revert a b; decide +kernel)
    · intro a w; fin_cases a <;> rfl
    · intro a w; rfl
    · decide
  · have hT : ∀ u, besideK.Tu u = besideK.Tu 0 ∧ besideK.Tmu u = besideK.Tmu 0 ∧ aloneK.Tu u = aloneK.Tu 0 ∧
        aloneK.Tmu u = aloneK.Tmu 0 := by
      intro u
      rw [Subsingleton.elim u 0]
      exact ⟨rfl, rfl, rfl, rfl⟩
    constructor
    · constructor
      · intro a b; fin_cases a <;> fin_cases b <;> exact R (by decide +kernel)
      · exact fun a b => q _ (by revert a b; decide +kernel)
      · intro a b; fin_cases a <;> fin_cases b <;> exact R (by decide +kernel)
      · exact fun a b => q _ (by revert a b; decide +kernel)
      · intro u; rw [(hT u).1, (hT u).2.2.1]; intro a b; fin_cases a <;> fin_cases b <;> exact R (by decide +kernel)
      · intro u a b; rw [(hT u).1]; exact q _ (by revert a b; decide +kernel)
      · intro u; rw [(hT u).2.1, (hT u).2.2.2]; intro a b; fin_cases a <;> fin_cases b <;> exact R (by decide +kernel)
      · intro u a b; rw [(hT u).2.1]; exact q _ (by revert a b; decide +kernel)
      · intro a w; fin_cases a <;> rfl
      · intro a w; rw [e, e₁, permute_eq, permute_eq]; rfl
      · decide
    · rfl
    · exact ⟨fun _ => rfl, fun _ => rfl⟩
    · intro v v' h; exact absurd h (by simp [besideK])
    · intro a; fin_cases a <;> simp [besideK, aloneK]
    · intro a r r' h h' m
      fin_cases a <;> simp [besideK, aloneK] at h h' <;> simp [← h, ← h']
  · intro j w
    fin_cases j <;> rfl

/-! ## A passive scalar -/

/-- The Burgers equation by a D1Q2 scheme. -/
def wind : Entry ℚ 1 1 where
  vel := [fun _ => 1, fun _ => -1]
  polynomials := [fun _ => 1, fun x => x 0]
  relax := [fun _ => 0, fun w => 1 + w 0 ^ 2]
  meq := []
  feq := some fun v => v.map fun v w => w 0 / 2 + (v 0 : ℚ) * w 0 ^ 2 / 4

/-- A scalar `w 0` carried with the velocity `w 1`, by a D1Q2 scheme. -/
def smoke : Entry ℚ 1 2 where
  vel := [fun _ => 2, fun _ => -2]
  polynomials := [fun _ => 1, fun x => x 0]
  relax := [fun _ => 0, fun _ => 3 / 2]
  meq := [fun w => w 0, fun w => w 0 * w 1]
  feq := none

/-- The dictionary with the two schemes, the scalar first. -/
def carriedBy : List (Entry ℚ 1 2) := [smoke, wind.within second1]

/-- A case for `C103_dictionary`: the wind, alone or after the scalar which it carries. -/
example : ∃ (D : Data ℚ (sizes carriedBy).sum 2 0) (D₁ : Data ℚ (sizes [wind]).sum 1 0),
    (∀ e ∈ carriedBy, e.Fits) ∧
    assemble 1 carriedBy ![⟨0, by decide⟩, ⟨2, by decide⟩] = some D ∧ assemble 1 [wind] ![⟨0, by decide⟩] = some D₁ ∧
    ∃ p, Part D D₁ p p second1 ∧ (p ⟨1, by decide⟩ : Nat) = 3 := by
  have hfit : ∀ e ∈ carriedBy, e.Fits := by
    intro e he
    simp only [carriedBy, List.mem_cons, List.not_mem_nil, or_false] at he
    rcases he with rfl | rfl
    · exact ⟨rfl, rfl, Or.inl ⟨rfl, rfl⟩⟩
    · exact ⟨rfl, rfl, Or.inr ⟨rfl, _, rfl, rfl⟩⟩
  have hdet : ∀ k < 2, (inv (blockM 1 carriedBy k)).isSome := by
    intro k hk
    unfold inv
    rw [if_pos]
    · rfl
    · have : k = 0 ∨ k = 1 := by omega
      rcases this with rfl | rfl
      · show (Matrix.of ![![(1 : ℚ), 1], ![((2 : Int) : ℚ) * 1, ((-2 : Int) : ℚ) * 1]]).det ≠ 0
        rw [Matrix.det_fin_two]
        norm_num
      · show (Matrix.of ![![(1 : ℚ), 1], ![((1 : Int) : ℚ) * 1, ((-1 : Int) : ℚ) * 1]]).det ≠ 0
        rw [Matrix.det_fin_two]
        norm_num
  have hdet₁ : ∀ k < 1, (inv (blockM 1 [wind] k)).isSome := by
    intro k hk
    unfold inv
    rw [if_pos]
    · rfl
    · obtain rfl : k = 0 := by omega
      show (Matrix.of ![![(1 : ℚ), 1], ![((1 : Int) : ℚ) * 1, ((-1 : Int) : ℚ) * 1]]).det ≠ 0
      rw [Matrix.det_fin_two]
      norm_num
  obtain ⟨D, hD⟩ : ∃ D : Data ℚ (sizes carriedBy).sum 2 0, assemble 1 carriedBy ![⟨0, by decide⟩, ⟨2, by decide⟩] = some D := by
    apply Option.isSome_iff_exists.1
    unfold assemble
    simp only
    rw [if_pos ⟨by decide, hdet, by decide⟩]
    rfl
  obtain ⟨D₁, hD₁⟩ : ∃ D₁ : Data ℚ (sizes [wind]).sum 1 0, assemble 1 [wind] ![⟨0, by decide⟩] = some D₁ := by
    apply Option.isSome_iff_exists.1
    unfold assemble
    simp only
    rw [if_pos ⟨by decide, hdet₁, by decide⟩]
    rfl
  refine ⟨D, D₁, hfit, hD, hD₁, ?_⟩
  obtain ⟨p, hp, hpl⟩ := C103_dictionary 1 carriedBy [wind] hfit second1 (fun k => k + 1) (fun a b h => by simpa using h)
    (fun k hk => by
      obtain rfl : k = 0 := by simpa using hk
      rfl) _ _ (fun j k i hk hi h => by
      obtain rfl : k = 0 := by simpa using hk
      fin_cases j
      have : i = 0 := by
        have h' : (0 : Nat) = 0 + i := h
        omega
      subst this
      rfl) D hD D₁ hD₁
  exact ⟨p, hp, hpl 0 1 (by decide) (by decide) ⟨1, by decide⟩ rfl⟩

end Pylbm.Scheme
