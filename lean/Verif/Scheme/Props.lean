import Verif.Scheme.Matrices
/-!
# C36 (indices), C38, C45, C46: relaxation, equilibrium, sources, relative velocity
-/
namespace Pylbm.Scheme
open Matrix SchemeSpec ListAux

/-! ## Positions of the conserved moments -/

section index
variable {K : Type}

theorem schemeConsm_spec {start : Nat} {leq : List (EqExpr K)} {names : List Nat}
    {r : List (Nat × Nat)} (h : schemeConsm start leq names = some r) :
    r.map Prod.fst = names ∧ ∀ p ∈ r, ∃ i, p.2 = start + i ∧ leq[i]? = some (.sym p.1) := by
  unfold schemeConsm at h
  rw [mapM_eq_some_iff] at h
  obtain ⟨hl, h⟩ := h
  have key : ∀ i (hi : i < r.length), r[i].1 = names[i]'(by omega) ∧
      ∃ q, r[i].2 = start + q ∧ leq[q]? = some (.sym r[i].1) := by
    intro i hi
    have h1 := h i (by omega)
    rw [List.getElem?_eq_getElem hi, Option.map_eq_some_iff] at h1
    obtain ⟨q, hq, he⟩ := h1
    rw [List.findIdx?_eq_some_iff_getElem] at hq
    obtain ⟨hql, hq1, _⟩ := hq
    refine ⟨by rw [← he], q, by rw [← he], ?_⟩
    rw [List.getElem?_eq_getElem hql, ← he]
    congr 1
    cases hc : leq[q] with
    | sym c =>
      rw [hc] at hq1
      simp only [EqExpr.isSym, beq_iff_eq] at hq1
      rw [hq1]
    | expr e => rw [hc] at hq1; simp [EqExpr.isSym] at hq1
  constructor
  · apply List.ext_getElem (by simp [hl])
    intro i h1 h2
    simp only [List.getElem_map]
    exact (key i (by simpa using h1)).1
  · intro p hp
    obtain ⟨i, hi, rfl⟩ := List.getElem_of_mem hp
    exact (key i hi).2

theorem dictSet_spec (d : List (Nat × Nat)) (p : Nat × Nat) (hd : (d.map Prod.fst).Nodup) :
    ((dictSet d p).map Prod.fst).Nodup ∧
    ∀ q, q ∈ dictSet d p ↔ (q ∈ d ∧ q.1 ≠ p.1) ∨ q = p := by
  unfold dictSet
  split_ifs with h
  · have hfst : (d.map fun q => if q.1 == p.1 then p else q).map Prod.fst = d.map Prod.fst := by
      rw [List.map_map]
      apply List.map_congr_left
      intro q _
      simp only [Function.comp_apply, beq_iff_eq]
      split_ifs with hq
      · exact hq.symm
      · rfl
    refine ⟨by rw [hfst]; exact hd, fun q => ?_⟩
    simp only [List.mem_map, beq_iff_eq]
    constructor
    · rintro ⟨r, hr, rfl⟩
      split_ifs with hrp
      · exact Or.inr rfl
      · exact Or.inl ⟨hr, hrp⟩
    · rintro (⟨hq, hqp⟩ | rfl)
      · exact ⟨q, hq, by simp [hqp]⟩
      · simp only [List.any_eq_true, beq_iff_eq] at h
        obtain ⟨r, hr, hrp⟩ := h
        exact ⟨r, hr, by simp [hrp]⟩
  · simp only [List.any_eq_true, beq_iff_eq, not_exists, not_and] at h
    refine ⟨?_, fun q => ?_⟩
    · rw [List.map_append, List.nodup_append]
      refine ⟨hd, by simp, ?_⟩
      intro a ha b hb
      obtain ⟨r, hr, rfl⟩ := List.mem_map.1 ha
      simp only [List.map_cons, List.map_nil, List.mem_singleton] at hb
      rw [hb]; exact h r hr
    · simp only [List.mem_append, List.mem_singleton]
      constructor
      · rintro (hq | hq)
        · exact Or.inl ⟨hq, h q hq⟩
        · exact Or.inr hq
      · rintro (⟨hq, _⟩ | hq)
        · exact Or.inl hq
        · exact Or.inr hq

/-- **C36, positions.** When the construction succeeds, every conserved symbol found in the dictionary
has one position, the entry of the equilibrium at this position is the symbol itself, every symbol of
every scheme is in the dictionary, and distinct symbols have distinct positions. -/
theorem C36_positions (schemes : List (List (EqExpr K) × List Nat)) (r : List (Nat × Nat))
    (h : conservedMoments 0 schemes [] = some r) :
    (r.map Prod.fst).Nodup ∧
    (∀ p ∈ r, (schemes.flatMap Prod.fst)[p.2]? = some (.sym p.1)) ∧
    (∀ s ∈ schemes, ∀ c ∈ s.2, ∃ i, (c, i) ∈ r) ∧
    (r.map Prod.snd).Nodup := by
  have key : ∀ (l : List (List (EqExpr K) × List Nat)) (pre : List (EqExpr K))
      (d : List (Nat × Nat)) (r : List (Nat × Nat)),
      (d.map Prod.fst).Nodup → (∀ p ∈ d, pre[p.2]? = some (.sym p.1)) →
      conservedMoments pre.length l d = some r →
      (r.map Prod.fst).Nodup ∧ (∀ p ∈ r, (pre ++ l.flatMap Prod.fst)[p.2]? = some (.sym p.1)) ∧
      (∀ c, (∃ i, (c, i) ∈ d) → ∃ i, (c, i) ∈ r) ∧
      (∀ s ∈ l, ∀ c ∈ s.2, ∃ i, (c, i) ∈ r) := by
    intro l
    induction l with
    | nil =>
      intro pre d r hd hp h
      simp only [conservedMoments, Option.some.injEq] at h
      subst h
      exact ⟨hd, by simpa using hp, fun c hc => hc, by simp⟩
    | cons s l ih =>
      obtain ⟨leq, names⟩ := s
      intro pre d r hd hp h
      rw [conservedMoments] at h
      simp only [Option.bind_eq_bind, Option.bind_eq_some_iff] at h
      obtain ⟨q, hq, h⟩ := h
      obtain ⟨hq1, hq2⟩ := schemeConsm_spec hq
      have hfold : ∀ (q : List (Nat × Nat)) (d : List (Nat × Nat)), (d.map Prod.fst).Nodup →
          (∀ p ∈ d, (pre ++ leq)[p.2]? = some (.sym p.1)) →
          (∀ p ∈ q, (pre ++ leq)[p.2]? = some (.sym p.1)) →
          ((q.foldl dictSet d).map Prod.fst).Nodup ∧
          (∀ p ∈ q.foldl dictSet d, (pre ++ leq)[p.2]? = some (.sym p.1)) ∧
          (∀ c, ((∃ i, (c, i) ∈ d) ∨ (∃ i, (c, i) ∈ q)) → ∃ i, (c, i) ∈ q.foldl dictSet d) := by
        intro q
        induction q with
        | nil =>
          intro d hd hp _
          refine ⟨hd, hp, fun c hc => ?_⟩
          rcases hc with hc | ⟨i, hi⟩
          · exact hc
          · simp at hi
        | cons p q ihq =>
          intro d hd hp hq
          obtain ⟨h1, h2⟩ := dictSet_spec d p hd
          have := ihq (dictSet d p) h1 (by
            intro p' hp'
            rcases (h2 p').1 hp' with ⟨h3, _⟩ | rfl
            · exact hp p' h3
            · exact hq _ (by simp)) (fun p' hp' => hq p' (by simp [hp']))
          refine ⟨this.1, this.2.1, fun c hc => this.2.2 c ?_⟩
          rcases hc with ⟨i, hi⟩ | ⟨i, hi⟩
          · by_cases hcp : c = p.1
            · exact Or.inl ⟨p.2, (h2 _).2 (Or.inr (by rw [hcp]))⟩
            · exact Or.inl ⟨i, (h2 _).2 (Or.inl ⟨hi, hcp⟩)⟩
          · rcases List.mem_cons.1 hi with rfl | hi
            · exact Or.inl ⟨i, (h2 _).2 (Or.inr rfl)⟩
            · exact Or.inr ⟨i, hi⟩
      have hpre : ∀ p ∈ d, (pre ++ leq)[p.2]? = some (.sym p.1) := by
        intro p hpd
        have := hp p hpd
        obtain ⟨hlt, _⟩ := List.getElem?_eq_some_iff.1 this
        rw [List.getElem?_append_left hlt]; exact this
      have hq' : ∀ p ∈ q, (pre ++ leq)[p.2]? = some (.sym p.1) := by
        intro p hpq
        obtain ⟨i, hi1, hi2⟩ := hq2 p hpq
        rw [hi1, List.getElem?_append_right (by omega)]
        simpa using hi2
      obtain ⟨f1, f2, f3⟩ := hfold q d hd hpre hq'
      have hlen : (pre ++ leq).length = pre.length + leq.length := List.length_append
      rw [← hlen] at h
      obtain ⟨r1, r2, r3, r4⟩ := ih (pre ++ leq) _ r f1 f2 h
      refine ⟨r1, ?_, fun c hc => r3 c (f3 c (Or.inl hc)), ?_⟩
      · intro p hpr
        have := r2 p hpr
        simpa [List.append_assoc] using this
      · intro s hs c hc
        rcases List.mem_cons.1 hs with rfl | hs
        · apply r3 c
          apply f3 c
          right
          have : c ∈ q.map Prod.fst := by rw [hq1]; exact hc
          obtain ⟨p, hp1, hp2⟩ := List.mem_map.1 this
          exact ⟨p.2, by rw [← hp2]; exact hp1⟩
        · exact r4 s hs c hc
  obtain ⟨h1, h2, _, h4⟩ := key schemes [] [] r (by simp) (by simp) h
  simp only [List.nil_append] at h2
  refine ⟨h1, h2, h4, ?_⟩
  rw [List.nodup_map_iff_inj_on (List.Nodup.of_map _ h1)]
  intro p hp q hq he
  have e1 := h2 p hp
  have e2 := h2 q hq
  rw [he, e2] at e1
  have e3 : q.1 = p.1 := by
    have := Option.some.inj e1
    injection this
  exact Prod.ext e3.symm he

/-- Two schemes with one conserved moment each. -/
example : conservedMoments (K := ℚ) 0 [([.sym 3, .expr fun w => w 3 + w 4], [3]),
    ([.expr fun w => w 3, .sym 4], [4])] [] = some [(3, 0), (4, 3)] := by decide

end index

/-! ## C38 -/

section C38
variable {K : Type} [Field K] {n nc d : Nat}

/-- **C38, relaxation.** Although the components are assigned one after the other, the result is the
simultaneous relaxation: conserved moments do not move, equilibrium states are fixed, and with all
parameters 1 the result is the equilibrium. -/
theorem C38_relaxation (S : Kernel K n nc d) (hEQ : ∀ j w, S.EQ (S.consm j) w = w j)
    (f : Fin n → K) (x : Local K n d) :
    S.run f x (relaxLocal n d false) = { x with m := relaxed S.consm S.EQ S.s x.m } ∧
    (∀ j, (S.run f x (relaxLocal n d false)).m (S.consm j) = x.m (S.consm j)) ∧
    ((∀ i, x.m i = S.EQ i (x.m ∘ S.consm)) → (S.run f x (relaxLocal n d false)).m = x.m) ∧
    ((∀ i w, S.s i w = 1) →
      (S.run f x (relaxLocal n d false)).m = fun i => S.EQ i (x.m ∘ S.consm)) := by
  have hrun : S.run f x (relaxLocal n d false) = { x with m := relaxed S.consm S.EQ S.s x.m } := by
    rw [run_relax S f x false]
    · rfl
    · intro j
      rw [if_neg (by simp), hEQ]
      simp only [Kernel.cons]
      ring
  rw [hrun]
  refine ⟨rfl, fun j => ?_, fun h => ?_, fun h => ?_⟩
  · simp only [relaxed, hEQ, Function.comp_apply]; ring
  · funext i
    simp only [relaxed]
    rw [← h i]; ring
  · funext i
    simp only [relaxed, h]; ring

/-- **C38, equilibrium.** `equilibrium` sets every moment to its equilibrium value computed from the
conserved moments before the call, keeps the conserved moments, is idempotent and does not depend on
the other moments. -/
theorem C38_equilibrium (S : Kernel K n nc d) (hEQ : ∀ j w, S.EQ (S.consm j) w = w j)
    (f : Fin n → K) (x : Local K n d) :
    S.run f x (equilibriumLocal n d) = { x with m := fun i => S.EQ i (x.m ∘ S.consm) } ∧
    (∀ j, (S.run f x (equilibriumLocal n d)).m (S.consm j) = x.m (S.consm j)) ∧
    S.run f (S.run f x (equilibriumLocal n d)) (equilibriumLocal n d) =
      S.run f x (equilibriumLocal n d) ∧
    (∀ y : Local K n d, (∀ j, y.m (S.consm j) = x.m (S.consm j)) →
      (S.run f y (equilibriumLocal n d)).m = (S.run f x (equilibriumLocal n d)).m) := by
  have hrun : ∀ x : Local K n d, S.run f x (equilibriumLocal n d) =
      { x with m := fun i => S.EQ i (x.m ∘ S.consm) } := by
    intro x
    rw [run_equilibrium S f x (fun j => by rw [hEQ]; rfl)]
    rfl
  have hcons : ∀ m : Fin n → K,
      (fun i => S.EQ i (m ∘ S.consm)) ∘ S.consm = m ∘ S.consm := by
    intro m; funext j; simp only [Function.comp_apply, hEQ]
  refine ⟨hrun x, fun j => ?_, ?_, fun y hy => ?_⟩
  · rw [hrun]; simp only [hEQ, Function.comp_apply]
  · rw [hrun, hrun]
    simp only [hcons]
  · rw [hrun, hrun]
    have : y.m ∘ S.consm = x.m ∘ S.consm := funext hy
    simp only [this]

end C38

/-! ## C45 -/

section C45
variable {K : Type} [Field K] {n nc d : Nat}

/-- No source term uses a moment of smaller index which has a source term itself. -/
def Triangular (S : Fin n → Option ((Fin n → K) → K)) : Prop :=
  ∀ i r, S i = some r → ∀ m m' : Fin n → K, (∀ j, (i ≤ j ∨ S j = none) → m j = m' j) → r m = r m'

/-- **C45 (partial).** The generated statements do the explicit Euler half step, under the hypothesis
that no source uses a moment already updated; moments without source are never changed. What is missing
is false: see `C45_coupled_negation`. -/
theorem C45_half_step_partial (S : Kernel K n nc d) (hT : Triangular S.source) (f : Fin n → K)
    (x : Local K n d) :
    S.run f x (sourceLocal n d) = { x with m := euler S.dt S.source x.m } ∧
    ∀ i, S.source i = none → (S.run f x (sourceLocal n d)).m i = x.m i := by
  have := run_source S f x hT
  refine ⟨this, fun i hi => ?_⟩
  rw [this]
  simp only [euler, hi]

/-- Moments without source are not changed, without any hypothesis on the sources. -/
theorem C45_no_source (S : Kernel K n nc d) (f : Fin n → K) (x : Local K n d) (i : Fin n)
    (hi : S.source i = none) : (S.run f x (sourceLocal n d)).m i = x.m i := by
  unfold sourceLocal
  have key : ∀ l : List (Fin n), (S.run f x (l.map .src)).m i = x.m i := by
    intro l
    induction l using List.reverseRecOn with
    | nil => rfl
    | append_singleton l a ih =>
      rw [List.map_append, run_append]
      simp only [List.map_cons, List.map_nil, Kernel.run, List.foldl_cons, List.foldl_nil]
      rw [← Kernel.run]
      simp only [Kernel.exec]
      cases ha : S.source a with
      | none => exact ih
      | some r =>
        simp only
        rw [Function.update_of_ne (by rintro rfl; rw [hi] at ha; simp at ha)]
        exact ih
  exact key _

/-- **C45, whole step.** Both algorithms do: moments of the incoming distribution functions, half step,
relaxation, half step, distribution functions. -/
theorem C45_step_partial (S : Kernel K n nc d) (hEQ : ∀ j w, S.EQ (S.consm j) w = w j)
    (hT : Triangular S.source) (f : Fin n → K) (x : Local K n d) :
    (S.run f x (pullStep n nc d false)).fnew =
      sourceCollision S.M S.invM S.consm S.EQ S.s S.dt S.source f ∧
    (S.run f x (baseStep n nc d false)).fnew =
      sourceCollision S.M S.invM S.consm S.EQ S.s S.dt S.source f := by
  constructor
  · unfold pullStep
    rw [run_append, run_append, run_append, run_append, run_append, run_f2m, run_source S _ _ hT,
      (C38_relaxation S hEQ f _).1, run_source S _ _ hT, run_back]
    rfl
  · unfold baseStep
    rw [run_append, run_append, run_append, run_append, run_append, run_transport, run_f2m,
      run_source S _ _ hT, (C38_relaxation S hEQ f _).1, run_source S _ _ hT, run_back]
    rfl

/-- Without sources: the collision. -/
theorem step_collision (S : Kernel K n nc d) (hEQ : ∀ j w, S.EQ (S.consm j) w = w j)
    (hS : ∀ i, S.source i = none) (f : Fin n → K) (x : Local K n d) :
    (S.run f x (pullStep n nc d false)).fnew = collision S.M S.invM S.consm S.EQ S.s f ∧
    (S.run f x (baseStep n nc d false)).fnew = collision S.M S.invM S.consm S.EQ S.s f := by
  have hT : Triangular S.source := by
    intro i r hr; rw [hS i] at hr; simp at hr
  obtain ⟨h1, h2⟩ := C45_step_partial S hEQ hT f x
  have he : ∀ m, euler S.dt S.source m = m := by
    intro m; funext i; simp only [euler, hS i]
  rw [h1, h2]
  unfold sourceCollision collision
  rw [he, he]
  exact ⟨rfl, rfl⟩

end C45

/-- The D1Q2 kernel with both moments conserved and the rotation `q_0' = q_1`, `q_1' = -q_0` as source
terms. -/
def rotation : Kernel ℚ 2 2 0 where
  M := 1
  invM := 1
  Tu := fun _ => 1
  Tmu := fun _ => 1
  EQ := fun i w => w i
  s := fun _ _ => 0
  consm := id
  relVel := none
  source := ![some fun m => m 1, some fun m => -m 0]
  dt := 2

/-- **C45 is false for coupled sources**: the second source is computed with the first moment already
updated. -/
theorem C45_coupled_negation : ∃ (S : Kernel ℚ 2 2 0) (x : Local ℚ 2 0) (f : Fin 2 → ℚ),
    (∀ j w, S.EQ (S.consm j) w = w j) ∧
    (S.run f x (sourceLocal 2 0)).m ≠ euler S.dt S.source x.m := by
  refine ⟨rotation, ⟨![1, 1], ![0, 0], ![]⟩, ![0, 0], fun _ _ => rfl, ?_⟩
  intro h
  have := congrFun h 1
  revert this
  decide +kernel

/-- **C45: the argument of `Simulation.source_term(fraction_of_time_step=1.0)` is ignored**
(simulation.py 336-341): the default call integrates half a time step. -/
theorem C45_fraction_negation : ∃ (S : Kernel ℚ 1 1 0) (x : Local ℚ 1 0) (f : Fin 1 → ℚ),
    Triangular S.source ∧
    (S.run f x (sourceLocal 1 0)).m ≠ fun i => x.m i + 1 * S.dt * ((S.source i).getD fun _ => 0) x.m := by
  refine ⟨⟨⟨1, 1, fun _ => 1, fun _ => 1, fun i w => w i, fun _ _ => 0, id⟩, none,
    fun _ => some fun _ => 1, 2⟩, ⟨![0], ![0], ![]⟩, ![0], ?_, ?_⟩
  · intro i r hr m m' _
    simp only [Option.some.injEq] at hr
    rw [← hr]
  · intro h
    have := congrFun h 0
    revert this
    decide +kernel

/-- A triangular case: gravity `q' = rho g`, with no source on `rho`. -/
example : Triangular (K := ℚ) (n := 2) ![none, some fun m => 9 * m 0] := by
  intro i r hr m m' h
  fin_cases i
  · simp at hr
  · simp only [Fin.mk_one, Matrix.cons_val_one, Matrix.cons_val_fin_one, Option.some.injEq] at hr
    rw [← hr]
    beta_reduce
    rw [h 0 (Or.inr rfl)]

/-! ## C46 -/

section C46
variable {K : Type} [Field K] {n nc d : Nat}

theorem run_relax_only (S : Kernel K n nc d) (f : Fin n → K) (x : Local K n d) (rel : Bool) :
    (S.run f x (relaxLocal n d rel)).u = x.u ∧ (S.run f x (relaxLocal n d rel)).fnew = x.fnew := by
  unfold relaxLocal
  have key : ∀ l : List (Fin n), (S.run f x (l.map (.relax rel))).u = x.u ∧
      (S.run f x (l.map (.relax rel))).fnew = x.fnew := by
    intro l
    induction l using List.reverseRecOn with
    | nil => exact ⟨rfl, rfl⟩
    | append_singleton l a ih =>
      rw [List.map_append, run_append]
      exact ih
  exact key _

/-- **C46, Pull algorithm.** With a relative velocity, the collision keeps the absolute conserved
moments, whatever the relaxation parameters, the equilibrium and the relative velocity, as soon as the
translation matrices are inverse of each other and the conserved moments are mapped to conserved moments
by a translation. -/
theorem C46_pull (S : Kernel K n nc d) (hM : S.M * S.invM = 1)
    (hT : ∀ u, S.Tmu u * S.Tu u = 1)
    (hclosed : ∀ u (j : Fin nc) (b : Fin n), nc ≤ (b : Nat) → S.Tmu u (S.consm j) b = 0)
    (hS : ∀ i, S.source i = none) (f : Fin n → K) (x : Local K n d) (j : Fin nc) :
    (S.M *ᵥ (S.run f x (pullStep n nc d true)).fnew) (S.consm j) = (S.M *ᵥ f) (S.consm j) := by
  unfold pullStep
  rw [run_append, run_append, run_append, run_append, run_append, run_source_none S _ _ hS,
    run_source_none S _ _ hS, run_back]
  set y := S.run f x (f2mLocal n nc d false true) with hy
  set z := S.run f y (relaxLocal n d true) with hz
  -- the moments before `m2f`
  set c : Fin n → K := fun i => if i ∈ front n nc then ((S.Tu z.u * S.M) *ᵥ f) i else z.m i with hc
  have hr : S.run f z (restoreLocal n nc d) = { z with m := c } := by
    unfold restoreLocal
    rw [run_mom S f z false true (front n nc) ((List.nodup_finRange n).filter _)]
    rfl
  simp only [if_true]
  rw [hr]
  simp only
  rw [Matrix.mulVec_mulVec, ← Matrix.mul_assoc, hM, Matrix.one_mul]
  have e1 : (S.Tmu z.u *ᵥ c) (S.consm j) = (S.Tmu z.u *ᵥ ((S.Tu z.u * S.M) *ᵥ f)) (S.consm j) := by
    simp only [Matrix.mulVec, dotProduct]
    apply Finset.sum_congr rfl
    intro b _
    by_cases hb : (b : Nat) < nc
    · simp only [hc]
      rw [if_pos (by simp [front, hb])]
      rfl
    · rw [hclosed _ _ _ (by omega), zero_mul, zero_mul]
  rw [e1, Matrix.mulVec_mulVec, ← Matrix.mul_assoc, hT, Matrix.one_mul]

/-- **C46, translation matrices.** When the space spanned by the polynomials is stable by translation
(`P_i (x - u) = ∑ j, A u i j * P_j x`), the matrix `Tu` computed by `_create_moments_matrices` is `A u`, and
`Tu` and `Tmu` (`u` replaced by `-u`) are inverse of each other. -/
theorem C46_translation {dim : Nat} (la : K) (vel : Fin n → Fin dim → Int)
    (P : Fin n → (Fin dim → K) → K) (A : (Fin dim → K) → Matrix (Fin n) (Fin n) K)
    (hA : ∀ u i x, P i (fun k => x k - u k) = ∑ j, A u i j * P j x)
    (invM : Matrix (Fin n) (Fin n) K) (hM : inv (localM la vel P) = some invM) (u : Fin dim → K) :
    localTu la vel P invM u = A u ∧
    localTu la vel P invM u * localTu la vel P invM (fun k => -u k) = 1 ∧
    localTu la vel P invM (fun k => -u k) * localTu la vel P invM u = 1 := by
  obtain ⟨h1, h2⟩ := inv_spec hM
  have hMu : ∀ u, localMu la vel P u = A u * localM la vel P := by
    intro u
    ext i j
    rw [Matrix.mul_apply]
    exact hA u i fun k => (vel j k : K) * la
  have hTu : ∀ u, localTu la vel P invM u = A u := by
    intro u
    unfold localTu
    rw [hMu, Matrix.mul_assoc, h1, Matrix.mul_one]
  have hprod : A u * A (fun k => -u k) = 1 := by
    have : A u * A (fun k => -u k) * localM la vel P = localM la vel P := by
      rw [Matrix.mul_assoc, ← hMu]
      ext i j
      rw [Matrix.mul_apply]
      have := hA u i (fun k => (vel j k : K) * la - -u k)
      simp only [sub_neg_eq_add, add_sub_cancel_right] at this
      simp only [localM, localMu, Matrix.of_apply, sub_neg_eq_add]
      exact this.symm
    calc A u * A (fun k => -u k) = A u * A (fun k => -u k) * (localM la vel P * invM) := by
          rw [h1, Matrix.mul_one]
      _ = (A u * A (fun k => -u k) * localM la vel P) * invM := by rw [← Matrix.mul_assoc]
      _ = 1 := by rw [this, h1]
  refine ⟨hTu u, ?_, ?_⟩
  · rw [hTu, hTu]; exact hprod
  · rw [hTu, hTu]; exact mul_eq_one_comm.1 hprod

end C46

/-- D1Q3 with polynomials `1, X, X²`, conserved moments `rho, q`, relative velocity `q / rho`. -/
def d1q3rel : Kernel ℚ 3 2 1 where
  M := !![1, 1, 1; 0, 1, -1; 0, 1, 1]
  invM := !![1, 0, -1; 0, 1 / 2, 1 / 2; 0, -1 / 2, 1 / 2]
  Tu := fun u => !![1, 0, 0; -u 0, 1, 0; u 0 ^ 2, -2 * u 0, 1]
  Tmu := fun u => !![1, 0, 0; u 0, 1, 0; u 0 ^ 2, 2 * u 0, 1]
  EQ := ![fun w => w 0, fun w => w 1, fun w => w 0 / 2]
  s := ![fun _ => 0, fun _ => 0, fun _ => 3 / 2]
  consm := ![0, 1]
  relVel := some fun w _ => w 1 / w 0
  source := fun _ => none
  dt := 1

theorem d1q3rel_inverse (u : Fin 1 → ℚ) : d1q3rel.Tmu u * d1q3rel.Tu u = 1 := by
  ext i j
  fin_cases i <;> fin_cases j <;>
    simp [d1q3rel, Matrix.mul_apply, Fin.sum_univ_three] <;> ring

/-- A case for `C46_pull`: the hypotheses hold for `d1q3rel`. -/
example : (∀ j, (d1q3rel.consm j : Nat) = j) ∧ d1q3rel.M * d1q3rel.invM = 1 ∧
    (∀ u, d1q3rel.Tmu u * d1q3rel.Tu u = 1) ∧
    (∀ u (j : Fin 2) (b : Fin 3), 2 ≤ (b : Nat) → d1q3rel.Tmu u (d1q3rel.consm j) b = 0) := by
  refine ⟨by decide, by decide +kernel, d1q3rel_inverse, ?_⟩
  intro u j b hb
  obtain rfl : b = 2 := Fin.ext (by omega)
  fin_cases j <;> rfl

/-- A case for `C46_translation`: `1, X, X²` in one dimension. -/
example (u : Fin 1 → ℚ) (i : Fin 3) (x : Fin 1 → ℚ) :
    (![fun _ => 1, fun y => y 0, fun y => y 0 ^ 2] : Fin 3 → (Fin 1 → ℚ) → ℚ) i (fun k => x k - u k) =
      ∑ j, (!![1, 0, 0; -u 0, 1, 0; u 0 ^ 2, -2 * u 0, 1] : Matrix (Fin 3) (Fin 3) ℚ) i j *
        (![fun _ => 1, fun y => y 0, fun y => y 0 ^ 2] : Fin 3 → (Fin 1 → ℚ) → ℚ) j x := by
  fin_cases i <;> simp [Fin.sum_univ_three] <;> ring

/-- **C46 is false for the Base algorithm**: it does not restore the conserved moments, so that with the
usual parameters (0 for the conserved moments) the momentum is doubled. -/
theorem C46_base_negation : ∃ (f : Fin 3 → ℚ) (x : Local ℚ 3 1),
    (d1q3rel.M *ᵥ (d1q3rel.run f x (baseStep 3 2 1 true)).fnew) (d1q3rel.consm 1) ≠
      (d1q3rel.M *ᵥ f) (d1q3rel.consm 1) :=
  ⟨![1, 2, 0], ⟨0, 0, 0⟩, by decide +kernel⟩

/-- A case for C38: an equilibrium which is not linear. -/
example : ∀ (j : Fin 1) (w : Fin 1 → ℚ),
    (![fun w => w 0, fun w => w 0 ^ 2] : Fin 2 → (Fin 1 → ℚ) → ℚ) ((![0] : Fin 1 → Fin 2) j) w = w j := by
  intro j w
  fin_cases j
  rfl

end Pylbm.Scheme
