import Verif.Sim.Cone
import Verif.Sim.Bounds
import Verif.Sim.Init
import Verif.Boundary.Time
/-!
# Superposition of solutions for linear schemes (C90)
-/
set_option linter.unusedSectionVars false
namespace Pylbm.Sim
open Scheme Halo SchemeSpec Matrix HaloSpec Mpi Boundary

variable {K : Type} [Field K] [LinearOrder K] [IsStrictOrderedRing K] [FloorRing K] {n nc d dim : Nat}

/-! ## Specification -/

/-- The equilibrium and the sources of the scheme respect the combination `α · + β ·`; its relaxation parameters and
its relative velocity are constants. -/
structure Combines (S : Kernel K n nc d) (α β : K) : Prop where
  EQ : ∀ i w w', S.EQ i (fun l => α * w l + β * w' l) = α * S.EQ i w + β * S.EQ i w'
  s : ∀ i w w', S.s i w = S.s i w'
  rel : ∀ q, S.relVel = some q → ∀ w w', q w = q w'
  source : ∀ i q, S.source i = some q → ∀ m m', q (fun l => α * m l + β * m' l) = α * q m + β * q m'

/-- Combination of two fields. -/
def comb (α β : K) {ι : Type} (f f' : ι → Fin n → K) : ι → Fin n → K := fun x j => α * f x j + β * f' x j

/-- Combination of the values imposed on the walls. -/
def combValues {s : Sten dim} (α β : K) (ψ ψ' : Int → K → (Fin dim → K) → Fin s.ns → K) :
    Int → K → (Fin dim → K) → Fin s.ns → K := fun l t x j => α * ψ l t x j + β * ψ' l t x j

/-! ## Lemmas -/

/-- The values at one cell in the three runs. -/
structure LocalComb (α β : K) (x x' y : Local K n d) : Prop where
  m : ∀ i, y.m i = α * x.m i + β * x'.m i
  fnew : ∀ i, y.fnew i = α * x.fnew i + β * x'.fnew i
  u : x'.u = x.u
  u' : y.u = x.u

section
variable {S : Kernel K n nc d} {α β : K}

theorem update_comb {m m' p : Fin n → K} (hm : ∀ l, p l = α * m l + β * m' l) (i : Fin n) {y y' z : K}
    (hy : z = α * y + β * y') (l : Fin n) :
    Function.update p i z l = α * Function.update m i y l + β * Function.update m' i y' l := by
  by_cases hl : l = i
  · subst hl; simp [hy]
  · simp [hl, hm]

theorem dot_comb (A : Matrix (Fin n) (Fin n) K) (i : Fin n) {g g' h : Fin n → K} (hg : ∀ l, h l = α * g l + β * g' l) :
    Kernel.dot A i h = α * Kernel.dot A i g + β * Kernel.dot A i g' := by
  unfold Kernel.dot
  rw [Finset.mul_sum, Finset.mul_sum, ← Finset.sum_add_distrib]
  refine Finset.sum_congr rfl fun j _ => ?_
  rw [hg]; ring

theorem cons_comb {m m' p : Fin n → K} (hm : ∀ l, p l = α * m l + β * m' l) :
    S.cons p = fun l => α * S.cons m l + β * S.cons m' l := funext fun l => hm _

theorem Combines.exec (h : Combines S α β) {f f' F : Fin n → K} (hf : ∀ l, F l = α * f l + β * f' l)
    {x x' y : Local K n d} (hx : LocalComb α β x x' y) (st : Stmt n d) :
    LocalComb α β (S.exec f x st) (S.exec f' x' st) (S.exec F y st) := by
  cases st with
  | shift k => exact ⟨hx.m, update_comb hx.fnew k (hf k), hx.u, hx.u'⟩
  | mom fromNew rel i =>
    refine ⟨update_comb hx.m i ?_, hx.fnew, hx.u, hx.u'⟩
    rw [hx.u, hx.u']
    refine dot_comb _ i fun l => ?_
    cases fromNew
    · exact hf l
    · exact hx.fnew l
  | vel i =>
    refine ⟨hx.m, hx.fnew, ?_, ?_⟩
    · simp only [Kernel.exec]
      cases hq : S.relVel with
      | none => exact hx.u
      | some q =>
        simp only
        rw [hx.u, h.rel q hq (S.cons x'.m) (S.cons x.m)]
    · simp only [Kernel.exec]
      cases hq : S.relVel with
      | none => exact hx.u'
      | some q =>
        simp only
        rw [hx.u', h.rel q hq (S.cons y.m) (S.cons x.m)]
  | relax rel i =>
    refine ⟨update_comb hx.m i ?_, hx.fnew, hx.u, hx.u'⟩
    have hc := cons_comb (S := S) hx.m
    have he : (if rel then Kernel.dot (S.Tu y.u) i (fun j => S.EQ j (S.cons y.m)) else S.EQ i (S.cons y.m)) =
        α * (if rel then Kernel.dot (S.Tu x.u) i (fun j => S.EQ j (S.cons x.m)) else S.EQ i (S.cons x.m)) +
        β * (if rel then Kernel.dot (S.Tu x'.u) i (fun j => S.EQ j (S.cons x'.m)) else S.EQ i (S.cons x'.m)) := by
      rw [hc, hx.u, hx.u']
      cases rel
      · exact h.EQ i _ _
      · exact dot_comb _ i fun l => h.EQ l _ _
    rw [he, h.s i (S.cons y.m) (S.cons x.m), h.s i (S.cons x'.m) (S.cons x.m), hx.m]
    ring
  | eqm i =>
    refine ⟨update_comb hx.m i ?_, hx.fnew, hx.u, hx.u'⟩
    rw [cons_comb (S := S) hx.m, h.EQ]
  | src i =>
    simp only [Kernel.exec]
    cases hq : S.source i with
    | none => exact hx
    | some q =>
      refine ⟨update_comb hx.m i ?_, hx.fnew, hx.u, hx.u'⟩
      have hm : y.m = fun l => α * x.m l + β * x'.m l := funext hx.m
      rw [hm, h.source i q hq]
      ring
  | back rel i =>
    refine ⟨hx.m, update_comb hx.fnew i ?_, hx.u, hx.u'⟩
    rw [hx.u, hx.u']
    exact dot_comb _ i hx.m

theorem Combines.run (h : Combines S α β) {f f' F : Fin n → K} (hf : ∀ l, F l = α * f l + β * f' l)
    (p : List (Stmt n d)) : ∀ {x x' y : Local K n d}, LocalComb α β x x' y →
      LocalComb α β (S.run f x p) (S.run f' x' p) (S.run F y p) := by
  unfold Kernel.run
  induction p with
  | nil => exact fun hx => hx
  | cons st p ih => exact fun hx => ih (h.exec hf hx st)

end

section walls
variable {s : Sten dim} {α β : K}

/-- The methods and columns of three runs, with combined values. -/
inductive ItemsComb (α β : K) : List (Item K dim s.ns) → List (Item K dim s.ns) → List (Item K dim s.ns) → Prop
  | nil : ItemsComb α β [] [] []
  | cons (e : Entry K dim s.ns) (a a' : Fin s.ns → K) {l l' l'' : List (Item K dim s.ns)} (h : ItemsComb α β l l' l'') :
    ItemsComb α β (⟨e, a⟩ :: l) (⟨e, a'⟩ :: l') (⟨e, fun j => α * a j + β * a' j⟩ :: l'')

theorem value_comb (m : Method dim) (e : Entry K dim s.ns) (a a' : Fin s.ns → K) {f f' F g g' G : Dist K dim s.ns}
    (hf : ∀ k c, F k c = α * f k c + β * f' k c) (hg : ∀ k c, G k c = α * g k c + β * g' k c) :
    value s m F G ⟨e, fun j => α * a j + β * a' j⟩ = α * value s m f g ⟨e, a⟩ + β * value s m f' g' ⟨e, a'⟩ := by
  cases m with
  | neumann => exact hf _ _
  | neumannAxis => exact hf _ _
  | bounceBack => simp only [value, rhs, hf]; ring
  | antiBounceBack => simp only [value, rhs, hf]; ring
  | bouzidiBounceBack => simp only [value, rhs, load0, load1, hg]; split_ifs <;> ring
  | bouzidiAntiBounceBack => simp only [value, rhs, load0, load1, hf]; split_ifs <;> ring

theorem update_items (m : Method dim) {l l' l'' : List (Item K dim s.ns)} (h : ItemsComb α β l l' l'')
    {f f' F : Dist K dim s.ns} (hf : ∀ k c, F k c = α * f k c + β * f' k c) (k : Fin s.ns) (c : Cell dim) :
    Boundary.update s m l'' F k c = α * Boundary.update s m l f k c + β * Boundary.update s m l' f' k c := by
  unfold Boundary.update
  suffices H : ∀ {g g' G : Dist K dim s.ns}, (∀ k c, G k c = α * g k c + β * g' k c) →
      ∀ k c, l''.foldl (fun g it => put g it.k it.cell (value s m g F it)) G k c =
        α * l.foldl (fun g it => put g it.k it.cell (value s m g f it)) g k c +
        β * l'.foldl (fun g it => put g it.k it.cell (value s m g f' it)) g' k c from H hf k c
  clear k c
  induction h with
  | nil => exact fun hG => hG
  | cons e a a' h ih =>
    intro g g' G hG
    simp only [List.foldl_cons]
    refine ih fun k c => ?_
    unfold put
    split_ifs
    · exact value_comb m e a a' hG hf
    · exact hG k c

theorem boundaryCondition_comb (g : Domain.Grid K dim s.nu) (ψ ψ' : Int → K → (Fin dim → K) → Fin s.ns → K) (t : K)
    (J : List (Method dim × List (Entry K dim s.ns))) {f f' F : Dist K dim s.ns}
    (hf : ∀ k c, F k c = α * f k c + β * f' k c) (k : Fin s.ns) (c : Cell dim) :
    boundaryCondition s (withValues s g (combValues α β ψ ψ') J t) F k c =
      α * boundaryCondition s (withValues s g ψ J t) f k c + β * boundaryCondition s (withValues s g ψ' J t) f' k c := by
  unfold boundaryCondition
  induction J generalizing f f' F with
  | nil => exact hf k c
  | cons p J ih =>
    simp only [withValues, List.map_cons, List.foldl_cons]
    refine ih fun k c => update_items p.1 ?_ hf k c
    induction p.2 with
    | nil => exact .nil
    | cons e l ih => exact .cons e _ _ ih

theorem wallBc_comb (D : WallData K dim s) (N w : Fin dim → Nat) (lo : Fin dim → K) (dx : K) (lab : Fin dim → Bool → Int)
    (ψ' : Int → K → (Fin dim → K) → Fin s.ns → K) (J : List (Method dim × List (Entry K dim s.ns))) (t : K)
    (H H' : Arr K s.ns dim) :
    wallBc (otherValues D (combValues α β D.ψ ψ')) N w lo dx lab J t (comb α β H H') =
      comb α β (wallBc D N w lo dx lab J t H) (wallBc (otherValues D ψ') N w lo dx lab J t H') := by
  funext y k
  exact boundaryCondition_comb _ _ _ _ _ (fun _ _ => rfl) _ _

theorem lbmRun_comb (N : Fin dim → Nat) (vel : Fin n → Cell dim) (φ : (Fin n → K) → Fin n → K)
    (hφ : ∀ f f', φ (fun j => α * f j + β * f' j) = fun j => α * φ f j + β * φ f' j)
    (bc bc' bc'' : K → Arr K n dim → Arr K n dim)
    (hbc : ∀ t H H', bc'' t (comb α β H H') = comb α β (bc t H) (bc' t H')) (dt : K) (G G' : Arr K n dim) (k : Nat) :
    lbmRun N vel φ bc'' dt (comb α β G G') k = comb α β (lbmRun N vel φ bc dt G k) (lbmRun N vel φ bc' dt G' k) := by
  induction k with
  | zero => rfl
  | succ k ih =>
    unfold lbmRun
    rw [ih]
    unfold lbmStep
    funext y
    have e : periodic N (comb α β (lbmRun N vel φ bc dt G k) (lbmRun N vel φ bc' dt G' k)) =
        comb α β (periodic N (lbmRun N vel φ bc dt G k)) (periodic N (lbmRun N vel φ bc' dt G' k)) := rfl
    rw [e, hbc]
    exact hφ _ _

end walls

section
variable {s : Sten dim}

theorem fluidBoundary_other (D : WallData K dim s) (ψ' : Int → K → (Fin dim → K) → Fin s.ns → K) (N w : Fin dim → Nat)
    (lo : Fin dim → K) (dx : K) (lab : Fin dim → Bool → Int) (hD : D.WF lab)
    (ST : Domain.State K dim s.nu) (J : List (Method dim × List (Entry K dim s.ns)))
    (hJ : OnGrid D (boxGrid N w lo dx lab s) ST J)
    (hfree : ∀ t, Free s (flat s (withValues s (boxGrid N w lo dx lab s) D.ψ J t)))
    (hlinks : AllLinks N w ST) (hmeth : AllMethods D) (hreads : ReadsFluid D N w lo dx lab ST J) :
    FluidBoundary N s.vel (fluidMap w ST) (wallBc (otherValues D ψ') N w lo dx lab J) := by
  have hreads' : ReadsFluid (otherValues D ψ') N w lo dx lab ST J := by
    rintro t ⟨m, it⟩ hq p hp
    have hq' := ((mem_withValues s _ _ J t m it).1 hq).1
    refine hreads t (m, ⟨it.toEntry, D.ψ it.label t (wallPoint s (boxGrid N w lo dx lab s) it.toEntry)⟩)
      ((mem_withValues s _ _ J t m _).2 ⟨hq', rfl⟩) p ?_
    exact (reads_entry (m := m) (it := ⟨it.toEntry, D.ψ it.label t (wallPoint s (boxGrid N w lo dx lab s) it.toEntry)⟩) (it' := it) rfl) ▸ hp
  exact fluidBoundary_walls (otherValues D ψ') N w lo dx lab (otherValues_wf hD ψ') ST J
    (otherValues_onGrid hJ ψ') (fun t => free_values (hfree t)) hlinks hmeth hreads'

/-- The values of the fluid cells of a run with other imposed values and decomposition. -/
theorem fluid_values (hdim : dim ≤ 3) (D : WallData K dim s) (ψ' : Int → K → (Fin dim → K) → Fin s.ns → K)
    (lo : Fin dim → K) (dx : K)
    (lab : Fin dim → Bool → Int) (hD : D.WF lab) (g g' : Grid dim) (hN : g.N = g'.N) (hw : g.w = g'.w)
    (ST : Domain.State K dim s.nu) (J : List (Method dim × List (Entry K dim s.ns)))
    (hJ : OnGrid D (boxGrid g.N g.w lo dx lab s) ST J)
    (hfree : ∀ t, Free s (flat s (withValues s (boxGrid g.N g.w lo dx lab s) D.ψ J t)))
    (hlinks : AllLinks g.N g.w ST) (hmeth : AllMethods D) (hreads : ReadsFluid D g.N g.w lo dx lab ST J)
    (S : Kernel K s.ns nc d) (hfront : ∀ j, (S.consm j : Nat) < nc) (a : Algo)
    (Q' : Proc g' → Setup K s.ns nc d dim) (hQ' : FluidRun (otherValues D ψ') g' lo dx lab S a Q')
    (σ₀' : Proc g' → Simu K s.ns d dim) (h0' : ∀ c, (σ₀' c).Start (Q' c)) (G' : Arr K s.ns dim)
    (hG' : ∀ c x, Owned (size g' c) g'.w x → fluidMap g.w ST (globalPos (first g' c) g'.w x) = true →
      (σ₀' c).arr x = G' (globalPos (first g' c) g'.w x))
    (k : Nat) (σ' : Proc g' → Simu K s.ns d dim) (hr' : PRun g' Q' σ₀' k σ')
    (c' : Proc g') (x' : Cell dim) (hx' : Owned (size g' c') g'.w x')
    (hf : fluidMap g.w ST (globalPos (first g' c') g'.w x') = true) :
    (σ' c').arr x' = lbmRun g.N s.vel (collide S a) (wallBc (otherValues D ψ') g.N g.w lo dx lab J) S.dt G' k
      (globalPos (first g' c') g'.w x') := by
  have hB' := fluidBoundary_other D ψ' g.N g.w lo dx lab hD ST J hJ hfree hlinks hmeth hreads
  have hJ' := hJ
  have hfree' : ∀ t, Free s (flat s (withValues s (boxGrid g.N g.w lo dx lab s) (otherValues D ψ').ψ J t)) :=
    fun t => free_values (hfree t)
  have hB'' : FluidBoundary g'.N s.vel (fluidMap g.w ST) (wallBc (otherValues D ψ') g'.N g'.w lo dx lab J) := by
    rw [← hN, ← hw]; exact hB'
  rw [hN, hw] at hJ' hfree'
  obtain ⟨-, h2'⟩ := C73_fluid_cells hdim g' hQ'.walls.large S hfront s.vel a _ Q'
    (by have := hQ'.uniform (otherValues_wf hD ψ') ST hJ'.built; rw [← hw] at this; exact this) _
    (sameBoundary_walls (otherValues D ψ') g' lo dx lab (otherValues_wf hD ψ') Q' hQ'.walls ST J
      (otherValues_onGrid hJ' ψ') hfree') hB'' σ₀' h0' G' hG' k σ' hr'
  rw [h2' c' x' hx' hf, ← hN, ← hw]

end

/-! ## Properties -/

/-- **C90, collision.** With an equilibrium and sources which respect the combination, so does the collision; the
relaxation parameters and the relative velocity are constants. -/
theorem C90_collision (S : Kernel K n nc d) (α β : K) (h : Combines S α β) (al : Algo) (f f' : Fin n → K) :
    collide S al (fun j => α * f j + β * f' j) = fun j => α * collide S al f j + β * collide S al f' j := by
  funext j
  exact (h.run (fun _ => rfl) _ ⟨fun i => by simp, fun i => by simp, rfl, rfl⟩).fnew j

/-- **C90, schemes.** Linear equilibria and sources respect all the combinations; affine ones respect the combinations
whose coefficients have the sum 1. -/
theorem C90_schemes (S : Kernel K n nc d) (E : Fin n → Fin nc → K) (e : Fin n → K) (B : Fin n → Fin n → K) (b : Fin n → K)
    (hEQ : ∀ i w, S.EQ i w = ∑ l, E i l * w l + e i) (hs : ∀ i w w', S.s i w = S.s i w')
    (hrel : ∀ q, S.relVel = some q → ∀ w w', q w = q w')
    (hsrc : ∀ i q, S.source i = some q → ∀ m, q m = ∑ l, B i l * m l + b i) (α β : K)
    (h : α + β = 1 ∨ (e = 0 ∧ b = 0)) : Combines S α β := by
  have key : ∀ {ι : Type} [Fintype ι] (A : ι → K) (v v' : ι → K) (x : K), (α + β = 1 ∨ x = 0) →
      ∑ l, A l * (α * v l + β * v' l) + x = α * (∑ l, A l * v l + x) + β * (∑ l, A l * v' l + x) := by
    intro ι _ A v v' x hx
    have e1 : ∑ l, A l * (α * v l + β * v' l) = α * ∑ l, A l * v l + β * ∑ l, A l * v' l := by
      rw [Finset.mul_sum, Finset.mul_sum, ← Finset.sum_add_distrib]
      exact Finset.sum_congr rfl fun l _ => by ring
    have e2 : x = (α + β) * x := by
      rcases hx with hx | hx
      · rw [hx, one_mul]
      · rw [hx, mul_zero]
    rw [e1]
    linear_combination e2
  refine ⟨fun i w w' => ?_, hs, hrel, fun i q hq m m' => ?_⟩
  · rw [hEQ, hEQ, hEQ]
    exact key _ _ _ _ (h.imp id fun h => congrFun h.1 i)
  · rw [hsrc i q hq, hsrc i q hq, hsrc i q hq]
    exact key _ _ _ _ (h.imp id fun h => congrFun h.2 i)

/-- **C90.** Three runs of the same scheme in the same domain, on any decompositions, backends and schedules of the
messages, with or without `check_isfluid`: the initial populations of the third one and the values imposed on its walls
are the combination of those of the two others. The scheme respects the combination. After any number of steps the
populations of the third run are the combination of those of the two others, on every fluid cell; so are its moments. -/
theorem C90_superposition (hdim : dim ≤ 3) {s : Sten dim} (D : WallData K dim s) (lo : Fin dim → K) (dx : K)
    (lab : Fin dim → Bool → Int) (hD : D.WF lab) (g g' g'' : Grid dim) (hN : g.N = g'.N) (hw : g.w = g'.w)
    (hN' : g.N = g''.N) (hw' : g.w = g''.w)
    (ST : Domain.State K dim s.nu) (J : List (Method dim × List (Entry K dim s.ns)))
    (hJ : OnGrid D (boxGrid g.N g.w lo dx lab s) ST J)
    (hfree : ∀ t, Free s (flat s (withValues s (boxGrid g.N g.w lo dx lab s) D.ψ J t)))
    (hlinks : AllLinks g.N g.w ST) (hmeth : AllMethods D) (hreads : ReadsFluid D g.N g.w lo dx lab ST J)
    (S : Kernel K s.ns nc d) (hfront : ∀ j, (S.consm j : Nat) < nc) (a : Algo) (α β : K) (hS : Combines S α β)
    (Q : Proc g → Setup K s.ns nc d dim) (hQ : FluidRun D g lo dx lab S a Q)
    (ψ' : Int → K → (Fin dim → K) → Fin s.ns → K)
    (Q' : Proc g' → Setup K s.ns nc d dim) (hQ' : FluidRun (otherValues D ψ') g' lo dx lab S a Q')
    (Q'' : Proc g'' → Setup K s.ns nc d dim)
    (hQ'' : FluidRun (otherValues D (combValues α β D.ψ ψ')) g'' lo dx lab S a Q'')
    (σ₀ : Proc g → Simu K s.ns d dim) (h0 : ∀ c, (σ₀ c).Start (Q c))
    (σ₀' : Proc g' → Simu K s.ns d dim) (h0' : ∀ c, (σ₀' c).Start (Q' c))
    (σ₀'' : Proc g'' → Simu K s.ns d dim) (h0'' : ∀ c, (σ₀'' c).Start (Q'' c)) (G G' : Arr K s.ns dim)
    (hG : ∀ c x, Owned (size g c) g.w x → fluidMap g.w ST (globalPos (first g c) g.w x) = true →
      (σ₀ c).arr x = G (globalPos (first g c) g.w x))
    (hG' : ∀ c x, Owned (size g' c) g'.w x → fluidMap g.w ST (globalPos (first g' c) g'.w x) = true →
      (σ₀' c).arr x = G' (globalPos (first g' c) g'.w x))
    (hG'' : ∀ c x, Owned (size g'' c) g''.w x → fluidMap g.w ST (globalPos (first g'' c) g''.w x) = true → ∀ j,
      (σ₀'' c).arr x j =
        α * G (globalPos (first g'' c) g''.w x) j + β * G' (globalPos (first g'' c) g''.w x) j)
    (k : Nat) (σ : Proc g → Simu K s.ns d dim) (hr : PRun g Q σ₀ k σ)
    (σ' : Proc g' → Simu K s.ns d dim) (hr' : PRun g' Q' σ₀' k σ')
    (σ'' : Proc g'' → Simu K s.ns d dim) (hr'' : PRun g'' Q'' σ₀'' k σ'')
    (c : Proc g) (x : Cell dim) (hx : Owned (size g c) g.w x)
    (c' : Proc g') (x' : Cell dim) (hx' : Owned (size g' c') g'.w x')
    (c'' : Proc g'') (x'' : Cell dim) (hx'' : Owned (size g'' c'') g''.w x'')
    (he : globalPos (first g c) g.w x = globalPos (first g' c') g'.w x')
    (he' : globalPos (first g c) g.w x = globalPos (first g'' c'') g''.w x'')
    (hf : fluidMap g.w ST (globalPos (first g c) g.w x) = true) :
    (∀ j, (σ'' c'').arr x'' j = α * (σ c).arr x j + β * (σ' c').arr x' j) ∧
    ∀ i, (S.M *ᵥ (σ'' c'').arr x'') i = α * (S.M *ᵥ (σ c).arr x) i + β * (S.M *ᵥ (σ' c').arr x') i := by
  have h1 := fluid_values hdim D D.ψ lo dx lab hD g g rfl rfl ST J hJ hfree hlinks hmeth hreads S hfront a Q hQ σ₀ h0 G hG
    k σ hr c x hx hf
  have h2 := fluid_values hdim D ψ' lo dx lab hD g g' hN hw ST J hJ hfree hlinks hmeth hreads S hfront a Q' hQ' σ₀' h0' G'
    hG' k σ' hr' c' x' hx' (he ▸ hf)
  have h3 := fluid_values hdim D _ lo dx lab hD g g'' hN' hw' ST J hJ hfree hlinks hmeth hreads S hfront a Q'' hQ'' σ₀''
    h0'' (comb α β G G') (fun c x hx hf => funext (hG'' c x hx hf)) k σ'' hr'' c'' x'' hx'' (he' ▸ hf)
  have hmain : ∀ j, (σ'' c'').arr x'' j = α * (σ c).arr x j + β * (σ' c').arr x' j := by
    intro j
    rw [h1, h2, h3, ← he, ← he', lbmRun_comb g.N s.vel (collide S a) (C90_collision S α β hS a)
      _ _ _ (wallBc_comb D g.N g.w lo dx lab ψ' J)]
    rfl
  refine ⟨hmain, fun i => ?_⟩
  simp only [Matrix.mulVec, dotProduct]
  rw [Finset.mul_sum, Finset.mul_sum, ← Finset.sum_add_distrib]
  refine Finset.sum_congr rfl fun j _ => ?_
  rw [hmain]; ring

/-- **C90, initial values.** Three constructions by moments: if the conserved moments of the third dictionary are the
combination of those of the two others, so are the initial populations. -/
theorem C90_initial (g : Grid dim) (lo : Fin dim → K) (dx : K) (S : Kernel K n nc d) (α β : K) (hS : Combines S α β)
    (hEQ : ∀ j w, S.EQ (S.consm j) w = w j) (hM : S.M * S.invM = 1)
    (Q : Fin 3 → Proc g → Setup K n nc d dim) (hQ : ∀ r c, (Q r c).S = S) (hnd : ∀ r c, (Q r c).Lfull.Nodup)
    (hfull : ∀ r c x, x ∈ (Q r c).Lfull ↔ InLocal (size g c) g.w x)
    (σ₀ : Fin 3 → Proc g → Simu K n d dim) (h0 : ∀ r c, (σ₀ r c).Start (Q r c)) (hz : ∀ r c a, (σ₀ r c).mem.m a = 0)
    (data : Fin 3 → List (InitKey n nc × InitVal K dim)) (hd : ∀ r, Clear S (data r))
    (W W' : (Fin dim → K) → Fin nc → K)
    (hW : ∀ r z y, ∀ kv ∈ data r, ∀ j, kv.1.Names S (S.consm j) →
      kv.2.Means z y (![W y j, W' y j, α * W y j + β * W' y j] r))
    (hW0 : ∀ r y j, (∀ kv ∈ data r, ¬ kv.1.Names S (S.consm j)) → ![W y j, W' y j, α * W y j + β * W' y j] r = 0)
    (c : Proc g) (x : Cell dim) (hx : InLocal (size g c) g.w x) (i : Fin n) :
    ((σ₀ 2 c).init (Q 2 c) (procCoords g lo dx c) .moments (some (data 2))).arr x i =
      α * ((σ₀ 0 c).init (Q 0 c) (procCoords g lo dx c) .moments (some (data 0))).arr x i +
      β * ((σ₀ 1 c).init (Q 1 c) (procCoords g lo dx c) .moments (some (data 1))).arr x i := by
  have key := fun r => C68_parallel g lo dx S hEQ hM (Q r) (hQ r) (hnd r) (hfull r) (σ₀ r) (h0 r) (hz r) (data r) (hd r)
    (fun y j => ![W y j, W' y j, α * W y j + β * W' y j] r) (hW r) (hW0 r) c x hx
  rw [key 0, key 1, key 2]
  simp only [Matrix.cons_val]
  refine dot_comb _ i fun l => ?_
  exact hS.EQ l _ _

/-- **C90, imposed values.** If the user's functions impose the same moments on a wall with combined values, the
populations imposed are combined. -/
theorem C90_imposed (S : Kernel K n nc d) (α β : K) (hS : Combines S α β) (I I' I'' : Imposed K dim nc)
    (hw : I'.which = I.which) (hw' : I''.which = I.which)
    (hv : ∀ t x j, I''.val t x j = α * I.val t x j + β * I'.val t x j) (t : K) (x : Fin dim → K) (i : Fin n) :
    I''.feq S.invM S.EQ t x i = α * I.feq S.invM S.EQ t x i + β * I'.feq S.invM S.EQ t x i := by
  unfold Imposed.feq
  refine dot_comb _ i fun l => ?_
  rw [← hS.EQ]
  congr 1
  funext j
  rw [hw, hw', hv]
  split_ifs
  · rfl
  · ring

/-- **C90, dependence on the data.** Two runs of a linear scheme with different initial values, and imposed values whose
difference is at rest on the walls (for example the same ones); the collision keeps the sets `I j` of C82. If the
differences of the populations of the fluid cells are in these sets at the beginning, they are after any number of steps:
with `[0, +∞[` ordered initial values stay ordered, with `[-δ, δ]` errors are not amplified. -/
theorem C90_difference (hdim : dim ≤ 3) {s : Sten dim} (D : WallData K dim s) (lo : Fin dim → K) (dx : K)
    (lab : Fin dim → Bool → Int) (hD : D.WF lab) (g g' : Grid dim) (hN : g.N = g'.N) (hw : g.w = g'.w)
    (ST : Domain.State K dim s.nu) (J : List (Method dim × List (Entry K dim s.ns)))
    (hJ : OnGrid D (boxGrid g.N g.w lo dx lab s) ST J)
    (hfree : ∀ t, Free s (flat s (withValues s (boxGrid g.N g.w lo dx lab s) D.ψ J t)))
    (hlinks : AllLinks g.N g.w ST) (hmeth : AllMethods D) (hreads : ReadsFluid D g.N g.w lo dx lab ST J)
    (S : Kernel K s.ns nc d) (hfront : ∀ j, (S.consm j : Nat) < nc) (a : Algo) (hS : Combines S 1 (-1))
    (Q : Proc g → Setup K s.ns nc d dim) (hQ : FluidRun D g lo dx lab S a Q)
    (ψ' : Int → K → (Fin dim → K) → Fin s.ns → K) (hpas : Passive (otherValues D (combValues 1 (-1) D.ψ ψ')))
    (I : Fin s.ns → Set K) (hI : ∀ j, Mean (I j))
    (hsym : ∀ j j', s.scheme j' = s.scheme j → (∀ i, s.vel j' i = -s.vel j i) → I j' = I j)
    (hφ : ∀ f : Fin s.ns → K, (∀ j, f j ∈ I j) → ∀ j, collide S a f j ∈ I j)
    (Q' : Proc g' → Setup K s.ns nc d dim) (hQ' : FluidRun (otherValues D ψ') g' lo dx lab S a Q')
    (σ₀ : Proc g → Simu K s.ns d dim) (h0 : ∀ c, (σ₀ c).Start (Q c))
    (σ₀' : Proc g' → Simu K s.ns d dim) (h0' : ∀ c, (σ₀' c).Start (Q' c)) (G G' : Arr K s.ns dim)
    (hG : ∀ c x, Owned (size g c) g.w x → fluidMap g.w ST (globalPos (first g c) g.w x) = true →
      (σ₀ c).arr x = G (globalPos (first g c) g.w x))
    (hG' : ∀ c x, Owned (size g' c) g'.w x → fluidMap g.w ST (globalPos (first g' c) g'.w x) = true →
      (σ₀' c).arr x = G' (globalPos (first g' c) g'.w x))
    (hGG : ∀ y ∈ box g.N, fluidMap g.w ST y = true → ∀ j, G y j - G' y j ∈ I j)
    (k : Nat) (σ : Proc g → Simu K s.ns d dim) (hr : PRun g Q σ₀ k σ)
    (σ' : Proc g' → Simu K s.ns d dim) (hr' : PRun g' Q' σ₀' k σ')
    (c : Proc g) (x : Cell dim) (hx : Owned (size g c) g.w x)
    (c' : Proc g') (x' : Cell dim) (hx' : Owned (size g' c') g'.w x')
    (he : globalPos (first g c) g.w x = globalPos (first g' c') g'.w x')
    (hf : fluidMap g.w ST (globalPos (first g c) g.w x) = true) (j : Fin s.ns) :
    (σ c).arr x j - (σ' c').arr x' j ∈ I j := by
  have h1 := fluid_values hdim D D.ψ lo dx lab hD g g rfl rfl ST J hJ hfree hlinks hmeth hreads S hfront a Q hQ σ₀ h0 G hG
    k σ hr c x hx hf
  have h2 := fluid_values hdim D ψ' lo dx lab hD g g' hN hw ST J hJ hfree hlinks hmeth hreads S hfront a Q' hQ' σ₀' h0' G'
    hG' k σ' hr' c' x' hx' (he ▸ hf)
  have hbox := owned_box g hx
  have hNpos : ∀ i, 0 < g.N i := fun i => by
    have := (mem_box g.N _).1 hbox i
    omega
  have h3 := lbmRun_bounds (otherValues D (combValues 1 (-1) D.ψ ψ')) g.N g.w lo dx lab (otherValues_wf hD _) ST J
    (otherValues_onGrid hJ _) (fun t => free_values (hfree t))
    (fluidBoundary_other D _ g.N g.w lo dx lab hD ST J hJ hfree hlinks hmeth hreads) hpas I hI hsym (collide S a) hφ S.dt
    hNpos (comb 1 (-1) G G') (fun y hy hyf j => by
      have := hGG y hy hyf j
      unfold comb
      rwa [one_mul, neg_one_mul, ← sub_eq_add_neg]) k _ hbox hf j
  rw [lbmRun_comb g.N s.vel (collide S a) (C90_collision S 1 (-1) hS a) _ _ _ (wallBc_comb D g.N g.w lo dx lab ψ' J)] at h3
  rw [h1, h2, ← he]
  unfold comb at h3
  rwa [one_mul, neg_one_mul, ← sub_eq_add_neg] at h3

end Pylbm.Sim
