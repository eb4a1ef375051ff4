import Verif.Scheme.Model
import Verif.Scheme.Spec
/-!
# Helper lemmas for the scheme
-/
namespace Pylbm.Scheme
open Matrix SchemeSpec

section run
variable {K : Type} [Field K] {n nc d : Nat} (S : Kernel K n nc d)

theorem run_append (f : Fin n → K) (x : Local K n d) (p q : List (Stmt n d)) :
    S.run f x (p ++ q) = S.run f (S.run f x p) q := by
  unfold Kernel.run; rw [List.foldl_append]

theorem run_nil (f : Fin n → K) (x : Local K n d) : S.run f x [] = x := rfl

/-- A loop assigning distinct components of `m`. -/
theorem run_m (f : Fin n → K) (st : Fin n → Stmt n d) (g : Fin n → K) (x0 : Local K n d)
    (Inv : Local K n d → Prop) (l : List (Fin n)) (hl : l.Nodup) (h0 : Inv x0)
    (hex : ∀ x i, i ∈ l → Inv x → x.m i = x0.m i → x.fnew = x0.fnew → x.u = x0.u →
      S.exec f x (st i) = { x with m := Function.update x.m i (g i) } ∧
      Inv { x with m := Function.update x.m i (g i) }) :
    S.run f x0 (l.map st) = { x0 with m := fun i => if i ∈ l then g i else x0.m i } ∧
    Inv { x0 with m := fun i => if i ∈ l then g i else x0.m i } := by
  induction l using List.reverseRecOn with
  | nil => exact ⟨rfl, h0⟩
  | append_singleton l a ih =>
    have hl' := (List.nodup_append.1 hl)
    have ha : a ∉ l := fun h => hl'.2.2 a h a (by simp) rfl
    obtain ⟨h1, h2⟩ := ih hl'.1 (fun x i hi => hex x i (by simp [hi]))
    obtain ⟨h3, h4⟩ := hex _ a (by simp) h2 (by simp [ha]) rfl rfl
    have e : Function.update (fun i => if i ∈ l then g i else x0.m i) a (g a) =
        fun i => if i ∈ l ++ [a] then g i else x0.m i := by
      funext i
      by_cases hi : i = a
      · subst hi; simp
      · simp [hi]
    rw [List.map_append, run_append, h1]
    simp only [e] at h3 h4
    exact ⟨h3, h4⟩

/-- A loop assigning distinct components of `fnew` with values which do not depend on `fnew`. -/
theorem run_fnew (f : Fin n → K) (st : Fin n → Stmt n d) (g : Fin n → K) (x0 : Local K n d)
    (l : List (Fin n)) (hl : l.Nodup)
    (hex : ∀ x i, i ∈ l → x.m = x0.m → x.u = x0.u →
      S.exec f x (st i) = { x with fnew := Function.update x.fnew i (g i) }) :
    S.run f x0 (l.map st) = { x0 with fnew := fun i => if i ∈ l then g i else x0.fnew i } := by
  induction l using List.reverseRecOn with
  | nil => rfl
  | append_singleton l a ih =>
    have hl' := (List.nodup_append.1 hl)
    rw [List.map_append, run_append, ih hl'.1 (fun x i hi => hex x i (by simp [hi]))]
    have := hex { x0 with fnew := fun i => if i ∈ l then g i else x0.fnew i } a (by simp) rfl rfl
    simp only [List.map_cons, List.map_nil, Kernel.run, List.foldl_cons, List.foldl_nil]
    rw [this]
    congr 1
    funext i
    by_cases hi : i = a
    · subst hi; simp
    · simp [hi]

theorem run_transport (f : Fin n → K) (x : Local K n d) :
    S.run f x (transportLocal n d) = { x with fnew := f } := by
  unfold transportLocal
  rw [run_fnew S f Stmt.shift f x _ (List.nodup_finRange n) (fun x i _ _ _ => rfl)]
  simp

theorem run_mom (f : Fin n → K) (x : Local K n d) (fromNew rel : Bool) (l : List (Fin n))
    (hl : l.Nodup) :
    S.run f x (l.map (Stmt.mom fromNew rel)) =
      { x with m := fun i => if i ∈ l then
          ((if rel then S.Tu x.u * S.M else S.M) *ᵥ (if fromNew then x.fnew else f)) i else x.m i } := by
  refine (run_m S f (Stmt.mom fromNew rel)
    (fun i => ((if rel then S.Tu x.u * S.M else S.M) *ᵥ (if fromNew then x.fnew else f)) i) x
    (fun _ => True) l hl trivial ?_).1
  intro y i _ _ _ hf hu
  refine ⟨?_, trivial⟩
  simp only [Kernel.exec, hf, hu]
  rfl

theorem run_f2m (f : Fin n → K) (x : Local K n d) (fromNew : Bool) :
    S.run f x (f2mLocal n nc d fromNew false) =
      { x with m := S.M *ᵥ (if fromNew then x.fnew else f) } := by
  unfold f2mLocal
  rw [if_neg (by simp), run_mom S f x fromNew false _ (List.nodup_finRange n)]
  simp

theorem run_vel (f : Fin n → K) (x : Local K n d) (v : (Fin nc → K) → Fin d → K)
    (hv : S.relVel = some v) :
    S.run f x ((List.finRange d).map .vel) = { x with u := v (S.cons x.m) } := by
  have key : ∀ l : List (Fin d), l.Nodup → S.run f x (l.map .vel) =
      { x with u := fun i => if i ∈ l then v (S.cons x.m) i else x.u i } := by
    intro l hl
    induction l using List.reverseRecOn with
    | nil => rfl
    | append_singleton l a ih =>
      have hl' := (List.nodup_append.1 hl)
      rw [List.map_append, run_append, ih hl'.1]
      simp only [List.map_cons, List.map_nil, Kernel.run, List.foldl_cons, List.foldl_nil,
        Kernel.exec, hv]
      congr 1
      funext i
      by_cases hi : i = a
      · subst hi; simp
      · simp [hi]
  rw [key _ (List.nodup_finRange d)]
  simp

/-- The sequential relaxation, when relaxing a conserved moment does not change it: the result is the
simultaneous relaxation. -/
theorem run_relax (f : Fin n → K) (x : Local K n d) (rel : Bool)
    (hfix : ∀ j : Fin nc, (1 - S.s (S.consm j) (S.cons x.m)) * x.m (S.consm j) +
      S.s (S.consm j) (S.cons x.m) *
        (if rel then (S.Tu x.u *ᵥ fun i => S.EQ i (S.cons x.m)) (S.consm j)
          else S.EQ (S.consm j) (S.cons x.m)) = x.m (S.consm j)) :
    S.run f x (relaxLocal n d rel) =
      { x with m := fun i => (1 - S.s i (S.cons x.m)) * x.m i + S.s i (S.cons x.m) *
        (if rel then (S.Tu x.u *ᵥ fun i => S.EQ i (S.cons x.m)) i else S.EQ i (S.cons x.m)) } := by
  unfold relaxLocal
  rw [(run_m S f (Stmt.relax rel) (fun i => (1 - S.s i (S.cons x.m)) * x.m i + S.s i (S.cons x.m) *
        (if rel then (S.Tu x.u *ᵥ fun i => S.EQ i (S.cons x.m)) i else S.EQ i (S.cons x.m))) x
    (fun y => S.cons y.m = S.cons x.m) _ (List.nodup_finRange n) rfl ?_).1]
  · simp
  · intro y i _ hc hi _ hu
    refine ⟨?_, ?_⟩
    · simp only [Kernel.exec, hc, hi, hu]
      rfl
    · funext j
      unfold Kernel.cons
      by_cases hj : S.consm j = i
      · simp only [hj, Function.update_self]
        rw [← hj]
        exact hfix j
      · simp only [Function.update_of_ne hj]
        exact congrFun hc j

theorem run_equilibrium (f : Fin n → K) (x : Local K n d)
    (hfix : ∀ j : Fin nc, S.EQ (S.consm j) (S.cons x.m) = x.m (S.consm j)) :
    S.run f x (equilibriumLocal n d) = { x with m := fun i => S.EQ i (S.cons x.m) } := by
  unfold equilibriumLocal
  rw [(run_m S f Stmt.eqm (fun i => S.EQ i (S.cons x.m)) x
    (fun y => S.cons y.m = S.cons x.m) _ (List.nodup_finRange n) rfl ?_).1]
  · simp
  · intro y i _ hc hi _ hu
    refine ⟨?_, ?_⟩
    · simp only [Kernel.exec, hc]
    · funext j
      unfold Kernel.cons
      by_cases hj : S.consm j = i
      · simp only [hj, Function.update_self]
        rw [← hj]
        exact hfix j
      · simp only [Function.update_of_ne hj]
        exact congrFun hc j

theorem run_back (f : Fin n → K) (x : Local K n d) (rel : Bool) :
    S.run f x (m2fLocal n d rel) =
      { x with fnew := (if rel then S.invM * S.Tmu x.u else S.invM) *ᵥ x.m } := by
  unfold m2fLocal
  rw [run_fnew S f (Stmt.back rel)
    ((if rel then S.invM * S.Tmu x.u else S.invM) *ᵥ x.m) x _ (List.nodup_finRange n) ?_]
  · simp
  · intro y i _ hm hu
    simp only [Kernel.exec, hm, hu]
    rfl

theorem run_source_none (f : Fin n → K) (x : Local K n d) (h : ∀ i, S.source i = none) :
    S.run f x (sourceLocal n d) = x := by
  unfold sourceLocal
  have := (run_m S f Stmt.src x.m x (fun y => y.m = x.m) _ (List.nodup_finRange n) rfl ?_).1
  · rw [this]; simp
  · intro y i _ hm _ hf hu
    have e : Function.update y.m i (x.m i) = y.m := by rw [hm]; exact Function.update_eq_self i x.m
    rw [e]
    exact ⟨by simp only [Kernel.exec, h], hm⟩

/-- Sequential source terms, when no source term uses a moment of smaller index which has a source
term itself. -/
theorem run_source (f : Fin n → K) (x : Local K n d)
    (h : ∀ i r, S.source i = some r → ∀ m m' : Fin n → K,
      (∀ j, (i ≤ j ∨ S.source j = none) → m j = m' j) → r m = r m') :
    S.run f x (sourceLocal n d) = { x with m := euler S.dt S.source x.m } := by
  have key : ∀ k (hk : k ≤ n), S.run f x (((List.finRange n).take k).map .src) =
      { x with m := fun i => if (i : Nat) < k then euler S.dt S.source x.m i else x.m i } := by
    intro k
    induction k with
    | zero => intro _; simp [run_nil]
    | succ k ih =>
      intro hk
      have hlt : k < (List.finRange n).length := by simpa using hk
      rw [List.take_succ_eq_append_getElem hlt, List.map_append, run_append, ih (by omega)]
      have hgk : (List.finRange n)[k] = (⟨k, by omega⟩ : Fin n) := by simp
      simp only [hgk, List.map_cons, List.map_nil, Kernel.run, List.foldl_cons, List.foldl_nil,
        Kernel.exec]
      cases hs : S.source ⟨k, by omega⟩ with
      | none =>
        simp only
        congr 1
        funext i
        by_cases hi : (i : Nat) = k
        · have hkn : k < n := by omega
          have : i = ⟨k, hkn⟩ := Fin.ext hi
          rw [this]
          simp [euler, hs]
        · have : ((i : Nat) < k + 1) ↔ ((i : Nat) < k) := by omega
          simp only [this]
      | some r =>
        simp only
        congr 1
        have hr := h _ r hs (fun i => if (i : Nat) < k then euler S.dt S.source x.m i else x.m i) x.m
          (by
            intro j hj
            rcases hj with hj | hj
            · have : ¬ (j : Nat) < k := by
                have : k ≤ (j : Nat) := hj
                omega
              simp [this]
            · simp [euler, hj])
        rw [hr]
        funext i
        by_cases hi : i = ⟨k, by omega⟩
        · subst hi
          simp [euler, hs]
        · have hi' : (i : Nat) ≠ k := fun e => hi (Fin.ext e)
          have : ((i : Nat) < k + 1) ↔ ((i : Nat) < k) := by omega
          simp only [Function.update_of_ne hi, this]
  have := key n le_rfl
  rw [List.take_of_length_le (by simp)] at this
  unfold sourceLocal
  rw [this]
  simp

end run

end Pylbm.Scheme
