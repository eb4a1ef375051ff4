import Verif.Boundary.Bridge
/-!
# The tables of a stencil do not depend on the order of the velocities and of the schemes, up to this order (C100)
-/
namespace Pylbm.Boundary
open Domain Velocity VelocitySpec StencilSpec ListAux

section
variable {dim : Nat}

/-! ## Specification -/

/-- The tables of the stencil when the velocities are given in another order: the distribution function `j` has the
velocity of the distribution function `τ j`, the scheme `i` has become the scheme `ζ i`, and the unique velocities are
the same. That the constructor of `Stencil` gives these tables is `C100_stencil`. -/
abbrev Sten.relabel (s : Sten dim) (τ : Equiv.Perm (Fin s.ns)) (ζ : Equiv.Perm Nat) : Sten dim where
  nu := s.nu
  ns := s.ns
  uvel := s.uvel
  usym := s.usym
  ux := fun j => s.ux (τ j)
  scheme := fun j => ζ (s.scheme (τ j))
  sym := fun j => τ.symm (s.sym (τ j))

/-! ## Lemmas -/

section
variable {s : Sten dim} {τ : Equiv.Perm (Fin s.ns)} {ζ : Equiv.Perm Nat}

theorem relabel_wf (hs : s.WF) : (s.relabel τ ζ).WF where
  inj := hs.inj
  usym := hs.usym
  sym := fun k j => by
    have := hs.sym (τ k) j
    unfold Sten.vel Sten.relabel at *
    simpa only [Equiv.apply_symm_apply] using this
  scheme := fun k => by
    show ζ (s.scheme (τ (τ.symm (s.sym (τ k))))) = ζ (s.scheme (τ k))
    rw [Equiv.apply_symm_apply, hs.scheme]
  distinct := fun k k' h1 h2 => τ.injective (hs.distinct _ _ (ζ.injective h1) h2)

theorem relabel_vel (j : Fin s.ns) : (s.relabel τ ζ).vel j = s.vel (τ j) := rfl

end

/-- Tables with the same unique velocities, and distribution functions with the same velocities and schemes up to the
order. -/
theorem eq_relabel (t t' : Sten dim) (ht : t.WF) (ht' : t'.WF) (hnu : t'.nu = t.nu)
    (huvel : ∀ u, t'.uvel u = t.uvel (Fin.cast hnu u)) (e : Fin t'.ns ≃ Fin t.ns)
    (hvel : ∀ j, t'.vel j = t.vel (e j)) (ζ : Equiv.Perm Nat) (hsch : ∀ j, t'.scheme j = ζ (t.scheme (e j))) :
    ∃ τ, t' = t.relabel τ ζ := by
  have hns : t'.ns = t.ns := by simpa using Fintype.card_congr e
  obtain ⟨nu, ns, uvel, usym, ux, scheme, sym⟩ := t
  obtain ⟨nu', ns', uvel', usym', ux', scheme', sym'⟩ := t'
  obtain rfl : nu' = nu := hnu
  obtain rfl : ns' = ns := hns
  obtain rfl : uvel' = uvel := funext huvel
  have hux : ∀ j, ux' j = ux (e j) := fun j => ht.inj (hvel j)
  have hsch' : ∀ j, scheme' j = ζ (scheme (e j)) := hsch
  refine ⟨e, ?_⟩
  have h1 : usym' = usym := by
    funext u
    apply ht.inj
    funext j
    exact (ht'.usym u j).trans (ht.usym u j).symm
  have h2 : ∀ j, sym' j = e.symm (sym (e j)) := by
    intro j
    rw [Equiv.eq_symm_apply]
    apply ht.distinct
    · have a := ht'.scheme j
      simp only at a
      rw [hsch', hsch'] at a
      exact (ζ.injective a).trans (ht.scheme (e j)).symm
    · apply ht.inj
      have a : ∀ i, _ := ht'.sym j
      have b := ht.sym (e j)
      simp only [Sten.vel] at a b ⊢
      funext i
      have a' := a i
      rw [hux, hux] at a'
      rw [a', b i]
  rw [h1, show ux' = _ from funext hux, show scheme' = _ from funext hsch', show sym' = _ from funext h2]

theorem ofStencil_uvel {s : Sten.Stencil} {t : Sten dim} (h : ofStencil dim s = some t) :
    ∃ hn : t.nu = s.uvel.length, ∀ u : Fin t.nu, t.uvel u = velCell dim (s.uvel[(u : Nat)]'(by have := u.2; omega)).vel := by
  unfold ofStencil at h
  simp only [Option.bind_eq_bind, Option.bind_eq_some_iff, Option.pure_def, Option.some.injEq] at h
  obtain ⟨usym, -, ux, -, r, -, sym, -, rfl⟩ := h
  exact ⟨rfl, fun u => rfl⟩

theorem tables (schemes : List (List Nat)) (s : Sten.Stencil) (hb : Sten.build dim schemes = some s)
    (hnd : ∀ t ∈ schemes, t.Nodup) (hsym : AllSymmetric none (Sten.allCoords dim schemes)) :
    ∃ t : Sten dim, ofStencil dim s = some t ∧ t.WF ∧
      (∀ k : Fin t.ns, ∃ m v, m ∈ (schemes[t.scheme k]?).getD [] ∧ ofNum dim m = some v ∧ t.vel k = velCell dim v) ∧
      ∀ n m, m ∈ (schemes[n]?).getD [] → ∃ k : Fin t.ns, t.scheme k = n ∧
        ∃ v, ofNum dim m = some v ∧ t.vel k = velCell dim v := by
  obtain ⟨t, h1, h2, h3, h4, h5⟩ := C07_boundary_tables dim schemes s hb hnd hsym
  obtain ⟨-, -, hv⟩ := (Sten.C06_build_succeeds_iff dim schemes).1 (by rw [hb]; rfl)
  have hof : ∀ n (hn : n < schemes.length) i (hi : i < schemes[n].length), ∃ v, ofNum dim schemes[n][i] = some v :=
    fun n hn i hi => Option.isSome_iff_exists.1 (hv _ (List.getElem_mem hn) _ (List.getElem_mem hi))
  refine ⟨t, h1, h2, fun k => ?_, fun n m hm => ?_⟩
  · obtain ⟨n, i, hn, hi, hk⟩ := exists_block schemes k (by rw [← h3]; exact k.2)
    obtain ⟨v, hv'⟩ := hof n hn i hi
    have hf := flatten_getElem? schemes n i hn hi
    rw [← hk, List.getElem?_eq_getElem hi] at hf
    refine ⟨schemes[n][i], v, ?_, hv', (h4 k _ hf).2 v hv'⟩
    rw [h5 k n i hn hi hk, List.getElem?_eq_getElem hn]
    exact List.getElem_mem hi
  · by_cases hn : n < schemes.length
    · rw [List.getElem?_eq_getElem hn, Option.getD_some] at hm
      obtain ⟨i, hi, rfl⟩ := List.getElem_of_mem hm
      obtain ⟨v, hv'⟩ := hof n hn i hi
      have hf := flatten_getElem? schemes n i hn hi
      rw [List.getElem?_eq_getElem hi] at hf
      have hlt : offset schemes n + i < t.ns := by
        rw [h3]; exact (List.getElem?_eq_some_iff.1 hf).1
      exact ⟨⟨_, hlt⟩, h5 ⟨_, hlt⟩ n i hn hi rfl, v, hv', (h4 ⟨_, hlt⟩ _ hf).2 v hv'⟩
    · rw [List.getElem?_eq_none (by omega)] at hm
      simp at hm

/-! ## Property -/

/-- **C100, stencil.** Two lists of schemes with the same velocities in another order, the scheme `n` of the first being
the scheme `ζ n` of the second: the constructor of `Stencil` gives the same unique velocities in the same order, and the
tables of the distribution functions are the same up to the order. -/
theorem C100_stencil (schemes schemes' : List (List Nat)) (ζ : Equiv.Perm Nat)
    (hζ : ∀ n m, m ∈ (schemes'[ζ n]?).getD [] ↔ m ∈ (schemes[n]?).getD [])
    (hnd : ∀ t ∈ schemes, t.Nodup) (hnd' : ∀ t ∈ schemes', t.Nodup)
    (hsym : AllSymmetric none (Sten.allCoords dim schemes)) (s s' : Sten.Stencil)
    (hb : Sten.build dim schemes = some s) (hb' : Sten.build dim schemes' = some s') :
    s'.uvel = s.uvel ∧ ∃ (t : Sten dim) (τ : Equiv.Perm (Fin t.ns)), t.WF ∧ ofStencil dim s = some t ∧
      ofStencil dim s' = some (t.relabel τ ζ) := by
  have hmem : ∀ m, (∃ t ∈ schemes', m ∈ t) ↔ ∃ t ∈ schemes, m ∈ t := by
    have key : ∀ (l : List (List Nat)) m, (∃ t ∈ l, m ∈ t) ↔ ∃ n : Nat, m ∈ (l[n]?).getD [] := by
      intro l m
      constructor
      · rintro ⟨t, ht, hm⟩
        obtain ⟨n, hn, rfl⟩ := List.getElem_of_mem ht
        exact ⟨n, by rw [List.getElem?_eq_getElem hn]; exact hm⟩
      · rintro ⟨n, hm⟩
        cases h : l[n]? with
        | none => rw [h] at hm; simp at hm
        | some t => rw [h] at hm; exact ⟨t, List.mem_of_getElem? h, hm⟩
    intro m
    rw [key, key]
    constructor
    · rintro ⟨n, hn⟩
      refine ⟨ζ.symm n, (hζ _ _).1 ?_⟩
      rwa [Equiv.apply_symm_apply]
    · rintro ⟨n, hn⟩
      exact ⟨ζ n, (hζ _ _).2 hn⟩
  have hsym' : AllSymmetric none (Sten.allCoords dim schemes') := by
    intro l hl c hc
    obtain ⟨t', ht', rfl⟩ := List.mem_map.1 hl
    obtain ⟨m, hm, rfl⟩ := List.mem_map.1 hc
    obtain ⟨n', hn', rfl⟩ := List.getElem_of_mem ht'
    have e : ∀ m, m ∈ schemes'[n'] ↔ m ∈ (schemes[ζ.symm n']?).getD [] := by
      intro m
      rw [← hζ, Equiv.apply_symm_apply, List.getElem?_eq_getElem hn', Option.getD_some]
    cases h : schemes[ζ.symm n']? with
    | none => rw [e, h] at hm; simp at hm
    | some t =>
      rw [h, Option.getD_some] at e
      have hs := hsym (t.map (Sten.coords dim)) (List.mem_map.2 ⟨t, List.mem_of_getElem? h, rfl⟩) _
        (List.mem_map.2 ⟨m, (e m).1 hm, rfl⟩)
      obtain ⟨m', hm', h'⟩ := List.mem_map.1 hs
      exact List.mem_map.2 ⟨m', (e m').2 hm', h'⟩
  have huv : s'.uvel = s.uvel := by
    have eq : ∀ (l : List (List Nat)) (s : Sten.Stencil), Sten.build dim l = some s → s.uvel = s.unum.map (Sten.mkV dim) := by
      intro l s hb
      obtain ⟨h0, h1, hv⟩ := (Sten.C06_build_succeeds_iff dim l).1 (by rw [hb]; rfl)
      have hb' := Sten.build_eq dim l h0 h1 hv
      rw [hb] at hb'
      have hs := Option.some.inj hb'
      rw [Sten.Stencil.unum, hs]; simp [Function.comp_def]
    rw [eq _ _ hb, eq _ _ hb']
    congr 1
    obtain ⟨a1, a2, -⟩ := Sten.C06_tables_coherent dim schemes s hb
    obtain ⟨b1, b2, -⟩ := Sten.C06_tables_coherent dim schemes' s' hb'
    have n1 : s.unum.Nodup := a1.imp (fun h => h.ne)
    have n2 : s'.unum.Nodup := b1.imp (fun h => h.ne)
    refine List.Perm.eq_of_pairwise (le := fun a b => a < b) (fun a b _ _ h h' => absurd h' (by omega)) b1 a1 ?_
    exact (List.perm_ext_iff_of_nodup n2 n1).2 fun m => by rw [a2, b2, hmem]
  obtain ⟨t, h1, h2, h3, h4⟩ := tables schemes s hb hnd hsym
  obtain ⟨t', h1', h2', h3', h4'⟩ := tables schemes' s' hb' hnd' hsym'
  obtain ⟨e1, e2⟩ := ofStencil_uvel h1
  obtain ⟨e1', e2'⟩ := ofStencil_uvel h1'
  have hnu : t'.nu = t.nu := by rw [e1, e1', huv]
  have huvel : ∀ u, t'.uvel u = t.uvel (Fin.cast hnu u) := by
    intro u
    rw [e2, e2']
    simp only [huv, Fin.val_cast]
  have f1 : ∀ k' : Fin t'.ns, ∃ k : Fin t.ns, t'.vel k' = t.vel k ∧ t'.scheme k' = ζ (t.scheme k) := by
    intro k'
    obtain ⟨m, v, hm, hv, hvel⟩ := h3' k'
    rw [← ζ.apply_symm_apply (t'.scheme k'), hζ] at hm
    obtain ⟨k, hk, v', hv', hvel'⟩ := h4 _ _ hm
    rw [hv] at hv'
    refine ⟨k, ?_, ?_⟩
    · rw [hvel, hvel', Option.some.inj hv']
    · rw [hk, Equiv.apply_symm_apply]
  have f2 : ∀ k : Fin t.ns, ∃ k' : Fin t'.ns, t'.vel k' = t.vel k ∧ t'.scheme k' = ζ (t.scheme k) := by
    intro k
    obtain ⟨m, v, hm, hv, hvel⟩ := h3 k
    rw [← hζ] at hm
    obtain ⟨k', hk, v', hv', hvel'⟩ := h4' _ _ hm
    rw [hv] at hv'
    exact ⟨k', by rw [hvel, hvel', Option.some.inj hv'], hk⟩
  choose φ hφ1 hφ2 using f1
  have inj : Function.Injective φ := by
    intro a b hab
    apply h2'.distinct
    · rw [hφ2, hφ2, hab]
    · apply h2'.inj
      exact (hφ1 a).trans ((congrArg t.vel hab).trans (hφ1 b).symm)
  have surj : Function.Surjective φ := by
    intro k
    obtain ⟨k', ha, hb⟩ := f2 k
    refine ⟨k', h2.distinct _ _ (ζ.injective ((hφ2 k').symm.trans hb)) ?_⟩
    apply h2.inj
    exact (hφ1 k').symm.trans ha
  obtain ⟨τ, hτ⟩ := eq_relabel t t' h2 h2' hnu huvel (Equiv.ofBijective φ ⟨inj, surj⟩) hφ1 ζ hφ2
  exact ⟨huv, t, τ, h2, h1, hτ ▸ h1'⟩

end

/-- A case: a D2Q5 and a D2Q4 scheme, in the other order and with the velocities in another order. -/
example : (Sten.build 2 [[0, 1, 2, 3, 4], [5, 6, 7, 8]]).isSome ∧ (Sten.build 2 [[6, 5, 8, 7], [4, 0, 3, 1, 2]]).isSome ∧
    (∀ t ∈ [[0, 1, 2, 3, 4], [5, 6, 7, 8]], t.Nodup) ∧ (∀ t ∈ [[6, 5, 8, 7], [4, 0, 3, 1, 2]], t.Nodup) ∧
    AllSymmetric none (Sten.allCoords 2 [[0, 1, 2, 3, 4], [5, 6, 7, 8]]) ∧
    ∀ n m : Nat, m ∈ (([[6, 5, 8, 7], [4, 0, 3, 1, 2]] : List (List Nat))[Equiv.swap 0 1 n]?).getD [] ↔
      m ∈ (([[0, 1, 2, 3, 4], [5, 6, 7, 8]] : List (List Nat))[n]?).getD [] := by
  refine ⟨by decide +kernel, by decide +kernel, by decide, by decide, by unfold AllSymmetric SchemeSymmetric; decide +kernel,
    fun n m => ?_⟩
  match n with
  | 0 => simp; omega
  | 1 => simp; omega
  | n + 2 => rw [Equiv.swap_apply_of_ne_of_ne (by omega) (by omega)]; simp

end Pylbm.Boundary
