import Verif.Boundary.Order
/-!
# The tables of a part of the schemes (C103)
-/
namespace Pylbm.Boundary
open Domain Velocity VelocitySpec StencilSpec ListAux

section
variable {dim : Nat}

/-! ## Specification -/

/-- The distribution functions of the stencil `s₁` are found in the stencil `s`: the function `k` of `s₁` is the function
`τ k` of `s`, and its scheme `i` is the scheme `ζ i` of `s`. The unique velocities of `s` may be other ones. -/
structure PartSten (s s₁ : Sten dim) (τ : Fin s₁.ns ↪ Fin s.ns) (ζ : Nat → Nat) : Prop where
  vel : ∀ k, s.vel (τ k) = s₁.vel k
  scheme : ∀ k, s.scheme (τ k) = ζ (s₁.scheme k)
  inj : Function.Injective ζ

theorem PartSten.sym {s s₁ : Sten dim} {τ : Fin s₁.ns ↪ Fin s.ns} {ζ : Nat → Nat} (h : PartSten s s₁ τ ζ) (hs : s.WF)
    (hs₁ : s₁.WF) (k : Fin s₁.ns) : s.sym (τ k) = τ (s₁.sym k) := by
  apply hs.distinct
  · rw [hs.scheme, h.scheme, h.scheme, hs₁.scheme]
  · apply hs.inj
    show s.vel _ = s.vel _
    rw [h.vel]
    funext j
    have e1 : s.vel (s.sym (τ k)) j = -s.vel (τ k) j := hs.sym (τ k) j
    have e2 : s₁.vel (s₁.sym k) j = -s₁.vel k j := hs₁.sym k j
    rw [e1, e2, h.vel]

/-! ## Property -/

/-- **C103, stencil.** A list of schemes, and a longer one where the scheme `n` is the scheme `ζ n`: the constructor of
`Stencil` gives tables where the distribution functions of the first are found in the second, with the same velocities,
in the same order in each scheme. -/
theorem C103_stencil (schemes schemes₁ : List (List Nat)) (ζ : Nat → Nat) (hζ : Function.Injective ζ)
    (hsub : ∀ n (hn : n < schemes₁.length), schemes[ζ n]? = some schemes₁[n]) (hnd : ∀ t ∈ schemes, t.Nodup)
    (hsym : AllSymmetric none (Sten.allCoords dim schemes)) (s s₁ : Sten.Stencil)
    (hb : Sten.build dim schemes = some s) (hb₁ : Sten.build dim schemes₁ = some s₁) :
    ∃ (t t₁ : Sten dim) (τ : Fin t₁.ns ↪ Fin t.ns), ofStencil dim s = some t ∧ ofStencil dim s₁ = some t₁ ∧
      t.WF ∧ t₁.WF ∧ PartSten t t₁ τ ζ ∧
      ∀ n i (hn : n < schemes₁.length), i < schemes₁[n].length → ∀ k : Fin t₁.ns,
        (k : Nat) = ((schemes₁.take n).map List.length).sum + i →
        (τ k : Nat) = ((schemes.take (ζ n)).map List.length).sum + i := by
  have hk' : ∀ n, n < schemes₁.length → ζ n < schemes.length := fun n hn => (List.getElem?_eq_some_iff.1 (hsub n hn)).1
  have hek : ∀ n (hn : n < schemes₁.length), schemes[ζ n]'(hk' n hn) = schemes₁[n] := fun n hn =>
    (List.getElem?_eq_some_iff.1 (hsub n hn)).2
  have hmem : ∀ t ∈ schemes₁, t ∈ schemes := by
    intro t ht
    obtain ⟨n, hn, rfl⟩ := List.getElem_of_mem ht
    rw [← hek n hn]
    exact List.getElem_mem _
  have hsym₁ : AllSymmetric none (Sten.allCoords dim schemes₁) := by
    intro l hl
    obtain ⟨t, ht, rfl⟩ := List.mem_map.1 hl
    exact hsym _ (List.mem_map.2 ⟨t, hmem t ht, rfl⟩)
  obtain ⟨t, h1, h2, h3, h4, h5⟩ := C07_boundary_tables dim schemes s hb hnd hsym
  obtain ⟨t₁, h1', h2', h3', h4', h5'⟩ := C07_boundary_tables dim schemes₁ s₁ hb₁ (fun t ht => hnd t (hmem t ht)) hsym₁
  obtain ⟨-, -, hv⟩ := (Sten.C06_build_succeeds_iff dim schemes).1 (by rw [hb]; rfl)
  have blk : ∀ k : Fin t₁.ns, ∃ n i, ∃ hn : n < schemes₁.length, i < schemes₁[n].length ∧
      (k : Nat) = offset schemes₁ n + i := fun k => exists_block schemes₁ k (by rw [← h3']; exact k.2)
  have low : ∀ n i (hn : n < schemes₁.length), i < schemes₁[n].length → offset schemes (ζ n) + i < t.ns := by
    intro n i hn hi
    have hi' : i < (schemes[ζ n]'(hk' n hn)).length := by rw [hek n hn]; exact hi
    have hf := flatten_getElem? schemes (ζ n) i (hk' n hn) hi'
    rw [List.getElem?_eq_getElem hi'] at hf
    rw [h3]
    exact (List.getElem?_eq_some_iff.1 hf).1
  choose bn bi hbn hbi hab using blk
  let tf : Fin t₁.ns → Fin t.ns := fun k => ⟨offset schemes (ζ (bn k)) + bi k, low _ _ (hbn k) (hbi k)⟩
  have hsch : ∀ k, t.scheme (tf k) = ζ (t₁.scheme k) := by
    intro k
    rw [h5 (tf k) (ζ (bn k)) (bi k) (hk' _ (hbn k)) (by rw [hek _ (hbn k)]; exact hbi k) rfl,
      h5' k (bn k) (bi k) (hbn k) (hbi k) (hab k)]
  have hvel : ∀ k, t.vel (tf k) = t₁.vel k := by
    intro k
    have f1 := flatten_getElem? schemes₁ (bn k) (bi k) (hbn k) (hbi k)
    have f2 := flatten_getElem? schemes (ζ (bn k)) (bi k) (hk' _ (hbn k)) (by rw [hek _ (hbn k)]; exact hbi k)
    simp only [hek _ (hbn k)] at f2
    rw [List.getElem?_eq_getElem (hbi k)] at f1 f2
    rw [← hab k] at f1
    obtain ⟨v, hv'⟩ := Option.isSome_iff_exists.1 (hv _ (hmem _ (List.getElem_mem (hbn k))) _ (List.getElem_mem (hbi k)))
    rw [(h4' k _ f1).2 v hv', (h4 (tf k) _ f2).2 v hv']
  have uniq : ∀ k n i (hn : n < schemes₁.length), i < schemes₁[n].length → (k : Fin t₁.ns) = offset schemes₁ n + i →
      n = bn k ∧ i = bi k := by
    intro k n i hn hi e
    have e1 : t₁.scheme k = n := h5' k n i hn hi e
    have e2 : t₁.scheme k = bn k := h5' k _ _ (hbn k) (hbi k) (hab k)
    obtain rfl := e1.symm.trans e2
    refine ⟨rfl, ?_⟩
    have := hab k
    omega
  have hinj : Function.Injective tf := by
    intro a b e
    apply h2'.distinct
    · have e1 := congrArg t.scheme e
      rw [hsch, hsch] at e1
      exact hζ e1
    · apply h2'.inj
      have e1 := congrArg t.vel e
      rw [hvel, hvel] at e1
      exact e1
  refine ⟨t, t₁, ⟨tf, hinj⟩, h1, h1', h2, h2', ⟨hvel, hsch, hζ⟩, fun n i hn hi k hk => ?_⟩
  obtain ⟨e1, e2⟩ := uniq k n i hn hi hk
  rw [e1, e2]
  rfl

end

/-- A case: a D2Q5 scheme alone, and after a D2Q9 scheme. -/
example : (Sten.build 2 [List.range 9, List.range 5]).isSome ∧ (Sten.build 2 [List.range 5]).isSome ∧
    (∀ t ∈ [List.range 9, List.range 5], t.Nodup) ∧
    AllSymmetric none (Sten.allCoords 2 [List.range 9, List.range 5]) ∧ Function.Injective (fun n : Nat => n + 1) ∧
    ∀ n (hn : n < [List.range 5].length), [List.range 9, List.range 5][n + 1]? = some [List.range 5][n] := by
  refine ⟨by decide +kernel, by decide +kernel, by decide, by unfold AllSymmetric SchemeSymmetric; decide +kernel,
    fun a b h => by simpa using h, fun n hn => ?_⟩
  obtain rfl : n = 0 := by simpa using hn
  rfl

end Pylbm.Boundary
