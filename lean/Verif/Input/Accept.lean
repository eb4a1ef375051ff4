import Verif.Input.Reads
/-!
# C91: which dictionaries are accepted

The rules of Cerberus on required and excluded fields (`required`, `excludes`) say, for each class, which keys must be
there: exactly one of `dim` and `box` for a stencil and a scheme, exactly one of `M` and `polynomials` and one of
`equilibrium` and `feq` in each scheme of a simulation.
-/
namespace Pylbm.Input

/-- Specification: every key of the dictionary is one of the fields, and its value is of the kind the field asks for. -/
def Typed (F : List Field) (d : Dict) : Prop := ∀ p ∈ d, ∃ f ∈ F, p.1 = .str f.name ∧ f.check p.2 = true

theorem typed_iff (F : List Field) (d : Dict) :
    (d.all fun p => F.any fun f => decide (p.1 = .str f.name) && f.check p.2) = true ↔ Typed F d := by
  simp [Typed, List.all_eq_true, List.any_eq_true]

theorem fields_iff (F : List Field) (d : Dict) : fields F d = true ↔ Typed F d ∧
    (F.all fun f => f.notExcluded d) = true ∧
    (F.all fun f => !f.required || has d f.name || decide (f.name ∈ unrequired F d)) = true := by
  rw [fields, Bool.and_eq_true, Bool.and_eq_true, typed_iff, and_assoc]

/-- **C91** (simulation). -/
theorem C91_simulation (d : Dict) : accepts .simulation d = true ↔ Typed (mainFields .simulation) d ∧
    has d "box" = true ∧ has d "dim" = false ∧ has d "space_step" = true ∧ has d "scheme_velocity" = true ∧
    has d "schemes" = true ∧ has d "init" = true := by
  rw [accepts, fields_iff]
  refine and_congr_right fun _ => ?_
  simp only [mainFields, unrequired, Field.notExcluded, List.all_cons, List.all_nil, List.flatMap_cons, List.flatMap_nil]
  cases has d "dim" <;> cases has d "box" <;> cases has d "space_step" <;> cases has d "scheme_velocity" <;>
    cases has d "schemes" <;> cases has d "init" <;> simp

/-- **C91** (scheme). -/
theorem C91_scheme (d : Dict) : accepts .scheme d = true ↔ Typed (mainFields .scheme) d ∧
    (has d "box" = true ↔ has d "dim" = false) ∧ has d "scheme_velocity" = true ∧ has d "schemes" = true := by
  rw [accepts, fields_iff]
  refine and_congr_right fun _ => ?_
  simp only [mainFields, unrequired, Field.notExcluded, List.all_cons, List.all_nil, List.flatMap_cons, List.flatMap_nil]
  cases has d "dim" <;> cases has d "box" <;> cases has d "scheme_velocity" <;>
    cases has d "schemes" <;> simp

/-- **C91** (stencil). -/
theorem C91_stencil (d : Dict) : accepts .stencil d = true ↔ Typed (mainFields .stencil) d ∧
    (has d "box" = true ↔ has d "dim" = false) ∧ has d "schemes" = true := by
  rw [accepts, fields_iff]
  refine and_congr_right fun _ => ?_
  simp only [mainFields, unrequired, Field.notExcluded, List.all_cons, List.all_nil, List.flatMap_cons, List.flatMap_nil]
  cases has d "dim" <;> cases has d "box" <;> cases has d "schemes" <;> simp

/-- **C91** (domain). -/
theorem C91_domain (d : Dict) : accepts .domain d = true ↔ Typed (mainFields .domain) d ∧
    has d "box" = true ∧ has d "dim" = false ∧ has d "space_step" = true ∧ has d "schemes" = true := by
  rw [accepts, fields_iff]
  refine and_congr_right fun _ => ?_
  simp only [mainFields, unrequired, Field.notExcluded, List.all_cons, List.all_nil, List.flatMap_cons, List.flatMap_nil]
  cases has d "dim" <;> cases has d "box" <;> cases has d "space_step" <;> cases has d "schemes" <;> simp

/-- **C91** (geometry). -/
theorem C91_geometry (d : Dict) : accepts .geometry d = true ↔ Typed (mainFields .geometry) d ∧
    has d "box" = true ∧ has d "dim" = false := by
  rw [accepts, fields_iff]
  refine and_congr_right fun _ => ?_
  simp only [mainFields, unrequired, Field.notExcluded, List.all_cons, List.all_nil, List.flatMap_cons, List.flatMap_nil]
  cases has d "dim" <;> cases has d "box" <;> simp

/-- **C91** (one scheme of a simulation or of a scheme): exactly one of `M` and `polynomials`, exactly one of `equilibrium`
and `feq`. -/
theorem C91_one_scheme (c : Cls) (hc : c = .scheme ∨ c = .simulation) (s : Dict) :
    mapping (schemeFields c) (.dict s) = true ↔ Typed (schemeFields c) s ∧ has s "velocities" = true ∧
      (has s "M" = true ↔ has s "polynomials" = false) ∧ (has s "equilibrium" = true ↔ has s "feq" = false) ∧
      has s "relaxation_parameters" = true ∧ has s "conserved_moments" = true := by
  rw [mapping, fields_iff]
  refine and_congr_right fun _ => ?_
  rcases hc with rfl | rfl <;>
  · simp only [schemeFields, unrequired, Field.notExcluded, List.all_cons, List.all_nil, List.flatMap_cons, List.flatMap_nil]
    cases has s "velocities" <;> cases has s "M" <;> cases has s "polynomials" <;> cases has s "equilibrium" <;>
      cases has s "feq" <;> cases has s "relaxation_parameters" <;> cases has s "conserved_moments" <;> simp

/-- **C91** (one scheme of a domain or of a stencil): the velocities are enough. -/
theorem C91_one_stencil (c : Cls) (hc : c = .stencil ∨ c = .domain) (s : Dict) :
    mapping (schemeFields c) (.dict s) = true ↔ Typed (schemeFields c) s ∧ has s "velocities" = true ∧
      (has s "M" = false ∨ has s "polynomials" = false) ∧ (has s "equilibrium" = false ∨ has s "feq" = false) := by
  rw [mapping, fields_iff]
  refine and_congr_right fun _ => ?_
  rcases hc with rfl | rfl <;>
  · simp only [schemeFields, unrequired, Field.notExcluded, List.all_cons, List.all_nil, List.flatMap_cons, List.flatMap_nil]
    cases has s "velocities" <;> cases has s "M" <;> cases has s "polynomials" <;> cases has s "equilibrium" <;>
      cases has s "feq" <;> simp

/-! ## The same dictionary for several classes -/

theorem mapping_scheme_mono (c : Cls) (v : Val) (h : mapping (schemeFields .simulation) v = true) :
    mapping (schemeFields c) v = true := by
  cases v with
  | dict s =>
    obtain ⟨ht, hv, hm, he, hr, hcm⟩ := (C91_one_scheme .simulation (Or.inr rfl) s).1 h
    have ht' : Typed (schemeFields c) s := by simpa [Typed, schemeFields] using ht
    rcases c with _ | _ | _ | _ | _
    · refine (C91_one_stencil _ (Or.inl rfl) s).2 ⟨ht', hv, ?_, ?_⟩
      · cases h1 : has s "M" <;> simp_all
      · cases h1 : has s "equilibrium" <;> simp_all
    · rw [mapping, fields_iff]
      refine ⟨ht', ?_⟩
      simp only [schemeFields, unrequired, Field.notExcluded, List.all_cons, List.all_nil, List.flatMap_cons, List.flatMap_nil]
      revert hm he
      cases has s "M" <;> cases has s "polynomials" <;> cases has s "equilibrium" <;>
        cases has s "feq" <;> simp
    · refine (C91_one_stencil _ (Or.inr rfl) s).2 ⟨ht', hv, ?_, ?_⟩
      · cases h1 : has s "M" <;> simp_all
      · cases h1 : has s "equilibrium" <;> simp_all
    · exact (C91_one_scheme _ (Or.inl rfl) s).2 ⟨ht', hv, hm, he, hr, hcm⟩
    · exact h
  | _ => simp [mapping] at h

theorem typed_mono (c : Cls) (d : Dict) (h : Typed (mainFields .simulation) d) : Typed (mainFields c) d := by
  intro p hp
  obtain ⟨f, hf, hn, hc⟩ := h p hp
  by_cases hs : f.name = "schemes"
  · refine ⟨⟨"schemes", decide (c ∈ [Cls.domain, .scheme, .simulation, .stencil]), none,
      seqOf (mapping (schemeFields c))⟩, by simp [mainFields], hs ▸ hn, ?_⟩
    have : f.check = seqOf (mapping (schemeFields .simulation)) := by
      simp only [mainFields, List.mem_cons, List.not_mem_nil, or_false] at hf
      rcases hf with rfl | rfl | rfl | rfl | rfl | rfl | rfl | rfl | rfl | rfl | rfl | rfl | rfl | rfl | rfl <;>
        first | rfl | simp at hs
    rw [this] at hc
    simp only [seqOf] at hc ⊢
    split at hc
    · rename_i l hl
      simp only [List.all_eq_true] at hc ⊢
      exact fun v hv => mapping_scheme_mono c v (hc v hv)
    · cases hc
  · have : ∃ g ∈ mainFields c, g.name = f.name ∧ g.check = f.check := by
      simp only [mainFields, List.mem_cons, List.not_mem_nil, or_false] at hf
      rcases hf with rfl | rfl | rfl | rfl | rfl | rfl | rfl | rfl | rfl | rfl | rfl | rfl | rfl | rfl | rfl <;>
        first
        | (exact absurd rfl hs)
        | (simp only [mainFields, List.mem_cons, exists_eq_or_imp, List.not_mem_nil, or_false]; simp)
    obtain ⟨g, hg, hgn, hgc⟩ := this
    exact ⟨g, hg, by rw [hgn]; exact hn, by rw [hgc]; exact hc⟩

/-- **C91** (the dictionary of a simulation): it is accepted by all the classes, so a user can draw the geometry, the
stencil, the domain or the scheme of a simulation with its own dictionary. -/
theorem C91_all_classes (c : Cls) (d : Dict) (h : accepts .simulation d = true) : accepts c d = true := by
  obtain ⟨ht, h1, h2, h3, h4, h5, _⟩ := (C91_simulation d).1 h
  have ht' := typed_mono c d ht
  cases c
  · exact (C91_stencil d).2 ⟨ht', by simp [h1, h2], h5⟩
  · exact (C91_geometry d).2 ⟨ht', h1, h2⟩
  · exact (C91_domain d).2 ⟨ht', h1, h2, h3, h5⟩
  · exact (C91_scheme d).2 ⟨ht', by simp [h1, h2], h4, h5⟩
  · exact h

/-! ## The order of the keys -/

theorem has_perm {d d' : Dict} (h : d.Perm d') (k : String) : has d k = has d' k := by
  rw [Bool.eq_iff_iff, has, has, List.any_eq_true, List.any_eq_true]
  exact ⟨fun ⟨p, hp, hk⟩ => ⟨p, h.mem_iff.1 hp, hk⟩, fun ⟨p, hp, hk⟩ => ⟨p, h.mem_iff.2 hp, hk⟩⟩

/-- **C91** (order): the verdict does not depend on the order of the keys. -/
theorem C91_order (c : Cls) {d d' : Dict} (h : d.Perm d') : accepts c d = accepts c d' := by
  have hh : has d = has d' := funext (has_perm h)
  have hu : unrequired (mainFields c) d = unrequired (mainFields c) d' := by simp only [unrequired, hh]
  have hx : (fun f : Field => f.notExcluded d) = fun f => f.notExcluded d' := by simp only [Field.notExcluded, hh]
  rw [Bool.eq_iff_iff, accepts, accepts, fields_iff, fields_iff, hh, hu, hx]
  refine and_congr_left fun _ => ?_
  exact ⟨fun H p hp => H p (h.mem_iff.2 hp), fun H p hp => H p (h.mem_iff.1 hp)⟩

end Pylbm.Input
