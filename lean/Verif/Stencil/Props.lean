import Verif.Stencil.Lemmas
import Verif.Stencil.Spec
/-!
# Properties C06–C09: stencils
-/

namespace Pylbm.Sten
open Velocity VelocitySpec StencilSpec ListAux

/-- Input accepted by the constructor: at least one scheme, no empty scheme, numbered velocities. -/
structure Accepted (dim : Nat) (schemes : List (List Nat)) : Prop where
  some_scheme : schemes ≠ []
  no_empty : [] ∉ schemes
  numbered : ∀ s ∈ schemes, ∀ n ∈ s, (ofNum dim n).isSome

/-- Components of the velocity of number `n`. -/
def coords (dim n : Nat) : List Int := ((ofNum dim n).map Vel.comps).getD []

/-- Components of all the velocities of all the schemes. -/
def allCoords (dim : Nat) (schemes : List (List Nat)) : List (List (List Int)) :=
  schemes.map (·.map (coords dim))

/-- **C06.** The constructor succeeds exactly on accepted inputs. -/
theorem C06_build_succeeds_iff (dim : Nat) (schemes : List (List Nat)) :
    (build dim schemes).isSome ↔ Accepted dim schemes := by
  constructor
  · intro h
    by_contra hn
    have : build dim schemes = none := by
      apply build_none_of_invalid
      by_contra hc
      push Not at hc
      exact hn ⟨hc.1, hc.2.1, hc.2.2⟩
    rw [this] at h; simp at h
  · rintro ⟨h0, h1, hv⟩
    rw [build_eq dim schemes h0 h1 hv]; rfl

/-- **C06.** The index tables of a stencil are coherent with the requested velocity numbers. -/
theorem C06_tables_coherent (dim : Nat) (schemes : List (List Nat)) (s : Stencil)
    (h : build dim schemes = some s) :
    -- the unique numbers are sorted, distinct, and are the requested ones
    s.unum.Pairwise (· < ·) ∧ (∀ m, m ∈ s.unum ↔ ∃ t ∈ schemes, m ∈ t) ∧
    -- the velocities of each scheme are the requested ones, in order
    s.v.map (·.map fun v => (v.num, some v.vel)) = schemes.map (·.map fun m => (m, ofNum dim m)) ∧
    -- sizes and starts
    s.nv = schemes.map List.length ∧
    (∀ n ≤ schemes.length, s.nvPtr[n]? = some (offset schemes n)) ∧
    -- global index ↔ (scheme, local index)
    (∀ n (hn : n < schemes.length) i (hi : i < schemes[n].length),
      s.num2index[offset schemes n + i]? = some schemes[n][i]) ∧
    -- number ↔ position among the unique velocities
    (∀ i (hi : i < s.unum.length), s.unum2index[s.unum[i]]? = some (i : Int)) ∧
    (∀ m, m < s.unum2index.length → m ∉ s.unum → s.unum2index[m]? = some (-1000)) := by
  have hacc := (C06_build_succeeds_iff dim schemes).1 (by rw [h]; rfl)
  obtain ⟨h0, h1, hv⟩ := hacc
  rw [build_eq dim schemes h0 h1 hv] at h
  obtain rfl := Option.some.inj h
  have hunum : ((schemes.foldl union1d []).map (mkV dim)).map V.num = schemes.foldl union1d [] := by
    simp [Function.comp_def]
  refine ⟨?_, ?_, ?_, rfl, ?_, ?_, ?_, ?_⟩
  · simp only [Stencil.unum, hunum]; exact sorted_unique schemes
  · simp only [Stencil.unum, hunum]; exact mem_unique schemes
  · simp only [List.map_map]
    apply List.map_congr_left
    intro t ht
    simp only [Function.comp_apply, List.map_map]
    apply List.map_congr_left
    intro m hm
    obtain ⟨w, hw⟩ := Option.isSome_iff_exists.1 (hv t ht m hm)
    simp [mkV, hw]
  · intro n hn; exact nvPtr_getElem? schemes n hn
  · intro n hn i hi
    simp only [flatten_getElem? schemes n i hn hi, List.getElem?_eq_getElem hi]
  · intro i hi
    simp only [Stencil.unum, hunum] at hi ⊢
    have hnd : (schemes.foldl union1d []).Nodup :=
      List.nodup_iff_pairwise_ne.2 ((sorted_unique schemes).imp (fun h => by omega))
    have := foldl_set_mem _ hnd 0
      (List.replicate (((schemes.foldl union1d []).foldl max 0) + 1) (-1000)) i hi (by
        have := (le_foldl_max (schemes.foldl union1d []) 0).2 _ (List.getElem_mem hi)
        simp; omega)
    simpa [mkUnum2index] using this
  · intro m hm hmem
    simp only [Stencil.unum, hunum] at hmem ⊢
    simp only [mkUnum2index] at hm ⊢
    rw [foldl_set_length] at hm
    rw [foldl_set_other _ _ _ _ hmem]
    rw [List.getElem?_replicate]
    simp at hm
    simp; omega

example : Accepted 2 [[0, 1, 2, 3, 4], [5, 1, 3, 0, 7]] :=
  ⟨by decide, by decide, by decide +kernel⟩

theorem Vel.comps_inj {v w : Vel} (h : v.comps = w.comps) : v = w := by
  cases v <;> cases w <;> simp_all [Vel.comps]

/-- Formula of the symmetric index. -/
theorem symIndex_eq (dim : Nat) (schemes : List (List Nat)) (s : Stencil)
    (hb : build dim schemes = some s) (axis : Option Int) (n i : Nat) (hn : n < schemes.length)
    (hi : i < schemes[n].length) (vk : V) :
    s.symIndex axis (offset schemes n + i) vk =
      (vk.vel.getSymmetric axis).bind fun w => w.num.bind fun num =>
        (schemes[n].findIdx? (fun m : Nat => (m : Int) == num)).map (· + offset schemes n) := by
  have hacc := (C06_build_succeeds_iff dim schemes).1 (by rw [hb]; rfl)
  obtain ⟨h0, h1, hv⟩ := hacc
  rw [build_eq dim schemes h0 h1 hv] at hb
  obtain rfl := Option.some.inj hb
  unfold Stencil.symIndex
  simp only [searchRight_nvPtr schemes n i hn hi, Nat.add_sub_cancel,
    nvPtr_getElem? schemes n (by omega), nvPtr_getElem? schemes (n + 1) (by omega)]
  simp only [Option.bind_eq_bind, Option.bind_some, offset_succ schemes n hn,
    Nat.add_sub_cancel_left, flatten_block schemes n hn]
  congr 1; funext w
  congr 1; funext num
  cases schemes[n].findIdx? (fun m : Nat => (m : Int) == num) <;> rfl

theorem getElem_flat (dim : Nat) (schemes : List (List Nat)) (s : Stencil)
    (hb : build dim schemes = some s) :
    s.v.flatten = schemes.flatten.map (mkV dim) := by
  have hacc := (C06_build_succeeds_iff dim schemes).1 (by rw [hb]; rfl)
  obtain ⟨h0, h1, hv⟩ := hacc
  rw [build_eq dim schemes h0 h1 hv] at hb
  obtain rfl := Option.some.inj hb
  simp [List.map_flatten]

/-- `symIndex` at the position `(n, i)` of the stencil finds `j` iff `j` is the first position in
the scheme of the symmetric velocity. -/
theorem symIndex_some_iff (dim : Nat) (schemes : List (List Nat)) (s : Stencil)
    (hb : build dim schemes = some s) (axis : Option Int) (hax : ValidAxis dim axis)
    (n i : Nat) (hn : n < schemes.length) (hi : i < schemes[n].length) (r : Nat) :
    s.symIndex axis (offset schemes n + i) (mkV dim schemes[n][i]) = some r ↔
      ∃ j, ∃ hj : j < schemes[n].length, r = offset schemes n + j ∧
        coords dim schemes[n][j] = symmetric axis (coords dim schemes[n][i]) ∧
        ∀ j' (hj' : j' < j), coords dim (schemes[n][j']'(by omega)) ≠
          symmetric axis (coords dim schemes[n][i]) := by
  have hacc := (C06_build_succeeds_iff dim schemes).1 (by rw [hb]; rfl)
  rw [symIndex_eq dim schemes s hb axis n i hn hi]
  obtain ⟨v, hvi⟩ := Option.isSome_iff_exists.1
    (hacc.numbered _ (List.getElem_mem hn) _ (List.getElem_mem hi))
  have hvd := (C03_velocity_number_roundtrip dim _ v hvi).1
  obtain ⟨w, hw, hwd, hwc⟩ := C05_symmetric_components v axis (by rw [hvd]; exact hax)
  obtain ⟨hwd', k, hk⟩ := sym_num_isSome dim _ v w axis hvi hw
  have hci : coords dim schemes[n][i] = v.comps := by simp [coords, hvi]
  -- a number of the scheme is the wanted one iff its velocity is the symmetric one
  have key : ∀ m ∈ schemes[n], ((m : Int) = (k : Int) ↔ coords dim m = w.comps) := by
    intro m hm
    obtain ⟨u, hu⟩ := Option.isSome_iff_exists.1 (hacc.numbered _ (List.getElem_mem hn) m hm)
    have hcm : coords dim m = u.comps := by simp [coords, hu]
    constructor
    · intro h
      have : ofNum dim m = some w := (num_eq_iff dim m w hwd').1 (by rw [hk]; exact congrArg some h.symm)
      rw [hu] at this
      rw [hcm, Option.some.inj this]
    · intro h
      rw [hcm] at h
      have := Vel.comps_inj h
      subst this
      have := (C03_velocity_number_roundtrip dim m u hu).2
      rw [hk] at this
      exact (Option.some.inj this).symm
  simp only [mkV, hvi, Option.getD_some, hw, Option.bind_some, hk, Option.map_eq_some_iff, hci, ← hwc]
  constructor
  · rintro ⟨j, hj, rfl⟩
    rw [List.findIdx?_eq_some_iff_getElem] at hj
    obtain ⟨hjl, hj1, hj2⟩ := hj
    refine ⟨j, hjl, by omega, ?_, ?_⟩
    · exact (key _ (List.getElem_mem hjl)).1 (by simpa using hj1)
    · intro j' hj' hc
      have h2 := hj2 j' hj'
      have h3 := (key _ (List.getElem_mem (show j' < schemes[n].length by omega))).2 hc
      simp [h3] at h2
  · rintro ⟨j, hjl, rfl, h1, h2⟩
    refine ⟨j, ?_, by omega⟩
    rw [List.findIdx?_eq_some_iff_getElem]
    refine ⟨hjl, ?_, ?_⟩
    · have := (key _ (List.getElem_mem hjl)).2 h1
      simp [this]
    · intro j' hj'
      have h3 := h2 j' hj'
      have h4 := (key _ (List.getElem_mem (show j' < schemes[n].length by omega))).not.2 h3
      simp only [beq_iff_eq]; exact h4

theorem getSymmetric_iff (dim : Nat) (schemes : List (List Nat)) (s : Stencil)
    (hb : build dim schemes = some s) (axis : Option Int) (r : List Nat) :
    s.getSymmetric axis = some r ↔ r.length = schemes.flatten.length ∧
      ∀ n (hn : n < schemes.length) i (hi : i < schemes[n].length),
        s.symIndex axis (offset schemes n + i) (mkV dim schemes[n][i]) =
          r[offset schemes n + i]? := by
  unfold Stencil.getSymmetric
  rw [mapM_eq_some_iff, getElem_flat dim schemes s hb]
  simp only [List.length_zipIdx, List.length_map, List.getElem_zipIdx, Nat.zero_add,
    List.getElem_map]
  constructor
  · rintro ⟨h1, h2⟩
    refine ⟨h1, fun n hn i hi => ?_⟩
    have hk := flatten_getElem? schemes n i hn hi
    rw [List.getElem?_eq_getElem hi] at hk
    obtain ⟨hlt, hk⟩ := List.getElem?_eq_some_iff.1 hk
    have := h2 (offset schemes n + i) hlt
    rw [hk] at this; exact this
  · rintro ⟨h1, h2⟩
    refine ⟨h1, fun k hk => ?_⟩
    obtain ⟨n, i, hn, hi, rfl⟩ := exists_block schemes k hk
    have := h2 n hn i hi
    have hk' := flatten_getElem? schemes n i hn hi
    rw [List.getElem?_eq_getElem hi, List.getElem?_eq_getElem hk] at hk'
    rw [← this, Option.some.inj hk']

/-- **C07.** When all the schemes are symmetric (with respect to the origin or an axis), the
symmetric index exists for every velocity, stays in the same scheme and is the position of the
symmetric velocity. -/
theorem C07_symmetric_index (dim : Nat) (schemes : List (List Nat)) (s : Stencil)
    (hb : build dim schemes = some s) (axis : Option Int) (hax : ValidAxis dim axis)
    (hsym : AllSymmetric axis (allCoords dim schemes)) :
    ∃ r, s.getSymmetric axis = some r ∧ r.length = schemes.flatten.length ∧
      ∀ n (hn : n < schemes.length) i (hi : i < schemes[n].length),
        ∃ j, ∃ hj : j < schemes[n].length, r[offset schemes n + i]? = some (offset schemes n + j) ∧
          coords dim schemes[n][j] = symmetric axis (coords dim schemes[n][i]) := by
  classical
  have hex : ∀ n (hn : n < schemes.length) i (hi : i < schemes[n].length),
      ∃ k, s.symIndex axis (offset schemes n + i) (mkV dim schemes[n][i]) = some k := by
    intro n hn i hi
    have hmem : symmetric axis (coords dim schemes[n][i]) ∈ schemes[n].map (coords dim) :=
      hsym _ (List.mem_map.2 ⟨_, List.getElem_mem hn, rfl⟩) _
        (List.mem_map.2 ⟨_, List.getElem_mem hi, rfl⟩)
    have hE : ∃ j, ∃ hj : j < schemes[n].length,
        coords dim schemes[n][j] = symmetric axis (coords dim schemes[n][i]) := by
      obtain ⟨m, hm, hmc⟩ := List.mem_map.1 hmem
      obtain ⟨j, hj, rfl⟩ := List.getElem_of_mem hm
      exact ⟨j, hj, hmc⟩
    obtain ⟨hj, hjc⟩ := Nat.find_spec hE
    refine ⟨offset schemes n + Nat.find hE, (symIndex_some_iff dim schemes s hb axis hax n i hn hi _).2
      ⟨Nat.find hE, hj, rfl, hjc, fun j' hj' hc => ?_⟩⟩
    exact Nat.find_min hE hj' ⟨by omega, hc⟩
  cases hr : s.getSymmetric axis with
  | none =>
    exfalso
    unfold Stencil.getSymmetric at hr
    rw [mapM_eq_none_iff, getElem_flat dim schemes s hb] at hr
    obtain ⟨⟨v, k⟩, hp, hnone⟩ := hr
    obtain ⟨k', hk', he⟩ := List.getElem_of_mem hp
    simp only [List.length_zipIdx, List.length_map] at hk'
    simp only [List.getElem_zipIdx, Nat.zero_add, List.getElem_map, Prod.mk.injEq] at he
    obtain ⟨rfl, rfl⟩ := he
    obtain ⟨n, i, hn, hi, rfl⟩ := exists_block schemes k' hk'
    obtain ⟨q, hq⟩ := hex n hn i hi
    have hk'' := flatten_getElem? schemes n i hn hi
    rw [List.getElem?_eq_getElem hi, List.getElem?_eq_getElem hk'] at hk''
    rw [Option.some.inj hk''] at hnone
    simp only at hnone
    rw [hq] at hnone; simp at hnone
  | some r =>
    obtain ⟨h1, h2⟩ := (getSymmetric_iff dim schemes s hb axis r).1 hr
    refine ⟨r, rfl, h1, fun n hn i hi => ?_⟩
    obtain ⟨q, hq⟩ := hex n hn i hi
    have h3 := h2 n hn i hi
    obtain ⟨j, hj, rfl, hjc, _⟩ := (symIndex_some_iff dim schemes s hb axis hax n i hn hi q).1 hq
    exact ⟨j, hj, by rw [← h3, hq], hjc⟩

/-- **C07.** Without repeated velocity in a scheme, the symmetric index is an involution. -/
theorem C07_symmetric_index_involutive (dim : Nat) (schemes : List (List Nat)) (s : Stencil)
    (hb : build dim schemes = some s) (axis : Option Int) (hax : ValidAxis dim axis)
    (hnd : ∀ t ∈ schemes, t.Nodup) (r : List Nat) (hr : s.getSymmetric axis = some r)
    (k k' : Nat) (hk : r[k]? = some k') : r[k']? = some k := by
  have hacc := (C06_build_succeeds_iff dim schemes).1 (by rw [hb]; rfl)
  obtain ⟨h1, h2⟩ := (getSymmetric_iff dim schemes s hb axis r).1 hr
  have hkl : k < schemes.flatten.length := by
    rw [← h1]; exact (List.getElem?_eq_some_iff.1 hk).1
  obtain ⟨n, i, hn, hi, rfl⟩ := exists_block schemes k hkl
  have h3 := h2 n hn i hi
  rw [hk] at h3
  obtain ⟨j, hj, rfl, hjc, _⟩ := (symIndex_some_iff dim schemes s hb axis hax n i hn hi k').1 h3
  rw [← h2 n hn j hj]
  rw [symIndex_some_iff dim schemes s hb axis hax n j hn hj]
  have inv : ∀ c : List Int, symmetric axis (symmetric axis c) = c := by
    intro c
    unfold symmetric
    apply List.ext_getElem
    · simp
    · intro m h1 h2
      simp only [List.getElem_mapIdx]
      split <;> simp
  refine ⟨i, hi, rfl, by rw [hjc, inv], fun j' hj' hc => ?_⟩
  rw [hjc, inv] at hc
  -- two positions with the same velocity: contradiction with `Nodup`
  have hm' : j' < schemes[n].length := by omega
  obtain ⟨v, hv⟩ := Option.isSome_iff_exists.1
    (hacc.numbered _ (List.getElem_mem hn) _ (List.getElem_mem hi))
  obtain ⟨v', hv'⟩ := Option.isSome_iff_exists.1
    (hacc.numbered _ (List.getElem_mem hn) _ (List.getElem_mem hm'))
  simp only [coords, hv, hv', Option.map_some, Option.getD_some] at hc
  have hvv := Vel.comps_inj hc
  subst hvv
  have e1 := (C03_velocity_number_roundtrip dim _ v' hv).2
  have e2 := (C03_velocity_number_roundtrip dim _ v' hv').2
  rw [e1] at e2
  have e3 : schemes[n][i] = schemes[n][j'] := by
    have := Option.some.inj e2
    omega
  have := (List.Nodup.getElem_inj_iff (hnd _ (List.getElem_mem hn))).1 e3
  omega

/-- **C07.** When a symmetric velocity is missing in its scheme, the call raises. -/
theorem C07_symmetric_index_missing (dim : Nat) (schemes : List (List Nat)) (s : Stencil)
    (hb : build dim schemes = some s) (axis : Option Int) (hax : ValidAxis dim axis)
    (hsym : ¬ AllSymmetric axis (allCoords dim schemes)) : s.getSymmetric axis = none := by
  cases hr : s.getSymmetric axis with
  | none => rfl
  | some r =>
    exfalso
    apply hsym
    obtain ⟨h1, h2⟩ := (getSymmetric_iff dim schemes s hb axis r).1 hr
    intro t ht c hc
    obtain ⟨t0, ht0, rfl⟩ := List.mem_map.1 ht
    obtain ⟨m, hm, rfl⟩ := List.mem_map.1 hc
    obtain ⟨n, hn, rfl⟩ := List.getElem_of_mem ht0
    obtain ⟨i, hi, rfl⟩ := List.getElem_of_mem hm
    have hlt : offset schemes n + i < r.length := by
      rw [h1, ← offset_length]
      have h3 := offset_succ schemes n hn
      have h4 := offset_mono schemes (show n + 1 ≤ schemes.length by omega)
      omega
    have h3 := h2 n hn i hi
    rw [List.getElem?_eq_getElem hlt] at h3
    obtain ⟨j, hj, _, hjc, _⟩ := (symIndex_some_iff dim schemes s hb axis hax n i hn hi _).1 h3
    exact List.mem_map.2 ⟨_, List.getElem_mem hj, hjc⟩

example : AllSymmetric none (allCoords 2 [[0, 1, 2, 3, 4], [5, 1, 3, 0, 7]]) ∧
    AllSymmetric (some 0) (allCoords 2 [[0, 1, 2, 3, 4]]) ∧
    ¬ AllSymmetric none (allCoords 2 [[0, 1, 2, 3, 4], [5, 1, 3, 0]]) := by
  refine ⟨?_, ?_, ?_⟩ <;> unfold AllSymmetric SchemeSymmetric <;> decide +kernel

/-! ## C08 -/

theorem schemeSym_iff (dim : Nat) (l : List Nat) (hl : ∀ n ∈ l, (ofNum dim n).isSome) :
    schemeSym (l.map (mkV dim)) = true ↔ SchemeSymmetric none (l.map (coords dim)) := by
  have hfold : ∀ (p : V → Bool) (v : List V) (b : Bool),
      v.foldl (fun isSym vk => if p vk then false else isSym) b = (b && v.all fun vk => !p vk) := by
    intro p v
    induction v with
    | nil => intro b; simp
    | cons a v ih =>
      intro b
      simp only [List.foldl_cons, ih, List.all_cons]
      cases p a <;> cases b <;> simp
  unfold schemeSym
  rw [hfold]
  simp only [Bool.true_and, List.all_map, List.all_eq_true, Function.comp_apply, SchemeSymmetric,
    List.mem_map, forall_exists_index, and_imp, forall_apply_eq_imp_iff₂]
  refine forall₂_congr fun n hn => ?_
  obtain ⟨v, hv⟩ := Option.isSome_iff_exists.1 (hl n hn)
  have hvd := (C03_velocity_number_roundtrip dim _ v hv).1
  obtain ⟨w, hw, hwd, hwc⟩ := C05_symmetric_components v none trivial
  obtain ⟨hwd', k, hk⟩ := sym_num_isSome dim _ v w none hv hw
  have hcn : coords dim n = v.comps := by simp [coords, hv]
  have hb : ((mkV dim n).vel.getSymmetric none).bind Vel.num = some (k : Int) := by
    simp [mkV, hv, hw, hk]
  simp only [hb, hcn, ← hwc, Bool.not_eq_true', List.all_eq_false, Bool.not_eq_false,
    Function.comp_apply, mkV_num, beq_iff_eq]
  refine exists_congr fun m => and_congr_right fun hm => ?_
  obtain ⟨u, hu⟩ := Option.isSome_iff_exists.1 (hl m hm)
  have hcm : coords dim m = u.comps := by simp [coords, hu]
  rw [hcm]
  constructor
  · intro h
    have : ofNum dim m = some w := (num_eq_iff dim m w hwd').1 (by rw [hk, ← h])
    rw [hu] at this
    rw [Option.some.inj this]
  · intro h
    have := Vel.comps_inj h
    subst this
    have := (C03_velocity_number_roundtrip dim m u hu).2
    rw [← hk, this]

/-- The value returned by `is_symmetric` is the verdict for the last scheme only. -/
theorem C08_is_symmetric_last_scheme (dim : Nat) (schemes : List (List Nat)) (s : Stencil)
    (hb : build dim schemes = some s) :
    s.isSymmetric = true ↔ ∃ t, (allCoords dim schemes).getLast? = some t ∧ SchemeSymmetric none t := by
  have hacc := (C06_build_succeeds_iff dim schemes).1 (by rw [hb]; rfl)
  obtain ⟨h0, h1, hv⟩ := hacc
  rw [build_eq dim schemes h0 h1 hv] at hb
  obtain rfl := Option.some.inj hb
  obtain ⟨init, last, rfl⟩ : ∃ init last, schemes = init ++ [last] :=
    ⟨schemes.dropLast, schemes.getLast h0, (List.dropLast_append_getLast h0).symm⟩
  simp only [Stencil.isSymmetric, List.map_append, List.map_cons, List.map_nil, List.foldl_append,
    List.foldl_cons, List.foldl_nil, allCoords, List.getLast?_append, List.getLast?_singleton,
    Option.some_or]
  rw [schemeSym_iff dim last (fun n hn => hv last (by simp) n hn)]
  simp

/-- **C08 is false**: a stencil whose first scheme has no symmetric velocities is reported as
symmetric when its last scheme is (1D, velocities `{0, 1}` and `{0, 1, -1}`). -/
theorem C08_is_symmetric_negation :
    ∃ s, build 1 [[0, 1], [0, 1, 2]] = some s ∧ s.isSymmetric = true ∧
      ¬ AllSymmetric none (allCoords 1 [[0, 1], [0, 1, 2]]) := by
  have hacc : Accepted 1 [[0, 1], [0, 1, 2]] := ⟨by decide, by decide, by decide +kernel⟩
  obtain ⟨s, hs⟩ := Option.isSome_iff_exists.1 ((C06_build_succeeds_iff _ _).2 hacc)
  refine ⟨s, hs, ?_, ?_⟩
  · rw [C08_is_symmetric_last_scheme 1 _ s hs]
    refine ⟨_, rfl, ?_⟩
    unfold SchemeSymmetric; decide +kernel
  · unfold AllSymmetric SchemeSymmetric; decide +kernel

/-- **C08, partial**: with a single scheme, the verdict is exact.  Missing: several schemes
(see `C08_is_symmetric_negation`). -/
theorem C08_is_symmetric_partial (dim : Nat) (scheme : List Nat) (s : Stencil)
    (hb : build dim [scheme] = some s) :
    s.isSymmetric = true ↔ AllSymmetric none (allCoords dim [scheme]) := by
  rw [C08_is_symmetric_last_scheme dim _ s hb]
  simp [allCoords, AllSymmetric]

/-- **C08, partial**: a negative answer is always right, and a positive answer is implied by
symmetry, whatever the number of schemes. -/
theorem C08_is_symmetric_complete_partial (dim : Nat) (schemes : List (List Nat)) (s : Stencil)
    (hb : build dim schemes = some s) (h : AllSymmetric none (allCoords dim schemes)) :
    s.isSymmetric = true := by
  have hacc := (C06_build_succeeds_iff dim schemes).1 (by rw [hb]; rfl)
  rw [C08_is_symmetric_last_scheme dim _ s hb]
  have hne : allCoords dim schemes ≠ [] := by simp [allCoords, hacc.some_scheme]
  exact ⟨_, List.getLast?_eq_some_getLast hne, h _ (List.getLast_mem hne)⟩

/-! ## C09 -/

theorem comp_comps (v : Vel) (i : Nat) : comp i v = v.comps[i]? := by cases v <;> rfl

theorem vmax_bound (dim : Nat) (schemes : List (List Nat)) (s : Stencil)
    (hb : build dim schemes = some s) (i : Nat) (M : Int) (hM : s.vmax i = some M)
    (t : List Nat) (ht : t ∈ schemes) (m : Nat) (hm : m ∈ t) (x : Int)
    (hx : (coords dim m)[i]? = some x) : x ≤ M := by
  have hacc := (C06_build_succeeds_iff dim schemes).1 (by rw [hb]; rfl)
  obtain ⟨h0, h1, hv⟩ := hacc
  rw [build_eq dim schemes h0 h1 hv] at hb
  obtain rfl := Option.some.inj hb
  simp only [Stencil.vmax, Option.bind_eq_bind, Option.bind_eq_some_iff] at hM
  obtain ⟨c, hc, hM⟩ := hM
  obtain ⟨hl, hc⟩ := (mapM_eq_some_iff _ _ _).1 hc
  have hmu := (mem_unique schemes m).2 ⟨t, ht, hm⟩
  obtain ⟨k, hk, hkm⟩ := List.getElem_of_mem hmu
  have := hc k (by simpa using hk)
  simp only [List.getElem_map, hkm, comp_comps] at this
  obtain ⟨u, hu⟩ := Option.isSome_iff_exists.1 (hv t ht m hm)
  simp only [coords, mkV, hu, Option.map_some, Option.getD_some] at hx this
  rw [hx] at this
  have hxc : x ∈ c := List.mem_of_getElem? this.symm
  rw [List.max?_eq_some_iff] at hM
  exact hM.2 x hxc

/-- **C09 is false** as stated: for a stencil with only non positive velocities (1D `{0, -1}`)
the halo width is `0`, and a streaming read leaves the array. -/
theorem C09_halo_width_negation :
    ∃ s, build 1 [[0, 2]] = some s ∧ s.vmax 0 = some 0 ∧ coords 1 2 = [-1] ∧
      ¬ ReadsInBounds 0 (-1) := by
  have hacc : Accepted 1 [[0, 2]] := ⟨by decide, by decide, by decide +kernel⟩
  have hb := build_eq 1 [[0, 2]] hacc.some_scheme hacc.no_empty hacc.numbered
  refine ⟨_, hb, by decide +kernel, by decide +kernel, fun h => ?_⟩
  have := h 1 0 (by omega) (by omega) (by omega)
  omega

/-- **C09, partial**: for stencils whose schemes are symmetric, the halo width bounds the absolute
value of every component of every velocity, and streaming reads stay in the array.  Missing:
asymmetric stencils (see `C09_halo_width_negation`). -/
theorem C09_halo_width_partial (dim : Nat) (schemes : List (List Nat)) (s : Stencil)
    (hb : build dim schemes = some s) (hsym : AllSymmetric none (allCoords dim schemes))
    (i : Nat) (M : Int) (hM : s.vmax i = some M)
    (t : List Nat) (ht : t ∈ schemes) (m : Nat) (hm : m ∈ t) (x : Int)
    (hx : (coords dim m)[i]? = some x) : -M ≤ x ∧ x ≤ M ∧ ReadsInBounds M x := by
  have hle := vmax_bound dim schemes s hb i M hM t ht m hm x hx
  have hmem := hsym _ (List.mem_map.2 ⟨t, ht, rfl⟩) _ (List.mem_map.2 ⟨m, hm, rfl⟩)
  obtain ⟨m', hm', hc⟩ := List.mem_map.1 hmem
  have hx' : (coords dim m')[i]? = some (-x) := by
    rw [hc]
    simp [symmetric, List.getElem?_mapIdx, hx]
  have hle' := vmax_bound dim schemes s hb i M hM t ht m' hm' (-x) hx'
  refine ⟨by omega, hle, ?_⟩
  intro n y h0 h1 h2
  omega

/-- Halo widths exist in each direction and are attained by a velocity. -/
theorem C09_halo_width_attained (dim : Nat) (schemes : List (List Nat)) (s : Stencil)
    (hb : build dim schemes = some s) (i : Nat) (hi : i < dim) :
    ∃ M, s.vmax i = some M ∧ ∃ t ∈ schemes, ∃ m ∈ t, (coords dim m)[i]? = some M := by
  have hacc := (C06_build_succeeds_iff dim schemes).1 (by rw [hb]; rfl)
  obtain ⟨h0, h1, hv⟩ := hacc
  rw [build_eq dim schemes h0 h1 hv] at hb
  obtain rfl := Option.some.inj hb
  have hcomp : ∀ m ∈ schemes.foldl union1d [], ∃ x, comp i (mkV dim m).vel = some x ∧
      (coords dim m)[i]? = some x := by
    intro m hm
    obtain ⟨t, ht, hmt⟩ := (mem_unique schemes m).1 hm
    obtain ⟨u, hu⟩ := Option.isSome_iff_exists.1 (hv t ht m hmt)
    have hd := (C03_velocity_number_roundtrip dim _ u hu).1
    have hlen : i < u.comps.length := by
      cases u <;> simp only [Vel.dim, Vel.comps, List.length_cons, List.length_nil] at hd ⊢ <;> omega
    refine ⟨u.comps[i], ?_, ?_⟩
    · simp [mkV, hu, comp_comps, List.getElem?_eq_getElem hlen]
    · simp [coords, hu, List.getElem?_eq_getElem hlen]
  have hms : ∃ c, ((schemes.foldl union1d []).map (mkV dim)).mapM (fun v => comp i v.vel) = some c := by
    cases hc : ((schemes.foldl union1d []).map (mkV dim)).mapM (fun v => comp i v.vel) with
    | some c => exact ⟨c, rfl⟩
    | none =>
      obtain ⟨v, hvm, hn⟩ := (mapM_eq_none_iff _ _).1 hc
      obtain ⟨m, hm, rfl⟩ := List.mem_map.1 hvm
      obtain ⟨x, hx, _⟩ := hcomp m hm
      rw [hx] at hn; simp at hn
  obtain ⟨c, hc⟩ := hms
  obtain ⟨hl, hc'⟩ := (mapM_eq_some_iff _ _ _).1 hc
  have hcne : c ≠ [] := by
    intro h
    rw [h] at hl
    obtain ⟨t, ht⟩ := List.exists_mem_of_ne_nil _ h0
    obtain ⟨m, hm⟩ := List.exists_mem_of_ne_nil t (fun h => h1 (h ▸ ht))
    have := (mem_unique schemes m).2 ⟨t, ht, hm⟩
    simp only [List.length_nil, List.length_map] at hl
    rw [List.eq_nil_of_length_eq_zero hl.symm] at this
    simp at this
  obtain ⟨M, hM⟩ : ∃ M, c.max? = some M := by
    cases hM : c.max? with
    | none => exact absurd (List.max?_eq_none_iff.1 hM) hcne
    | some M => exact ⟨M, rfl⟩
  refine ⟨M, ?_, ?_⟩
  · simp only [Stencil.vmax]; rw [hc]; exact hM
  · have hMc := (List.max?_eq_some_iff.1 hM).1
    obtain ⟨k, hk, hkM⟩ := List.getElem_of_mem hMc
    have hk' : k < (schemes.foldl union1d []).length := by
      simp only [List.length_map] at hl; omega
    have := hc' k (by simpa using hk')
    simp only [List.getElem_map] at this
    rw [List.getElem?_eq_getElem hk, hkM] at this
    obtain ⟨x, hx, hx'⟩ := hcomp _ (List.getElem_mem hk')
    rw [hx] at this
    obtain ⟨t, ht, hmt⟩ := (mem_unique schemes _).1 (List.getElem_mem hk')
    exact ⟨t, ht, _, hmt, by rw [hx', this]⟩

/-- The components along one direction of all the unique velocities. -/
theorem components_exist (dim : Nat) (schemes : List (List Nat)) (s : Stencil)
    (hb : build dim schemes = some s) (i : Nat) (hi : i < dim) :
    ∃ c : List Int, s.uvel.mapM (fun v => comp i v.vel) = some c ∧ c ≠ [] ∧
      ∀ x, x ∈ c ↔ ∃ t ∈ schemes, ∃ m ∈ t, (coords dim m)[i]? = some x := by
  have hacc := (C06_build_succeeds_iff dim schemes).1 (by rw [hb]; rfl)
  obtain ⟨h0, h1, hv⟩ := hacc
  rw [build_eq dim schemes h0 h1 hv] at hb
  obtain rfl := Option.some.inj hb
  have hcomp : ∀ m ∈ schemes.foldl union1d [], ∃ x, comp i (mkV dim m).vel = some x ∧
      (coords dim m)[i]? = some x := by
    intro m hm
    obtain ⟨t, ht, hmt⟩ := (mem_unique schemes m).1 hm
    obtain ⟨u, hu⟩ := Option.isSome_iff_exists.1 (hv t ht m hmt)
    have hd := (C03_velocity_number_roundtrip dim _ u hu).1
    have hlen : i < u.comps.length := by
      cases u <;> simp only [Vel.dim, Vel.comps, List.length_cons, List.length_nil] at hd ⊢ <;> omega
    refine ⟨u.comps[i], ?_, ?_⟩
    · simp [mkV, hu, comp_comps, List.getElem?_eq_getElem hlen]
    · simp [coords, hu, List.getElem?_eq_getElem hlen]
  have hms : ∃ c, ((schemes.foldl union1d []).map (mkV dim)).mapM (fun v => comp i v.vel) = some c := by
    cases hc : ((schemes.foldl union1d []).map (mkV dim)).mapM (fun v => comp i v.vel) with
    | some c => exact ⟨c, rfl⟩
    | none =>
      obtain ⟨v, hvm, hn⟩ := (mapM_eq_none_iff _ _).1 hc
      obtain ⟨m, hm, rfl⟩ := List.mem_map.1 hvm
      obtain ⟨x, hx, _⟩ := hcomp m hm
      rw [hx] at hn; simp at hn
  obtain ⟨c, hc⟩ := hms
  obtain ⟨hl, hc'⟩ := (mapM_eq_some_iff _ _ _).1 hc
  simp only [List.length_map] at hl
  refine ⟨c, hc, ?_, ?_⟩
  · intro h
    rw [h] at hl
    obtain ⟨t, ht⟩ := List.exists_mem_of_ne_nil _ h0
    obtain ⟨m, hm⟩ := List.exists_mem_of_ne_nil t (fun h => h1 (h ▸ ht))
    have := (mem_unique schemes m).2 ⟨t, ht, hm⟩
    simp only [List.length_nil] at hl
    rw [List.eq_nil_of_length_eq_zero hl.symm] at this
    simp at this
  · intro x
    constructor
    · intro hx
      obtain ⟨k, hk, hkx⟩ := List.getElem_of_mem hx
      have hk' : k < (schemes.foldl union1d []).length := by omega
      have := hc' k (by simpa using hk')
      simp only [List.getElem_map] at this
      rw [List.getElem?_eq_getElem hk, hkx] at this
      obtain ⟨x', hx1, hx2⟩ := hcomp _ (List.getElem_mem hk')
      rw [hx1] at this
      obtain ⟨t, ht, hmt⟩ := (mem_unique schemes _).1 (List.getElem_mem hk')
      exact ⟨t, ht, _, hmt, by rw [hx2, this]⟩
    · rintro ⟨t, ht, m, hm, hx⟩
      have hmu := (mem_unique schemes m).2 ⟨t, ht, hm⟩
      obtain ⟨k, hk, hkm⟩ := List.getElem_of_mem hmu
      have := hc' k (by simpa using hk)
      simp only [List.getElem_map, hkm] at this
      obtain ⟨x', hx1, hx2⟩ := hcomp m hmu
      rw [hx1] at this
      rw [hx] at hx2
      obtain rfl := Option.some.inj hx2
      exact List.mem_of_getElem? this.symm

/-- **C09.** `vmax` and `vmin` are the largest and the smallest component, along each direction, of
the velocities of all the schemes. -/
theorem C09_extremes (dim : Nat) (schemes : List (List Nat)) (s : Stencil)
    (hb : build dim schemes = some s) (i : Nat) (hi : i < dim) :
    ∃ lo hi, s.vmin i = some lo ∧ s.vmax i = some hi ∧
      IsLeast {x | ∃ t ∈ schemes, ∃ m ∈ t, (coords dim m)[i]? = some x} lo ∧
      IsGreatest {x | ∃ t ∈ schemes, ∃ m ∈ t, (coords dim m)[i]? = some x} hi := by
  obtain ⟨c, hc, hne, hmem⟩ := components_exist dim schemes s hb i hi
  obtain ⟨M, hM⟩ : ∃ M, c.max? = some M := by
    cases hM : c.max? with
    | none => exact absurd (List.max?_eq_none_iff.1 hM) hne
    | some M => exact ⟨M, rfl⟩
  obtain ⟨m, hm⟩ : ∃ m, c.min? = some m := by
    cases hm : c.min? with
    | none => exact absurd (List.min?_eq_none_iff.1 hm) hne
    | some m => exact ⟨m, rfl⟩
  refine ⟨m, M, ?_, ?_, ?_, ?_⟩
  · simp only [Stencil.vmin]; rw [hc]; exact hm
  · simp only [Stencil.vmax]; rw [hc]; exact hM
  · obtain ⟨h1, h2⟩ := List.min?_eq_some_iff.1 hm
    exact ⟨(hmem m).1 h1, fun x hx => h2 x ((hmem x).2 hx)⟩
  · obtain ⟨h1, h2⟩ := List.max?_eq_some_iff.1 hM
    exact ⟨(hmem M).1 h1, fun x hx => h2 x ((hmem x).2 hx)⟩

/-- **C06.** `get_all_velocities` lists the velocities of the schemes, one scheme after the other:
the row of global index `offset + i` is the velocity `i` of the scheme. -/
theorem C06_all_velocities (dim : Nat) (schemes : List (List Nat)) (s : Stencil)
    (hb : build dim schemes = some s) :
    s.allVelocities.map V.num = schemes.flatten ∧
    s.allVelocities.map (fun v => v.vel.comps) = schemes.flatten.map (coords dim) := by
  have hacc := (C06_build_succeeds_iff dim schemes).1 (by rw [hb]; rfl)
  obtain ⟨h0, h1, hv⟩ := hacc
  rw [build_eq dim schemes h0 h1 hv] at hb
  obtain rfl := Option.some.inj hb
  have key : ∀ (l : List (List V)) (ptr : List Nat) (n p : Nat) (done rest : List V),
      done.length = p → rest.length = l.flatten.length →
      (∀ k < l.length, ptr[n + k]? = some (p + (l.take k).flatten.length)) →
      (l.zipIdx n).foldl (fun (rows : List V) q =>
        let a := ptr[q.2]?.getD 0
        rows.take a ++ q.1 ++ rows.drop (a + q.1.length)) (done ++ rest) = done ++ l.flatten := by
    intro l
    induction l with
    | nil =>
      intro ptr n p done rest h1 h2 _
      simp only [List.flatten_nil, List.length_nil] at h2
      simp [List.eq_nil_of_length_eq_zero h2]
    | cons x l ih =>
      intro ptr n p done rest hd hr hp
      have h0 := hp 0 (by simp)
      simp only [Nat.add_zero, List.take_zero, List.flatten_nil, List.length_nil] at h0
      simp only [List.zipIdx_cons, List.foldl_cons, h0, Option.getD_some]
      simp only [List.flatten_cons, List.length_append] at hr
      have e : (done ++ rest).take p ++ x ++ (done ++ rest).drop (p + x.length) =
          (done ++ x) ++ rest.drop x.length := by
        rw [List.take_append_of_le_length (by omega), List.take_of_length_le (by omega),
          List.drop_append, List.drop_of_length_le (by omega), List.nil_append, hd]
        congr 2
        omega
      rw [e, ih ptr (n + 1) (p + x.length) (done ++ x) (rest.drop x.length) (by simp [hd])
        (by rw [List.length_drop]; omega)]
      · simp
      · intro k hk
        have := hp (k + 1) (by simp; omega)
        rw [show n + 1 + k = n + (k + 1) by omega, this]
        simp [List.take_succ_cons]
        omega
  have hall : ∀ s' : Stencil, s'.v = schemes.map (·.map (mkV dim)) →
      s'.nvPtr = 0 :: prefixes 0 schemes → s'.allVelocities = (schemes.map (·.map (mkV dim))).flatten := by
    intro s' e1 e2
    unfold Stencil.allVelocities
    rw [e1]
    have hlast : (s'.nvPtr.getLast?.getD 0) = (schemes.map (·.map (mkV dim))).flatten.length := by
      have h2 := nvPtr_getElem? schemes schemes.length le_rfl
      rw [e2, List.getLast?_eq_getElem?]
      simp only [List.length_cons, length_prefixes, Nat.add_sub_cancel]
      rw [h2]
      simp [offset, List.length_flatten, Function.comp_def]
    rw [hlast]
    have := key (schemes.map (·.map (mkV dim))) s'.nvPtr 0 0 []
      (List.replicate (schemes.map (·.map (mkV dim))).flatten.length ⟨0, .v1 0⟩) rfl (by simp) (by
        intro k hk
        have h2 := nvPtr_getElem? schemes k (by simp at hk; omega)
        rw [e2, Nat.zero_add, h2]
        simp [offset, List.length_flatten, Function.comp_def, ← List.map_take])
    simpa using this
  rw [hall _ rfl rfl]
  constructor
  · simp [List.map_flatten, Function.comp_def]
  · rw [List.map_flatten, List.map_flatten, List.map_map]
    congr 1
    apply List.map_congr_left
    intro t ht
    simp only [Function.comp_apply, List.map_map]
    apply List.map_congr_left
    intro m hm
    obtain ⟨w, hw⟩ := Option.isSome_iff_exists.1 (hv t ht m hm)
    simp [mkV, coords, hw]

example : ∃ s, build 2 [[0, 1, 2, 3, 4]] = some s ∧ s.vmax 0 = some 1 ∧
    AllSymmetric none (allCoords 2 [[0, 1, 2, 3, 4]]) := by
  have hacc : Accepted 2 [[0, 1, 2, 3, 4]] := ⟨by decide, by decide, by decide +kernel⟩
  have hb := build_eq 2 _ hacc.some_scheme hacc.no_empty hacc.numbered
  refine ⟨_, hb, by decide +kernel, ?_⟩
  unfold AllSymmetric SchemeSymmetric; decide +kernel

end Pylbm.Sten
