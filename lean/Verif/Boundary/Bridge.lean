import Verif.Stencil.Props
import Verif.Boundary.Lemmas
/-!
# The tables used by the boundary conditions, from the constructor of `Stencil`
-/
namespace Pylbm.Boundary
open Domain Velocity VelocitySpec StencilSpec ListAux

/-- A table filled entry by entry; `none` if one entry raises. -/
def tab {α : Type} (n : Nat) (f : Fin n → Option α) : Option (Fin n → α) :=
  if h : ∀ i, (f i).isSome then some fun i => (f i).get (h i) else none

/-- An index found in a table, used to index an array of `n` entries. -/
def toFin (n : Nat) (i : Int) : Option (Fin n) :=
  if h : 0 ≤ i ∧ i.toNat < n then some ⟨i.toNat, h.2⟩ else none

/-- Components of a velocity as an array, stencil.py 783-815 (`get_all_velocities`). -/
def velCell (dim : Nat) (v : Vel) : Cell dim := fun j => v.comps[(j : Nat)]?.getD 0

/-- The tables read by `Boundary`: `unique_velocities`; `unum2index[v.get_symmetric().num]`
(boundary.py 30-36); `unum2index[num]` (boundary.py 118-124); the scheme of a distribution function
(`nv_ptr`); `get_symmetric()` (boundary.py 228-231). -/
def ofStencil (dim : Nat) (s : Sten.Stencil) : Option (Sten dim) := do
  let nu := s.uvel.length
  let ns := s.num2index.length
  let usym ← tab nu fun u => do
    let w ← s.uvel[u].vel.getSymmetric none
    let m ← w.num
    let i ← pyGet? s.unum2index m
    toFin nu i
  let ux ← tab ns fun k => do
    let i ← pyGet? s.unum2index (s.num2index[k] : Int)
    toFin nu i
  let r ← s.getSymmetric none
  let sym ← tab ns fun k => r[(k : Nat)]?.bind fun i => toFin ns i
  return { nu := nu, ns := ns, uvel := fun u => velCell dim s.uvel[u].vel, usym := usym, ux := ux,
           scheme := fun k => Sten.searchRight s.nvPtr k - 1, sym := sym }

theorem tab_some {α : Type} {n : Nat} {f : Fin n → Option α} {g : Fin n → α}
    (h : ∀ i, f i = some (g i)) : tab n f = some g := by
  unfold tab
  rw [dif_pos (fun i => by rw [h i]; rfl)]
  congr 1
  funext i
  simp [h i]

theorem velCell_inj {dim : Nat} {v w : Vel} (hv : v.dim = dim) (hw : w.dim = dim)
    (h : velCell dim v = velCell dim w) : v = w := by
  have e : ∀ i, i < dim → v.comps[i]?.getD 0 = w.comps[i]?.getD 0 := fun i hi => congrFun h ⟨i, hi⟩
  cases v <;> cases w <;> simp only [Vel.dim] at hv hw <;> try omega
  all_goals
    obtain rfl : _ = dim := by exact_mod_cast hv
  · simpa [Vel.comps] using e 0 (by norm_num)
  · have e0 := e 0 (by norm_num)
    have e1 := e 1 (by norm_num)
    simp [Vel.comps] at e0 e1
    rw [e0, e1]
  · have e0 := e 0 (by norm_num)
    have e1 := e 1 (by norm_num)
    have e2 := e 2 (by norm_num)
    simp [Vel.comps] at e0 e1 e2
    rw [e0, e1, e2]

theorem velCell_sym {dim : Nat} {v w : Vel} (h : w.comps = symmetric none v.comps) (j : Fin dim) :
    velCell dim w j = -velCell dim v j := by
  unfold velCell
  rw [h]
  unfold symmetric
  simp only [List.getElem?_mapIdx]
  cases v.comps[(j : Nat)]? <;> simp

theorem pyGet?_natCast {α : Type} (l : List α) (i : Nat) : pyGet? l (i : Int) = l[i]? := by
  unfold pyGet?
  rw [if_pos (by omega)]
  simp

theorem toFin_natCast {n i : Nat} (h : i < n) : toFin n (i : Int) = some ⟨i, h⟩ := by
  unfold toFin
  rw [dif_pos ⟨by omega, by simpa using h⟩]
  simp

/-- **C07, boundary tables.** The tables of an accepted stencil whose schemes are symmetric and have distinct
velocities: the lookups all succeed, the tables satisfy the assumption `Sten.WF` of the theorems on boundary
conditions, and they give the velocity and the scheme of each distribution function. -/
theorem C07_boundary_tables (dim : Nat) (schemes : List (List Nat)) (s : Sten.Stencil)
    (hb : Sten.build dim schemes = some s) (hnd : ∀ t ∈ schemes, t.Nodup)
    (hsym : AllSymmetric none (Sten.allCoords dim schemes)) :
    ∃ t : Sten dim, ofStencil dim s = some t ∧ t.WF ∧ t.ns = schemes.flatten.length ∧
      (∀ (k : Fin t.ns) (m : Nat), schemes.flatten[(k : Nat)]? = some m →
        ofNum dim m = (s.v.flatten[(k : Nat)]?).map Sten.V.vel ∧
        ∀ v, ofNum dim m = some v → t.vel k = velCell dim v) ∧
      ∀ (k : Fin t.ns) (n i : Nat) (hn : n < schemes.length), i < schemes[n].length →
        (k : Nat) = ((schemes.take n).map List.length).sum + i → t.scheme k = n := by
  obtain ⟨r, hr, hrl, hrs⟩ := Sten.C07_symmetric_index dim schemes s hb none trivial hsym
  obtain ⟨hsort, hmem, _, _, _, _, hun, _⟩ := Sten.C06_tables_coherent dim schemes s hb
  obtain ⟨h0, h1, hv⟩ := (Sten.C06_build_succeeds_iff dim schemes).1 (by rw [hb]; rfl)
  have hb' := Sten.build_eq dim schemes h0 h1 hv
  rw [hb] at hb'
  have hs := Option.some.inj hb'
  have hnum : s.num2index = schemes.flatten := by
    rw [hs]
  have huv : s.uvel = s.unum.map (Sten.mkV dim) := by
    rw [Sten.Stencil.unum, hs]; simp [Function.comp_def]
  have hptr : s.nvPtr = 0 :: Sten.prefixes 0 schemes := by rw [hs]
  have hlen : s.unum.length = s.uvel.length := by simp [Sten.Stencil.unum]
  have hnodup : s.unum.Nodup := hsort.imp (fun h => h.ne)
  -- the velocity at a unique position
  have huvel : ∀ u (hu : u < s.uvel.length), ∃ v, ofNum dim (s.unum[u]'(by omega)) = some v ∧
      s.uvel[u].vel = v ∧ v.dim = dim ∧ v.num = some (s.unum[u]'(by omega) : Int) := by
    intro u hu
    obtain ⟨t, ht, hm⟩ := (hmem (s.unum[u]'(by omega))).1 (List.getElem_mem _)
    obtain ⟨v, hv'⟩ := Option.isSome_iff_exists.1 (hv t ht _ hm)
    refine ⟨v, hv', ?_, C03_velocity_number_roundtrip dim _ v hv'⟩
    simp only [huv, List.getElem_map, Sten.mkV]
    simp [Sten.Stencil.unum] at hv' ⊢
    rw [hv']; rfl
  -- positions of the numbers
  have hpos : ∀ m, (∃ t ∈ schemes, m ∈ t) → ∃ i, ∃ hi : i < s.uvel.length,
      s.unum[i]'(by omega) = m ∧ (pyGet? s.unum2index (m : Int)).bind (toFin s.uvel.length) =
        some ⟨i, hi⟩ := by
    intro m hm
    obtain ⟨i, hi, rfl⟩ := List.getElem_of_mem ((hmem m).2 hm)
    refine ⟨i, by omega, rfl, ?_⟩
    rw [pyGet?_natCast, hun i hi, Option.bind_some, toFin_natCast]
  have husym : ∀ u : Fin s.uvel.length, ∃ i : Fin s.uvel.length,
      ((s.uvel[u].vel.getSymmetric none).bind fun w => w.num.bind fun m =>
        (pyGet? s.unum2index m).bind fun i => toFin s.uvel.length i) = some i ∧
      ∀ j, velCell dim s.uvel[i].vel j = -velCell dim s.uvel[u].vel j := by
    rintro ⟨u, hu⟩
    obtain ⟨v, hv1, hv2, hv3, hv4⟩ := huvel u hu
    obtain ⟨w, hw1, hw2, hw3⟩ := C05_symmetric_components v none trivial
    obtain ⟨t, ht, hm⟩ := (hmem (s.unum[u]'(by omega))).1 (List.getElem_mem _)
    have hc := hsym _ (List.mem_map.2 ⟨t, ht, rfl⟩) _ (List.mem_map.2 ⟨_, hm, rfl⟩)
    obtain ⟨m', hm', hc'⟩ := List.mem_map.1 hc
    obtain ⟨w', hw'⟩ := Option.isSome_iff_exists.1 (hv t ht m' hm')
    obtain rfl : w' = w := by
      simp only [Sten.coords, hw', hv1, Option.map_some, Option.getD_some] at hc'
      exact Sten.Vel.comps_inj (hc'.trans hw3.symm)
    obtain ⟨i, hi, hi1, hi2⟩ := hpos m' ⟨t, ht, hm'⟩
    obtain ⟨v', h1', h2', _⟩ := huvel i hi
    rw [hi1, hw'] at h1'
    refine ⟨⟨i, hi⟩, ?_, fun j => ?_⟩
    · simp only [Fin.getElem_fin, hv2, hw1, Option.bind_some,
        (C03_velocity_number_roundtrip dim m' w' hw').2]
      exact hi2
    · simp only [Fin.getElem_fin, hv2, h2', ← Option.some.inj h1']
      exact velCell_sym hw3 j
  have hux : ∀ k : Fin s.num2index.length, ∃ i : Fin s.uvel.length,
      ((pyGet? s.unum2index (s.num2index[k] : Int)).bind fun i => toFin s.uvel.length i) = some i ∧
      s.unum[(i : Nat)]'(by omega) = s.num2index[k] := by
    intro k
    have : s.num2index[k] ∈ schemes.flatten := by rw [← hnum]; exact List.getElem_mem _
    obtain ⟨t, ht, hm⟩ := List.mem_flatten.1 this
    obtain ⟨i, hi, hi1, hi2⟩ := hpos _ ⟨t, ht, hm⟩
    exact ⟨⟨i, hi⟩, hi2, hi1⟩
  have hblock : ∀ k : Fin s.num2index.length, ∃ n i, ∃ hn : n < schemes.length,
      ∃ hi : i < schemes[n].length, (k : Nat) = offset schemes n + i ∧
      s.num2index[k] = schemes[n][i] ∧ Sten.searchRight s.nvPtr k - 1 = n := by
    intro k
    obtain ⟨n, i, hn, hi, hk⟩ := exists_block schemes k (by rw [← hnum]; exact k.2)
    refine ⟨n, i, hn, hi, hk, ?_, ?_⟩
    · have := flatten_getElem? schemes n i hn hi
      rw [← hk, ← hnum, List.getElem?_eq_getElem k.2, List.getElem?_eq_getElem hi] at this
      exact Option.some.inj this
    · rw [hptr, hk, Sten.searchRight_nvPtr schemes n i hn hi]; rfl
  have hsy : ∀ k : Fin s.num2index.length, ∃ k' : Fin s.num2index.length,
      (r[(k : Nat)]?.bind fun i => toFin s.num2index.length (i : Int)) = some k' ∧
      Sten.searchRight s.nvPtr k' - 1 = Sten.searchRight s.nvPtr k - 1 ∧
      Sten.coords dim s.num2index[k'] = symmetric none (Sten.coords dim s.num2index[k]) := by
    intro k
    obtain ⟨n, i, hn, hi, hk, h1, h2⟩ := hblock k
    obtain ⟨j, hj, hj1, hj2⟩ := hrs n hn i hi
    have hb1 := flatten_getElem? schemes n j hn hj
    rw [List.getElem?_eq_getElem hj, ← hnum] at hb1
    obtain ⟨hlt, hb2⟩ := List.getElem?_eq_some_iff.1 hb1
    refine ⟨⟨offset schemes n + j, hlt⟩, ?_, ?_, ?_⟩
    · rw [hk, hj1, Option.bind_some, toFin_natCast hlt]
    · rw [h2, hptr, Sten.searchRight_nvPtr schemes n j hn hj]; rfl
    · simp only [Fin.getElem_fin, hb2] at h1 ⊢
      rw [h1]; exact hj2
  choose us hus1 hus2 using husym
  choose ux hux1 hux2 using hux
  choose sy hsy1 hsy2 hsy3 using hsy
  have hvel : ∀ k (v : Vel), ofNum dim s.num2index[k] = some v →
      s.uvel[(ux k : Nat)].vel = v := by
    intro k v hv'
    obtain ⟨v', h1', h2', _⟩ := huvel (ux k) (ux k).2
    rw [hux2 k, hv'] at h1'
    rw [h2', Option.some.inj h1']
  have hof : ∀ k : Fin s.num2index.length, ∃ v, ofNum dim s.num2index[k] = some v := by
    intro k
    have : s.num2index[k] ∈ schemes.flatten := by rw [← hnum]; exact List.getElem_mem _
    obtain ⟨t, ht, hm⟩ := List.mem_flatten.1 this
    exact Option.isSome_iff_exists.1 (hv t ht _ hm)
  refine ⟨{ nu := s.uvel.length, ns := s.num2index.length,
            uvel := fun u => velCell dim s.uvel[u].vel, usym := us, ux := ux,
            scheme := fun k => Sten.searchRight s.nvPtr k - 1, sym := sy }, ?_, ?_, ?_, ?_, ?_⟩
  · unfold ofStencil
    simp only [Option.bind_eq_bind]
    rw [tab_some hus1, Option.bind_some, tab_some hux1, Option.bind_some, hr, Option.bind_some,
      tab_some hsy1]
    rfl
  · refine ⟨?_, hus2, ?_, hsy2, ?_⟩
    · rintro ⟨a, ha⟩ ⟨b, hb⟩ hab
      obtain ⟨v, hv1, hv2, hv3, hv4⟩ := huvel a ha
      obtain ⟨w, hw1, hw2, hw3, hw4⟩ := huvel b hb
      simp only [Fin.getElem_fin, hv2, hw2] at hab
      have := velCell_inj hv3 hw3 hab
      subst this
      rw [hv4] at hw4
      have := (List.Nodup.getElem_inj_iff hnodup).1 (Int.natCast_inj.1 (Option.some.inj hw4))
      exact Fin.ext this
    · intro k j
      obtain ⟨v, hv'⟩ := hof k
      obtain ⟨w, hw'⟩ := hof (sy k)
      have h3 := hsy3 k
      simp only [Sten.coords, hv', hw', Option.map_some, Option.getD_some] at h3
      simp only [Sten.vel, Fin.getElem_fin, hvel k v hv', hvel (sy k) w hw']
      exact velCell_sym h3 j
    · intro k k' he hu
      obtain ⟨n, i, hn, hi, hk, h1, h2⟩ := hblock k
      obtain ⟨n', i', hn', hi', hk', h1', h2'⟩ := hblock k'
      have hnn : n = n' := by rw [← h2, ← h2']; exact he
      subst hnn
      have hnumeq : s.num2index[k] = s.num2index[k'] := by
        rw [← hux2 k, ← hux2 k']
        have hu' : ux k = ux k' := hu
        simp only [hu']
      rw [h1, h1'] at hnumeq
      have := (List.Nodup.getElem_inj_iff (hnd _ (List.getElem_mem hn))).1 hnumeq
      apply Fin.ext
      rw [hk, hk', this]
  · simp [hnum]
  · intro k m hm
    have hm' : s.num2index[k] = m := by
      rw [← hnum, List.getElem?_eq_getElem k.2] at hm
      exact Option.some.inj hm
    refine ⟨?_, fun v hv' => ?_⟩
    · rw [Sten.getElem_flat dim schemes s hb, List.getElem?_map, hm]
      obtain ⟨v, hv'⟩ := hof k
      rw [hm'] at hv'
      simp [Sten.mkV, hv']
    · simp only [Sten.vel, Fin.getElem_fin]
      rw [hvel k v (by rw [hm']; exact hv')]
  · intro k n i hn hi hk
    show Sten.searchRight s.nvPtr k - 1 = n
    have hk' : (k : Nat) = offset schemes n + i := hk
    rw [hptr, hk', Sten.searchRight_nvPtr schemes n i hn hi]
    rfl

/-- D2Q9 and D2Q5 together. -/
example : ∃ s, Sten.build 2 [[0, 1, 2, 3, 4, 5, 6, 7, 8], [0, 1, 2, 3, 4]] = some s ∧
    (∀ t ∈ [[0, 1, 2, 3, 4, 5, 6, 7, 8], [0, 1, 2, 3, 4]], t.Nodup) ∧
    AllSymmetric none (Sten.allCoords 2 [[0, 1, 2, 3, 4, 5, 6, 7, 8], [0, 1, 2, 3, 4]]) := by
  refine ⟨(Sten.build 2 [[0, 1, 2, 3, 4, 5, 6, 7, 8], [0, 1, 2, 3, 4]]).get (by decide +kernel),
    (Option.some_get _).symm, by decide, ?_⟩
  unfold AllSymmetric SchemeSymmetric
  decide +kernel

end Pylbm.Boundary
