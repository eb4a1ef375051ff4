import Mathlib.Data.List.Basic
import Mathlib.Tactic.Ring
import Mathlib.Logic.Function.Basic
/-!
# The views of a figure (C119)

`Fig` of viewer/matplotlib_viewer.py 57-91: a figure is cut in rows and columns, and `fig[i, j]` or `fig[i]` makes a view the
first time and returns it afterwards.
-/
namespace Pylbm.Views

/-! ## Model -/

/-- The index given to `__getitem__`: an integer or two. Slices are left out. -/
inductive Key
  | one (i : Int)
  | pair (i j : Int)

/-- A view (`PlotWidget`): its number in the order of creation, and its row and column in the figure. -/
structure View where
  number : Nat
  place : Nat × Nat
  deriving DecidableEq

/-- `Fig.__init__`, matplotlib_viewer.py 57-62: the sizes of the grid, the table `_plot_widgets`, and how many views were made. -/
structure Fig where
  rows : Nat
  cols : Nat
  view : Nat → Nat → Option View
  next : Nat

/-- `Fig(nrows, ncols)`. -/
def Fig.new (rows cols : Nat) : Fig := ⟨rows, cols, fun _ _ => none, 0⟩

/-- An index of a list of `n` entries, negative from the end; `none` is an `IndexError`. `GridSpec` of matplotlib does the same
(`_normalize`). -/
def index (n : Nat) (i : Int) : Option Nat :=
  if 0 ≤ i ∧ i < n then some i.toNat else if -(n : Int) ≤ i ∧ i < 0 then some (i + n).toNat else none

/-- The place of `self._grid[idxs]`: with one integer, `GridSpec` counts the places row after row. -/
def gridPlace (rows cols : Nat) : Key → Option (Nat × Nat)
  | .one i => (index (rows * cols) i).map fun n => (n / cols, n % cols)
  | .pair i j => do
    let r ← index rows i
    let c ← index cols j
    return (r, c)

/-- `coords`, matplotlib_viewer.py 78-81. -/
def Key.coords : Key → Int × Int
  | .one i => (i, 0)
  | .pair i j => (i, j)

/-- `__getitem__`, matplotlib_viewer.py 74-91: the view and the figure after; `none` is an exception. -/
def getItem (f : Fig) (k : Key) : Option (View × Fig) := do
  let r ← index f.rows k.coords.1
  let c ← index f.cols k.coords.2
  match f.view r c with
  | some w => return (w, f)
  | none =>
    let p ← gridPlace f.rows f.cols k
    let w : View := ⟨f.next, p⟩
    return (w, { f with view := fun a b => if a = r ∧ b = c then some w else f.view a b, next := f.next + 1 })

/-- The figure after some accesses (the exceptions are caught and change nothing). -/
def Fig.after (f : Fig) (ks : List Key) : Fig :=
  ks.foldl (fun f k => ((getItem f k).map Prod.snd).getD f) f

/-! ## Specification -/

/-- The row `r` and the column `c` are what the user means: counted from 0, or from the end with negative numbers; the first
column if there is only one integer. -/
def Key.Means (rows cols : Nat) : Key → Nat × Nat → Prop
  | .one i, p => p.1 < rows ∧ p.2 < cols ∧ (i = p.1 ∨ i = p.1 - rows) ∧ p.2 = 0
  | .pair i j, p => p.1 < rows ∧ p.2 < cols ∧ (i = p.1 ∨ i = p.1 - rows) ∧ (j = p.2 ∨ j = p.2 - cols)

/-- Two integers, or one if there is only one column. -/
def Key.Plain (cols : Nat) : Key → Prop
  | .one _ => cols = 1
  | .pair _ _ => True

/-! ## Lemmas -/

theorem index_some {n : Nat} {i : Int} {r : Nat} : index n i = some r ↔ r < n ∧ (i = r ∨ i = r - n) := by
  unfold index
  split_ifs with h1 h2
  · simp only [Option.some.injEq]; omega
  · simp only [Option.some.injEq]; omega
  · constructor
    · intro h; cases h
    · omega

theorem means_coords {rows cols : Nat} {k : Key} {p : Nat × Nat} (h : k.Means rows cols p) :
    index rows k.coords.1 = some p.1 ∧ index cols k.coords.2 = some p.2 := by
  cases k with
  | one i =>
    obtain ⟨h1, h2, h3, h4⟩ := h
    exact ⟨index_some.2 ⟨h1, h3⟩, index_some.2 ⟨h2, Or.inl (by simp [Key.coords, h4])⟩⟩
  | pair i j =>
    obtain ⟨h1, h2, h3, h4⟩ := h
    exact ⟨index_some.2 ⟨h1, h3⟩, index_some.2 ⟨h2, h4⟩⟩

theorem coords_means {rows cols : Nat} {k : Key} {r c : Nat} (h1 : index rows k.coords.1 = some r)
    (h2 : index cols k.coords.2 = some c) : k.Means rows cols (r, c) := by
  obtain ⟨a1, a2⟩ := index_some.1 h1
  obtain ⟨b1, b2⟩ := index_some.1 h2
  cases k with
  | one i =>
    refine ⟨a1, b1, a2, ?_⟩
    simp only [Key.coords] at b2
    show c = 0
    omega
  | pair i j => exact ⟨a1, b1, a2, b2⟩

theorem gridPlace_means {rows cols : Nat} {k : Key} (hk : k.Plain cols) {p : Nat × Nat} (h : k.Means rows cols p) :
    gridPlace rows cols k = some p := by
  cases k with
  | one i =>
    obtain ⟨h1, h2, h3, h4⟩ := h
    have hc : cols = 1 := hk
    subst hc
    have e : index (rows * 1) i = some p.1 := index_some.2 ⟨by omega, by simpa using h3⟩
    show (index (rows * 1) i).map (fun n => (n / 1, n % 1)) = some p
    rw [e]
    simp only [Option.map_some, Nat.div_one, Nat.mod_one]
    rw [← h4]
  | pair i j =>
    obtain ⟨h1, h2⟩ := means_coords h
    simp only [Key.coords] at h1 h2
    simp [gridPlace, h1, h2]

/-- The views are at their place. -/
def Good (rows cols : Nat) (f : Fig) : Prop :=
  f.rows = rows ∧ f.cols = cols ∧ ∀ r c w, f.view r c = some w → w.place = (r, c)

theorem getItem_good {rows cols : Nat} {f : Fig} (hf : Good rows cols f) {k : Key} (hk : k.Plain cols) {p : Nat × Nat}
    (h : k.Means rows cols p) : ∃ w f', getItem f k = some (w, f') ∧ Good rows cols f' ∧ w.place = p ∧
      f'.view p.1 p.2 = some w ∧ (∀ w', f.view p.1 p.2 = some w' → w' = w) ∧
      ∀ r c w', f.view r c = some w' → f'.view r c = some w' := by
  obtain ⟨h1, h2⟩ := means_coords h
  have h3 := gridPlace_means hk h
  obtain ⟨fr, fc, fv⟩ := hf
  unfold getItem
  rw [fr, fc, h1, h2]
  simp only [Option.bind_eq_bind, Option.bind_some, h3]
  cases hv : f.view p.1 p.2 with
  | some w =>
    exact ⟨w, f, rfl, ⟨fr, fc, fv⟩, fv _ _ _ hv, hv, fun w' hw' => (Option.some.inj hw').symm, fun _ _ _ h => h⟩
  | none =>
    refine ⟨_, _, rfl, ⟨rfl, rfl, ?_⟩, rfl, by simp, by simp, ?_⟩
    · intro r c w hw
      simp only at hw
      split_ifs at hw with hrc
      · cases hw; rw [hrc.1, hrc.2]
      · exact fv r c w hw
    · intro r c w hw
      simp only
      rw [if_neg]
      · exact hw
      · rintro ⟨rfl, rfl⟩
        rw [hv] at hw
        cases hw

theorem after_good {rows cols : Nat} (ks : List Key) (hks : ∀ k ∈ ks, k.Plain cols) : ∀ {f : Fig}, Good rows cols f →
    Good rows cols (f.after ks) ∧ ∀ r c w, f.view r c = some w → (f.after ks).view r c = some w := by
  induction ks with
  | nil => intro f hf; exact ⟨hf, fun _ _ _ h => h⟩
  | cons k ks ih =>
    intro f hf
    have hstep : Good rows cols (((getItem f k).map Prod.snd).getD f) ∧
        ∀ r c w, f.view r c = some w → (((getItem f k).map Prod.snd).getD f).view r c = some w := by
      by_cases hm : ∃ p, k.Means rows cols p
      · obtain ⟨p, hp⟩ := hm
        obtain ⟨w, f', e, g, _, _, _, hkeep⟩ := getItem_good hf (hks k List.mem_cons_self) hp
        rw [e]
        exact ⟨g, hkeep⟩
      · have e : getItem f k = none := by
          unfold getItem
          rw [hf.1, hf.2.1]
          cases h1 : index rows k.coords.1 with
          | none => rfl
          | some r =>
            cases h2 : index cols k.coords.2 with
            | none => rfl
            | some c => exact absurd ⟨(r, c), coords_means h1 h2⟩ hm
        rw [e]
        exact ⟨hf, fun _ _ _ h => h⟩
    obtain ⟨g, hk2⟩ := ih (fun k' hk' => hks k' (List.mem_cons_of_mem _ hk')) hstep.1
    exact ⟨g, fun r c w hw => hk2 r c w (hstep.2 r c w hw)⟩

theorem new_good (rows cols : Nat) : Good rows cols (Fig.new rows cols) :=
  ⟨rfl, rfl, fun _ _ _ h => by cases h⟩

/-! ## Properties -/

/-- **C119.** With two integers, or one in figures of one column, after any such accesses: the view is in the row and the
column asked for; later accesses return the same view if they ask for the same place, and another one otherwise. -/
theorem C119_views (rows cols : Nat) (before after : List Key) (hb : ∀ k ∈ before, k.Plain cols)
    (ha : ∀ k ∈ after, k.Plain cols) (k k' : Key) (hk : k.Plain cols) (hk' : k'.Plain cols) (p p' : Nat × Nat)
    (hp : k.Means rows cols p) (hp' : k'.Means rows cols p') :
    ∃ w f w' f', getItem ((Fig.new rows cols).after before) k = some (w, f) ∧ w.place = p ∧
      getItem (f.after after) k' = some (w', f') ∧ w'.place = p' ∧ (w' = w ↔ p' = p) := by
  obtain ⟨g, _⟩ := after_good before hb (new_good rows cols)
  obtain ⟨w, f, e, g1, hw, hin, _, _⟩ := getItem_good g hk hp
  obtain ⟨g2, hkeep⟩ := after_good after ha g1
  obtain ⟨w', f', e', _, hw', _, hold, _⟩ := getItem_good g2 hk' hp'
  refine ⟨w, f, w', f', e, hw, e', hw', ?_, ?_⟩
  · rintro rfl
    rw [← hw, ← hw']
  · rintro rfl
    exact (hold w (hkeep _ _ _ hin)).symm

/-- **C119.** An index which means no place is an `IndexError`, after any accesses. -/
theorem C119_outside (rows cols : Nat) (before : List Key) (k : Key) (hk : ∀ p, ¬ k.Means rows cols p) :
    getItem ((Fig.new rows cols).after before) k = none := by
  have hsize : ∀ (ks : List Key) (f : Fig), (f.after ks).rows = f.rows ∧ (f.after ks).cols = f.cols := by
    intro ks
    induction ks with
    | nil => intro f; exact ⟨rfl, rfl⟩
    | cons k ks ih =>
      intro f
      have hs : (((getItem f k).map Prod.snd).getD f).rows = f.rows ∧
          (((getItem f k).map Prod.snd).getD f).cols = f.cols := by
        cases e : getItem f k with
        | none => exact ⟨rfl, rfl⟩
        | some q =>
          unfold getItem at e
          simp only [Option.bind_eq_bind, Option.bind_eq_some_iff] at e
          obtain ⟨r, _, c, _, e⟩ := e
          cases hv : f.view r c with
          | some w =>
            rw [hv] at e
            cases e
            exact ⟨rfl, rfl⟩
          | none =>
            rw [hv] at e
            simp only [Option.bind_eq_some_iff] at e
            obtain ⟨p, _, e⟩ := e
            cases e
            exact ⟨rfl, rfl⟩
      obtain ⟨h1, h2⟩ := ih (((getItem f k).map Prod.snd).getD f)
      exact ⟨h1.trans hs.1, h2.trans hs.2⟩
  obtain ⟨h1, h2⟩ := hsize before (Fig.new rows cols)
  unfold getItem
  rw [h1, h2]
  cases e1 : index (Fig.new rows cols).rows k.coords.1 with
  | none => rfl
  | some r =>
    cases e2 : index (Fig.new rows cols).cols k.coords.2 with
    | none => rfl
    | some c => exact absurd (coords_means e1 e2) (hk (r, c))

/-- **C119, negation.** With one integer in a figure of several columns, `fig[i]` (for a row `i` other than the first one) is
drawn at another place than `(i, 0)`; `fig[i, 0]` then returns that view, and the place where it was drawn gets a second view
on top of it. -/
theorem C119_rows_negation (rows cols i : Nat) (hc : 2 ≤ cols) (hi : 1 ≤ i) (hr : i < rows) :
    ∃ w f, getItem (Fig.new rows cols) (.one i) = some (w, f) ∧ w.place ≠ (i, 0) ∧
      getItem f (.pair i 0) = some (w, f) ∧
      ∃ w' f', getItem f (.pair w.place.1 w.place.2) = some (w', f') ∧ w' ≠ w ∧ w'.place = w.place := by
  have e1 : index rows (i : Int) = some i := index_some.2 ⟨hr, Or.inl rfl⟩
  have e2 : index cols 0 = some 0 := index_some.2 ⟨by omega, Or.inl rfl⟩
  have hin : i < rows * cols := lt_of_lt_of_le hr (Nat.le_mul_of_pos_right _ (by omega))
  have e3 : gridPlace rows cols (.one i) = some (i / cols, i % cols) := by
    have e : index (rows * cols) (i : Int) = some i := index_some.2 ⟨hin, Or.inl rfl⟩
    show (index (rows * cols) (i : Int)).map (fun n => (n / cols, n % cols)) = _
    rw [e]
    rfl
  have hlt : i / cols < i := Nat.div_lt_self (by omega) (by omega)
  refine ⟨⟨0, (i / cols, i % cols)⟩, ⟨rows, cols, fun a b => if a = i ∧ b = 0 then some ⟨0, (i / cols, i % cols)⟩ else none,
    1⟩, ?_, ?_, ?_, ⟨1, (i / cols, i % cols)⟩, ?_⟩
  · simp [getItem, Fig.new, Key.coords, e1, e2, e3]
  · intro h
    have := congrArg Prod.fst h
    simp only at this
    omega
  · simp [getItem, Key.coords, e1, e2]
  · have e4 : index rows ((i / cols : Nat) : Int) = some (i / cols) := index_some.2 ⟨by omega, Or.inl rfl⟩
    have e5 : index cols ((i % cols : Nat) : Int) = some (i % cols) := index_some.2 ⟨Nat.mod_lt _ (by omega), Or.inl rfl⟩
    have hne : i / cols ≠ i := by omega
    refine ⟨{ rows := rows, cols := cols, view := fun a b => if a = i / cols ∧ b = i % cols then some ⟨1, (i / cols, i % cols)⟩
          else if a = i ∧ b = 0 then some ⟨0, (i / cols, i % cols)⟩ else none, next := 2 }, ?_, by simp, rfl⟩
    push_cast at e4 e5
    simp [getItem, Key.coords, gridPlace, e4, e5, hne]

/-- **C119, negation.** In a figure of one row the views after the first one cannot be asked for with one integer. -/
theorem C119_row_negation (cols : Nat) (before : List Key) (i : Nat) (hi : 1 ≤ i) :
    getItem ((Fig.new 1 cols).after before) (.one i) = none := by
  apply C119_outside
  rintro p ⟨h1, _, h3, _⟩
  omega

/-! ## Cases -/

/-- The figure of two rows and three columns of demo/1D/euler.py. -/
example : ∃ w f w' f', getItem ((Fig.new 2 3).after [.pair 0 0, .pair 0 1]) (.pair 1 2) = some (w, f) ∧ w.place = (1, 2) ∧
    getItem (f.after [.pair 1 0]) (.pair (-1) (-1)) = some (w', f') ∧ w'.place = (1, 2) ∧ (w' = w ↔ ((1, 2) : Nat × Nat) = (1, 2)) :=
  C119_views 2 3 _ _ (by simp [Key.Plain]) (by simp [Key.Plain]) (.pair 1 2) (.pair (-1) (-1)) trivial trivial (1, 2) (1, 2)
    ⟨by decide, by decide, Or.inl rfl, Or.inl rfl⟩ ⟨by decide, by decide, Or.inr rfl, Or.inr rfl⟩

/-- The figure of three rows of demo/2D/step.py. -/
example : ∃ w f w' f', getItem ((Fig.new 3 1).after [.one 0]) (.one 1) = some (w, f) ∧ w.place = (1, 0) ∧
    getItem (f.after []) (.one 2) = some (w', f') ∧ w'.place = (2, 0) ∧ (w' = w ↔ ((2, 0) : Nat × Nat) = (1, 0)) :=
  C119_views 3 1 _ _ (by simp [Key.Plain]) (by simp) (.one 1) (.one 2) rfl rfl (1, 0) (2, 0)
    ⟨by decide, by decide, Or.inl rfl, rfl⟩ ⟨by decide, by decide, Or.inl rfl, rfl⟩

/-- `fig[1]` in the figure of two rows and three columns. -/
example : ∃ w f, getItem (Fig.new 2 3) (.one 1) = some (w, f) ∧ w.place ≠ (1, 0) :=
  let ⟨w, f, h, h', _⟩ := C119_rows_negation 2 3 1 (by decide) (by decide) (by decide)
  ⟨w, f, h, h'⟩

end Pylbm.Views
