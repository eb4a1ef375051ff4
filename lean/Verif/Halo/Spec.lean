import Mathlib.Data.Int.Basic
/-!
# Specification of the halo update: periodic extension of a global array
-/

namespace Pylbm.HaloSpec

/-- Global position of the local cell `x` of a process whose first owned cell is `first`, for a
halo of width `w`. -/
def globalPos {dim : Nat} (first w : Fin dim → Nat) (x : Fin dim → Int) : Fin dim → Int :=
  fun i => first i + x i - w i

/-- The owned cells: at distance at least `w` from the border. -/
def Owned {dim : Nat} (size w : Fin dim → Nat) (x : Fin dim → Int) : Prop :=
  ∀ i, (w i : Int) ≤ x i ∧ x i < w i + size i

/-- All the cells of the local array. -/
def InLocal {dim : Nat} (size w : Fin dim → Nat) (x : Fin dim → Int) : Prop :=
  ∀ i, 0 ≤ x i ∧ x i < size i + 2 * w i

/-- Periodic extension of a global array of sizes `N`. -/
def periodic {dim : Nat} {α : Type} (N : Fin dim → Nat) (G : (Fin dim → Int) → α)
    (x : Fin dim → Int) : α := G fun i => x i % N i

end Pylbm.HaloSpec
