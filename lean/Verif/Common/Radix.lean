import Mathlib.Algebra.BigOperators.Group.List.Basic
import Mathlib.Algebra.Order.Ring.Nat
import Mathlib.Data.List.Forall2
import Mathlib.Tactic.Ring
/-!
# Row-major numbering of multi-indices

Used for the memory offset of C-ordered NumPy arrays and for the ranks of an MPI Cartesian
communicator (both are row-major).
-/

namespace Pylbm.Radix

/-- Row-major position of the multi-index `idx` in an array of shape `shape`. -/
def ravel : List Nat → List Nat → Nat
  | _ :: ds, i :: is => i * ds.prod + ravel ds is
  | _, _ => 0

/-- Multi-index of the row-major position `k`. -/
def unravel : List Nat → Nat → List Nat
  | [], _ => []
  | _ :: ds, k => k / ds.prod :: unravel ds (k % ds.prod)

/-- `idx` is a position of an array of shape `shape`. -/
def InShape (shape idx : List Nat) : Prop := List.Forall₂ (fun i n => i < n) idx shape

theorem prod_pos_of_inShape {shape idx : List Nat} (h : InShape shape idx) : 0 < shape.prod := by
  induction h with
  | nil => simp
  | cons h _ ih => rw [List.prod_cons]; exact Nat.mul_pos (by omega) ih

theorem ravel_lt {shape idx : List Nat} (h : InShape shape idx) : ravel shape idx < shape.prod := by
  induction h with
  | nil => simp [ravel]
  | @cons i n is ns h _ ih =>
    rw [List.prod_cons, ravel]
    calc i * ns.prod + ravel ns is < i * ns.prod + ns.prod := by omega
      _ = (i + 1) * ns.prod := by ring
      _ ≤ n * ns.prod := Nat.mul_le_mul_right _ h

theorem unravel_ravel {shape idx : List Nat} (h : InShape shape idx) :
    unravel shape (ravel shape idx) = idx := by
  induction h with
  | nil => rfl
  | @cons i n is ns h ht ih =>
    have hlt := ravel_lt ht
    have hpos := prod_pos_of_inShape ht
    rw [ravel, unravel]
    congr 1
    · rw [Nat.mul_comm, Nat.mul_add_div hpos, Nat.div_eq_of_lt hlt]; omega
    · rw [Nat.mul_comm, Nat.mul_add_mod, Nat.mod_eq_of_lt hlt, ih]

theorem unravel_inShape : ∀ (shape : List Nat) (k : Nat), k < shape.prod →
    InShape shape (unravel shape k) ∧ ravel shape (unravel shape k) = k
  | [], k, h => by
    simp at h
    exact ⟨List.Forall₂.nil, by simp [ravel, h]⟩
  | n :: ns, k, h => by
    rw [List.prod_cons] at h
    have hpos : 0 < ns.prod := by
      rcases Nat.eq_zero_or_pos ns.prod with h0 | h0
      · rw [h0] at h; simp at h
      · exact h0
    obtain ⟨h1, h2⟩ := unravel_inShape ns (k % ns.prod) (Nat.mod_lt _ hpos)
    refine ⟨List.Forall₂.cons ?_ h1, ?_⟩
    · exact (Nat.div_lt_iff_lt_mul hpos).2 h
    · rw [unravel, ravel, h2]; exact Nat.div_add_mod' k ns.prod

theorem ravel_injective {shape a b : List Nat} (ha : InShape shape a) (hb : InShape shape b)
    (h : ravel shape a = ravel shape b) : a = b := by
  rw [← unravel_ravel ha, ← unravel_ravel hb, h]

end Pylbm.Radix
