import Mathlib.LinearAlgebra.Matrix.NonsingularInverse
/-!
# Specification of the collision (no import of the model)
-/

namespace Pylbm.SchemeSpec
open Matrix
variable {K : Type} [Field K] {n nc d : Nat}

/-- Relaxation of the moments `m` towards the equilibrium given by the conserved moments, all the
moments at the same time. -/
def relaxed (cons : Fin nc → Fin n) (EQ s : Fin n → (Fin nc → K) → K) (m : Fin n → K) : Fin n → K :=
  fun i => (1 - s i (m ∘ cons)) * m i + s i (m ∘ cons) * EQ i (m ∘ cons)

/-- The collision as an operator on distribution functions. -/
def collision (M invM : Matrix (Fin n) (Fin n) K) (cons : Fin nc → Fin n)
    (EQ s : Fin n → (Fin nc → K) → K) (f : Fin n → K) : Fin n → K :=
  invM *ᵥ relaxed cons EQ s (M *ᵥ f)

/-- Explicit Euler half step, all the moments at the same time. -/
def euler (dt : K) (S : Fin n → Option ((Fin n → K) → K)) (m : Fin n → K) : Fin n → K :=
  fun i => match S i with
    | none => m i
    | some r => m i + dt / 2 * r m

/-- The collision with source terms: half step, relaxation, half step. -/
def sourceCollision (M invM : Matrix (Fin n) (Fin n) K) (cons : Fin nc → Fin n)
    (EQ s : Fin n → (Fin nc → K) → K) (dt : K) (S : Fin n → Option ((Fin n → K) → K))
    (f : Fin n → K) : Fin n → K :=
  invM *ᵥ euler dt S (relaxed cons EQ s (euler dt S (M *ᵥ f)))

end Pylbm.SchemeSpec
