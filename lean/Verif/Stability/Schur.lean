import Mathlib.Analysis.Complex.Polynomial.Basic
import Mathlib.Analysis.Complex.Polynomial.GaussLucas
import Mathlib.Analysis.Normed.Field.Basic
/-!
# Model of the tests of `pylbm/analysis/stability.py` (Schur and von Neumann polynomials)

A polynomial `sum p_k z^k` is the list `[p_0, ..., p_d]` of its coefficients.  Simplification: exact
complex arithmetic.
-/

namespace Pylbm.Stability
open Polynomial ComplexConjugate

/-- `operator_star`, stability.py 353-365. -/
noncomputable def star (p : List ℂ) : List ℂ :=
  let d := p.length - 1
  (List.range (d + 1)).map fun k => conj (p.getD (d - k) 0)

/-- `operator_circ`, stability.py 368-375. -/
noncomputable def circ (p : List ℂ) : List ℂ :=
  let d := p.length - 1
  (List.range' 1 d).map fun k => (star p).getD 0 0 * p.getD k 0 - p.getD 0 0 * (star p).getD k 0

/-- `operator_deriv`, stability.py 378-383. -/
noncomputable def deriv (p : List ℂ) : List ℂ :=
  let d := p.length - 1
  (List.range' 1 d).map fun k => k * p.getD k 0

theorem circ_length (p : List ℂ) : (circ p).length = p.length - 1 := by simp [circ]

theorem deriv_length (p : List ℂ) : (deriv p).length = p.length - 1 := by simp [deriv]

open Classical in
/-- `is_S`, stability.py 386-396. The code assumes at least one coefficient (`p[0]`); on the empty list
the model gives `false` instead of `IndexError`. -/
noncomputable def isS (p : List ℂ) : Bool :=
  if p.length = 2 then decide (‖p.getD 0 0‖ < ‖p.getD 1 0‖)
  else if h : ‖p.getD 0 0‖ < ‖p.getD (p.length - 1) 0‖ then isS (circ p)
  else false
termination_by p.length
decreasing_by
  rw [circ_length]
  rcases p with _ | ⟨a, l⟩
  · simp at h
  · simp

open Classical in
/-- `is_svN`, stability.py 399-412, with the tolerance `τ` (the constant `TPV`). -/
noncomputable def isSvN (τ : ℝ) (p : List ℂ) : Bool :=
  if p.length = 2 then decide (‖p.getD 0 0‖ ≤ ‖p.getD 1 0‖ + τ)
  else if h : ‖p.getD 0 0‖ < ‖p.getD (p.length - 1) 0‖ then isSvN τ (circ p)
  else if ∀ x ∈ circ p, ‖x‖ < τ then isS (deriv p)
  else false
termination_by p.length
decreasing_by
  rw [circ_length]
  rcases p with _ | ⟨a, l⟩
  · simp at h
  · simp

open Classical in
/-- `is_vN`, stability.py 415-428. On a list of one coefficient the code recurses on the empty list, and
fails there; the model gives `false`. -/
noncomputable def isVN (τ : ℝ) (p : List ℂ) : Bool :=
  if hp : p.length ≤ 1 then false
  else if p.length = 2 then decide (‖p.getD 0 0‖ ≤ ‖p.getD 1 0‖ + τ)
  else if ‖p.getD 0 0‖ < ‖p.getD (p.length - 1) 0‖ then isVN τ (circ p)
  else if ∀ x ∈ circ p, ‖x‖ < τ then isVN τ (deriv p)
  else false
termination_by p.length
decreasing_by
  · rw [circ_length]; omega
  · rw [deriv_length]; omega

/-! ## Specification -/

/-- The polynomial with the coefficients `p`. -/
noncomputable def toPoly (p : List ℂ) : ℂ[X] := ∑ k ∈ Finset.range p.length, C (p.getD k 0) * X ^ k

/-- All the roots in the open unit disc. -/
def Schur (p : ℂ[X]) : Prop := ∀ z, p.IsRoot z → ‖z‖ < 1

/-- All the roots in the closed unit disc. -/
def VonNeumann (p : ℂ[X]) : Prop := ∀ z, p.IsRoot z → ‖z‖ ≤ 1

/-- Moreover the roots on the unit circle are simple. -/
def SimpleVonNeumann (p : ℂ[X]) : Prop :=
  VonNeumann p ∧ ∀ z, ‖z‖ = 1 → p.IsRoot z → p.rootMultiplicity z = 1

end Pylbm.Stability
