import Mathlib.Analysis.Calculus.Deriv.Basic
import Mathlib.Algebra.BigOperators.Group.Finset.Basic

/-!
# Specification: derivatives
-/

namespace OpenKalman.FiniteDiff

variable {P : Type*} [Fintype P] [DecidableEq P]

/-- `g` is the quadratic function with constant `c`, linear coefficients `b` and quadratic coefficients `A`. -/
def IsQuadratic (g : (P → ℝ) → ℝ) (c : ℝ) (b : P → ℝ) (A : P → P → ℝ) : Prop :=
  ∀ x, g x = c + ∑ p, b p * x p + ∑ p, ∑ q, A p q * x p * x q

/-- `D` is the partial derivative of `g` in the coordinate `p` at `x`. -/
def HasPartial (g : (P → ℝ) → ℝ) (p : P) (x : P → ℝ) (D : ℝ) : Prop :=
  HasDerivAt (fun u => g (Function.update x p u)) D (x p)

/-- `D` is the second partial derivative of `g` in the coordinates `p` and then `q` at `x`. -/
def HasPartial₂ (g : (P → ℝ) → ℝ) (p q : P) (x : P → ℝ) (D : ℝ) : Prop :=
  ∃ g' : (P → ℝ) → ℝ, (∀ y, HasPartial g p y (g' y)) ∧ HasPartial g' q x D

end OpenKalman.FiniteDiff
