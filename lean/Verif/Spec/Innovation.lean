import Verif.Spec.LinSys

/-!
# Specification of white residuals (C167)
-/

namespace OpenKalman.LinSys
open MeasureTheory ProbabilityTheory Matrix

variable {Ω : Type} [MeasurableSpace Ω]

/-- A random vector of any size, and what is claimed to be its covariance. -/
structure Residual (Ω : Type) where
  size : ℕ
  value : Ω → Fin size → ℝ
  cov : Matrix (Fin size) (Fin size) ℝ

/-- Expectation zero, the claimed covariance, which is not degenerate, and no correlation between two of them. -/
structure White (P : Measure Ω) (W : List (Residual Ω)) : Prop where
  square : ∀ w ∈ W, Square P w.value
  mean : ∀ w ∈ W, meanVec P w.value = 0
  cov : ∀ w ∈ W, covMat P w.value w.value = w.cov
  posDef : ∀ w ∈ W, w.cov.PosDef
  uncorrelated : W.Pairwise fun v w => covMat P v.value w.value = 0

/-- The numbers in them. -/
def parts (W : List (Residual Ω)) : Set (Ω → ℝ) := {f | ∃ w ∈ W, ∃ i, f = fun ω => w.value ω i}

/-- How far measurements are from zero, each measured by its covariance, in total. -/
noncomputable def totalSquares (W : List (Residual Ω)) (ω : Ω) : ℝ := (W.map fun w => w.value ω ⬝ᵥ (w.cov⁻¹ *ᵥ w.value ω)).sum

end OpenKalman.LinSys
