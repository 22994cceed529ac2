import Mathlib.LinearAlgebra.Matrix.PosDef
import Mathlib.LinearAlgebra.Matrix.SchurComplement
import Mathlib.Data.Matrix.ColumnRowPartitioned
import Mathlib.LinearAlgebra.Matrix.Trace
import Mathlib.Analysis.RCLike.Basic
import Mathlib.Analysis.SpecialFunctions.Exp
import Mathlib.Analysis.SpecialFunctions.Trigonometric.Basic

/-!
# Specification vocabulary for filters and transforms (C48–C55)
-/

namespace OpenKalman.Kalman
open Matrix

variable {𝕜 : Type} [RCLike 𝕜] {n m : Type} [Fintype n] [Fintype m] [DecidableEq n]

/-- The joint covariance of a state and a measurement. -/
def jointCov (P : Matrix n n 𝕜) (Pxy : Matrix n m 𝕜) (Pyy : Matrix m m 𝕜) : Matrix (n ⊕ m) (n ⊕ m) 𝕜 := fromBlocks P Pxy Pxyᴴ Pyy

/-- The covariance of the error `x - x̂ - G (y - ŷ)` of the estimator with gain `G`, when `(x, y)` has the given joint covariance. -/
def errorCov (P : Matrix n n 𝕜) (Pxy : Matrix n m 𝕜) (Pyy : Matrix m m 𝕜) (G : Matrix n m 𝕜) : Matrix n n 𝕜 :=
  fromCols 1 (-G) * jointCov P Pxy Pyy * (fromCols 1 (-G))ᴴ

/-- The quadratic form of a matrix. -/
def quad (A : Matrix n n 𝕜) (v : n → 𝕜) : 𝕜 := star v ⬝ᵥ A *ᵥ v

/-- The density of the multivariate normal distribution. -/
noncomputable def normalDensity (μ : n → ℝ) (P : Matrix n n ℝ) (x : n → ℝ) : ℝ :=
  Real.exp (-(quad P⁻¹ (x - μ)) / 2) / Real.sqrt ((2 * Real.pi) ^ Fintype.card n * P.det)

/-- One observation of recursive least squares: regressor, noise covariance, observed value. -/
structure Obs (𝕜 : Type) (n : Type) where
  m : ℕ
  H : Matrix (Fin m) n 𝕜
  R : Matrix (Fin m) (Fin m) 𝕜
  z : Fin m → 𝕜

/-- The exponentially weighted sum of squared residuals with forgetting factor `lam`: the initial guess counts `lam^N`, the latest observation 1.  The
observations are listed latest first. -/
noncomputable def lsCost (lam : ℝ) (P0 : Matrix n n 𝕜) (x0 : n → 𝕜) (θ : n → 𝕜) : List (Obs 𝕜 n) → 𝕜
  | [] => quad P0⁻¹ (θ - x0)
  | o :: os => lam * lsCost lam P0 x0 θ os + quad o.R⁻¹ (o.z - o.H *ᵥ θ)

end OpenKalman.Kalman
