import Mathlib.LinearAlgebra.Matrix.PosDef
import Mathlib.LinearAlgebra.Matrix.NonsingularInverse
import Mathlib.Analysis.RCLike.Basic
import Mathlib.Topology.Instances.Matrix

/-!
# Specification vocabulary for systems whose matrices do not change (C155, C156)

The state follows `x' = A x + w` and the measurement is `z = C x' + v`, with covariances `Q` of `w` and `R` of `v`.
-/

namespace OpenKalman.Steady
open Matrix Filter Topology

variable {𝕜 : Type} [RCLike 𝕜] {n m : Type} [Fintype n] [Fintype m] [DecidableEq n] [DecidableEq m]

/-- The covariance of the error, after one move and one measurement, of the estimator that corrects its prediction by the gain `G`. -/
def withGain (A Q : Matrix n n 𝕜) (C : Matrix m n 𝕜) (R : Matrix m m 𝕜) (G : Matrix n m 𝕜) (P : Matrix n n 𝕜) : Matrix n n 𝕜 :=
  (1 - G * C) * (A * P * Aᴴ + Q) * (1 - G * C)ᴴ + G * R * Gᴴ

/-- The gain of Kalman. -/
noncomputable def kalmanGain (A Q : Matrix n n 𝕜) (C : Matrix m n 𝕜) (R : Matrix m m 𝕜) (P : Matrix n n 𝕜) : Matrix n m 𝕜 :=
  (A * P * Aᴴ + Q) * Cᴴ * (C * (A * P * Aᴴ + Q) * Cᴴ + R)⁻¹

/-- One step of the Riccati recursion. -/
noncomputable def riccati (A Q : Matrix n n 𝕜) (C : Matrix m n 𝕜) (R : Matrix m m 𝕜) (P : Matrix n n 𝕜) : Matrix n n 𝕜 :=
  (A * P * Aᴴ + Q) - (A * P * Aᴴ + Q) * Cᴴ * (C * (A * P * Aᴴ + Q) * Cᴴ + R)⁻¹ * (C * (A * P * Aᴴ + Q))

/-- Errors that are multiplied by `F` in every step die out. -/
def DiesOut (F : Matrix n n 𝕜) : Prop := Tendsto (fun t : ℕ => F ^ t) atTop (𝓝 0)

/-- Some constant gain makes the errors of an estimator die out (the system is detectable). -/
def Detectable (A : Matrix n n 𝕜) (C : Matrix m n 𝕜) : Prop := ∃ L : Matrix n m 𝕜, DiesOut ((1 - L * C) * A)

end OpenKalman.Steady
