import Verif.Model.Kalman

/-!
# Model: updates by means of the recursive-least-squares transform

/repo/OpenKalman/filters/KalmanFilter.hpp:96-102 and 152-158, for a filter whose measurement transform is a `RecursiveLeastSquaresTransform` (the measurement is the state itself, with additive
noise), in self-adjoint form and with a Euclidean pattern.
-/

namespace OpenKalman.Kalman
open Matrix

variable {𝕜 : Type} [RCLike 𝕜] (lib : Lib 𝕜) {n : Type} [Fintype n] [DecidableEq n]

/-- KalmanFilter.hpp:152-158: `transform_with_cross_covariance` (RecursiveLeastSquaresTransform.hpp:86-93) and `update_step`. -/
def rlsUpdate (lam : 𝕜) (ns : List (Gauss 𝕜 n)) (z : n → 𝕜) (x : Gauss 𝕜 n) : Gauss 𝕜 n :=
  let r := rlsTransformCross lam x ns
  updateStep lib id id x r.1 r.2 z

end OpenKalman.Kalman
