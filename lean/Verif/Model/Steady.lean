import Verif.Model.Kalman

/-!
# Model of a Kalman filter that is called again and again with the same arguments (C155, C156)

Source: filters/KalmanFilter.hpp:86-91 `predict` and 152-158 `update`, called in turn, as modelled by `Kalman.cycle` and `Kalman.Hist.runChol`.  `operator()` (170-181) means the same but cannot
be instantiated.
-/

namespace OpenKalman.Steady
open Matrix Kalman

variable {𝕜 : Type} [RCLike 𝕜] (lib : Lib 𝕜) {n m : ℕ}

/-- KalmanFilter.hpp:86-91 and 152-158: `predict` and then `update`, called `t` times with the same process and measurement arguments, and with the measurements `z`. -/
def cycles (F : LinTrans 𝕜 n n) (H : LinTrans 𝕜 n m) (q : List (GaussChol 𝕜 (Fin n))) (r : List (GaussChol 𝕜 (Fin m))) (z : ℕ → Fin m → 𝕜)
    (x : Gauss 𝕜 (Fin n)) : ℕ → Gauss 𝕜 (Fin n)
  | 0 => x
  | t + 1 => cycle lib F H (q.map GaussChol.toGauss) (r.map GaussChol.toGauss) (z t) (cycles F H q r z x t)

/-- The same on distributions in Cholesky form. -/
def cyclesChol (F : LinTrans 𝕜 n n) (H : LinTrans 𝕜 n m) (q : List (GaussChol 𝕜 (Fin n))) (r : List (GaussChol 𝕜 (Fin m))) (z : ℕ → Fin m → 𝕜)
    (x : GaussChol 𝕜 (Fin n)) : ℕ → GaussChol 𝕜 (Fin n)
  | 0 => x
  | t + 1 => updateChol lib H r (z t) (linearTransformChol lib F (cyclesChol F H q r z x t) q)

end OpenKalman.Steady
