import Verif.Model.Kalman

/-!
# Model: the residuals of a filter

Source: filters/KalmanFilter.hpp:40-75 and 96-102.  `update` computes the distribution of the measurement (line 100) and `update_step` the difference `Mean {z} - y` (line 59), which
it multiplies with the gain.  What is modelled are these differences and the covariances `P_yy` (line 55), in the order of the calls.
-/

namespace OpenKalman.Kalman
open Matrix

/-- `z - y` (KalmanFilter.hpp:59) and `P_yy` (KalmanFilter.hpp:55). -/
structure Innovation where
  size : ℕ
  value : Fin size → ℝ
  cov : Matrix (Fin size) (Fin size) ℝ

/-- What `update` (KalmanFilter.hpp:96-102) computes on its way; `predict` (lines 85-90) computes nothing of this kind. -/
noncomputable def Op.innovations (lib : Lib ℝ) {n k : ℕ} : Op ℝ n k → Gauss ℝ (Fin n) → List Innovation
  | .predict _ _, _ => []
  | .update m H ns z, x => let y := (linearTransformCross lib H x (ns.map GaussChol.toGauss)).1; [⟨m, z - y.mean, y.cov⟩]

/-- The same in Cholesky form, where `P_yy` is known by its factor. -/
noncomputable def Op.innovationsChol (lib : Lib ℝ) {n k : ℕ} : Op ℝ n k → GaussChol ℝ (Fin n) → List Innovation
  | .predict _ _, _ => []
  | .update m H ns z, x => let y := (linearTransformCrossChol lib H x ns).1; [⟨m, z - y.mean, y.toGauss.cov⟩]

/-- All of them, while the filter runs. -/
noncomputable def Hist.innovations (lib : Lib ℝ) {n k : ℕ} : Hist ℝ n k → Gauss ℝ (Fin n) → List Innovation
  | .nil, _ => []
  | .cons op h, x => op.innovations lib x ++ h.innovations lib (op.run lib x)

noncomputable def Hist.innovationsChol (lib : Lib ℝ) {n k : ℕ} : Hist ℝ n k → GaussChol ℝ (Fin n) → List Innovation
  | .nil, _ => []
  | .cons op h, x => op.innovationsChol lib x ++ h.innovationsChol lib (op.runChol lib x)

end OpenKalman.Kalman
