import Verif.Model.Kalman
import Verif.Model.Gaussian

/-!
# Model: the log-likelihood of measurements under the predictions of a filter

Sources: filters/KalmanFilter.hpp:97-102 and 153-158 (the distribution of a measurement is the transform of the state), distributions/GaussianDistribution.hpp:347-353
(`log_likelihood`).  Nothing new is modelled here: the functions of `Model/Kalman.lean` and `Model/Gaussian.lean` are put together as a caller does who compares models by their
measurements.
-/

namespace OpenKalman.Kalman
open Matrix OpenKalman.Gaussian

/-- `solve(A, b)` (GaussianDistribution.hpp:350, functions/solve.hpp) with one column. -/
noncomputable def Lib.solveVec (lib : Lib ℝ) {n : ℕ} (A : Matrix (Fin n) (Fin n) ℝ) (b : Fin n → ℝ) : Fin n → ℝ :=
  fun i => lib.solve A (Matrix.of fun j (_ : Fin 1) => b j) i 0

/-- A distribution in self-adjoint form as it is stored (GaussianDistribution.hpp:57-66). -/
def Gauss.store {n : ℕ} (y : Gauss ℝ (Fin n)) : Dist n := ⟨y.mean, ⟨false, .herm false, y.cov, false, false⟩⟩

/-- A distribution in Cholesky form as it is stored. -/
def GaussChol.store {n : ℕ} (y : GaussChol ℝ (Fin n)) : Dist n := ⟨y.mean, ⟨false, .tri false, y.fac, false, false⟩⟩

/-- The log-likelihood (GaussianDistribution.hpp:347-353) of what is measured, under the distribution that KalmanFilter.hpp:100 computes before it uses the measurement. -/
noncomputable def Op.evidence (lib : Lib ℝ) {n k : ℕ} : Op ℝ n k → Gauss ℝ (Fin n) → ℝ
  | .predict _ _, _ => 0
  | .update _ H ns z, x => (linearTransform lib H x (ns.map GaussChol.toGauss)).store.logLikelihood lib.solveVec [z]

/-- The same in Cholesky form. -/
noncomputable def Op.evidenceChol (lib : Lib ℝ) {n k : ℕ} : Op ℝ n k → GaussChol ℝ (Fin n) → ℝ
  | .predict _ _, _ => 0
  | .update _ H ns z, x => (linearTransformChol lib H x ns).store.logLikelihood lib.solveVec [z]

/-- The sum of them while the filter runs. -/
noncomputable def Hist.evidence (lib : Lib ℝ) {n k : ℕ} : Hist ℝ n k → Gauss ℝ (Fin n) → ℝ
  | .nil, _ => 0
  | .cons op h, x => op.evidence lib x + h.evidence lib (op.run lib x)

noncomputable def Hist.evidenceChol (lib : Lib ℝ) {n k : ℕ} : Hist ℝ n k → GaussChol ℝ (Fin n) → ℝ
  | .nil, _ => 0
  | .cons op h, x => op.evidenceChol lib x + h.evidenceChol lib (op.runChol lib x)

end OpenKalman.Kalman
