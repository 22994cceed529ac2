import Verif.Model.CovSync
import Mathlib.LinearAlgebra.Matrix.Determinant.Basic
import Mathlib.Analysis.Real.Sqrt

/-! # Model: determinant of a lazily synchronised covariance (CovarianceImpl.hpp:296-340), over real matrices -/

namespace OpenKalman.CovSync
open Matrix
variable {n : ℕ}

/-- CovarianceImpl.hpp:309-320: self-adjoint covariance whose nested matrix is triangular. -/
noncomputable def Obj.detSelfAdjoint (o : Obj (Matrix (Fin n) (Fin n) ℝ) (Matrix (Fin n) (Fin n) ℝ)) : ℝ :=
  if o.sd > 0 then o.nested.det * o.nested.det else o.chol.det

/-- CovarianceImpl.hpp:298-308: triangular (square root) covariance whose nested matrix is self-adjoint. -/
noncomputable def Obj.detSquareRoot (o : Obj (Matrix (Fin n) (Fin n) ℝ) (Matrix (Fin n) (Fin n) ℝ)) : ℝ :=
  if o.sd > 0 then Real.sqrt o.nested.det else o.chol.det

end OpenKalman.CovSync
