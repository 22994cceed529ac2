import Verif.Model.Kalman
import Verif.Model.FiniteDiff

/-!
# Model: second-order linearised transform

/repo/OpenKalman/transforms/LinearizedTransform.hpp (order 2) on top of /repo/OpenKalman/transforms/details/LinearTransformBase.hpp, for covariances in self-adjoint form and
real scalars.  Term 0 is the input; the other terms are noise.  The parts are those of `Model/Kalman.lean` and `Model/FiniteDiff.lean`.
-/

namespace OpenKalman.SecondOrder
open OpenKalman.Kalman OpenKalman.FiniteDiff

variable {b q : ℕ} (k : Fin (b + 1) → ℕ)

/-- LinearTransformBase.hpp:109-126 `transform` with a value, Jacobians and Hessians: covariance and cross-covariance of first order, to which `add_correction`
(LinearizedTransform.hpp:164-172) is added (line 123). -/
noncomputable def combine (lib : Lib ℝ) (value : Fin q → ℝ) (J : (i : Fin (b + 1)) → Matrix (Fin q) (Fin (k i)) ℝ) (H : (i : Fin (b + 1)) → Fin q → Matrix (Fin (k i)) (Fin (k i)) ℝ)
    (d : (i : Fin (b + 1)) → Gauss ℝ (Fin (k i))) : Option (Gauss ℝ (Fin q) × Matrix (Fin (k 0)) (Fin q) ℝ) :=
  let r := sumNoiseCross lib (J 0) (d 0) (List.ofFn fun i : Fin b => (⟨k i.succ, J i.succ, d i.succ⟩ : Term ℝ (Fin q)))
  (addCorrection lib (List.ofFn fun i => ⟨k i, H i, (d i).cov⟩)).map fun c => (⟨value + c.mean, r.1 + c.cov⟩, r.2)

/-- The same for a transformation that is linearised by finite differences (FiniteDifferenceLinearization.hpp:231-281): value and Jacobians at the means
(LinearizedTransform.hpp:147-150), then the Hessians at the means (line 169). -/
noncomputable def transform (lib : Lib ℝ) (f : Inputs ⟨b + 1, k⟩ → Option (Fin q → ℝ)) (δ : Inputs ⟨b + 1, k⟩) (d : (i : Fin (b + 1)) → Gauss ℝ (Fin (k i))) :
    Act (Inputs ⟨b + 1, k⟩) (Option (Gauss ℝ (Fin q) × Matrix (Fin (k 0)) (Fin q) ℝ)) := do
  let value ← call id f
  let J ← jacobian id f δ
  let H ← hessian id f δ
  return combine k lib value J H d

end OpenKalman.SecondOrder
