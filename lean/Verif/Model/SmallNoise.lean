import Verif.Model.SigmaFilter
import Mathlib.Analysis.Calculus.FDeriv.Basic

/-!
# Model: the linearised filter for arbitrary functions (C170)

transforms/LinearizedTransform.hpp (order 1) on transforms/details/LinearTransformBase.hpp, and filters/KalmanFilter.hpp.  The calls are those of `Model/SigmaFilter.lean`, so that the same history
can be given to either filter.  Simplified: Jacobians are exact (transformations with their own; the errors of finite differences are C62), covariances are in self-adjoint form, patterns
Euclidean.
-/

namespace OpenKalman.SigmaFilter
open Matrix Kalman SigmaPoints

variable {𝕜 : Type} [RCLike 𝕜] {b p : ℕ}

/-- LinearizedTransform.hpp:147-150: the Jacobian for argument `i`, at the means. -/
noncomputable def jac {k : Fin (b + 1) → ℕ} (g : ((i : Fin (b + 1)) → Fin (k i) → 𝕜) → Fin p → 𝕜) (μ : (i : Fin (b + 1)) → Fin (k i) → 𝕜) (i : Fin (b + 1)) :
    Matrix (Fin p) (Fin (k i)) 𝕜 := Matrix.of fun a q => fderiv 𝕜 g μ (Pi.single i (Pi.single q 1)) a

/-- LinearTransformBase.hpp:109-143 `transform` with `return_cross`: the function at the means, the covariances by `sum_noise_terms`. -/
noncomputable def linTransform (lib : Lib 𝕜) (k : Fin (b + 1) → ℕ) (d : (i : Fin (b + 1)) → Gauss 𝕜 (Fin (k i))) (g : ((i : Fin (b + 1)) → Fin (k i) → 𝕜) → Fin p → 𝕜) :
    Gauss 𝕜 (Fin p) × Matrix (Fin (k 0)) (Fin p) 𝕜 :=
  let μ := fun i => (d i).mean
  let r := sumNoiseCross lib (jac g μ 0) (d 0) (List.ofFn fun i : Fin b => (⟨k i.succ, jac g μ i.succ, d i.succ⟩ : Term 𝕜 (Fin p)))
  (⟨g μ, r.1⟩, r.2)

/-- KalmanFilter.hpp:86-102 `predict` and `update`. -/
noncomputable def SOp.runLin (lib : Lib 𝕜) : {n k : ℕ} → SOp 𝕜 n k → Gauss 𝕜 (Fin n) → Gauss 𝕜 (Fin k)
  | _, _, .predict k ns g, x => (linTransform lib k (dists x ns) g).1
  | _, _, .update k ns g z, x => updateStep lib id id x (linTransform lib k (dists x ns) g).1 (linTransform lib k (dists x ns) g).2 z

/-- A history of calls. -/
noncomputable def SHist.runLin (lib : Lib 𝕜) : {n k : ℕ} → SHist 𝕜 n k → Gauss 𝕜 (Fin n) → Gauss 𝕜 (Fin k)
  | _, _, .nil, x => x
  | _, _, .cons op h, x => h.runLin lib (op.runLin lib x)

end OpenKalman.SigmaFilter
