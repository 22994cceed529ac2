import Verif.Model.SigmaPoints
import Verif.Model.EigenHooks

/-!
# Model of Kalman filters on sample points (C150–C152)

Sources: filters/KalmanFilter.hpp with transforms/SamplePointsTransform.hpp, transforms/details/ScaledSigmaPointsBase.hpp, transforms/sample-points/Unscented.hpp and
transforms/sample-points/CubaturePoints.hpp.  The points and weights are those of `Model/SigmaPoints.lean`, the update is that of `Model/Kalman.lean`, and the
functions called by the square-root form are those of `Model/EigenHooks.lean`, which may throw.

Simplifications: scalars are exact and patterns Euclidean, as in these modules; each call has one transformation; an output of dimension one, for which
Covariance.hpp:603-606 updates the variance and not the factor, is treated like the others.
-/

namespace OpenKalman.SigmaFilter
open Matrix Kalman SigmaPoints EigenHooks

variable {𝕜 : Type} [RCLike 𝕜]

/-- The rules of the sample points: CubaturePoints.hpp and Unscented.hpp with its three parameters. -/
inductive Rule
  | cubature
  | unscented (alpha beta kappa : ℝ)

namespace Rule

/-- The number of points: CubaturePoints.hpp:56, Unscented.hpp:147. -/
def count : Rule → ℕ → ℕ
  | cubature, dim => dim * 2
  | unscented .., dim => dim * 2 + 1

/-- The factor of the covariances under the square root: CubaturePoints.hpp:59-60, Unscented.hpp:150-151. -/
noncomputable def gamma : Rule → ℕ → ℝ
  | cubature, dim => dim
  | unscented alpha _ kappa, dim => alpha * alpha * (kappa + dim)

/-- CubaturePoints.hpp:51-107, Unscented.hpp:142-203. -/
def layout : Rule → ℕ → List ℕ → Option (List (List Piece))
  | cubature, dim, ks => cubatureLayout dim 0 ks
  | unscented .., dim, ks => unscentedLayout dim 0 ks

/-- CubaturePoints.hpp:146-149 and 174-177, ScaledSigmaPointsBase.hpp:53-112. -/
noncomputable def weights : (r : Rule) → (dim : ℕ) → Weights (r.count dim)
  | cubature, dim => cubatureWeights (dim * 2)
  | unscented alpha beta kappa, dim => unscentedWeights dim alpha beta kappa

/-- CubaturePoints.hpp:122-126, Unscented.hpp:215-219 `sample_points`, given the square roots `delta`. -/
def points (r : Rule) {b : ℕ} (k : Fin b → ℕ) (delta : (i : Fin b) → Matrix (Fin (k i)) (Fin (k i)) 𝕜) :
    Option (Matrix ((i : Fin b) × Fin (k i)) (Fin (r.count (∑ i, k i))) 𝕜) :=
  (r.layout (∑ i, k i) (List.ofFn k)).map fun L => pointsOf k (r.count (∑ i, k i)) L delta

end Rule

variable {b p count : ℕ}

/-- SamplePointsTransform.hpp:90-101 `y_means_impl`: the function at every point, moved to the means; argument 0 is the state, the others are noise. -/
def outputs {k : Fin b → ℕ} (g : ((i : Fin b) → Fin (k i) → 𝕜) → Fin p → 𝕜) (mean : (i : Fin b) → Fin (k i) → 𝕜)
    (Z : Matrix ((i : Fin b) × Fin (k i)) (Fin count) 𝕜) : Matrix (Fin p) (Fin count) 𝕜 :=
  Matrix.of fun a c => g (fun i r => Z ⟨i, r⟩ c + mean i r) a

/-- The points of the state. -/
def statePoints {k : Fin (b + 1) → ℕ} (Z : Matrix ((i : Fin (b + 1)) × Fin (k i)) (Fin count) 𝕜) : Matrix (Fin (k 0)) (Fin count) 𝕜 :=
  Matrix.of fun a c => Z ⟨0, a⟩ c

/-! ## On covariances -/

/-- SamplePointsTransform.hpp:126-170 with `return_cross`: mean, covariance, cross-covariance. -/
noncomputable def covTransform (lib : Lib 𝕜) (r : Rule) (k : Fin (b + 1) → ℕ) (mean : (i : Fin (b + 1)) → Fin (k i) → 𝕜)
    (delta : (i : Fin (b + 1)) → Matrix (Fin (k i)) (Fin (k i)) 𝕜) (g : ((i : Fin (b + 1)) → Fin (k i) → 𝕜) → Fin p → 𝕜) :
    Option (Gauss 𝕜 (Fin p) × Matrix (Fin (k 0)) (Fin p) 𝕜) :=
  (r.points k delta).map fun Z =>
    let W := r.weights (∑ i, k i)
    let Y := outputs g mean Z
    let m := weightedMean W Y
    let D := deviations Y m
    (⟨m, covarianceOf lib W D⟩, crossOf W (statePoints Z) D)

/-- Calls to a filter: a prediction by any function, and an update by any function; the noise distributions are given by their factors. -/
inductive SOp (𝕜 : Type) : ℕ → ℕ → Type
  | predict {b p : ℕ} (k : Fin (b + 1) → ℕ) (ns : (i : Fin b) → GaussChol 𝕜 (Fin (k i.succ))) (g : ((i : Fin (b + 1)) → Fin (k i) → 𝕜) → Fin p → 𝕜) :
      SOp 𝕜 (k 0) p
  | update {b p : ℕ} (k : Fin (b + 1) → ℕ) (ns : (i : Fin b) → GaussChol 𝕜 (Fin (k i.succ))) (g : ((i : Fin (b + 1)) → Fin (k i) → 𝕜) → Fin p → 𝕜)
      (z : Fin p → 𝕜) : SOp 𝕜 (k 0) (k 0)

/-- A history of calls. -/
inductive SHist (𝕜 : Type) : ℕ → ℕ → Type
  | nil {n : ℕ} : SHist 𝕜 n n
  | cons {n k l : ℕ} : SOp 𝕜 n k → SHist 𝕜 k l → SHist 𝕜 n l

/-- The input and the noise terms (SamplePointsTransform.hpp:190-193), in self-adjoint form. -/
def dists {k : Fin (b + 1) → ℕ} (x : Gauss 𝕜 (Fin (k 0))) (ns : (i : Fin b) → GaussChol 𝕜 (Fin (k i.succ))) : (i : Fin (b + 1)) → Gauss 𝕜 (Fin (k i)) :=
  Fin.cons (α := fun i => Gauss 𝕜 (Fin (k i))) x fun i => (ns i).toGauss

/-- The same in Cholesky form. -/
def distsChol {k : Fin (b + 1) → ℕ} (x : GaussChol 𝕜 (Fin (k 0))) (ns : (i : Fin b) → GaussChol 𝕜 (Fin (k i.succ))) :
    (i : Fin (b + 1)) → GaussChol 𝕜 (Fin (k i)) :=
  Fin.cons (α := fun i => GaussChol 𝕜 (Fin (k i))) x ns

/-- `square_root(gamma * covariance)`: CubaturePoints.hpp:59-60, Unscented.hpp:150-151. -/
noncomputable def rootsOf (lib : SLib 𝕜) (r : Rule) {k : Fin (b + 1) → ℕ} (d : (i : Fin (b + 1)) → Gauss 𝕜 (Fin (k i))) (i : Fin (b + 1)) :
    Matrix (Fin (k i)) (Fin (k i)) 𝕜 := lib.chol ((r.gamma (∑ i, k i) : 𝕜) • (d i).cov)

/-- KalmanFilter.hpp:86-102 `predict` and `update`. -/
noncomputable def SOp.run (lib : SLib 𝕜) (r : Rule) : {n k : ℕ} → SOp 𝕜 n k → Gauss 𝕜 (Fin n) → Option (Gauss 𝕜 (Fin k))
  | _, _, .predict k ns g, x => (covTransform lib.toLib r k (fun i => (dists x ns i).mean) (rootsOf lib r (dists x ns)) g).map Prod.fst
  | _, _, .update k ns g z, x =>
    (covTransform lib.toLib r k (fun i => (dists x ns i).mean) (rootsOf lib r (dists x ns)) g).map fun y => updateStep lib.toLib id id x y.1 y.2 z

/-- A history of calls. -/
noncomputable def SHist.run (lib : SLib 𝕜) (r : Rule) : {n k : ℕ} → SHist 𝕜 n k → Gauss 𝕜 (Fin n) → Option (Gauss 𝕜 (Fin k))
  | _, _, .nil, x => some x
  | _, _, .cons op h, x => (op.run lib r x).bind (h.run lib r)

/-! ## On factors -/

/-- ScaledSigmaPointsBase.hpp:161-188: a negative first weight is treated by a rank update with that weight. -/
noncomputable def scaledFactor (E : EigenLib 𝕜) {m : ℕ} (W : Weights (m + 1)) (D : Matrix (Fin p) (Fin (m + 1)) 𝕜) :
    Except Err (Matrix (Fin p) (Fin p) 𝕜) :=
  if W.wc 0 < 0 then do
    let head : Matrix (Fin p) (Fin 1) 𝕜 := Matrix.of fun a _ => D a 0
    let tail : Matrix (Fin p) (Fin m) 𝕜 := Matrix.of fun a c => D a c.succ
    let G ← E.rankUpdateTriangular .lower (E.lq (tail * diagonal (scal fun c => Real.sqrt (W.wc c.succ)))) head (W.wc 0)
    .ok (part .lower G)
  else
    .ok (E.lq (D * diagonal (scal fun c => Real.sqrt (W.wc c))))

/-- CubaturePoints.hpp:174-188 and ScaledSigmaPointsBase.hpp:150-195. -/
noncomputable def factorOf (E : EigenLib 𝕜) : (r : Rule) → (dim : ℕ) → Matrix (Fin p) (Fin (r.count dim)) 𝕜 → Except Err (Matrix (Fin p) (Fin p) 𝕜)
  | .cubature, dim, D => .ok (E.lq (((Real.sqrt (1 / (dim * 2 : ℕ)) : ℝ) : 𝕜) • D))
  | .unscented alpha beta kappa, dim, D => scaledFactor E (unscentedWeights dim alpha beta kappa) D

/-- SamplePointsTransform.hpp:126-170 on distributions in Cholesky form; a covariance times a positive scalar is the factor times its square root
(covariance-arithmetic.hpp:336-338).  A layout that fails to compile is given as undefined. -/
noncomputable def sqrtTransform (E : EigenLib 𝕜) (r : Rule) (k : Fin (b + 1) → ℕ) (d : (i : Fin (b + 1)) → GaussChol 𝕜 (Fin (k i)))
    (g : ((i : Fin (b + 1)) → Fin (k i) → 𝕜) → Fin p → 𝕜) : Except Err (GaussChol 𝕜 (Fin p) × Matrix (Fin (k 0)) (Fin p) 𝕜) :=
  match r.points k fun i => ((Real.sqrt (r.gamma (∑ i, k i)) : ℝ) : 𝕜) • (d i).fac with
  | none => .error .undefinedBehaviour
  | some Z => do
    let W := r.weights (∑ i, k i)
    let Y := outputs g (fun i => (d i).mean) Z
    let m := weightedMean W Y
    let D := deviations Y m
    let F ← factorOf E r (∑ i, k i) D
    .ok (⟨m, F⟩, crossOf W (statePoints Z) D)

/-- KalmanFilter.hpp:41-76 `update_step`, as `EigenHooks.EigenLib.update` for a linear measurement. -/
noncomputable def sqrtUpdate (E : EigenLib 𝕜) {n : ℕ} (x : GaussChol 𝕜 (Fin n)) (y : GaussChol 𝕜 (Fin p)) (Pxy : Matrix (Fin n) (Fin p) 𝕜) (z : Fin p → 𝕜) :
    Except Err (GaussChol 𝕜 (Fin n)) := do
  let Kadj ← E.solveSelfAdjoint false false .lower (y.fac * y.facᴴ)ᴴ Pxyᴴ
  let G ← E.rankUpdateTriangular .lower x.fac (E.lq (Kadjᴴ * y.fac)) (-1)
  .ok ⟨x.mean + Kadjᴴ *ᵥ (z - y.mean), part .lower G⟩

/-- KalmanFilter.hpp:86-102 `predict` and `update`, in Cholesky form. -/
noncomputable def SOp.runSqrt (E : EigenLib 𝕜) (r : Rule) : {n k : ℕ} → SOp 𝕜 n k → GaussChol 𝕜 (Fin n) → Except Err (GaussChol 𝕜 (Fin k))
  | _, _, .predict k ns g, x => do
    let y ← sqrtTransform E r k (distsChol x ns) g
    .ok y.1
  | _, _, .update k ns g z, x => do
    let y ← sqrtTransform E r k (distsChol x ns) g
    sqrtUpdate E x y.1 y.2 z

/-- A history of calls, ending with the first exception. -/
noncomputable def SHist.runSqrt (E : EigenLib 𝕜) (r : Rule) : {n k : ℕ} → SHist 𝕜 n k → GaussChol 𝕜 (Fin n) → Except Err (GaussChol 𝕜 (Fin k))
  | _, _, .nil, x => .ok x
  | _, _, .cons op h, x => do
    let y ← op.runSqrt E r x
    h.runSqrt E r y

end OpenKalman.SigmaFilter
