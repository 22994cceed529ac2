import Verif.Model.Gaussian
import Verif.Model.Kalman
import Verif.Model.SigmaPoints
import Verif.Spec.StoredForm

/-!
# Model: filter and transform steps on covariances in every stored form

The models of C48–C57 know a covariance either as a matrix or as a lower triangular factor of it.  Here the same functions are
modelled on the objects of C47 and C60, whose covariance may be stored as a self-adjoint matrix (either triangle), a triangular
factor on either side, or a diagonal matrix.  Scalars are real.
-/

namespace OpenKalman.StoredForm
open Matrix OpenKalman.CovArith OpenKalman.Gaussian

variable {n m p : ℕ}

/-- A noise term: its Jacobian and its distribution. -/
structure Noise (p : ℕ) where
  k : ℕ
  J : Matrix (Fin p) (Fin k) ℝ
  d : Dist k

/-- `sum_noise_terms<return_cross>` (transforms/details/LinearTransformBase.hpp:52-91): which branch is taken depends on the form of the first
distribution only; `J * square_root(cov)` multiplies by the factor that the square root stands for.  Covariance and cross-covariance;
with `return_cross` false the covariance is the same expression. -/
noncomputable def sumNoise (lib : CovArith.Lib ℝ) (J0 : Matrix (Fin p) (Fin n) ℝ) (d0 : Dist n) (ts : List (Noise p)) :
    Cov ℝ p × Matrix (Fin n) (Fin p) ℝ :=
  if d0.cov.choleskyForm then
    let sqrtC0 := (squareRoot lib d0.cov).1
    let term0 := J0 * sqrtC0
    (⟨false, .tri false, lib.lq (Kalman.hcatList ⟨n, term0⟩ (ts.map fun t => ⟨t.k, t.J * (squareRoot lib t.d.cov).1⟩)).2, false, false⟩, sqrtC0 * term0ᴴ)
  else
    let cross := mulMat lib d0.cov J0ᴴ
    (⟨false, .herm false, ts.foldl (fun acc t => acc + t.J * mulMat lib t.d.cov t.Jᴴ) (J0 * cross), false, false⟩, cross)

/-- `transform` (LinearTransformBase.hpp:109-143) for a transformation whose mean is the sum of the products of the Jacobians with the means. -/
noncomputable def transform (lib : CovArith.Lib ℝ) (J0 : Matrix (Fin p) (Fin n) ℝ) (d0 : Dist n) (ts : List (Noise p)) : Dist p × Matrix (Fin n) (Fin p) ℝ :=
  let r := sumNoise lib J0 d0 ts
  (⟨J0 *ᵥ d0.mean + (ts.map fun t => t.J *ᵥ t.d.mean).sum, r.1⟩, r.2)

/-- `update_step` (filters/KalmanFilter.hpp:41-77); `solve` is the library's; patterns are Euclidean. -/
noncomputable def updateStep (lib : CovArith.Lib ℝ) (solve : {m k : ℕ} → Mat ℝ m → Matrix (Fin m) (Fin k) ℝ → Matrix (Fin m) (Fin k) ℝ)
    (Nx : Dist n) (Ny : Dist m) (Pxy : Matrix (Fin n) (Fin m) ℝ) (z : Fin m → ℝ) : Option (Dist n) :=
  let K_adj := solve Ny.cov.selfAdjointNestedᴴ Pxyᴴ
  let K := K_adjᴴ
  let mean := Nx.mean + K *ᵥ (z - Ny.mean)
  let s : Cov ℝ n :=
    if Ny.cov.choleskyForm then ⟨false, .tri false, lib.lq (K * (squareRoot lib Ny.cov).1), false, false⟩
    else ⟨false, .herm false, Pxy * K_adj, false, false⟩
  (CovArith.sub lib (.cov Nx.cov) (.cov s)).bind (make id mean)

/-- `KalmanFilter<IdentityTransform>::update` with one noise term (KalmanFilter.hpp:96-102, transforms/IdentityTransform.hpp:78-82): the measurement is the sum
of two distributions. -/
noncomputable def identityUpdate (lib : CovArith.Lib ℝ) (solve : {m k : ℕ} → Mat ℝ m → Matrix (Fin m) (Fin k) ℝ → Matrix (Fin m) (Fin k) ℝ)
    (x v : Dist n) (z : Fin n → ℝ) : Option (Dist n) :=
  (Dist.add lib id x v).bind fun y => updateStep lib solve x y x.cov.selfAdjointNested z

/-- `KalmanFilter::predict` and `KalmanFilter::update` (KalmanFilter.hpp:86-102). -/
inductive Op : ℕ → ℕ → Type
  | predict {n p : ℕ} (F : Matrix (Fin p) (Fin n) ℝ) (ts : List (Noise p)) : Op n p
  | update {n m : ℕ} (H : Matrix (Fin m) (Fin n) ℝ) (ts : List (Noise m)) (z : Fin m → ℝ) : Op n n

noncomputable def Op.run (lib : CovArith.Lib ℝ) (solve : {m k : ℕ} → Mat ℝ m → Matrix (Fin m) (Fin k) ℝ → Matrix (Fin m) (Fin k) ℝ) :
    {n p : ℕ} → Op n p → Dist n → Option (Dist p)
  | _, _, .predict F ts, x => some (transform lib F x ts).1
  | _, _, .update H ts z, x => let r := transform lib H x ts; updateStep lib solve x r.1 r.2 z

/-- A sequence of calls; dimensions may change from call to call. -/
inductive Run : ℕ → ℕ → Type
  | nil {n : ℕ} : Run n n
  | cons {n m p : ℕ} (o : Op n m) (r : Run m p) : Run n p

noncomputable def Run.run (lib : CovArith.Lib ℝ) (solve : {m k : ℕ} → Mat ℝ m → Matrix (Fin m) (Fin k) ℝ → Matrix (Fin m) (Fin k) ℝ) :
    {n p : ℕ} → Run n p → Dist n → Option (Dist p)
  | _, _, .nil, x => some x
  | _, _, .cons o r, x => (o.run lib solve x).bind (r.run lib solve)

/-- `to_dense_object(square_root(s * covariance_of(d)))`: CubaturePoints.hpp:60 (`s` is the total dimension), Unscented.hpp:151 (`s` is `gamma_L`). -/
noncomputable def delta (lib : CovArith.Lib ℝ) (s : ℝ) (d : Dist n) : Mat ℝ n :=
  match smul lib d.cov s with
  | some c => (squareRoot lib c).1
  | none => 0

variable {b : ℕ} (k : Fin b → ℕ)

/-- CubaturePoints.hpp:122-126 `sample_points`. -/
noncomputable def cubaturePoints (lib : CovArith.Lib ℝ) (d : (i : Fin b) → Dist (k i)) : Option (Matrix ((i : Fin b) × Fin (k i)) (Fin ((∑ i, k i) * 2)) ℝ) :=
  let dim := ∑ i, k i
  (SigmaPoints.cubatureLayout dim 0 (List.ofFn k)).map fun L => SigmaPoints.pointsOf k (dim * 2) L fun i => delta lib dim (d i)

/-- Unscented.hpp:215-219 `sample_points`, with the parameters `alpha` and `kappa`. -/
noncomputable def unscentedPoints (lib : CovArith.Lib ℝ) (alpha kappa : ℝ) (d : (i : Fin b) → Dist (k i)) :
    Option (Matrix ((i : Fin b) × Fin (k i)) (Fin ((∑ i, k i) * 2 + 1)) ℝ) :=
  let dim := ∑ i, k i
  (SigmaPoints.unscentedLayout dim 0 (List.ofFn k)).map fun L => SigmaPoints.pointsOf k (dim * 2 + 1) L fun i => delta lib (alpha * alpha * (kappa + dim)) (d i)

end OpenKalman.StoredForm
