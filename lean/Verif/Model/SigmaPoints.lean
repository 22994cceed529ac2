import Verif.Model.Kalman
import Mathlib.Data.Matrix.Block
import Mathlib.Data.Real.Sqrt
import Mathlib.Algebra.BigOperators.Fin
import Mathlib.Algebra.Order.Floor.Semiring

/-!
# Model of the sample-points transforms (C56–C58)

Read from transforms/SamplePointsTransform.hpp, transforms/details/ScaledSigmaPointsBase.hpp and transforms/sample-points/*.hpp.  Scalars are exact; the
outputs have Euclidean patterns, so that `to_stat_space` and `from_stat_space` are the identity.  `square_root` is a specified function giving a lower
factor.
-/

namespace OpenKalman.SigmaPoints
open Matrix Kalman
open scoped ComplexOrder

variable {𝕜 : Type} [RCLike 𝕜]

/-- The library with a square root of covariances. -/
structure SLib (𝕜 : Type) [RCLike 𝕜] extends Lib 𝕜 where
  chol : {k : ℕ} → Matrix (Fin k) (Fin k) 𝕜 → Matrix (Fin k) (Fin k) 𝕜
  chol_spec : ∀ {k : ℕ} (A : Matrix (Fin k) (Fin k) 𝕜), A.PosSemidef → chol A * (chol A)ᴴ = A

/-! ## Layout of the points -/

/-- A part of the matrix of points of one distribution: zero columns, the square root `delta`, or its negative. -/
inductive Piece
  | zero (w : ℕ)
  | plus
  | minus
deriving DecidableEq

/-- The number of columns, for a distribution of dimension `k`. -/
def Piece.width (k : ℕ) : Piece → ℕ
  | .zero w => w
  | .plus => k
  | .minus => k

/-- CubaturePoints.hpp:51-107 `sample_points_impl`: how the matrices of points of distributions with dimensions `ks` are composed.  `none` where a
`static_assert` fails. -/
def cubatureLayout (dim : ℕ) : ℕ → List ℕ → Option (List (List Piece))
  | _, [] => none
  | pos, k :: ks =>
    let points_count := dim * 2
    let frame_size := k * 2
    if frame_size = points_count then
      if ks = [] then some [[.plus, .minus]] else none
    else if pos = 0 then
      (cubatureLayout dim frame_size ks).map ([.plus, .minus, .zero (points_count - frame_size)] :: ·)
    else if pos + frame_size < points_count then
      (cubatureLayout dim (pos + frame_size) ks).map ([.zero pos, .plus, .minus, .zero (points_count - (pos + frame_size))] :: ·)
    else if ks = [] then some [[.zero pos, .plus, .minus]] else none

/-- Unscented.hpp:142-203 `sigma_points_impl`. -/
def unscentedLayout (dim : ℕ) : ℕ → List ℕ → Option (List (List Piece))
  | _, [] => none
  | pos, k :: ks =>
    let points_count := dim * 2 + 1
    let frame_size := k * 2
    if 1 + frame_size = points_count then
      if ks = [] then some [[.zero 1, .plus, .minus]] else none
    else if pos = 0 then
      (unscentedLayout dim (1 + frame_size) ks).map ([.zero 1, .plus, .minus, .zero (points_count - (1 + frame_size))] :: ·)
    else if pos + frame_size < points_count then
      (unscentedLayout dim (pos + frame_size) ks).map ([.zero pos, .plus, .minus, .zero (points_count - (pos + frame_size))] :: ·)
    else if ks = [] then some [[.zero pos, .plus, .minus]] else none

/-- Element `(a, c)` of a piece. -/
def Piece.elem {k : ℕ} (delta : Matrix (Fin k) (Fin k) 𝕜) (a : Fin k) (c : ℕ) : Piece → 𝕜
  | .zero _ => 0
  | .plus => if h : c < k then delta a ⟨c, h⟩ else 0
  | .minus => if h : c < k then -delta a ⟨c, h⟩ else 0

/-- Element `(a, c)` of the horizontal concatenation of pieces. -/
def elem {k : ℕ} (delta : Matrix (Fin k) (Fin k) 𝕜) (a : Fin k) : ℕ → List Piece → 𝕜
  | _, [] => 0
  | c, p :: ps => if c < p.width k then p.elem delta a c else elem delta a (c - p.width k) ps

variable {b : ℕ} (k : Fin b → ℕ)

/-- The points of all distributions, one matrix below the other; the columns are the points. -/
def pointsOf (count : ℕ) (L : List (List Piece)) (delta : (i : Fin b) → Matrix (Fin (k i)) (Fin (k i)) 𝕜) :
    Matrix ((i : Fin b) × Fin (k i)) (Fin count) 𝕜 := fun ia c => elem (delta ia.1) ia.2 c (L.getD ia.1 [])

/-- CubaturePoints.hpp:122-126 `sample_points`. -/
noncomputable def cubaturePoints (lib : SLib 𝕜) (P : (i : Fin b) → Matrix (Fin (k i)) (Fin (k i)) 𝕜) :
    Option (Matrix ((i : Fin b) × Fin (k i)) (Fin ((∑ i, k i) * 2)) 𝕜) :=
  let dim := ∑ i, k i
  (cubatureLayout dim 0 (List.ofFn k)).map fun L => pointsOf k (dim * 2) L fun i => lib.chol ((dim : 𝕜) • P i)

/-- Unscented.hpp:215-219 `sample_points`, with the parameters `alpha` and `kappa`. -/
noncomputable def unscentedPoints (lib : SLib 𝕜) (alpha kappa : ℝ) (P : (i : Fin b) → Matrix (Fin (k i)) (Fin (k i)) 𝕜) :
    Option (Matrix ((i : Fin b) × Fin (k i)) (Fin ((∑ i, k i) * 2 + 1)) 𝕜) :=
  let dim := ∑ i, k i
  let gamma_L : ℝ := alpha * alpha * (kappa + dim)
  (unscentedLayout dim 0 (List.ofFn k)).map fun L => pointsOf k (dim * 2 + 1) L fun i => lib.chol ((gamma_L : 𝕜) • P i)

/-! ## Weights -/

/-- Weights for means and for covariances. -/
structure Weights (count : ℕ) where
  wm : Fin count → ℝ
  wc : Fin count → ℝ

/-- CubaturePoints.hpp:146-149 (the average), 174-177. -/
noncomputable def cubatureWeights (count : ℕ) : Weights count := ⟨fun _ => 1 / count, fun _ => 1 / count⟩

/-- ScaledSigmaPointsBase.hpp:53-112. -/
noncomputable def scaledWeights (m : ℕ) (alpha beta W0 W : ℝ) : Weights (m + 1) where
  wm := Fin.cons ((W0 - 1) / (alpha * alpha) + 1) fun _ => W / (alpha * alpha)
  wc := Fin.cons ((W0 - 1) / (alpha * alpha) + 1 + 1 - alpha * alpha + beta) fun _ => W / (alpha * alpha)

/-- Unscented.hpp:108-123: the weights before scaling. -/
noncomputable def unscentedWeights (dim : ℕ) (alpha beta kappa : ℝ) : Weights (dim * 2 + 1) :=
  scaledWeights (dim * 2) alpha beta (kappa / (dim + kappa)) (0.5 / (dim + kappa))

/-! ## The transform -/

variable {count p : ℕ}

/-- Weights as scalars. -/
def scal (w : Fin count → ℝ) : Fin count → 𝕜 := fun c => (w c : 𝕜)

/-- ScaledSigmaPointsBase.hpp:124-130 and CubaturePoints.hpp:146-149 `weighted_means`. -/
def weightedMean (W : Weights count) (Y : Matrix (Fin p) (Fin count) 𝕜) : Fin p → 𝕜 := Y *ᵥ scal W.wm

/-- SamplePointsTransform.hpp:141-143: deviations from the mean. -/
def deviations (Y : Matrix (Fin p) (Fin count) 𝕜) (m : Fin p → 𝕜) : Matrix (Fin p) (Fin count) 𝕜 := fun a c => Y a c - m a

/-- ScaledSigmaPointsBase.hpp:204-205 and CubaturePoints.hpp:196-197: covariance of deviations. -/
def covarianceOf (lib : Lib 𝕜) (W : Weights count) (Y : Matrix (Fin p) (Fin count) 𝕜) : Matrix (Fin p) (Fin p) 𝕜 :=
  lib.herm (Y * (diagonal (scal W.wc) * Yᴴ))

/-- ScaledSigmaPointsBase.hpp:209 and CubaturePoints.hpp:201: cross-covariance. -/
def crossOf {n : ℕ} (W : Weights count) (X : Matrix (Fin n) (Fin count) 𝕜) (Y : Matrix (Fin p) (Fin count) 𝕜) : Matrix (Fin n) (Fin p) 𝕜 :=
  X * (diagonal (scal W.wc) * Yᴴ)

/-- CubaturePoints.hpp:179-181: the factor of the covariance, in Cholesky form (all weights equal). -/
noncomputable def cubatureCovarianceChol (lib : Lib 𝕜) (Y : Matrix (Fin p) (Fin count) 𝕜) : Matrix (Fin p) (Fin p) 𝕜 :=
  lib.lq (((Real.sqrt (1 / count) : ℝ) : 𝕜) • Y)

/-- ScaledSigmaPointsBase.hpp:161-188: the factor of the covariance, in Cholesky form; a negative first weight is treated by a rank update. -/
noncomputable def scaledCovarianceChol {m : ℕ} (lib : Lib 𝕜) (W : Weights (m + 1)) (Y : Matrix (Fin p) (Fin (m + 1)) 𝕜) : Matrix (Fin p) (Fin p) 𝕜 :=
  if W.wc 0 < 0 then
    let head : Matrix (Fin p) (Fin 1) 𝕜 := fun a _ => Y a 0
    let tail : Matrix (Fin p) (Fin m) 𝕜 := fun a c => Y a c.succ
    let out := lib.lq (tail * diagonal (scal fun c => Real.sqrt (W.wc c.succ)))
    lib.downdate out (((Real.sqrt (-W.wc 0) : ℝ) : 𝕜) • head)
  else
    lib.lq (Y * diagonal (scal fun c => Real.sqrt (W.wc c)))

/-- One or more consecutive transformations.  Each takes the state and the noise terms; here it is given all of them, although it uses only its own. -/
inductive SChain (𝕜 : Type) {b : ℕ} (k : Fin b → ℕ) : ℕ → ℕ → Type
  | last {n p : ℕ} (g : (Fin n → 𝕜) → ((i : Fin b) → Fin (k i) → 𝕜) → Fin p → 𝕜) : SChain 𝕜 k n p
  | cons {n q p : ℕ} (g : (Fin n → 𝕜) → ((i : Fin b) → Fin (k i) → 𝕜) → Fin q → 𝕜) (rest : SChain 𝕜 k q p) : SChain 𝕜 k n p

/-- SamplePointsTransform.hpp:90-101 `y_means_impl`: the transformation applied to every point, moved to the means. -/
def transformed {n q : ℕ} (g : (Fin n → 𝕜) → ((i : Fin b) → Fin (k i) → 𝕜) → Fin q → 𝕜) (xm : Fin n → 𝕜) (X : Matrix (Fin n) (Fin count) 𝕜)
    (nm : (i : Fin b) → Fin (k i) → 𝕜) (Z : Matrix ((i : Fin b) × Fin (k i)) (Fin count) 𝕜) : Matrix (Fin q) (Fin count) 𝕜 :=
  fun a c => g (fun r => X r c + xm r) (fun i r => Z ⟨i, r⟩ c + nm i r) a

/-- SamplePointsTransform.hpp:126-170 `transform_impl`: mean, covariance, and cross-covariance of the last step. -/
def SChain.run (lib : Lib 𝕜) (W : Weights count) (nm : (i : Fin b) → Fin (k i) → 𝕜) (Z : Matrix ((i : Fin b) × Fin (k i)) (Fin count) 𝕜) :
    {n p : ℕ} → SChain 𝕜 k n p → (Fin n → 𝕜) → Matrix (Fin n) (Fin count) 𝕜 → Gauss 𝕜 (Fin p) × ((q : ℕ) × Matrix (Fin q) (Fin p) 𝕜)
  | n, _, .last g, xm, X =>
    let Y := transformed k g xm X nm Z
    let m := weightedMean W Y
    let D := deviations Y m
    (⟨m, covarianceOf lib W D⟩, ⟨n, crossOf W X D⟩)
  | _, _, .cons g rest, xm, X =>
    let Y := transformed k g xm X nm Z
    let m := weightedMean W Y
    rest.run lib W nm Z m (deviations Y m)

/-- SamplePointsTransform.hpp:182-214 `transform`, given the points: the first distribution is the input. -/
def transform {b : ℕ} (k : Fin (b + 1) → ℕ) (lib : Lib 𝕜) (W : Weights count) (mean : (i : Fin (b + 1)) → Fin (k i) → 𝕜)
    (Z : Matrix ((i : Fin (b + 1)) × Fin (k i)) (Fin count) 𝕜) {p : ℕ} (c : SChain 𝕜 k (k 0) p) : Gauss 𝕜 (Fin p) × ((q : ℕ) × Matrix (Fin q) (Fin p) 𝕜) :=
  c.run k lib W mean Z (mean 0) fun a c => Z ⟨0, a⟩ c

/-! ## Spherical simplex points -/

/-- SphericalSimplex.hpp:104-117 `sigma_point_coeff`, for row `j` and point `i`, with the unscaled weight `W`.  The denominator is converted to
`std::size_t`, which has `M` values: the conversion is undefined unless the truncated value fits, the quotient of integers is undefined for zero, and the
negation is modulo `M`. -/
noncomputable def simplexCoeff (M : ℕ) (W : ℝ) (j i : ℕ) : Option ℝ :=
  let x := Real.sqrt (j + 1) * (j + 2) * W
  if x ≤ -1 ∨ (M : ℝ) ≤ x then none
  else
    let d := ⌊x⌋₊
    if d = 0 then none
    else
      let denom := 1 / d
      if i = 0 then some 0
      else if i < j + 2 then some ((M - denom) % M : ℕ)
      else if i = j + 2 then some ((j + 1) * denom % M : ℕ)
      else some 0

/-- SphericalSimplex.hpp:27-38, 93-96: the unscaled weight with the default parameters. -/
noncomputable def simplexDefaultW (dim : ℕ) : ℝ := (1 - 1 / (dim + 2)) / ((dim + 2 : ℕ) - 1)

/-- SphericalSimplex.hpp:120-132: the unscaled points, if all are defined. -/
noncomputable def simplexPoints (M dim : ℕ) (W : ℝ) : Option (Matrix (Fin dim) (Fin (dim + 2)) ℝ) :=
  open Classical in
  if ∀ (j : Fin dim) (i : Fin (dim + 2)), (simplexCoeff M W j i).isSome then some fun j i => (simplexCoeff M W j i).getD 0 else none

end OpenKalman.SigmaPoints
