import Verif.Model.Pattern
import Verif.Model.SigmaPoints

/-!
# Means with angles: `linear-algebra/adapters/Mean.hpp`, typed arithmetic, and transforms with angular outputs

One column of a real typed matrix is a list; the operations treat columns one by one.  The row pattern is a list of descriptors.  `wrap_angles<C>(x)` and
`from_stat_space<C>(x)` in `Mean.hpp` are read as the functions of functions/wrap_angles.hpp and patterns/functions/from_stat_space.hpp for the pattern
`C`.  `typename RC1::difference_type` (typed-matrix-arithmetic.hpp:56), which no descriptor defines, is read as a pattern of the same dimension.
Left out: `set_wrapped_component` (Mean.hpp:605; not defined anywhere) and the operators with distributions (random).
-/

namespace OpenKalman.Angular
open OpenKalman.Patterns

/-! ## Conversions -/

/-- patterns/functions/to_stat_space.hpp for a fixed pattern. -/
noncomputable def encode (es : List Elem) (x : List ℝ) : Option (List ℝ) := toStatSpace false es x

/-- patterns/functions/from_stat_space.hpp for a fixed pattern. -/
noncomputable def decode (es : List Elem) (x : List ℝ) : Option (List ℝ) := fromStatSpace false false es x

/-- linear-algebra/functions/wrap_angles.hpp:28-42: Euclidean patterns are left alone; no library defines `wrap_angles`
(eigen-library-interface.hpp:519, eigen-tensor-library-interface.hpp:597), so that otherwise the value is encoded and decoded. -/
noncomputable def wrapAngles (es : List Elem) (x : List ℝ) : Option (List ℝ) :=
  if es.all (·.staticEuclidean) then some x else do
    let s ← encode es x
    decode es s

/-! ## Typed matrices -/

/-- `Matrix`, `Mean` and `EuclideanMean`. -/
inductive Kind | matrix | mean | euclidean
  deriving DecidableEq

/-- One column of a typed matrix. -/
structure Typed where
  kind : Kind
  col : List ℝ

def vadd (x y : List ℝ) : List ℝ := List.zipWith (· + ·) x y
def vsub (x y : List ℝ) : List ℝ := List.zipWith (· - ·) x y
def vscale (s : ℝ) (x : List ℝ) : List ℝ := x.map (s * ·)

/-- Mean.hpp:105-117 `explicit Mean(Arg&&)` from an untyped matrix, and 120-133 from a list of coefficients. -/
noncomputable def ofNested (es : List Elem) (x : List ℝ) : Option Typed := do return ⟨.mean, ← wrapAngles es x⟩

/-- Mean.hpp:57-103 `Mean(Arg&&)` and 136-201 `operator=` from a typed matrix. -/
noncomputable def ofTyped (es : List Elem) (v : Typed) : Option Typed :=
  match v.kind with
  | .mean => some ⟨.mean, v.col⟩
  | .euclidean => do return ⟨.mean, ← decode es v.col⟩
  | .matrix => do return ⟨.mean, ← wrapAngles es v.col⟩

/-- Mean.hpp:419-426 `make_mean`: wraps, and then calls the constructor, which wraps again. -/
noncomputable def makeMean (es : List Elem) (x : List ℝ) : Option Typed := do
  let b ← wrapAngles es x
  ofNested es b

/-- typed-matrix-arithmetic.hpp:23-38 `operator+`; operands of which just one is Euclidean-transformed are rejected. -/
noncomputable def add (es : List Elem) (v w : Typed) : Option Typed :=
  match v.kind, w.kind with
  | .euclidean, .euclidean => some ⟨.euclidean, vadd v.col w.col⟩
  | .euclidean, _ => none
  | _, .euclidean => none
  | .mean, .mean => makeMean es (vadd v.col w.col)
  | _, _ => some ⟨.matrix, vadd v.col w.col⟩

/-- typed-matrix-arithmetic.hpp:47-59 `operator-`: the difference of two means is a matrix and is not wrapped. -/
def sub (v w : Typed) : Option Typed :=
  match v.kind, w.kind with
  | .euclidean, .euclidean => some ⟨.euclidean, vsub v.col w.col⟩
  | .euclidean, _ => none
  | _, .euclidean => none
  | _, _ => some ⟨.matrix, vsub v.col w.col⟩

/-- typed-matrix-arithmetic.hpp:69-102 `operator*` with a scalar. -/
noncomputable def scale (es : List Elem) (s : ℝ) (v : Typed) : Option Typed :=
  match v.kind with
  | .mean => makeMean es (vscale s v.col)
  | k => some ⟨k, vscale s v.col⟩

/-- typed-matrix-arithmetic.hpp:112-124 `operator/` with a scalar; division by zero gives no number. -/
noncomputable def divide (es : List Elem) (s : ℝ) (v : Typed) : Option Typed :=
  if s = 0 then none else
  match v.kind with
  | .mean => makeMean es (vscale (1 / s) v.col)
  | k => some ⟨k, vscale (1 / s) v.col⟩

/-- typed-matrix-arithmetic.hpp:154-163 unary minus: the negative of a mean is a matrix. -/
def neg (v : Typed) : Typed :=
  match v.kind with
  | .euclidean => ⟨.euclidean, vscale (-1) v.col⟩
  | _ => ⟨.matrix, vscale (-1) v.col⟩

/-- The changes of a `Mean` object. -/
inductive Step
  | assign (x : List ℝ)          -- Mean.hpp:204-218
  | assignTyped (v : Typed)      -- Mean.hpp:136-201
  | plus (x : List ℝ)            -- Mean.hpp:222-252, `x` is the column of a `Mean` or `Matrix`
  | minus (x : List ℝ)           -- Mean.hpp:275-305
  | times (s : ℝ)                -- Mean.hpp:332-340
  | over (s : ℝ)                 -- Mean.hpp:348-356

/-- The effect of one change on the stored column. -/
noncomputable def Step.run (es : List Elem) (m : List ℝ) : Step → Option (List ℝ)
  | .assign x => wrapAngles es x
  | .assignTyped v => (ofTyped es v).map Typed.col
  | .plus x => wrapAngles es (vadd m x)
  | .minus x => wrapAngles es (vsub m x)
  | .times s => wrapAngles es (vscale s m)
  | .over s => if s = 0 then none else wrapAngles es (vscale (1 / s) m)

/-- A sequence of changes. -/
noncomputable def runSteps (es : List Elem) (m : List ℝ) (ops : List Step) : Option (List ℝ) := ops.foldlM (Step.run es) m

/-! ## Sample-point transforms -/

open OpenKalman.Kalman OpenKalman.SigmaPoints Matrix

variable {count n : ℕ}

/-- The product of a matrix, given by its columns of length `p`, with a column of weights. -/
noncomputable def weigh (p : ℕ) (w : Fin count → ℝ) (y : Fin count → List ℝ) : List ℝ := (List.range p).map fun i => ∑ c, w c * (y c).getD i 0

/-- SamplePointsTransform.hpp:137-139: `y_means` are the wrapped outputs `y`, `y_mean` the decoded weighted mean of their encodings
(`weighted_means`: ScaledSigmaPointsBase.hpp:124-130, CubaturePoints.hpp:146-149). -/
noncomputable def circularMean (es : List Elem) (w : Fin count → ℝ) (y : Fin count → List ℝ) : Option (List ℝ) := do
  let s ← (List.ofFn y).mapM (encode es)
  decode es (weigh ((es.map (·.d.statDimension)).sum) w fun c => s.getD c [])

/-- What one step of the transform yields: the mean, and the deviations, one column for each point. -/
structure Stage (count : ℕ) where
  mean : List ℝ
  dev : Fin count → List ℝ

/-- SamplePointsTransform.hpp:137-143, for the outputs `y` of the transformation at the points.  The deviations `col - y_mean` are differences of means. -/
noncomputable def stage (es : List Elem) (w : Fin count → ℝ) (y : Fin count → List ℝ) : Option (Stage count) := do
  let ym ← (List.ofFn y).mapM (wrapAngles es)
  let m ← circularMean es w fun c => ym.getD c []
  return ⟨m, fun c => vsub (ym.getD c []) m⟩

/-- A list of columns as a matrix with `p` rows. -/
def colMatrix (p : ℕ) (y : Fin count → List ℝ) : Matrix (Fin p) (Fin count) ℝ := fun a c => (y c).getD a 0

/-- The covariance of the result (ScaledSigmaPointsBase.hpp:204-205, CubaturePoints.hpp:196-197). -/
noncomputable def Stage.cov (p : ℕ) (lib : Lib ℝ) (W : Weights count) (s : Stage count) : Matrix (Fin p) (Fin p) ℝ := covarianceOf lib W (colMatrix p s.dev)

/-- The cross-covariance of the result (ScaledSigmaPointsBase.hpp:209, CubaturePoints.hpp:201). -/
noncomputable def Stage.cross (p : ℕ) (W : Weights count) (X : Matrix (Fin n) (Fin count) ℝ) (s : Stage count) : Matrix (Fin n) (Fin p) ℝ := crossOf W X (colMatrix p s.dev)

/-! ## The filter -/

/-- filters/KalmanFilter.hpp:60-75 `update_step`, the mean: `Mean{z} - y` is a difference of means; the sum with the mean of the state, of pattern `xs`,
is made the mean of a distribution, a `Mean` (Mean.hpp:103).  `K` is the gain. -/
noncomputable def updateMean {p : ℕ} (xs zs : List Elem) (K : Matrix (Fin n) (Fin p) ℝ) (x y z : List ℝ) : Option (List ℝ) := do
  let zm ← ofNested zs z
  let r ← sub zm ⟨.mean, y⟩
  let corr := List.ofFn (K *ᵥ fun a : Fin p => r.col.getD a 0)
  wrapAngles xs (vadd x corr)

end OpenKalman.Angular
