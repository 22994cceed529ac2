import Verif.Spec.Makers
import Verif.Model.Comma
import Mathlib.Analysis.Real.Sqrt

/-!
# Model of the functions that make objects from lists of components

`make_dense_object_from`, `fill_components`, and the functions `make_matrix`, `make_mean`, `make_euclidean_mean`, `make_covariance`, `make_square_root_covariance` for Eigen.

Extents are `some k` if fixed and `none` if dynamic.  A template parameter `layout` that is a type in one function and an enumerator in another is read as the
enumerator of the same name (as it stands, the call in make_dense_object_from.obsolete.hpp:52 has no viable candidate).  Conversion of components to the scalar type is not modelled.
-/

namespace OpenKalman.Makers

open Comma

/-- Ways of failing: no function is viable, a static assertion, a program that is ill-formed, an assertion of Eigen. -/
inductive Err
  | rejected
  | staticAssert
  | illFormed
  | assertion
deriving DecidableEq

/-- The order of components. -/
inductive Layout
  | right
  | left
deriving DecidableEq

variable {α : Type}

/-- `((dynamic_dimension<T, I> ? 1 : index_dimension_of_v<T, I>) * ... * 1)` -/
def fixedSize (ds : List (Option ℕ)) : ℕ := (ds.map fun d => d.getD 1).prod

/-- `may_hold_components`, functions/internal/may_hold_components.hpp:22-44, for `N` components. -/
def mayHold (ds : List (Option ℕ)) (N : ℕ) : Bool :=
  if N = 0 then fixedSize ds = 0 else if fixedSize ds = 0 then false else N % fixedSize ds = 0

/-- The constraint on the number of arguments beside a tuple of patterns, make_dense_object_from.obsolete.hpp:37-38. -/
def fromAccepts (ds : List (Option ℕ)) (N : ℕ) : Bool :=
  if ds.any (fun d => d == some 0) then N = 0 else N % fixedSize ds = 0

/-- `zero_dimension_count`, make_dense_object_from.obsolete.hpp:63-72: the sum is returned as `bool`. -/
def zeroCount (ds : List (Option ℕ)) : ℕ := if ds.any (fun d => d == some 0) then 1 else 0

/-- The constraint of the overload without patterns, make_dense_object_from.obsolete.hpp:104-105. -/
def inferAccepts (ds : List (Option ℕ)) (N : ℕ) : Bool := mayHold ds N && (ds.countP (fun d => d.isNone) + zeroCount ds ≤ 1)

/-- The extents inferred from the number of arguments, make_dense_object_from.obsolete.hpp:78-86. -/
def inferred (ds : List (Option ℕ)) (N : ℕ) : List ℕ :=
  ds.map fun d => match d with
    | some k => k
    | none => if fixedSize ds = 0 then 0 else N / fixedSize ds

/-- Whether a library's `make_default` makes an object of a layout and extents. -/
abbrev Default := Layout → Option ℕ → Option ℕ → Bool

/-- `make_default` of Eigen with two indices, eigen-library-interface.hpp:392-395. -/
def eigenDefault : Default
  | .right, d0, d1 => d0 = some 1 || d1 != some 1
  | .left, d0, d1 => d0 != some 1 || d1 = some 1

/-- Exchange of rows and columns. -/
def flip (M : ℕ → ℕ → α) : ℕ → ℕ → α := fun i j => M j i

/-- `fill_components` of Eigen, eigen-library-interface.hpp:422-426: `arg << s, ss...` or `arg.transpose() << s, ss...`. -/
def fillComponents (l : Layout) (r c : ℕ) (M : ℕ → ℕ → α) (x : α) (xs : List α) : Except Err (ℕ → ℕ → α) :=
  match l with
  | .right => (Comma.fill r c M (Block.num x) (xs.map Block.num)).mapError fun _ => .assertion
  | .left => ((Comma.fill c r (flip M) (Block.num x) (xs.map Block.num)).mapError fun _ => .assertion).map flip

/-- `make_dense_object_from(d_tup, args...)` for two patterns, make_dense_object_from.obsolete.hpp:50-58, where `r` and `c` are the extents of the object; `M` is what is in it at first. -/
def denseFrom (mk : Default) (l : Layout) (d0 d1 : Option ℕ) (r c : ℕ) (M : ℕ → ℕ → α) (args : List α) : Except Err (ℕ → ℕ → α) :=
  if fromAccepts [d0, d1] args.length then
    if mk l d0 d1 then
      match args with
      | [] => .ok M
      | x :: xs => fillComponents l r c M x xs
    else .error .staticAssert
  else .error .rejected

/-- `make_dense_object_from<T>(args...)` for `T` with two indices, make_dense_object_from.obsolete.hpp:75-120: the extents, and the object. -/
def denseLike (mk : Default) (l : Layout) (d0 d1 : Option ℕ) (M : ℕ → ℕ → α) (args : List α) : Except Err (List ℕ × (ℕ → ℕ → α)) :=
  if inferAccepts [d0, d1] args.length then
    match inferred [d0, d1] args.length with
    | [r, c] => (denseFrom mk l (some r) (some c) r c M args).map fun N => ([r, c], N)
    | _ => .error .illFormed
  else .error .rejected

/-- `make_matrix<RowCoefficients, ColumnCoefficients>(args...)`, default-overloads.hpp:38-51. -/
def makeMatrix (mk : Default) (r c : ℕ) (M : ℕ → ℕ → α) (args : List α) : Except Err (List ℕ × (ℕ → ℕ → α)) :=
  if 0 < args.length ∧ r * c = args.length then denseLike mk .right (some r) (some c) M args else .error .rejected

/-- `make_matrix(args...)`, default-overloads.hpp:60-69: one column. -/
def makeColumn (mk : Default) (M : ℕ → ℕ → α) (args : List α) : Except Err (List ℕ × (ℕ → ℕ → α)) :=
  if 0 < args.length then makeMatrix mk args.length 1 M args else .error .rejected

/-- `make_mean<StaticDescriptor>(args...)`, default-overloads.hpp:103-118, for `dim` components in a column; the constructor wraps (Mean.hpp:117). -/
def makeMean (mk : Default) (wrap : (ℕ → ℕ → α) → ℕ → ℕ → α) (dim : ℕ) (M : ℕ → ℕ → α) (args : List α) : Except Err (List ℕ × (ℕ → ℕ → α)) :=
  if 0 < args.length ∧ 0 < dim ∧ args.length % dim = 0 then
    (denseLike mk .right (some dim) (some (args.length / dim)) M args).map fun p => (p.1, wrap p.2)
  else .error .rejected

/-- `make_euclidean_mean<StaticDescriptor>(args...)`, default-overloads.hpp:167-182: as for means, with the number of Euclidean components, and nothing is wrapped. -/
def makeEuclideanMean (mk : Default) (statDim : ℕ) (M : ℕ → ℕ → α) (args : List α) : Except Err (List ℕ × (ℕ → ℕ → α)) := makeMean mk id statDim M args

/-- `static_cast<std::size_t>(values::sqrt(sizeof...(Args)))` -/
noncomputable def side (N : ℕ) : ℕ := ⌊Real.sqrt N⌋₊

/-- The constraint on the number of arguments if no descriptor is given, default-overloads.hpp:287-289, 312-313, 412-414. -/
noncomputable def squareAccepts (N : ℕ) : Prop := 0 < N ∧ N = side N * side N

open CovArith Matrix

variable {𝕜 : Type} [RCLike 𝕜]

/-- `make_covariance<StaticDescriptor, tri>(args...)`, default-overloads.hpp:232-249 (`tri` is `some up`), and `make_covariance<StaticDescriptor>(args...)`, 260-275 (`none`), for
`n` components: a self-adjoint view of the components, which the constructor factorises in the first case.  By default the view is of the upper triangle (adapters/internal/forward-class-declarations.hpp:71-72). -/
def makeCovariance (lib : CovArith.Lib 𝕜) (mk : Default) (n : ℕ) (tri : Option Bool) (M : ℕ → ℕ → 𝕜) (args : List 𝕜) : Except Err (Cov 𝕜 n) :=
  if 0 < args.length ∧ args.length = n * n then
    (denseLike mk .right (some n) (some n) M args).map fun p =>
      match tri with
      | some up => ⟨false, .tri up, lib.chol up (selfAdjoint up (toMat n p.2)), false, false⟩
      | none => ⟨false, .herm true, selfAdjoint true (toMat n p.2), false, false⟩
  else .error .rejected

/-- `Covariance<StaticDescriptor>(args...)`, Covariance.hpp:178-189, with the default nested matrix (default-overloads.hpp:549-556). -/
def covarianceOf (mk : Default) (n : ℕ) (M : ℕ → ℕ → 𝕜) (args : List 𝕜) : Except Err (Cov 𝕜 n) :=
  if 0 < args.length then
    (denseLike mk .right (some n) (some n) M args).map fun p => ⟨false, .herm true, selfAdjoint true (toMat n p.2), false, false⟩
  else .error .rejected

open Classical in
/-- `make_covariance<tri>(args...)`, default-overloads.hpp:286-301, and `make_covariance(args...)`, 311-323: the number of components of the result, and the result. -/
noncomputable def makeCovarianceAxes (lib : CovArith.Lib 𝕜) (mk : Default) (tri : Option Bool) (M : ℕ → ℕ → 𝕜) (args : List 𝕜) : Except Err (Σ n, Cov 𝕜 n) :=
  if squareAccepts args.length then (makeCovariance lib mk (side args.length) tri M args).map fun c => ⟨_, c⟩ else .error .rejected

/-- `make_square_root_covariance<StaticDescriptor, tri>(args...)`, default-overloads.hpp:382-400.  Line 398 declares a variable with the name of the template parameter
`tri`; `renamed` says that it is given another one. -/
def makeSquareRoot (renamed : Bool) (mk : Default) (n : ℕ) (up : Bool) (M : ℕ → ℕ → 𝕜) (args : List 𝕜) : Except Err (Cov 𝕜 n) :=
  if renamed then
    if 0 < args.length ∧ args.length = n * n then
      (denseLike mk .right (some n) (some n) M args).map fun p => ⟨true, .tri up, triPart up (toMat n p.2), false, false⟩
    else .error .rejected
  else .error .illFormed

/-- Scalar types. -/
inductive ScalarType
  | float
  | double
  | longDouble
deriving DecidableEq

/-- The scalar type of `make_covariance<StaticDescriptor, tri, Scalar>()`, default-overloads.hpp:334-348, and of `make_covariance<StaticDescriptor, Scalar>()`, 358-369. -/
def covarianceScalar (s : ScalarType) : ScalarType := s

/-- The scalar type of `make_square_root_covariance<StaticDescriptor, tri, Scalar>()`, default-overloads.hpp:438-451. -/
def squareRootScalar (_s : ScalarType) : ScalarType := .double

end OpenKalman.Makers
