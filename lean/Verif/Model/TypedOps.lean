import Verif.Spec.TypedOps
import Verif.Model.TypedConv

/-!
# Model of functions on typed matrices (`linear-algebra/adapters/details/typed-matrix-overloads.hpp`)

A typed matrix is a list of columns of real numbers with a row pattern; column patterns are of plain axes.  `MatrixTraits<M>::make`, which is not defined in the
repository, is read as the constructor that the members `make` of the three classes call.  Concatenating and splitting untyped matrices, for which the functions
called here no longer exist under these names, is read as what these do to columns.
-/

namespace OpenKalman.TypedOps
open OpenKalman.Angular OpenKalman.Patterns

/-- A typed matrix without its row pattern. -/
structure TM where
  kind : Angular.Kind
  cols : List (List ℝ)

/-- The number of rows of the nested matrix, by the static assertions Matrix.hpp:42, Mean.hpp:41, EuclideanMean.hpp:36. -/
def rowsOf (k : Angular.Kind) (es : List Elem) : ℕ :=
  match k with
  | .euclidean => (es.map (·.d.statDimension)).sum
  | _ => (es.map (·.d.dimension)).sum

/-- Matrix.hpp:269-272, Mean.hpp:361-364, EuclideanMean.hpp:260-263 `make`. -/
noncomputable def make (k : Angular.Kind) (es : List Elem) (cols : List (List ℝ)) : Option TM :=
  if ∀ c ∈ cols, c.length = rowsOf k es then
    match k with
    | .mean => do return ⟨.mean, ← cols.mapM (wrapAngles es)⟩
    | k => some ⟨k, cols⟩
  else none

/-! ## Concatenating -/

/-- `concatenate_vertical` of untyped matrices; the numbers of columns must be the same. -/
def catCols : List (List (List ℝ)) → Option (List (List ℝ))
  | [] => none
  | [a] => some a
  | a :: b :: as => do
    let r ← catCols (b :: as)
    if a.length = r.length then some (List.zipWith (· ++ ·) a r) else none

/-- typed-matrix-overloads.hpp:269-283 `concatenate_vertical`. -/
noncomputable def concatVertical : List (List Elem × TM) → Option (List Elem × TM)
  | [] => none
  | [v] => some v
  | v :: vs => do
    let c ← catCols ((v :: vs).map fun v => v.2.cols)
    let rc := ((v :: vs).map Prod.fst).flatten
    return (rc, ← make v.2.kind rc c)

/-- typed-matrix-overloads.hpp:307-330 `concatenate_horizontal`; `es` is the row pattern. -/
noncomputable def concatHorizontal (es : List Elem) : List TM → Option TM
  | [] => none
  | [v] => some v
  | v :: vs => make v.kind es (((v :: vs).map TM.cols).flatten)

/-- typed-matrix-overloads.hpp:339-354 `concatenate_diagonal`, for two matrices. -/
noncomputable def concatDiagonal (v w : List Elem × TM) : Option (List Elem × TM) := do
  let m := rowsOf v.2.kind v.1
  let n := rowsOf w.2.kind w.1
  let r ← make v.2.kind (v.1 ++ w.1) (v.2.cols.map (· ++ List.replicate n 0) ++ w.2.cols.map (List.replicate m 0 ++ ·))
  return (v.1 ++ w.1, r)

/-! ## Splitting -/

/-- typed-matrix-overloads.hpp:402-408 `split_vertical` with 359-367: the rows are cut at the dimensions of the patterns `cs`, or their dimensions in the statistical space. -/
noncomputable def splitVertical (k : Angular.Kind) : List (List Elem) → List (List ℝ) → Option (List TM)
  | [], _ => some []
  | c :: cs, cols => do
    let p ← make k c (cols.map (·.take (rowsOf k c)))
    let r ← splitVertical k cs (cols.map (·.drop (rowsOf k c)))
    return p :: r

/-- typed-matrix-overloads.hpp:419-440 `split_horizontal` with 370-378. -/
noncomputable def splitHorizontal (k : Angular.Kind) (es : List Elem) : List ℕ → List (List ℝ) → Option (List TM)
  | [], _ => some []
  | n :: ns, cols => do
    let p ← make k es (cols.take n)
    let r ← splitHorizontal k es ns (cols.drop n)
    return p :: r

/-! ## Functions of columns and coefficients -/

/-- Wrapping at the end of the in-place functions, if the type is `wrapped_mean` (object-types.hpp:49-54). -/
noncomputable def rewrap (k : Angular.Kind) (es : List Elem) (cols : List (List ℝ)) : Option (List (List ℝ)) :=
  if k = .mean ∧ es.all (·.staticEuclidean) = false then cols.mapM (wrapAngles es) else some cols

/-- typed-matrix-overloads.hpp:472-487, 504-518 `apply_columnwise` in place; `f i` is what the function makes of the numbers of column `i`. -/
noncomputable def columnsInPlace (es : List Elem) (f : ℕ → List ℝ → List ℝ) (v : TM) : Option TM := do
  let cols ← (v.cols.zipIdx).mapM fun c => do
    let m ← make v.kind es [c.1]
    return f c.2 (m.cols.getD 0 [])
  return ⟨v.kind, ← rewrap v.kind es cols⟩

/-- typed-matrix-overloads.hpp:532-547, 561-576 `apply_columnwise`; the function yields a typed column with pattern `rs` of kind `k`, and `g` are its numbers. -/
noncomputable def columns (es : List Elem) (k : Angular.Kind) (rs : List Elem) (g : ℕ → List ℝ → List ℝ) (v : TM) : Option TM := do
  let cols ← (v.cols.zipIdx).mapM fun c => do
    let m ← make v.kind es [c.1]
    let r ← make k rs [g c.2 (m.cols.getD 0 [])]
    return r.cols.getD 0 []
  make k rs cols

/-- typed-matrix-overloads.hpp:634-642, 653-661 `apply_coefficientwise` in place; `f i j` is applied to the coefficient in row `i` and column `j`. -/
noncomputable def coefficientsInPlace (es : List Elem) (f : ℕ → ℕ → ℝ → ℝ) (v : TM) : Option TM := do
  return ⟨v.kind, ← rewrap v.kind es (v.cols.mapIdx fun j c => c.mapIdx fun i a => f i j a)⟩

/-- typed-matrix-overloads.hpp:673-677, 689-693 `apply_coefficientwise`. -/
noncomputable def coefficients (es : List Elem) (f : ℕ → ℕ → ℝ → ℝ) (v : TM) : Option TM := make v.kind es (v.cols.mapIdx fun j c => c.mapIdx fun i a => f i j a)

/-! ## Solving -/

/-- typed-matrix-overloads.hpp:227-234 `solve` with a nonsingular matrix `A` and one column `b`: the result is made of the type of `b`. -/
noncomputable def solveColumn {n : ℕ} (A : Matrix (Fin n) (Fin n) ℝ) (es : List Elem) (b : Typed) : Option Typed := do
  let r ← make b.kind es [List.ofFn (A⁻¹.mulVec fun i => b.col.getD i 0)]
  return ⟨b.kind, r.cols.getD 0 []⟩

end OpenKalman.TypedOps
