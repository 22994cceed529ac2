import Verif.Spec.EigenShapes

/-!
# Traits of Eigen's reshaped, diagonal and vector-block objects

/repo/OpenKalman/linear-algebra/interfaces/eigen/traits/Reshaped.hpp, DiagonalWrapper.hpp, DiagonalMatrix.hpp, VectorBlock.hpp,
VectorWiseOp.hpp and indexible_object_traits_base.hpp.  An extent that is `Eigen::Dynamic` is `none`.  What the traits find out about the nested
object (constant, triangular, Hermitian, one-dimensional) enters as an argument; that those findings are right is a hypothesis of the theorems (for
other expression classes see `EigenTraits`).

`get_constant_diagonal` and the template `triangle_type_value<t>` belong to an interface the core has replaced; as in `EigenTraits`, what they return is
read as a report.
-/

namespace OpenKalman.EigenShapes

/-- `Eigen::Reshaped<XprType, Rows, Cols, Order>`: the extents of `XprType` and of the result at compile time. -/
structure Reshaped where
  xprRows : Option ℕ
  xprCols : Option ℕ
  rows : Option ℕ
  cols : Option ℕ

/-- Reshaped.hpp:45-46 `nested_components`. -/
def Reshaped.components (t : Reshaped) : Option ℕ :=
  match t.xprRows, t.xprCols with
  | some m, some n => some (m * n)
  | _, _ => none

/-- Reshaped.hpp:48-50 `xprtypemax`: `none` is `dynamic_extent`. -/
def Reshaped.largest (t : Reshaped) : Option ℕ :=
  match t.xprRows, t.xprCols with
  | none, none => none
  | m, n => some (max (m.getD 0) (n.getD 0))

/-- Reshaped.hpp:61-70: the static dimension of an index; `dim` and `other` are `Rows` and `Cols`, or the other way round.  (Comparing `other_dim` with a
dynamic extent of `XprType` is false, for `other_dim` is not `dynamic_extent`.) -/
def Reshaped.dimension (t : Reshaped) (dim other : Option ℕ) : Option ℕ :=
  match dim, other with
  | some d, _ => some d
  | none, none => none
  | none, some o =>
    if o = 0 then none
    else if t.xprRows = some o then t.xprCols
    else if t.xprCols = some o then t.xprRows
    else match t.components with
      | some k => if k % o = 0 then some (k / o) else none
      | none => none

/-- Reshaped.hpp:58-84 `get_pattern_collection` for the fixed indices 0 and 1, static part. -/
def Reshaped.pattern (t : Reshaped) (n : ℕ) : Option ℕ :=
  if n = 0 then t.dimension t.rows t.cols else t.dimension t.cols t.rows

/-- Reshaped.hpp:95-99 `get_constant`: the constant of the nested object, if it has one. -/
def Reshaped.constant {𝕜 : Type*} (_ : Reshaped) (nested : Option 𝕜) : Option 𝕜 := nested

/-- Reshaped.hpp:105 and 132: rows or columns are known to be those of `XprType`. -/
def Reshaped.keeps (t : Reshaped) : Bool := (t.rows.isSome && t.rows == t.xprRows) || (t.cols.isSome && t.cols == t.xprCols)

/-- Reshaped.hpp:102-109 `get_constant_diagonal`. -/
def Reshaped.constantDiagonal {𝕜 : Type*} (t : Reshaped) (nested : Option 𝕜) : Option 𝕜 := if t.keeps then nested else none

/-- Reshaped.hpp:130-132 `triangle_type_value<t>`; `nested` is `triangular_matrix<XprType, t>`. -/
def Reshaped.triangle (t : Reshaped) (nested : Bool) : Bool := nested && t.keeps

/-- Reshaped.hpp:112-115 `one_dimensional<b>`; `permitted` and `nested` are `one_dimensional<XprType, permitted>` and `one_dimensional<XprType, b>`. -/
def Reshaped.oneDimensional (t : Reshaped) (permitted nested : Bool) : Bool :=
  (t.rows == some 1 && t.cols == some 1 && permitted) || ((t.rows == some 1 || t.rows.isNone) && (t.cols == some 1 || t.cols.isNone) && nested)

/-- `(d * d) % m == 0` where `d` is `Rows` or `Cols` (Reshaped.hpp:126-127).  Nothing to check if one of them is dynamic; a division by zero is not
a constant expression (`none`). -/
def divides (d m : Option ℕ) : Option Bool :=
  match d, m with
  | some d, some m => if m = 0 then none else some (d * d % m == 0)
  | _, _ => some true

/-- `&&` of conditions of which the second may be ill-formed but is evaluated only if the first holds. -/
def andThen (a : Bool) (b : Option Bool) : Option Bool := if a then b else some false

/-- Reshaped.hpp:118-127 `is_square<2, b>`.  `near n` is `near(n, sqrt(n) * sqrt(n))` in floating-point numbers (line 124), of which only this is used: it
holds for perfect squares, whose root is exact. -/
def Reshaped.isSquare (t : Reshaped) (near : ℕ → Bool) (guaranteed : Bool) : Option Bool :=
  andThen (!guaranteed || (t.rows.isSome && t.cols.isSome) || ((t.rows.isSome || t.cols.isSome) && t.xprRows.isSome && t.xprCols.isSome)) <|
  andThen (t.rows.isNone || t.cols.isNone || t.rows == t.cols) <|
  andThen (match t.components with
    | none => true
    | some k => near k && (match t.rows with | none => true | some r => r * r == k)) <|
  match divides t.rows t.largest with
  | none => none
  | some b => andThen b (divides t.cols t.largest)

/-- Reshaped.hpp:135-138 `is_hermitian`; `nested` is `hermitian_matrix<XprType, permitted>`. -/
def Reshaped.isHermitian (t : Reshaped) (nested : Bool) : Bool :=
  nested && ((t.xprRows.isNone && t.xprCols.isNone) ||
    ((t.rows.isNone || t.rows == t.xprRows || t.rows == t.xprCols) && (t.cols.isNone || t.cols == t.xprCols || t.cols == t.xprRows)))

/-! ## Diagonal objects -/

/-- `dimension_size_of_index_is<T, i, 1, &is_eq, b>` for the static extent of index `i`. -/
def isOne (guaranteed : Bool) (d : Option ℕ) : Bool :=
  match d with
  | some n => n == 1
  | none => !guaranteed

/-- `collection_patterns_have_same_dimension<_, n, b>` for two static extents continued by ones. -/
def sameDimension (guaranteed : Bool) (n : ℕ) (r c : Option ℕ) : Bool :=
  if n ≤ 1 then true
  else if n = 2 then
    match r, c with
    | some a, some b => a == b
    | _, _ => !guaranteed
  else isOne guaranteed r && isOne guaranteed c

/-- square_shaped.hpp:57-66 for an object whose traits do not define `is_square` (a vector). -/
def squareShaped (guaranteed : Bool) (n : ℕ) (r c : Option ℕ) : Bool :=
  0 < n && ((n == 1 && isOne guaranteed r) || (n != 1 && sameDimension guaranteed n r c))

/-- DiagonalWrapper.hpp:46-51 `get_pattern_collection`: the same for all indices. -/
def wrapperDimension (r c : Option ℕ) : Option ℕ :=
  match r, c with
  | some a, some b => some (a * b)
  | _, _ => none

/-- DiagonalWrapper.hpp:66-70 `get_constant_diagonal`: the constant of the vector. -/
def wrapperConstantDiagonal {𝕜 : Type*} (vector : Option 𝕜) : Option 𝕜 := vector

/-- DiagonalWrapper.hpp:73-74 `one_dimensional<b>`: that of the vector. -/
def wrapperOneDimensional (guaranteed : Bool) (r c : Option ℕ) : Bool := isOne guaranteed r && isOne guaranteed c

/-- DiagonalWrapper.hpp:77-78 `is_square<N, b>`. -/
def wrapperIsSquare (guaranteed : Bool) (n : ℕ) (r c : Option ℕ) : Bool := squareShaped guaranteed (n - 1) r c

/-- DiagonalWrapper.hpp:36-43 `count_indices`; `size` is `RowsAtCompileTime` and `ColsAtCompileTime` of the wrapper. -/
def wrapperCount (size : Option ℕ) : ℕ := if size = some 1 then 0 else 2

/-- DiagonalMatrix.hpp:48-53 `get_pattern_collection`. -/
def diagonalMatrixDimension (size : Option ℕ) : Option ℕ := size

/-- DiagonalMatrix.hpp:73-74 `one_dimensional<b>`. -/
def diagonalMatrixOneDimensional (guaranteed : Bool) (size : Option ℕ) : Bool := size == some 1 || (size.isNone && !guaranteed)

/-- DiagonalMatrix.hpp:77-78 `is_square<N, b>`. -/
def diagonalMatrixIsSquare (_guaranteed : Bool) (_n : ℕ) (_size : Option ℕ) : Bool := true

/-- DiagonalMatrix.hpp:38-45 `count_indices`. -/
def diagonalMatrixCount (size : Option ℕ) : ℕ := if size = some 1 then 0 else 2

/-! ## Numbers of indices -/

/-- indexible_object_traits_base.hpp:43-53 `count_indices`; `lin` is whether the evaluator has linear access. -/
def baseCount (r c : Option ℕ) (lin : Bool) : ℕ :=
  if r = some 1 ∧ c = some 1 then 0 else if c = some 1 ∧ lin then 1 else 2

/-- VectorBlock.hpp:35-40 `count_indices`; `rowMajor` is the storage order of the nested object. -/
def vectorBlockCount (rowMajor : Bool) : ℕ := if rowMajor then 1 else 0

/-- VectorWiseOp.hpp:30 `count_indices`. -/
def vectorWiseCount : ℕ := 2

end OpenKalman.EigenShapes
