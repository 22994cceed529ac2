import Verif.Spec.Arr
import Mathlib.Algebra.Star.Basic

/-!
# Model of the structured linear-algebra functions (C34–C39)

An `Obj` is an indexible object of at most two indices: its elements, together with everything the library's `if constexpr` chains can ask about its
type.  Each function follows the branch order of the code.  Functions return an `Obj` whose tags are those the code's result type would have, so
that a wrong tag is visible to the next function.

Simplifications: a library hook (`interface::…::is_specialized`, `library_interface<…>::…` in the last branch) is the exact mathematical operation with a
dense result; patterns are sizes; the names `constant_matrix`, `constant_diagonal_matrix`, `constant_value{…}`, `constant_diagonal_value{…}` of the older
files are read as `constant_object`, `constant_diagonal_object`, `constant_value(…)`.
-/

namespace OpenKalman.LinAlg
open Finset Classical

variable {F : Type}

/-- `triangle_type`, linear-algebra/enumerations.hpp:26-37. -/
inductive Tri | none | lower | upper | diagonal
  deriving DecidableEq

/-- `operator *` on `triangle_type`, linear-algebra/enumerations.hpp:43-55. -/
def Tri.times (a b : Tri) : Tri :=
  if a = .diagonal ∨ b = .diagonal ∨ (a = .upper ∧ b = .lower) ∨ (a = .lower ∧ b = .upper) then .diagonal
  else if a = .lower ∨ b = .lower then .lower
  else if a = .upper ∨ b = .upper then .upper
  else .none

/-- Position `(i, j)` belongs to the triangle. -/
def Tri.mem : Tri → ℕ → ℕ → Prop
  | .none, _, _ => True
  | .lower, i, j => j ≤ i
  | .upper, i, j => i ≤ j
  | .diagonal, i, j => i = j

/-- Failures: a compile-time error, an exception, undefined behaviour, or a result that is not a finite number. -/
inductive Err | illFormed | domainError | invalidArgument | undefinedBehaviour | runtimeError | logicError | lengthError | nonFinite
  deriving DecidableEq

/-- An indexible object together with the compile-time facts `object_traits` supplies about it
(linear-algebra/interfaces/object_traits.hpp). -/
structure Obj (F : Type) extends Arr F where
  /-- the row count is known at compile time -/
  statRows : Bool
  /-- the column count is known at compile time -/
  statCols : Bool
  /-- `object_traits::is_square` -/
  sq : Bool
  /-- the element type is complex -/
  cplx : Bool
  /-- `object_traits::is_hermitian` -/
  herm : Bool
  /-- `object_traits::triangle_type_value` -/
  tri : Tri
  /-- `object_traits::get_constant`, if defined -/
  cst : Option F
  /-- the constant is a compile-time value (`values::fixed`) -/
  cstFixed : Bool

namespace Obj

/-- `dimension_size_of_index_is<T, 0, n>`. -/
def rowsIs (o : Obj F) (n : ℕ) : Prop := o.statRows = true ∧ o.rows = n
/-- `dimension_size_of_index_is<T, 1, n>`. -/
def colsIs (o : Obj F) (n : ℕ) : Prop := o.statCols = true ∧ o.cols = n

/-- `square_shaped<T, 2>`, linear-algebra/concepts/square_shaped.hpp:60-66: the trait, or equal static dimensions. -/
def square (o : Obj F) : Prop := o.sq = true ∨ (o.statRows = true ∧ o.statCols = true ∧ o.rows = o.cols)

/-- The `square` constant of `transpose` (transpose.hpp:57): equal static patterns. -/
def squarePatt (o : Obj F) : Prop := o.statRows = true ∧ o.statCols = true ∧ o.rows = o.cols

/-- `one_dimensional<T>`, linear-algebra/concepts/one_dimensional.hpp:67-74. -/
def oneDim (o : Obj F) : Prop := (o.rowsIs 1 ∧ o.colsIs 1) ∨ (o.square ∧ (o.rowsIs 1 ∨ o.colsIs 1))

/-- `empty_object<T>`, linear-algebra/concepts/empty_object.hpp:48-53. -/
def empty (o : Obj F) : Prop := o.rowsIs 0 ∨ o.colsIs 0

/-- `zero<T>`, linear-algebra/concepts/zero.hpp:55-61. -/
def zero [Zero F] (o : Obj F) : Prop := o.cst = some 0 ∧ o.cstFixed = true

/-- `triangle_type_of<T>`, linear-algebra/traits/triangle_type_of.hpp:62-67. -/
noncomputable def triOf [Zero F] (o : Obj F) : Tri :=
  if o.zero ∨ o.oneDim ∨ o.tri = .diagonal then .diagonal
  else if o.colsIs 1 then .lower
  else if o.rowsIs 1 then .upper
  else o.tri

/-- `constant_object<T>`, linear-algebra/concepts/constant_object.hpp:47-55. -/
def constObj [Zero F] (o : Obj F) : Prop :=
  (o.cst.isSome = true ∧ (o.triOf = .none ∨ (o.triOf = .lower ∧ o.colsIs 1) ∨ (o.triOf = .upper ∧ o.rowsIs 1))) ∨ o.zero ∨ o.oneDim

/-- `diagonal_matrix<T>`, linear-algebra/concepts/diagonal_matrix.hpp:28-34. -/
def diagonal [Zero F] (o : Obj F) : Prop := o.triOf = .diagonal

/-- `triangular_matrix<T, t>`, linear-algebra/concepts/triangular_matrix.hpp:30-39. -/
def triangular [Zero F] (o : Obj F) (t : Tri) : Prop := t = o.triOf ∨ ((t = .upper ∨ t = .lower) ∧ o.triOf = .diagonal)

/-- `constant_diagonal_object<T>`, linear-algebra/concepts/constant_diagonal_object.hpp:34-41. -/
def constDiag [Zero F] (o : Obj F) : Prop := (o.cst.isSome = true ∧ o.diagonal) ∨ o.zero ∨ o.oneDim

/-- `constant_value(t)`, linear-algebra/traits/constant_value.hpp:37-46: the constant, or the singular component. -/
def constVal (o : Obj F) : F := o.cst.getD (o.get 0 0)

/-- The constant is a compile-time value: `values::fixed<decltype(constant_value(t))>`. -/
def valFixed (o : Obj F) : Bool := o.cst.isSome && o.cstFixed

/-- `identity_matrix<T>`, linear-algebra/concepts/identity_matrix.hpp:44-48. -/
def identity [Zero F] [One F] (o : Obj F) : Prop := o.constDiag ∧ o.valFixed = true ∧ o.constVal = 1

/-- `hermitian_matrix<T>`, linear-algebra/concepts/hermitian_matrix.hpp:52-57. -/
def hermitian [Zero F] (o : Obj F) : Prop := o.square ∧ (o.herm = true ∨ ((o.constObj ∨ o.diagonal) ∧ o.cplx = false))

/-- `values::not_complex<constant_value_of<Arg>>` (conjugate.hpp:53): there is a compile-time constant and it is not complex. -/
def constNotComplex [Zero F] [Star F] (o : Obj F) : Prop := (o.constObj ∨ o.constDiag) ∧ o.valFixed = true ∧ star o.constVal = o.constVal

/-! ### Constructors -/

/-- `make_constant`, linear-algebra/functions/make_constant.hpp:31-42. -/
def mkConst (c : F) (fixed : Bool) (r : ℕ) (sr : Bool) (k : ℕ) (sk : Bool) (cplx : Bool) : Obj F :=
  { rows := r, cols := k, get := fun _ _ => c, statRows := sr, statCols := sk, sq := false, cplx := cplx, herm := false, tri := .none,
    cst := some c, cstFixed := fixed }

/-- A dense object as a library returns it. -/
def dense (a : Arr F) (sr sk cplx : Bool) : Obj F :=
  { a with statRows := sr, statCols := sk, sq := false, cplx := cplx, herm := false, tri := .none, cst := none, cstFixed := false }

variable [Zero F]

/-- `diagonal_of`, linear-algebra/functions/diagonal_of.hpp:49-69.  The adapter's `get_constant` (adapters/diagonal_of_adapter.hpp:120-129) is
enabled whenever the nested object's is, but calls `constant_value(nested)`, which requires a constant or constant-diagonal object: for a
constant triangle it does not compile. -/
noncomputable def diagonalOf (o : Obj F) : Except Err (Obj F) :=
  if o.rowsIs 1 ∧ o.colsIs 1 then .ok o
  else if o.constObj ∨ o.constDiag then
    .ok (mkConst o.constVal o.valFixed (min o.rows o.cols) (o.statRows && o.statCols) 1 true o.cplx)
  else if o.cst.isSome then .error .illFormed
  else .ok (dense o.diagVec (o.statRows && o.statCols) true o.cplx)

/-- `to_diagonal(arg, p)`, linear-algebra/functions/to_diagonal.hpp:53-72, for a column vector and a pattern collection of the given shape, and
`to_diagonal_adapter` (adapters/to_diagonal_adapter.hpp:123-175). -/
noncomputable def toDiagonalP (o : Obj F) (r : ℕ) (sr : Bool) (k : ℕ) (sk : Bool) : Obj F :=
  if o.oneDim ∧ (sr = true ∧ r = 1) ∧ (sk = true ∧ k = 1) then { o with rows := r, cols := k, statRows := sr, statCols := sk }
  else if o.zero then mkConst 0 true r sr k sk o.cplx
  else
    { rows := r, cols := k, get := fun i j => if i = j then o.get i 0 else 0, statRows := sr, statCols := sk, sq := false, cplx := o.cplx,
      herm := false, tri := .diagonal, cst := if o.constObj then some o.constVal else none, cstFixed := o.valFixed }

/-- `to_diagonal(arg)`, linear-algebra/functions/to_diagonal.hpp:88-100: the square pattern. -/
noncomputable def toDiagonal (o : Obj F) : Obj F :=
  if o.rowsIs 1 ∧ o.colsIs 1 then o else o.toDiagonalP o.rows o.statRows o.rows o.statRows

/-- `make_constant_diagonal(c, p)`, linear-algebra/functions/make_constant_diagonal.hpp:32-46. -/
noncomputable def mkConstDiag (c : F) (fixed : Bool) (r : ℕ) (sr : Bool) (k : ℕ) (sk : Bool) (cplx : Bool) : Obj F :=
  (mkConst c fixed (min r k) (sr && sk) 1 true cplx).toDiagonalP r sr k sk

/-- `to_triangular<t>`, linear-algebra/functions/to_triangular.hpp:48-62 and `triangular_adapter` (adapters/triangular_adapter.hpp:65-131). -/
noncomputable def toTriangular (t : Tri) (o : Obj F) : Obj F :=
  if o.triangular t then o
  else { o with get := fun i j => if t.mem i j then o.get i j else 0, sq := decide o.square, herm := false, tri := t.times o.triOf }

/-! ### Transpose and conjugate -/

variable [Star F]

/-- The tags of an object describe its elements truthfully. -/
structure WF (o : Obj F) : Prop where
  sq : o.sq = true → o.rows = o.cols
  lower : o.tri = .lower → ∀ i < o.rows, ∀ j < o.cols, i < j → o.get i j = 0
  upper : o.tri = .upper → ∀ i < o.rows, ∀ j < o.cols, j < i → o.get i j = 0
  diag : o.tri = .diagonal → ∀ i < o.rows, ∀ j < o.cols, i ≠ j → o.get i j = 0
  cst : ∀ c, o.cst = some c → ∀ i < o.rows, ∀ j < o.cols, o.tri.mem i j → o.get i j = c
  herm : o.herm = true → o.rows = o.cols ∧ ∀ i < o.rows, ∀ j < o.cols, o.get j i = star (o.get i j)
  real : o.cplx = false → ∀ i < o.rows, ∀ j < o.cols, star (o.get i j) = o.get i j
  realc : o.cplx = false → ∀ c, o.cst = some c → star c = c
  vec0 : o.colsIs 1 → o.cst.isSome = true → ¬ o.oneDim → o.tri ≠ .upper
  vec1 : o.rowsIs 1 → o.cst.isSome = true → ¬ o.oneDim → o.tri ≠ .lower

/-- `conjugate_adapter`, adapters/conjugate_adapter.hpp:88-144.  `get_constant` (138-142) hands on the nested constant unconjugated. -/
noncomputable def conjAdapter (o : Obj F) : Obj F :=
  { o with get := fun i j => star (o.get i j), sq := decide o.square, herm := decide o.hermitian, tri := o.triOf }

/-- `conjugate`, linear-algebra/functions/conjugate.hpp:51-77, except the branch for a diagonal matrix that is not constant (69-72). -/
noncomputable def conjugateFlat (o : Obj F) : Obj F :=
  if o.cplx = false ∨ o.constNotComplex then o
  else if o.constObj then mkConst (star o.constVal) o.valFixed o.rows o.statRows o.cols o.statCols o.cplx
  else if o.constDiag then mkConstDiag (star o.constVal) o.valFixed o.rows o.statRows o.cols o.statCols o.cplx
  else o.conjAdapter

/-- `conjugate`, linear-algebra/functions/conjugate.hpp:51-77.  In the diagonal branch the recursive call is on a column vector, which is never a
non-constant diagonal matrix, so the recursion is one level deep. -/
noncomputable def conjugate (o : Obj F) : Except Err (Obj F) :=
  if o.cplx = false ∨ o.constNotComplex ∨ o.constObj ∨ o.constDiag then .ok o.conjugateFlat
  else if o.diagonal then do
    let d ← o.diagonalOf
    .ok (d.conjugateFlat.toDiagonalP o.rows o.statRows o.cols o.statCols)
  else .ok o.conjAdapter

/-- `transpose_adapter`, adapters/transpose_adapter.hpp:88-167. -/
noncomputable def transposeAdapter (o : Obj F) : Obj F :=
  { rows := o.cols, cols := o.rows, get := fun i j => o.get j i, statRows := o.statCols, statCols := o.statRows, sq := decide o.square,
    cplx := o.cplx, herm := decide o.hermitian, tri := match o.triOf with | .lower => .upper | .upper => .lower | t => t,
    cst := o.cst, cstFixed := o.cstFixed }

/-- `transpose<0, 1>`, linear-algebra/functions/transpose.hpp:54-90. -/
noncomputable def transpose (o : Obj F) : Except Err (Obj F) :=
  if o.squarePatt ∧ (o.constObj ∨ o.diagonal ∨ (o.hermitian ∧ o.cplx = false)) then .ok o
  else if o.constObj then .ok (mkConst o.constVal o.valFixed o.cols o.statCols o.rows o.statRows o.cplx)
  else if o.constDiag then .ok (mkConstDiag o.constVal o.valFixed o.cols o.statCols o.rows o.statRows o.cplx)
  else if o.hermitian ∧ o.squarePatt then o.conjugate
  else if o.diagonal then do
    let d ← o.diagonalOf
    .ok (d.toDiagonalP o.cols o.statCols o.rows o.statRows)
  else .ok o.transposeAdapter

/-- `conjugate_transpose<0, 1>`, linear-algebra/functions/conjugate_transpose.hpp:46-78. -/
noncomputable def conjugateTranspose (o : Obj F) : Except Err (Obj F) :=
  if o.hermitian ∧ o.squarePatt then .ok o
  else if o.cplx = false ∨ o.constNotComplex then o.transpose
  else if o.constObj then .ok (mkConst (star o.constVal) o.valFixed o.cols o.statCols o.rows o.statRows o.cplx)
  else if o.constDiag then .ok (mkConstDiag (star o.constVal) o.valFixed o.cols o.statCols o.rows o.statRows o.cplx)
  else if o.diagonal then do
    let d ← o.diagonalOf
    .ok (d.conjugateFlat.toDiagonalP o.cols o.statCols o.rows o.statRows)
  else do
    let t ← o.transpose
    t.conjugate

end Obj
end OpenKalman.LinAlg
