import Verif.Model.Solve
import Mathlib.Analysis.RCLike.Basic
import Mathlib.Analysis.SpecialFunctions.Pow.NNReal

/-!
# Model of `cholesky_factor`, `cholesky_square`, the LQ and QR decompositions and the rank updates (C43)

Simplifications: the library's decompositions are parameters; what they must do is a hypothesis of the theorems.  Constraints on return types (`hermitian_matrix
decltype(auto)` and so on, present only when concepts are available) are not modelled.  Pattern types are sizes; `attach_patterns` is the identity.  In-place
updates (`a = …; return a`) are modelled by their returned value.  `concatenate` of two nonempty blocks is the block matrix (C40); of a block and an empty
last block it throws `std::length_error` (C40).
-/

namespace OpenKalman.LinAlg
open Finset Classical

variable {𝕜 : Type} [RCLike 𝕜]

/-- `values::sqrt` of a non-negative real number; a negative one has no (real) root.  The root of a number that is not real is not modelled. -/
noncomputable def rt (x : 𝕜) : Except Err 𝕜 :=
  if 0 ≤ RCLike.re x ∧ RCLike.im x = 0 then .ok ((Real.sqrt (RCLike.re x) : ℝ) : 𝕜) else .error .nonFinite

namespace Obj

/-- `n_ary_operation(op, d)` on a column vector (linear-algebra/functions/n_ary_operation.hpp): an empty operand is rejected; a constant gives a constant. -/
noncomputable def nAryUnary (f : 𝕜 → Except Err 𝕜) (d : Obj 𝕜) : Except Err (Obj 𝕜) :=
  if d.rows = 0 then .error .invalidArgument
  else if d.constObj then do
    let c ← f d.constVal
    .ok (mkConst c d.valFixed d.rows d.statRows 1 true d.cplx)
  else if ∀ i < d.rows, ∃ v, f (d.get i 0) = .ok v then .ok (dense ⟨d.rows, 1, fun i _ => valueOr0 (f (d.get i 0))⟩ d.statRows true d.cplx)
  else .error .nonFinite

/-- `to_hermitian<t>`, linear-algebra/functions/to_hermitian.hpp:55-69 and `hermitian_adapter` (adapters/hermitian_adapter.hpp:109-190): the triangle `t` is read. -/
noncomputable def toHermitianT (t : Tri) (o : Obj 𝕜) : Except Err (Obj 𝕜) :=
  if o.hermitian then .ok o
  else if o.rows ≠ o.cols then .error .domainError
  else .ok { o with get := fun i j => if t.mem i j then o.get i j else star (o.get j i), sq := true, herm := true,
                    tri := if o.triOf.times t = .diagonal then .diagonal else .none,
                    cst := if o.constNotComplex then some o.constVal else none }

/-- The matrix `[v … v]ᵀ` followed by `n - 1` columns of zeros (or its transpose), as `cholesky_factor` (cholesky_factor.hpp:62-72), `LQ_decomposition`
(LQ_decomposition.hpp:45-75) and `QR_decomposition` (QR_decomposition.hpp:41-72) build it, then wrapped by `to_triangular`.  `one` says that a size 1 is
handled separately. -/
noncomputable def firstLine (upper one : Bool) (v : 𝕜) (n : ℕ) (st cx : Bool) : Except Err (Obj 𝕜) :=
  if n = 0 then .error .undefinedBehaviour
  else if n = 1 then (if one then .ok (toTriangular (if upper then .upper else .lower) (dense ⟨1, 1, fun _ _ => v⟩ st st cx)) else .error .lengthError)
  else if upper then .ok (toTriangular .upper (dense ⟨n, n, fun i _ => if i = 0 then v else 0⟩ st st cx))
  else .ok (toTriangular .lower (dense ⟨n, n, fun _ j => if j = 0 then v else 0⟩ st st cx))

/-- `cholesky_factor<tri>`, linear-algebra/functions/cholesky_factor.hpp:39-90. -/
noncomputable def cholFactor (lib : Tri → Obj 𝕜 → Except Err (Arr 𝕜)) (tri : Tri) (a : Obj 𝕜) : Except Err (Obj 𝕜) :=
  if tri = .none ∨ (tri = .diagonal ∧ ¬ a.diagonal) then .error .illFormed
  else if a.rows ≠ a.cols then .error (if a.statRows = true ∧ a.statCols = true then .illFormed else .invalidArgument)
  else if a.zero ∨ a.identity then .ok a
  else if a.constDiag then do
    let c ← rt a.constVal
    .ok (mkConst c a.valFixed a.rows a.statRows 1 true a.cplx).toDiagonal
  else if a.constObj then
    if tri = .diagonal then .error .illFormed
    else do
      let c ← rt a.constVal
      firstLine (decide (tri = .upper)) false c a.rows (a.statRows || a.statCols) a.cplx
  else if a.diagonal then do
    let d ← a.diagonalOf
    let r ← nAryUnary rt d
    .ok r.toDiagonal
  else do
    let x ← lib tri a
    .ok (toTriangular tri (dense x a.statRows a.statCols a.cplx))

/-- `cholesky_square`, linear-algebra/functions/cholesky_square.hpp:34-57. -/
noncomputable def cholSquare (path : ContractPath) (a : Obj 𝕜) : Except Err (Obj 𝕜) :=
  if a.triOf = .none then .error .illFormed
  else if a.rows ≠ a.cols then .error (if a.statRows = true ∧ a.statCols = true then .illFormed else .invalidArgument)
  else if a.zero ∨ a.identity then .ok a
  else if a.diagonal then do
    let d ← a.diagonalOf
    let r ← nAryUnary (fun x => .ok (if d.cplx then x * star x else x * x)) d
    .ok r.toDiagonal
  else if a.triOf = .upper then do
    let s ← a.conjugateTranspose
    let p ← contract path s a
    p.toHermitianT .upper
  else do
    let s ← a.conjugateTranspose
    let p ← contract path a s
    p.toHermitianT .lower

/-- `internal::clip_square_shaped`, linear-algebra/functions/internal/clip_square_shaped.hpp:52-60: the leading square block. -/
noncomputable def clipSquare (a : Obj 𝕜) : Obj 𝕜 :=
  if a.square then a
  else if a.constObj then mkConst a.constVal a.valFixed (min a.rows a.cols) (a.statRows && a.statCols) (min a.rows a.cols) (a.statRows && a.statCols) a.cplx
  else dense ⟨min a.rows a.cols, min a.rows a.cols, a.get⟩ (a.statRows && a.statCols) (a.statRows && a.statCols) a.cplx

/-- `LQ_decomposition`, linear-algebra/functions/LQ_decomposition.hpp:35-99; `lib` stands for the library's LQ decomposition, or the transpose of its QR
decomposition of the transpose. -/
noncomputable def LQ (lib : Obj 𝕜 → Except Err (Arr 𝕜)) (a : Obj 𝕜) : Except Err (Obj 𝕜) :=
  if a.triangular .lower then .ok a.clipSquare
  else if a.constObj then do
    let s ← rt (a.cols : 𝕜)
    firstLine false true (a.constVal * s) a.rows a.statRows a.cplx
  else do
    let x ← lib a
    .ok (toTriangular .lower (dense x a.statRows a.statRows a.cplx))

/-- `QR_decomposition`, linear-algebra/functions/QR_decomposition.hpp:33-97. -/
noncomputable def QR (lib : Obj 𝕜 → Except Err (Arr 𝕜)) (a : Obj 𝕜) : Except Err (Obj 𝕜) :=
  if a.triangular .upper then .ok a.clipSquare
  else if a.constObj then do
    let s ← rt (a.rows : 𝕜)
    firstLine true true (a.constVal * s) a.cols a.statCols a.cplx
  else do
    let x ← lib a
    .ok (toTriangular .upper (dense x a.statCols a.statCols a.cplx))

/-- The constraint of both rank updates: no two compile-time sizes among the rows of `U` and the rows and columns of `A` differ. -/
def updateRequires (a u : Obj 𝕜) : Prop :=
  ¬ (u.statRows = true ∧ a.statRows = true ∧ u.rows ≠ a.rows) ∧ ¬ (u.statRows = true ∧ a.statCols = true ∧ u.rows ≠ a.cols)

/-- `rank_update_hermitian`, linear-algebra/functions/rank_update_hermitian.hpp:46-112; `t` is the storage triangle of `a`. -/
noncomputable def rankUpdateHermitian (path : ContractPath) (lib : Obj 𝕜 → Obj 𝕜 → 𝕜 → Except Err (Arr 𝕜)) (t : Tri) (a u : Obj 𝕜) (α : 𝕜) :
    Except Err (Obj 𝕜) :=
  if ¬ updateRequires a u then .error .illFormed
  else if u.zero ∨ a.rowsIs 1 ∨ a.colsIs 1 ∨ u.rowsIs 1 then
    if ((a.statRows = false ∧ a.statCols = false) ∨ u.statRows = false) ∧ a.rows ≠ u.rows then .error .invalidArgument
    else if u.zero then a.toHermitianT t
    else do
      let s ← u.conjugateTranspose
      let p ← contract path u s
      (dense ⟨1, 1, fun _ _ => a.get 0 0 + α * p.get 0 0⟩ a.statRows a.statCols a.cplx).toHermitianT t
  else if a.zero ∧ u.diagonal then
    if a.rows ≠ a.cols then .error .invalidArgument
    else do
      let s ← cholSquare path u
      s.scalarProduct α false a.cplx
  else if a.diagonal ∧ u.diagonal then do
    let s ← cholSquare path u
    let p ← s.scalarProduct α false a.cplx
    sum [a, p]
  else do
    let x ← lib a u α
    (dense x a.statRows a.statCols a.cplx).toHermitianT t

/-- The triangle of the result: `t`, rank_update_triangular.hpp:54. -/
noncomputable def updateTri (a : Obj 𝕜) : Tri := if a.triOf = .upper then .upper else .lower

/-- `rank_update_triangular`, linear-algebra/functions/rank_update_triangular.hpp:52-119.  In line 73 `values::complex<scalar_type_of<A>>` tests the trait class
instead of the type it yields, so that the conjugate is never taken. -/
noncomputable def rankUpdateTriangular (path : ContractPath) (libC : Tri → Obj 𝕜 → Except Err (Arr 𝕜)) (libLQ libQR : Obj 𝕜 → Except Err (Arr 𝕜))
    (lib : Tri → Obj 𝕜 → Obj 𝕜 → 𝕜 → Except Err (Arr 𝕜)) (a u : Obj 𝕜) (α : 𝕜) : Except Err (Obj 𝕜) :=
  if a.triOf = .none ∨ ¬ updateRequires a u then .error .illFormed
  else if u.zero then
    if (a.statRows = false ∨ u.statRows = false) ∧ a.rows ≠ u.rows then .error .invalidArgument
    else .ok (toTriangular a.updateTri a)
  else if a.rowsIs 1 ∨ a.colsIs 1 ∨ u.rowsIs 1 then
    if (a.statRows = false ∨ u.statRows = false) ∧ a.rows ≠ u.rows then .error .invalidArgument
    else do
      let s ← u.conjugateTranspose
      let p ← contract path u s
      let e ← rt (a.get 0 0 * a.get 0 0 + α * p.get 0 0)
      .ok (toTriangular a.updateTri (dense ⟨1, 1, fun _ _ => e⟩ a.statRows a.statCols a.cplx))
  else if a.zero then do
    let r ← rt α
    if u.diagonal then do
      let d ← u.diagonalOf
      let p ← d.scalarProduct r false a.cplx
      .ok p.toDiagonal
    else if a.updateTri = .upper then do
      let s ← u.conjugateTranspose
      let p ← s.scalarProduct r false a.cplx
      QR libQR p
    else do
      let p ← u.scalarProduct r false a.cplx
      LQ libLQ p
  else if a.diagonal ∧ u.diagonal then do
    let sa ← cholSquare path a
    let su ← cholSquare path u
    let p ← su.scalarProduct α false a.cplx
    let s ← sum [sa, p]
    cholFactor libC (if s.diagonal then .diagonal else .lower) s
  else do
    let x ← lib a.updateTri a u α
    .ok (toTriangular a.updateTri (dense x a.statRows a.statCols a.cplx))

end Obj
end OpenKalman.LinAlg
