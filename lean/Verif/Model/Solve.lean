import Verif.Model.LinAlgOps

/-!
# Model of `solve` (C42)

Simplifications: the library's solver is a parameter; what it must do is a hypothesis of the theorems.  Division by zero and an infinite element are the outcome
`nonFinite`.  For complex elements the code throws `std::logic_error` instead of returning infinity (solve.hpp:155-157); both are failures.
-/

namespace OpenKalman.LinAlg
open Finset Classical

variable {F : Type} [Field F]

namespace Obj

/-- A floating-point division whose divisor may be zero. -/
noncomputable def divE {α : Type} (s : F) (x : Except Err α) : Except Err α := if s = 0 then .error .nonFinite else x

/-- The value of a computation known to succeed. -/
def valueOr0 : Except Err F → F
  | .ok v => v
  | .error _ => 0

/-- `n_ary_operation(all_vector_space_descriptors(b), op, b, d)` with a column `d` repeated across the columns of `b`
(linear-algebra/functions/n_ary_operation.hpp:34-65, 197-240): a column of another height than 1 or that of `b` is rejected. -/
noncomputable def nAryBroadcast (f : F → F → Except Err F) (b d : Obj F) : Except Err (Obj F) :=
  if d.rows ≠ b.rows ∧ d.rows ≠ 1 then .error (if d.statRows = true ∧ b.statRows = true then .illFormed else .logicError)
  else if b.constObj ∧ d.constObj then do
    let c ← f b.constVal d.constVal
    .ok (mkConst c (b.valFixed && d.valFixed) b.rows b.statRows b.cols b.statCols (b.cplx || d.cplx))
  else if ∀ i < b.rows, ∀ j < b.cols, ∃ v, f (b.get i j) (d.get (if i < d.rows then i else 0) 0) = .ok v then
    .ok (dense ⟨b.rows, b.cols, fun i j => valueOr0 (f (b.get i j) (d.get (if i < d.rows then i else 0) 0))⟩ b.statRows b.statCols (b.cplx || d.cplx))
  else .error .nonFinite

/-- `make_fixed_size_adapter<V0, V1>(x)` (linear-algebra/functions/internal/make_fixed_size_adapter.hpp:49-66), where `V0` has size `n`, static if `sn`: an
object that certainly has another height is rejected; one that turns out to have another height is read out of range. -/
def fixRows (n : ℕ) (sn : Bool) (x : Obj F) : Except Err (Obj F) :=
  if sn = true ∧ x.rows ≠ n then .error (if x.statRows = true then .illFormed else .undefinedBehaviour)
  else .ok { x with statRows := x.statRows || sn }

variable [StarRing F]

/-- `wrap_solve_result`, linear-algebra/functions/solve.hpp:33-53. -/
noncomputable def wrapSolve (a b x : Obj F) : Except Err (Obj F) :=
  if commonTri [a, b] ≠ .none then fixRows a.cols a.statCols (x.toTriangular (commonTri [a, b]))
  else if (a.constDiag ∧ b.hermitian) ∨ (b.constDiag ∧ a.hermitian) then do
    let h ← x.toHermitian
    fixRows a.cols a.statCols h
  else fixRows a.cols a.statCols x

/-- The constraints on the template parameters, solve.hpp:73-79. -/
def solveRequires (unique exact : Bool) (a b : Obj F) : Prop :=
  (¬ a.zero ∨ ¬ b.zero ∨ unique = false) ∧
  (¬ a.zero ∨ ¬ (b.constObj ∨ b.constDiag) ∨ b.zero ∨ exact = false) ∧
  (¬ a.constObj ∨ ¬ b.constDiag ∨ a.statRows = false ∨ a.statCols = false ∨ (a.rows ≤ a.cols ∧ b.statRows = true ∧ b.rows ≤ a.cols) ∨
    (a.rowsIs 1 ∧ b.rowsIs 1) ∨ exact = false)

/-- `solve_check_A_and_B_rows_match`, solve.hpp:22-30: called if a row count is not static. -/
def rowsMatch (a b : Obj F) (x : Except Err (Obj F)) : Except Err (Obj F) :=
  if (a.statRows = false ∨ b.statRows = false) ∧ a.rows ≠ b.rows then .error .domainError else x

/-- The element test of line 112: `0` if both operands are zero, otherwise `1`. -/
noncomputable def nonZeroFold : RedOp F := .other fun c1 c2 => if c1 = 0 ∧ c2 = 0 then 0 else 1

/-- A zero object of the shape of the solution. -/
def zeroSol (a b : Obj F) : Obj F := mkConst 0 true a.cols a.statCols b.cols b.statCols b.cplx

/-- The element operation of the diagonal case, solve.hpp:150-163. -/
noncomputable def diagQuot (x y : F) : Except Err F := if y = 0 then .error .nonFinite else .ok (x / y)

/-- `solve`, linear-algebra/functions/solve.hpp:93-180. -/
noncomputable def solve (lib : Obj F → Obj F → Except Err (Arr F)) (unique exact : Bool) (a b : Obj F) : Except Err (Obj F) :=
  if ¬ solveRequires unique exact a b then .error .illFormed
  else if a.statRows = true ∧ b.statRows = true ∧ a.rows ≠ b.rows then .error .illFormed
  else if b.zero then rowsMatch a b <|
    if unique = true ∧ ¬ a.constObj ∧ ¬ a.constDiag then do
      let v ← reduceAll nonZeroFold a
      if v = 0 then .error .runtimeError else .ok (zeroSol a b)
    else .ok (zeroSol a b)
  else if a.zero then rowsMatch a b (.ok (zeroSol a b))
  else if a.colsIs 1 ∧ (a.rowsIs 1 ∨ b.rowsIs 1) then rowsMatch a b <|
    if a.identity then fixRows 1 true b
    else divE (a.get 0 0) do
      let q ← b.scalarQuotient (a.get 0 0) false a.cplx
      fixRows 1 true q
  else if a.constDiag ∧ (a.square ∨ (a.statCols = true ∧ b.statRows = true ∧ a.cols = b.rows)) then rowsMatch a b <|
    if a.identity ∧ a.square then .ok b
    else divE a.constVal (b.scalarQuotient a.constVal a.valFixed a.cplx)
  else if a.constObj ∧ b.constObj then rowsMatch a b <|
    divE ((a.cols : F) * a.constVal) (.ok (mkConst (b.constVal / ((a.cols : F) * a.constVal)) (b.valFixed && a.valFixed && a.statCols) a.cols a.statCols
      b.cols b.statCols (a.cplx || b.cplx)))
  else if a.constObj ∧ (a.rowsIs 1 ∨ b.rowsIs 1 ∨ (exact = false ∧ (unique = false ∨ (a.statRows = true ∧ a.statCols = true ∧ a.cols ≤ a.rows)))) then
    rowsMatch a b <| divE ((a.cols : F) * a.constVal) do
      let q ← b.scalarQuotient ((a.cols : F) * a.constVal) (a.valFixed && a.statCols) a.cplx
      wrapSolve a b q
  else if a.diagonal ∧ a.square then do
    let d ← a.diagonalOf
    let q ← nAryBroadcast diagQuot b d
    wrapSolve a b q
  else do
    let x ← lib a b
    wrapSolve a b (dense x a.statCols b.statCols (a.cplx || b.cplx))

end Obj
end OpenKalman.LinAlg
