import Verif.Model.LinAlg

/-!
# Model of trace, determinant, contraction, sum and reductions (C34–C37, C39)
-/

namespace OpenKalman.LinAlg
open Finset Classical

variable {F : Type} [Field F]

/-- The fold a library's reduction performs. -/
def RedOp.eval : RedOp F → List F → F
  | plus, l => l.sum
  | times, l => l.prod
  | other _, [] => 0
  | other f, x :: xs => xs.foldl f x

/-- `constant_reduce_operation`, linear-algebra/functions/reduce.hpp:42-60. -/
def constReduce : RedOp F → F → ℕ → F
  | .plus, c, n => c * n
  | .times, c, n => c ^ n
  | .other _, c, 0 => c
  | .other _, c, 1 => c
  | .other f, c, n + 2 => f (constReduce (.other f) c (n + 1)) c

namespace Obj

/-- The elements collapsed onto `(i, j)`. -/
def redList (a : Arr F) (r0 r1 : Bool) (i j : ℕ) : List F :=
  (collapse r0 a.rows i).flatMap fun i' => (collapse r1 a.cols j).map fun j' => a.get i' j'

/-- The shape and elements of a reduction. -/
def redArr (op : RedOp F) (a : Arr F) (r0 r1 : Bool) : Arr F :=
  ⟨if r0 then 1 else a.rows, if r1 then 1 else a.cols, fun i j => op.eval (redList a r0 r1 i j)⟩

/-- The Eigen library's `reduce`, interfaces/eigen/eigen-library-interface.hpp:917-941: both indices give a complete reduction; otherwise the direction
is vertical if every listed index is 0, which includes the case of no index.  Reducing over nothing is undefined (Eigen's `redux` asserts). -/
noncomputable def libReduce (op : RedOp F) (o : Obj F) (r0 r1 : Bool) : Except Err (Obj F) :=
  if r0 ∧ r1 then
    if o.rows = 0 ∨ o.cols = 0 then .error .undefinedBehaviour
    else .ok (mkConst (op.eval (redList o.toArr true true 0 0)) false 1 true 1 true o.cplx)
  else if r1 then
    if o.cols = 0 then .error .undefinedBehaviour else .ok (dense (redArr op o.toArr false true) o.statRows true o.cplx)
  else
    if o.rows = 0 then .error .undefinedBehaviour else .ok (dense (redArr op o.toArr true false) true o.statCols o.cplx)

/-- `count_reduced_dimensions`, linear-algebra/functions/internal/count_reduced_dimensions.hpp:22-39. -/
def countReduced (o : Obj F) (r0 r1 : Bool) : ℕ := (if r0 then o.rows else 1) * (if r1 then o.cols else 1)

/-- A constant object with the reduced shape (`get_reduced_vector_space_descriptor`). -/
def mkReduced (c : F) (fixed : Bool) (o : Obj F) (r0 r1 : Bool) : Obj F :=
  mkConst c fixed (if r0 then 1 else o.rows) (r0 || o.statRows) (if r1 then 1 else o.cols) (r1 || o.statCols) o.cplx

/-- The operation is `std::plus` or `std::multiplies`. -/
def isPlus : RedOp F → Prop | .plus => True | _ => False
/-- The operation is `std::multiplies`. -/
def isTimes : RedOp F → Prop | .times => True | _ => False

variable [StarRing F]

/-- `reduce_impl`, linear-algebra/functions/reduce.hpp:65-115, with a bound on the recursion depth: running out of it is infinite template
recursion.  `r0`, `r1` say whether indices 0 and 1 are in the list. -/
noncomputable def reduceImpl (op : RedOp F) : ℕ → Obj F → Bool → Bool → Except Err (Obj F)
  | 0, _, _, _ => .error .illFormed
  | fuel + 1, o, r0, r1 =>
    if o.zero ∧ (isPlus op ∨ isTimes op) then .ok (mkReduced 0 true o r0 r1)
    else if o.constObj then .ok (mkReduced (constReduce op o.constVal (o.countReduced r0 r1)) o.valFixed o r0 r1)
    else if o.diagonal ∧ isPlus op ∧ o.statRows = true ∧ o.statCols = true ∧ ((r1 ∧ o.rows ≤ o.cols) ∨ (r0 ∧ r1)) then do
      let d ← o.diagonalOf
      reduceImpl op fuel d r0 false
    else if o.diagonal ∧ isPlus op ∧ o.statRows = true ∧ o.statCols = true ∧ (r0 ∧ o.cols ≤ o.rows) then do
      let d ← o.diagonalOf
      let t ← d.transpose
      reduceImpl op fuel t false r1
    else if o.diagonal ∧ isTimes op ∧ o.statCols = true ∧ r1 then
      if o.cols = 1 then reduceImpl op fuel o false r1
      else do
        let d ← o.diagonalOf
        reduceImpl op fuel (mkConst 0 true d.rows d.statRows d.cols d.statCols d.cplx) false r1
    else if o.diagonal ∧ isTimes op ∧ o.statRows = true ∧ r0 then
      if o.rows = 1 then reduceImpl op fuel o false r1
      else do
        let d ← o.diagonalOf
        reduceImpl op fuel (mkConst 0 true d.cols d.statCols d.rows d.statRows d.cplx) false r1
    else libReduce op o r0 r1

/-- The depth of template recursion that suffices for every terminating call. -/
def redFuel : ℕ := 4

/-- `reduce<indices...>`, linear-algebra/functions/reduce.hpp:143-158: leading indices of static dimension 1 are skipped. -/
noncomputable def reduceIdx (op : RedOp F) (o : Obj F) : List (Fin 2) → Except Err (Obj F)
  | [] => .ok o
  | ix :: ixs =>
    if (ix = 0 ∧ o.rowsIs 1) ∨ (ix = 1 ∧ o.colsIs 1) then reduceIdx op o ixs
    else reduceImpl op redFuel o (decide (0 ∈ ix :: ixs)) (decide (1 ∈ ix :: ixs))

/-- `reduce(b, arg)` over all indices, linear-algebra/functions/reduce.hpp:180-210.  A result that cannot be one-by-one is rejected (202-203). -/
noncomputable def reduceAll (op : RedOp F) (o : Obj F) : Except Err F :=
  if o.zero ∧ (isPlus op ∨ isTimes op) then .ok 0
  else if o.oneDim then .ok (o.get 0 0)
  else if o.constObj then .ok (constReduce op o.constVal (o.countReduced true true))
  else do
    let r ← reduceImpl op redFuel o true true
    if (r.statRows = true ∧ r.rows ≠ 1) ∨ (r.statCols = true ∧ r.cols ≠ 1) then .error .illFormed else .ok (r.get 0 0)

/-- `trace`, linear-algebra/functions/trace.hpp:35-89. -/
noncomputable def trace (o : Obj F) : Except Err F :=
  if o.zero ∨ o.empty then .ok 0
  else if o.identity then .ok ((min o.rows o.cols : ℕ) : F)
  else if o.oneDim then .ok (o.get 0 0)
  else if o.constObj then .ok (o.constVal * ((min o.rows o.cols : ℕ) : F))
  else if o.constDiag then .ok (o.constVal * ((min o.rows o.cols : ℕ) : F))
  else if o.triOf ≠ .none then do
    let d ← o.diagonalOf
    reduceAll .plus d
  else do
    let d ← o.diagonalOf
    if d.statRows = false then
      if 2 ≤ d.rows then reduceAll .plus d
      else if d.rows = 1 then .ok (d.get 0 0)
      else .ok 0
    else if d.rows = 1 then .ok (d.get 0 0)
    else reduceAll .plus d

/-- `error_if_argument_to_determinant_is_not_square`, linear-algebra/functions/determinant.hpp:24-29. -/
def detSquare (o : Obj F) (x : Except Err F) : Except Err F :=
  if (o.statRows = false ∨ o.statCols = false) ∧ o.rows ≠ o.cols then .error .domainError else x

/-- `determinant`, linear-algebra/functions/determinant.hpp:44-87.  The real-exponent power of line 68 is the exact power here (C27 treats the
constant-evaluated power).  A run-time non-square argument reaching the library is undefined. -/
noncomputable def determinant (o : Obj F) : Except Err F :=
  if o.statRows = true ∧ o.statCols = true ∧ o.rows ≠ o.cols then .error .illFormed
  else if o.identity ∨ o.empty then detSquare o (.ok 1)
  else if o.rowsIs 1 ∨ o.colsIs 1 then detSquare o (.ok (o.get 0 0))
  else if o.constObj ∧ ((o.statRows = true ∧ 2 ≤ o.rows) ∨ (o.statRows = false ∧ o.statCols = true ∧ 2 ≤ o.cols)) then detSquare o (.ok 0)
  else if o.constDiag then detSquare o (.ok (o.constVal ^ (if o.statRows = true then o.rows else o.cols)))
  else if o.triOf ≠ .none then detSquare o (do
    let d ← o.diagonalOf
    reduceAll .times d)
  else if o.constObj then
    if o.rows ≠ o.cols then .error .invalidArgument
    else if 2 ≤ o.rows then .ok 0
    else if o.rows = 1 then .ok (o.get 0 0)
    else .ok 1
  else if o.rows ≠ o.cols then .error .undefinedBehaviour
  else .ok (o.toArr.toMatrix o.rows o.rows).det

/-- `triangle_type_of_v<A, B>` as the older variadic trait: the triangle type every argument has. -/
noncomputable def commonTri (os : List (Obj F)) : Tri :=
  if ∀ o ∈ os, o.triOf = .diagonal then .diagonal
  else if ∀ o ∈ os, o.triOf = .diagonal ∨ o.triOf = .lower then .lower
  else if ∀ o ∈ os, o.triOf = .diagonal ∨ o.triOf = .upper then .upper
  else .none

/-- `n_ary_operation` with a binary operation on two column vectors, linear-algebra/functions/n_ary_operation.hpp: an operand of dimension 1 is
repeated; other mismatches and empty operands are rejected; constants combine into a constant. -/
noncomputable def nAryCol (f : F → F → F) (a b : Obj F) : Except Err (Obj F) :=
  if a.rows = 0 ∨ b.rows = 0 then .error .invalidArgument
  else if a.rows ≠ b.rows ∧ a.rows ≠ 1 ∧ b.rows ≠ 1 then .error .invalidArgument
  else
    if a.constObj ∧ b.constObj then
      .ok (mkConst (f a.constVal b.constVal) (a.valFixed && b.valFixed) (max a.rows b.rows) (a.statRows && b.statRows) 1 true (a.cplx || b.cplx))
    else
      .ok (dense ⟨max a.rows b.rows, 1, fun i _ => f (a.get (if i < a.rows then i else 0) 0) (b.get (if i < b.rows then i else 0) 0)⟩
        (a.statRows && b.statRows) true (a.cplx || b.cplx))

/-- `scalar_product`, linear-algebra/functions/scalar_product.hpp:51-85; `fixed` says the scalar is a compile-time value. -/
noncomputable def scalarProduct (o : Obj F) (s : F) (fixed sc : Bool) : Except Err (Obj F) :=
  if o.zero then .ok o
  else if o.constObj then .ok (mkConst (o.constVal * s) (o.valFixed && fixed) o.rows o.statRows o.cols o.statCols (o.cplx || sc))
  else if o.constDiag then do
    let d ← o.diagonalOf
    .ok (mkConst (o.constVal * s) (o.valFixed && fixed) d.rows d.statRows d.cols d.statCols (o.cplx || sc)).toDiagonal
  else if fixed = true ∧ s = 0 then .ok (mkConst 0 true o.rows o.statRows o.cols o.statCols (o.cplx || sc))
  else if fixed = true ∧ s = 1 then .ok o
  else .ok (dense (o.toArr.map (· * s)) o.statRows o.statCols (o.cplx || sc))

/-- `scalar_quotient`, linear-algebra/functions/scalar_quotient.hpp:51-81; the caller guarantees a nonzero divisor. -/
noncomputable def scalarQuotient (o : Obj F) (s : F) (fixed sc : Bool) : Except Err (Obj F) :=
  if o.zero then .ok o
  else if o.constObj then .ok (mkConst (o.constVal / s) (o.valFixed && fixed) o.rows o.statRows o.cols o.statCols (o.cplx || sc))
  else if o.constDiag then do
    let d ← o.diagonalOf
    .ok (mkConst (o.constVal / s) (o.valFixed && fixed) d.rows d.statRows d.cols d.statCols (o.cplx || sc)).toDiagonal
  else if fixed = true ∧ s = 1 then .ok o
  else .ok (dense (o.toArr.map (· / s)) o.statRows o.statCols (o.cplx || sc))

/-- How the library offers the product (contract.hpp:116-139): directly, of the adjoints, or of the transposes. -/
inductive ContractPath | direct | viaAdjoint | viaTranspose

/-- `contract`, linear-algebra/functions/contract.hpp:54-140.  The nullary `chipwise_operation` (95-96, 104-105; chipwise_operation.hpp:231-252) copies
the column (row) into every column (row) of the result, starting with position 0, which must exist.  `make_fixed_size_adapter` (68, 75) only
adds static sizes. -/
noncomputable def contract (path : ContractPath) (a b : Obj F) : Except Err (Obj F) :=
  if a.cols ≠ b.rows then .error (if a.statCols = true ∧ b.statRows = true then .illFormed else .domainError)
  else if b.identity ∧ b.square then .ok a
  else if a.identity ∧ a.square then .ok b
  else if a.zero ∨ b.zero then .ok (mkConst 0 true a.rows a.statRows b.cols b.statCols (a.cplx || b.cplx))
  else if a.constObj ∧ b.constObj then
    .ok (mkConst (a.constVal * b.constVal * (a.cols : F)) (a.valFixed && b.valFixed && (a.statCols || b.statRows)) a.rows a.statRows b.cols b.statCols
      (a.cplx || b.cplx))
  else if a.diagonal ∧ b.constObj then do
    let d ← a.diagonalOf
    let col ← d.scalarProduct b.constVal b.valFixed b.cplx
    if b.cols = 0 then .error .undefinedBehaviour
    else .ok (dense ⟨col.rows, b.cols, fun i _ => col.get i 0⟩ col.statRows b.statCols (a.cplx || b.cplx))
  else if a.constObj ∧ b.diagonal then do
    let d ← b.diagonalOf
    let t ← d.transpose
    let row ← t.scalarProduct a.constVal a.valFixed a.cplx
    if a.rows = 0 then .error .undefinedBehaviour
    else .ok (dense ⟨a.rows, row.cols, fun _ j => row.get 0 j⟩ a.statRows row.statCols (a.cplx || b.cplx))
  else if a.diagonal ∧ b.diagonal then do
    let da ← a.diagonalOf
    let db ← b.diagonalOf
    let p ← nAryCol (· * ·) da db
    .ok p.toDiagonal
  else match path with
    | .direct =>
      let r := dense (a.toArr.mul b.toArr) a.statRows b.statCols (a.cplx || b.cplx)
      .ok (if commonTri [a, b] ≠ .none then r.toTriangular (commonTri [a, b]) else r)
    | .viaAdjoint => do
      let bt ← b.conjugateTranspose
      let at' ← a.conjugateTranspose
      (dense (bt.toArr.mul at'.toArr) bt.statRows at'.statCols (a.cplx || b.cplx)).conjugateTranspose
    | .viaTranspose => do
      let bt ← b.transpose
      let at' ← a.transpose
      (dense (bt.toArr.mul at'.toArr) bt.statRows at'.statCols (a.cplx || b.cplx)).transpose

/-- `to_hermitian<lower>`, linear-algebra/functions/to_hermitian.hpp:55-69 and `hermitian_adapter` (adapters/hermitian_adapter.hpp:109-190): the lower
triangle is read, the upper one is its mirror image.  The constant is handed on if it is a real compile-time value. -/
noncomputable def toHermitian (o : Obj F) : Except Err (Obj F) :=
  if o.hermitian then .ok o
  else if o.rows ≠ o.cols then .error .domainError
  else .ok { o with get := fun i j => if j ≤ i then o.get i j else star (o.get j i), sq := true, herm := true,
                    tri := if o.triOf.times .lower = .diagonal then .diagonal else .none,
                    cst := if o.constNotComplex then some o.constVal else none }

/-- `sum_constants`, linear-algebra/functions/sum.hpp:26-32. -/
noncomputable def sumConsts (a b : Obj F) : Obj F :=
  mkConst (a.constVal + b.constVal) (a.valFixed && b.valFixed) a.rows (a.statRows || b.statRows) a.cols (a.statCols || b.statCols) (a.cplx || b.cplx)

/-- The library's binary sum. -/
noncomputable def libAdd (a b : Obj F) : Except Err (Obj F) :=
  if a.rows ≠ b.rows ∨ a.cols ≠ b.cols then .error .undefinedBehaviour
  else .ok (dense (a.toArr.add b.toArr) (a.statRows || b.statRows) (a.statCols || b.statCols) (a.cplx || b.cplx))

/-- `sum_impl` on two arguments that are not both diagonal (the recursive call on two diagonals at sum.hpp:71), sum.hpp:40-98. -/
noncomputable def sumFlat (a b : Obj F) : Except Err (Obj F) :=
  if (a.zero ∨ b.zero ∨ (a.constObj ∧ b.constObj)) ∧ (a.rows ≠ b.rows ∨ a.cols ≠ b.cols) then .error .invalidArgument
  else if a.zero then .ok b
  else if b.zero then .ok a
  else if a.constObj ∧ b.constObj then .ok (sumConsts a b)
  else libAdd a b

/-- `sum_impl`, linear-algebra/functions/sum.hpp:35-98.  The library is used pairwise (78-93); the variadic library call (74-77) has the same value. -/
noncomputable def sumImpl : List (Obj F) → Except Err (Obj F)
  | [] => .error .illFormed
  | [t] => .ok t
  | t0 :: t1 :: ts =>
    if (t0.zero ∨ t1.zero ∨ (t0.constObj ∧ t1.constObj)) ∧ (t0.rows ≠ t1.rows ∨ t0.cols ≠ t1.cols) then .error .invalidArgument
    else if t0.zero then sumImpl (t1 :: ts)
    else if t1.zero then sumImpl (t0 :: ts)
    else if t0.constObj ∧ t1.constObj then sumImpl (sumConsts t0 t1 :: ts)
    else if _h : t0.constObj ∧ ts ≠ [] then do
      let s ← sumImpl (t0 :: ts)
      sumImpl [t1, s]
    else if _h : t1.constObj ∧ ts ≠ [] then do
      let s ← sumImpl (t1 :: ts)
      sumImpl [t0, s]
    else if t0.diagonal ∧ t1.diagonal then do
      let d0 ← t0.diagonalOf
      let d1 ← t1.diagonalOf
      let s ← sumFlat d0 d1
      sumImpl (s.toDiagonal :: ts)
    else do
      let s ← libAdd t0 t1
      sumImpl (s :: ts)
termination_by l => l.length
decreasing_by all_goals simp_all [List.length_pos_iff]

/-- `sum`, linear-algebra/functions/sum.hpp:111-122. -/
noncomputable def sum (ts : List (Obj F)) : Except Err (Obj F) := do
  let s ← sumImpl ts
  let t := commonTri ts
  if t ≠ .none ∧ ¬ s.triangular t then .ok (s.toTriangular t)
  else if (∀ o ∈ ts, o.hermitian) ∧ ¬ s.hermitian then s.toHermitian
  else .ok s

/-- `average_reduce<indices...>`, linear-algebra/functions/average_reduce.hpp:25-37, 59-71. -/
noncomputable def averageIdx (o : Obj F) : List (Fin 2) → Except Err (Obj F)
  | [] => .ok o
  | ix :: ixs =>
    if (ix = 0 ∧ o.rowsIs 1) ∨ (ix = 1 ∧ o.colsIs 1) then averageIdx o ixs
    else
      let r0 := decide (0 ∈ ix :: ixs)
      let r1 := decide (1 ∈ ix :: ixs)
      if o.constObj then .ok (mkReduced o.constVal o.valFixed o r0 r1)
      else do
        let r ← reduceIdx .plus o (ix :: ixs)
        r.scalarQuotient (o.countReduced r0 r1 : F) false false

/-- `average_reduce(arg)`, linear-algebra/functions/average_reduce.hpp:85-119. -/
noncomputable def averageAll (o : Obj F) : Except Err F :=
  if o.zero then .ok 0
  else if o.constObj then .ok o.constVal
  else if o.constDiag then .ok (o.constVal / ((max o.rows o.cols : ℕ) : F))
  else do
    let r ← reduceAll .plus o
    .ok (r / ((o.rows * o.cols : ℕ) : F))

end Obj
end OpenKalman.LinAlg
