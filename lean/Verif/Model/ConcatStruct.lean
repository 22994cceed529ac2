import Verif.Model.Slices
import Mathlib.Algebra.Star.Basic

/-!
# Model of the diagonal concatenation of structured matrices (C40)

`concatenate<0, 1>` (linear-algebra/functions/concatenate.hpp:186-256) for operands that are adapters: a triangular, Hermitian or diagonal adapter around a
stored ("nested") object.  `triangle_type_of_v<Arg, Args...>` of the older code is read as the common triangle type of the operands.

Simplifications: one-dimensional operands and constants are not treated specially; `square_shaped` is equality of the dimensions.
-/

namespace OpenKalman.Slices

variable {F : Type}

/-- A matrix as the code knows it. -/
inductive SMat (F : Type)
  /-- no structure -/
  | dense (a : Ten F)
  /-- a zero object -/
  | zero (r c : ℕ)
  /-- `diagonal_adapter`: the nested object is a column -/
  | diag (v : Ten F)
  /-- `triangular_adapter` (lower or upper): the nested object is a full matrix of which one triangle counts -/
  | tri (lower : Bool) (a : Ten F)
  /-- `hermitian_adapter` (lower or upper storage) -/
  | herm (lower : Bool) (a : Ten F)

namespace SMat

/-- `nested_object(arg)`. -/
def nested [Zero F] : SMat F → Ten F
  | dense a => a
  | zero r c => zeros [r, c]
  | diag v => v
  | tri _ a => a
  | herm _ a => a

/-- `zero<T>`. -/
def isZero : SMat F → Bool
  | zero _ _ => true
  | _ => false

/-- `diagonal_matrix<T>`: zeros are diagonal (traits/triangle_type_of.hpp:62-67). -/
def isDiag : SMat F → Bool
  | zero _ _ => true
  | diag _ => true
  | _ => false

/-- `triangular_matrix<T, t>`. -/
def isTri (lower : Bool) : SMat F → Bool
  | zero _ _ => true
  | diag _ => true
  | tri l _ => l == lower
  | _ => false

/-- Dimensions. -/
def dims : SMat F → ℕ × ℕ
  | dense a => (a.rows, a.cols)
  | zero r c => (r, c)
  | diag v => (v.rows, v.rows)
  | tri _ a => (a.rows, a.cols)
  | herm _ a => (a.rows, a.cols)

/-- `hermitian_matrix<T>`: real diagonal matrices are Hermitian too (concepts/hermitian_matrix.hpp:52-57); they are left out here, so that the branch is entered
less often than in the code. -/
def isHerm : SMat F → Bool
  | herm _ _ => true
  | _ => false

/-- `hermitian_adapter_type_of_v`. -/
def hermLower : SMat F → Bool
  | herm l _ => l
  | _ => true

/-- `transpose(nested)`, a view of the stored object (not conjugated). -/
def transposeTen (a : Ten F) : Ten F :=
  ⟨[a.cols, a.rows], fun ix => a.get [ix.getD 1 0, ix.getD 0 0], fun _ => 1⟩

/-- `concatenate<0, 1>(args...)`, concatenate.hpp:186-256. -/
def concatenate [Zero F] (fuel : ℕ) (args : List (SMat F)) : Except Err (SMat F) :=
  match args with
  | [] => .error .illFormed
  | [a] => .ok a
  | a :: as =>
    if (a :: as).all isZero then .ok (zero ((a :: as).map fun x => x.dims.1).sum ((a :: as).map fun x => x.dims.2).sum)
    -- lines 214-218: `diagonal_of` is called with all the arguments at once, and takes one
    else if as.all isDiag then .error .illFormed
    else if ((a :: as).all (isTri true) ∨ (a :: as).all (isTri false)) ∧ (a :: as).all (fun x => x.dims.1 == x.dims.2) then do
      let m ← Slices.concatenate fuel [0, 1] ((a :: as).map nested)
      .ok (tri ((a :: as).all (isTri true)) m)
    else if (a :: as).all isHerm then do
      let m ← Slices.concatenate fuel [0, 1]
        (a.nested :: as.map fun x => if x.hermLower = a.hermLower then x.nested else transposeTen x.nested)
      .ok (herm a.hermLower m)
    else do
      let m ← Slices.concatenate fuel [0, 1] ((a :: as).map nested)
      .ok (dense m)

end SMat

end OpenKalman.Slices
