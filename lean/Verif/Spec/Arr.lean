import Mathlib.Algebra.BigOperators.Ring.Finset
import Mathlib.Algebra.Star.BigOperators
import Mathlib.Algebra.Field.Basic
import Mathlib.LinearAlgebra.Matrix.Determinant.Basic
import Mathlib.LinearAlgebra.Matrix.ConjTranspose

/-!
# Specification vocabulary for the linear-algebra functions (C34–C43)

A two-dimensional array is a pair of dimensions and an element function; only the elements within the dimensions count.
-/

namespace OpenKalman.LinAlg
open Finset

variable {F : Type}

/-- A two-dimensional array. -/
structure Arr (F : Type) where
  rows : ℕ
  cols : ℕ
  get : ℕ → ℕ → F

namespace Arr

/-- Equal dimensions and equal elements within them. -/
def Same (a b : Arr F) : Prop :=
  a.rows = b.rows ∧ a.cols = b.cols ∧ ∀ i < a.rows, ∀ j < a.cols, a.get i j = b.get i j

/-- Transposed array. -/
def transpose (a : Arr F) : Arr F := ⟨a.cols, a.rows, fun i j => a.get j i⟩

/-- Elementwise map. -/
def map (f : F → F) (a : Arr F) : Arr F := ⟨a.rows, a.cols, fun i j => f (a.get i j)⟩

/-- Elementwise complex conjugate. -/
def conj [Star F] (a : Arr F) : Arr F := a.map star

/-- Sum of the main diagonal. -/
def trace [AddCommMonoid F] (a : Arr F) : F := ∑ i ∈ range (min a.rows a.cols), a.get i i

/-- The main diagonal as a column vector. -/
def diagVec (a : Arr F) : Arr F := ⟨min a.rows a.cols, 1, fun i _ => a.get i i⟩

/-- A matrix of the given shape with the given main diagonal. -/
def diag [Zero F] (r c : ℕ) (d : ℕ → F) : Arr F := ⟨r, c, fun i j => if i = j then d i else 0⟩

/-- Matrix product. -/
def mul [NonUnitalNonAssocSemiring F] (a b : Arr F) : Arr F :=
  ⟨a.rows, b.cols, fun i j => ∑ k ∈ range a.cols, a.get i k * b.get k j⟩

/-- Elementwise sum; the shape is the first operand's. -/
def add [Add F] (a b : Arr F) : Arr F := ⟨a.rows, a.cols, fun i j => a.get i j + b.get i j⟩

/-- Elementwise sum of a list of arrays of the given shape. -/
def sumList [AddMonoid F] (r c : ℕ) (l : List (Arr F)) : Arr F := ⟨r, c, fun i j => (l.map fun a => a.get i j).sum⟩

/-- Same dimensions. -/
def SameDims (a b : Arr F) : Prop := a.rows = b.rows ∧ a.cols = b.cols

/-- The Mathlib matrix with the same elements. -/
def toMatrix (a : Arr F) (n m : ℕ) : Matrix (Fin n) (Fin m) F := fun i j => a.get i j

end Arr

/-- The operations `reduce` distinguishes. -/
inductive RedOp (F : Type)
  | plus
  | times
  | other (f : F → F → F)

/-- `r` is the result of folding the operation over a list: sum, product, or left fold of a nonempty list. -/
def RedOp.Folds [Semiring F] : RedOp F → List F → F → Prop
  | plus, l, r => r = l.sum
  | times, l, r => r = l.prod
  | other f, l, r => ∃ x xs, l = x :: xs ∧ r = xs.foldl f x

/-- The positions collapsed onto position `i` along one index: all of them if the index is reduced, only `i` otherwise. -/
def collapse (reduced : Bool) (dim i : ℕ) : List ℕ := if reduced then List.range dim else [i]

/-- `r` is `a` reduced along row index (`r0`) and/or column index (`r1`). -/
def IsReduction [Semiring F] (op : RedOp F) (r0 r1 : Bool) (a r : Arr F) : Prop :=
  r.rows = (if r0 then 1 else a.rows) ∧ r.cols = (if r1 then 1 else a.cols) ∧
  ∀ i < r.rows, ∀ j < r.cols,
    op.Folds ((collapse r0 a.rows i).flatMap fun i' => (collapse r1 a.cols j).map fun j' => a.get i' j') (r.get i j)

/-- `q` is the average of `a` along row index (`r0`) and/or column index (`r1`). -/
def IsAverage [Field F] (r0 r1 : Bool) (a q : Arr F) : Prop :=
  ∃ r, IsReduction .plus r0 r1 a r ∧ q.Same (r.map (· / (((if r0 then a.rows else 1) * (if r1 then a.cols else 1) : ℕ) : F)))

end OpenKalman.LinAlg
