import Verif.Spec.Shape
import Mathlib.Algebra.BigOperators.Group.Finset.Basic
import Mathlib.Data.Real.Basic

/-!
# Specification of conversions applied along index 0 of a tensor (C77)

A tensor is a shape together with a component for every list of indices below the extents.  A conversion of vectors extends to tensors by applying
it to each vector along index 0.
-/

namespace OpenKalman.StatSpace

open Shape

/-- A tensor of real numbers: its shape, and its component at a sequence of indices (0 from the rank on). -/
structure Tensor where
  shape : List Nat
  at_ : (Nat → Nat) → ℝ

/-- The indices are within the shape. -/
def Tensor.InRange (t : Tensor) (k : Nat → Nat) : Prop := ∀ i, k i < extentOf t.shape i

/-- A sequence of indices from index 0 and the others. -/
def consIx (i : Nat) (k : Nat → Nat) : Nat → Nat
  | 0 => i
  | l + 1 => k l

/-- The vector along index 0 at the other indices `k`. -/
def Tensor.column (t : Tensor) (k : Nat → Nat) : List ℝ := (List.range (extentOf t.shape 0)).map fun i => t.at_ (consIx i k)

/-- `b` is obtained from `a` by converting every vector along index 0. -/
structure Converts (conv : List ℝ → Option (List ℝ)) (a b : Tensor) : Prop where
  /-- extents other than that of index 0 are the same -/
  extents : ∀ i, extentOf b.shape (i + 1) = extentOf a.shape (i + 1)
  columns : ∀ k : Nat → Nat, (∀ i, k i < extentOf a.shape (i + 1)) → conv (a.column k) = some (b.column k)

/-- The position of a component in column-major order (C++ `layout_left`): index `l` moves by the product of the extents before it. -/
def leftOffset (e k : Nat → Nat) (rank : Nat) : Nat := ∑ l ∈ Finset.range rank, k l * ∏ m ∈ Finset.range l, e m

end OpenKalman.StatSpace
