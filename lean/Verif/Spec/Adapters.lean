import Mathlib.Algebra.Star.Basic
import Mathlib.Logic.Equiv.Basic

/-!
# Specification of facts about a tensor (C80, C81)

A tensor has a dimension for every index (1 beyond its rank) and an element for every tuple of positions.  The facts about triangles and Hermitian
tensors are about the slices in indices 0 and 1, as the documentation says (concepts/hermitian_matrix.hpp:49, concepts/diagonal_matrix.hpp:26,
enumerations.hpp:22-25).
-/

namespace OpenKalman.Adapters

/-- A tensor. -/
structure Tensor (𝕜 : Type) where
  dim : ℕ → ℕ
  get : (ℕ → ℕ) → 𝕜

namespace Tensor
variable {𝕜 : Type} (t : Tensor 𝕜)

/-- The tuple lies within the dimensions. -/
def Inb (ix : ℕ → ℕ) : Prop := ∀ k, ix k < t.dim k

/-- The tuple with two entries exchanged. -/
def swapIx {α : Type} (a b : ℕ) (ix : ℕ → α) : ℕ → α := fun k => ix (Equiv.swap a b k)

/-- Every dimension is 1. -/
def OneDim : Prop := ∀ k, t.dim k = 1

/-- The first `N` dimensions are the same. -/
def Square (N : ℕ) : Prop := ∀ i < N, t.dim i = t.dim 0

/-- Nothing but zeros above the diagonal. -/
def Lower [Zero 𝕜] : Prop := ∀ ix, t.Inb ix → ix 0 < ix 1 → t.get ix = 0

/-- Nothing but zeros below the diagonal. -/
def Upper [Zero 𝕜] : Prop := ∀ ix, t.Inb ix → ix 1 < ix 0 → t.get ix = 0

/-- Every element is `c`. -/
def Constant (c : 𝕜) : Prop := ∀ ix, t.Inb ix → t.get ix = c

/-- `c` on the diagonal, zero elsewhere. -/
def ConstantDiagonal [Zero 𝕜] (c : 𝕜) : Prop := ∀ ix, t.Inb ix → t.get ix = if ix 0 = ix 1 then c else 0

/-- Every slice is equal to its conjugate transpose. -/
def Hermitian [Star 𝕜] : Prop := t.dim 0 = t.dim 1 ∧ ∀ ix, t.Inb ix → t.get (swapIx 0 1 ix) = star (t.get ix)

/-- Every element is real. -/
def Real [Star 𝕜] : Prop := ∀ ix, t.Inb ix → star (t.get ix) = t.get ix

end Tensor
end OpenKalman.Adapters
