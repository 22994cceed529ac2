import Mathlib.Analysis.RCLike.Basic
import Mathlib.Algebra.BigOperators.Intervals

/-!
# Matrices given by a triangle

What matrix an array stands for if only one triangle of it is read.
-/

namespace OpenKalman.Blas
open Finset

inductive Tri | lower | upper
  deriving DecidableEq

/-- Whether the diagonal is stored, or is all ones. -/
inductive Diag | explicit | unit
  deriving DecidableEq

/-- Component `(i, j)` lies in the triangle, diagonal included. -/
def InTri : Tri → ℕ → ℕ → Prop
  | .lower, i, j => j ≤ i
  | .upper, i, j => i ≤ j

instance (t : Tri) (i j : ℕ) : Decidable (InTri t i j) := by cases t <;> unfold InTri <;> infer_instance

variable {𝕜 : Type*}

/-- The symmetric matrix with the given triangle. -/
def symOf (t : Tri) (A : ℕ → ℕ → 𝕜) (i j : ℕ) : 𝕜 := if InTri t i j then A i j else A j i

/-- The Hermitian matrix with the given triangle; of the diagonal the real part counts. -/
noncomputable def hermOf [RCLike 𝕜] (t : Tri) (A : ℕ → ℕ → 𝕜) (i j : ℕ) : 𝕜 :=
  if i = j then ((RCLike.re (A i i) : ℝ) : 𝕜) else if InTri t i j then A i j else (starRingEnd 𝕜) (A j i)

/-- The triangular matrix with the given triangle. -/
def triOf [Zero 𝕜] [One 𝕜] (t : Tri) (d : Diag) (A : ℕ → ℕ → 𝕜) (i j : ℕ) : 𝕜 :=
  if i = j then (match d with | .explicit => A i i | .unit => 1) else if InTri t i j then A i j else 0

/-- Component `i` of the product of a matrix with `n` columns and a vector. -/
def mulVec [NonUnitalNonAssocSemiring 𝕜] (n : ℕ) (M : ℕ → ℕ → 𝕜) (x : ℕ → 𝕜) (i : ℕ) : 𝕜 := ∑ j ∈ range n, M i j * x j

end OpenKalman.Blas
