import Mathlib.Analysis.RCLike.Basic
import Mathlib.Algebra.BigOperators.Intervals

/-!
# Sums, norms and positions of maxima

What the reductions of the bundled linear algebra library are to compute.  Vectors and matrices are functions of their indices, with the extents beside them.
-/

namespace OpenKalman.Blas
open Finset

/-- The square of the Euclidean norm. -/
noncomputable def squares {𝕜 : Type*} [RCLike 𝕜] (n : ℕ) (x : ℕ → 𝕜) : ℝ := ∑ i ∈ range n, ‖x i‖ ^ 2

/-- `i` is the first index of a largest number among `m 0, …, m (n - 1)`. -/
def FirstMax (n : ℕ) (m : ℕ → ℝ) (i : ℕ) : Prop := i < n ∧ (∀ k < n, m k ≤ m i) ∧ ∀ k < i, m k < m i

/-- `v` is the largest of the numbers `f 0, …, f (n - 1)`. -/
def Largest (n : ℕ) (f : ℕ → ℝ) (v : ℝ) : Prop := (∀ k < n, f k ≤ v) ∧ ∃ k < n, f k = v

/-- The square of the Frobenius norm. -/
noncomputable def squares2 {𝕜 : Type*} [RCLike 𝕜] (m n : ℕ) (a : ℕ → ℕ → 𝕜) : ℝ := ∑ i ∈ range m, ∑ j ∈ range n, ‖a i j‖ ^ 2

/-- Component `(i, j)` is read before component `(k, l)`, row by row. -/
def Before (i j k l : ℕ) : Prop := i < k ∨ i = k ∧ j < l

/-- Row by row, no non-zero component is smaller in magnitude than one before it. -/
def Ascending {𝕜 : Type*} [RCLike 𝕜] (m n : ℕ) (a : ℕ → ℕ → 𝕜) : Prop :=
  ∀ k < m, ∀ l < n, a k l ≠ 0 → ∀ i < m, ∀ j < n, Before i j k l → ‖a i j‖ ≤ ‖a k l‖

end OpenKalman.Blas
