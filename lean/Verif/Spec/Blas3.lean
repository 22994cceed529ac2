import Verif.Spec.Blas2

/-!
# Products of matrices
-/

namespace OpenKalman.Blas
open Finset

/-- Component `(i, j)` of the product of a matrix with `n` columns and another matrix. -/
def mulMat {𝕜 : Type*} [NonUnitalNonAssocSemiring 𝕜] (n : ℕ) (M B : ℕ → ℕ → 𝕜) (i j : ℕ) : 𝕜 := ∑ k ∈ range n, M i k * B k j

end OpenKalman.Blas
