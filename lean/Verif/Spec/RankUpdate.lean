import Verif.Spec.Blas2

/-!
# Updates of a matrix given by a triangle
-/

namespace OpenKalman.Blas

variable {𝕜 : Type*}

/-- The array `A'` results from `A` by making the symmetric matrix given by its triangle equal `B + U`; nothing else is touched. -/
structure SymUpdate [Add 𝕜] (n : ℕ) (t : Tri) (B U A A' : ℕ → ℕ → 𝕜) : Prop where
  stored : ∀ p < n, ∀ q < n, symOf t A' p q = B p q + U p q
  kept : ∀ p q, ¬ (p < n ∧ q < n ∧ InTri t p q) → A' p q = A p q

/-- The same for the Hermitian matrix given by the triangle; the diagonal that is stored is real. -/
structure HermUpdate [RCLike 𝕜] (n : ℕ) (t : Tri) (B U A A' : ℕ → ℕ → 𝕜) : Prop where
  stored : ∀ p < n, ∀ q < n, hermOf t A' p q = B p q + U p q
  real : ∀ p < n, RCLike.im (A' p p) = 0
  kept : ∀ p q, ¬ (p < n ∧ q < n ∧ InTri t p q) → A' p q = A p q

end OpenKalman.Blas
