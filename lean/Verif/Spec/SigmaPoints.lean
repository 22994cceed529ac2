import Mathlib.Data.Matrix.Block
import Mathlib.Analysis.RCLike.Basic

/-! # What sample points should satisfy (C56–C58) -/

namespace OpenKalman.SigmaPoints
open Matrix

variable {𝕜 : Type} [RCLike 𝕜]

/-- Weighted points have the first two moments of independent, centred variables with covariances `P`. -/
structure Matches {b count : ℕ} {k : Fin b → ℕ} (wm wc : Fin count → ℝ) (Z : Matrix ((i : Fin b) × Fin (k i)) (Fin count) 𝕜)
    (P : (i : Fin b) → Matrix (Fin (k i)) (Fin (k i)) 𝕜) : Prop where
  /-- The weights add up to one. -/
  total : ∑ c, wm c = 1
  /-- The weighted mean of every coordinate is zero. -/
  mean : ∀ (i : Fin b) (a : Fin (k i)), ∑ c, (wm c : 𝕜) * Z ⟨i, a⟩ c = 0
  /-- Within a variable, the weighted second moments are its covariance. -/
  cov : ∀ (i : Fin b) (a a' : Fin (k i)), ∑ c, (wc c : 𝕜) * (Z ⟨i, a⟩ c * star (Z ⟨i, a'⟩ c)) = P i a a'
  /-- Different variables are uncorrelated. -/
  indep : ∀ (i j : Fin b), i ≠ j → ∀ (a : Fin (k i)) (a' : Fin (k j)), ∑ c, (wc c : 𝕜) * (Z ⟨i, a⟩ c * star (Z ⟨j, a'⟩ c)) = 0

/-- An affine function of an input and independent noise terms. -/
def affine {b p : ℕ} {k : Fin (b + 1) → ℕ} (A : Matrix (Fin p) (Fin (k 0)) 𝕜) (B : (i : Fin b) → Matrix (Fin p) (Fin (k i.succ)) 𝕜) (c : Fin p → 𝕜)
    (x : Fin (k 0) → 𝕜) (ns : (i : Fin (b + 1)) → Fin (k i) → 𝕜) : Fin p → 𝕜 :=
  A *ᵥ x + ∑ i, B i *ᵥ ns i.succ + c

end OpenKalman.SigmaPoints
