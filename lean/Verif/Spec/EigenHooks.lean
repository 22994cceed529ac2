import Mathlib.LinearAlgebra.Matrix.PosDef
import Mathlib.Analysis.RCLike.Basic

/-!
# Specification of factors, solutions and least-squares solutions of matrices (C139 to C143)
-/

namespace OpenKalman.EigenHooks
open Matrix
open scoped ComplexOrder

/-- The two triangles of a square matrix. -/
inductive Tri
  | lower
  | upper
deriving DecidableEq

variable {𝕜 : Type} [RCLike 𝕜] {m n k : ℕ}

/-- Whether a triangle has the element in row `i` and column `j`; both contain the diagonal. -/
def Tri.Has : Tri → ℕ → ℕ → Prop
  | .lower, i, j => j ≤ i
  | .upper, i, j => i ≤ j

/-- Elements outside the triangle are zero. -/
def IsTri (t : Tri) (F : Matrix (Fin m) (Fin n) 𝕜) : Prop := ∀ i j, ¬ t.Has i.1 j.1 → F i j = 0

/-- The matrix a factor stands for: `F F*` for a lower, `F* F` for an upper triangle. -/
def gram : Tri → Matrix (Fin n) (Fin n) 𝕜 → Matrix (Fin n) (Fin n) 𝕜
  | .lower, F => F * Fᴴ
  | .upper, F => Fᴴ * F

/-- `F` is a triangle that stands for `A`. -/
structure Stands (t : Tri) (F A : Matrix (Fin n) (Fin n) 𝕜) : Prop where
  tri : IsTri t F
  sq : gram t F = A

/-- `N` stores the Hermitian matrix `A` in the triangle `t`; its other elements do not matter. -/
structure Stores (t : Tri) (N A : Matrix (Fin n) (Fin n) 𝕜) : Prop where
  herm : A.IsHermitian
  eq : ∀ i j, t.Has i.1 j.1 → N i j = A i j

/-- The sum of the squared magnitudes of the elements. -/
noncomputable def sqNorm (A : Matrix (Fin m) (Fin n) 𝕜) : ℝ := ∑ i, ∑ j, ‖A i j‖ ^ 2

/-- No other matrix leaves a smaller residual. -/
def LeastSquares (A : Matrix (Fin m) (Fin n) 𝕜) (B : Matrix (Fin m) (Fin k) 𝕜) (X : Matrix (Fin n) (Fin k) 𝕜) : Prop :=
  ∀ Y : Matrix (Fin n) (Fin k) 𝕜, sqNorm (A * X - B) ≤ sqNorm (A * Y - B)

/-- At most one matrix solves the equation, whatever its right side. -/
def Unique (A : Matrix (Fin m) (Fin n) 𝕜) : Prop := ∀ x y : Fin n → 𝕜, A *ᵥ x = A *ᵥ y → x = y

end OpenKalman.EigenHooks
