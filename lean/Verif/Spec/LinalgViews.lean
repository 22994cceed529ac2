import Mathlib.Algebra.Star.Basic

/-!
# Views of a matrix

A matrix is read at a row and a column below its extents.
-/

namespace OpenKalman.LinalgViews

/-- What a view shows: its extents, and a component for each row and column. -/
structure Shown (𝕜 : Type*) where
  rows : ℕ
  cols : ℕ
  at_ : ℕ → ℕ → 𝕜

variable {𝕜 : Type*}

/-- Two views show the same matrix. -/
def Shown.Same (a b : Shown 𝕜) : Prop := a.rows = b.rows ∧ a.cols = b.cols ∧ ∀ i < a.rows, ∀ j < a.cols, a.at_ i j = b.at_ i j

def Shown.transpose (a : Shown 𝕜) : Shown 𝕜 := ⟨a.cols, a.rows, fun i j => a.at_ j i⟩

def Shown.conj [Star 𝕜] (a : Shown 𝕜) : Shown 𝕜 := ⟨a.rows, a.cols, fun i j => star (a.at_ i j)⟩

def Shown.scale [Mul 𝕜] (s : 𝕜) (a : Shown 𝕜) : Shown 𝕜 := ⟨a.rows, a.cols, fun i j => s * a.at_ i j⟩

end OpenKalman.LinalgViews
