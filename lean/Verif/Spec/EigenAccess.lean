import Mathlib.Algebra.Star.Basic
import Mathlib.Algebra.Ring.Defs

/-!
# Specification of Eigen views and replication (C85–C87)

What the views of Eigen stand for: a triangular view has the elements of its triangle and zeros elsewhere, with ones or zeros on the diagonal if its mode
says so; a self-adjoint view has the elements of its triangle and their conjugates; a diagonal object has the elements of a vector on its diagonal.
-/

namespace OpenKalman.EigenAccess

/-- What the mode says about the diagonal (`Upper`/`Lower`, `UnitUpper`/`UnitLower`, `StrictlyUpper`/`StrictlyLower`). -/
inductive OnDiag | stored | unit | zero
  deriving DecidableEq

/-- The matrices that views stand for; `up`: the upper triangle. -/
inductive Meaning (𝕜 : Type) where
  | matrix (m : ℕ → ℕ → 𝕜)
  | diagonal (v : ℕ → 𝕜)
  | triangle (up : Bool) (d : OnDiag) (m : ℕ → ℕ → 𝕜)
  | selfAdjoint (up : Bool) (m : ℕ → ℕ → 𝕜)

/-- Strictly within the triangle. -/
def within (up : Bool) (i j : ℕ) : Prop := if up then i < j else j < i

instance (up : Bool) (i j : ℕ) : Decidable (within up i j) := by unfold within; infer_instance

/-- The elements. -/
def Meaning.elem {𝕜 : Type} [Zero 𝕜] [One 𝕜] [Star 𝕜] : Meaning 𝕜 → ℕ → ℕ → 𝕜
  | .matrix m, i, j => m i j
  | .diagonal v, i, j => if i = j then v i else 0
  | .triangle up d m, i, j =>
    if i = j then (match d with | .stored => m i i | .unit => 1 | .zero => 0)
    else if within up i j then m i j else 0
  | .selfAdjoint up m, i, j => if i = j ∨ within up i j then m i j else star (m j i)

/-- An `r`-by-`c` matrix repeated. -/
def repeated {𝕜 : Type} (r c : ℕ) (m : ℕ → ℕ → 𝕜) : ℕ → ℕ → 𝕜 := fun i j => m (i % r) (j % c)

end OpenKalman.EigenAccess
