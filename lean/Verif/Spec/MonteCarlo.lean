import Mathlib.Analysis.RCLike.Basic
import Mathlib.Algebra.BigOperators.Group.List.Basic
import Mathlib.LinearAlgebra.Matrix.ConjTranspose

/-! # Sample statistics (C59) -/

namespace OpenKalman.MonteCarlo

variable {𝕜 : Type} [RCLike 𝕜]

/-- A sample of the input and the output computed from it. -/
structure Sample (𝕜 : Type) (n m : ℕ) where
  x : Fin n → 𝕜
  y : Fin m → 𝕜

/-- The mean of `f` over the samples. -/
noncomputable def avg {α : Type} (l : List α) (f : α → 𝕜) : 𝕜 := (l.map f).sum / l.length

/-- The unbiased covariance of `f` and `g` over the samples. -/
noncomputable def cov {α : Type} (l : List α) (f g : α → 𝕜) : 𝕜 :=
  (l.map fun s => (f s - avg l f) * star (g s - avg l g)).sum / ((l.length : 𝕜) - 1)

end OpenKalman.MonteCarlo
