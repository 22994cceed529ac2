import Mathlib.Data.Matrix.Mul
import Mathlib.Analysis.RCLike.Basic

/-! # What filters on sample points are judged by (C150–C152) -/

namespace OpenKalman.SigmaFilter
open Matrix

variable {𝕜 : Type} [RCLike 𝕜]

/-- The columns lie in no proper affine subspace: a linear functional that is constant on them is zero. -/
def Spread {ι : Type} [Fintype ι] {count : ℕ} (Y : Matrix ι (Fin count) 𝕜) : Prop :=
  ∀ v : ι → 𝕜, (∀ c c', ∑ a, v a * Y a c = ∑ a, v a * Y a c') → v = 0

/-- An arbitrary function of the state, to which independent noise terms are added after multiplication by matrices. -/
def additive {b p : ℕ} {k : Fin (b + 1) → ℕ} (h : (Fin (k 0) → 𝕜) → Fin p → 𝕜) (B : (i : Fin b) → Matrix (Fin p) (Fin (k i.succ)) 𝕜)
    (z : (i : Fin (b + 1)) → Fin (k i) → 𝕜) : Fin p → 𝕜 :=
  h (z 0) + ∑ i, B i *ᵥ z i.succ

end OpenKalman.SigmaFilter
