import Verif.Spec.MonteCarlo
import Mathlib.Probability.IdentDistrib
import Mathlib.Probability.Moments.Covariance

/-!
# Specification: draws and what is estimated from them (C173)
-/

namespace OpenKalman.MonteCarlo
open MeasureTheory ProbabilityTheory

variable {Ω δ : Type} [MeasurableSpace Ω] [MeasurableSpace δ] {n m : ℕ}

/-- Draws (of an input and all noise terms together) that are pairwise independent and have the same distribution. -/
structure Draws (P : Measure Ω) (D : ℕ → Ω → δ) : Prop where
  indep : Pairwise fun i j => IndepFun (D i) (D j) P
  ident : ∀ i, IdentDistrib (D i) (D 0) P P

/-- A function of a draw that has a variance. -/
structure Good (P : Measure Ω) (D : ℕ → Ω → δ) (f : δ → ℝ) : Prop where
  meas : Measurable f
  square : MemLp (fun ω => f (D 0 ω)) 2 P

/-- The first `N` samples: `x` is the input in a draw, and `y` what the transformation makes of the draw. -/
def drawn (x : δ → Fin n → ℝ) (y : δ → Fin m → ℝ) (D : ℕ → Ω → δ) (N : ℕ) (ω : Ω) : List (Sample ℝ n m) := (List.range N).map fun k => ⟨x (D k ω), y (D k ω)⟩

end OpenKalman.MonteCarlo
