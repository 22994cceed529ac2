import Mathlib.Algebra.MvPolynomial.Degrees
import Mathlib.MeasureTheory.Function.LpSpace.Basic
import Mathlib.Probability.Moments.Covariance
import Mathlib.LinearAlgebra.Matrix.Defs

/-! # Moments of random vectors (C133, C134) -/

namespace OpenKalman.Moments
open MeasureTheory ProbabilityTheory

variable {Ω σ : Type} [MeasurableSpace Ω]

/-- A random vector with mean `m` and covariance `C`, whose third central moments vanish, as they do for every law that is symmetric about its mean. -/
structure Balanced (P : Measure Ω) (X : Ω → σ → ℝ) (m : σ → ℝ) (C : Matrix σ σ ℝ) : Prop where
  power : ∀ s, MemLp (fun ω => X ω s) 3 P
  mean : ∀ s, ∫ ω, X ω s ∂P = m s
  second : ∀ s t, ∫ ω, (X ω s - m s) * (X ω t - m t) ∂P = C s t
  third : ∀ s t u, ∫ ω, (X ω s - m s) * (X ω t - m t) * (X ω u - m u) ∂P = 0

/-- The fourth central moments are those of a normal distribution, too. -/
structure Normal4 (P : Measure Ω) (X : Ω → σ → ℝ) (m : σ → ℝ) (C : Matrix σ σ ℝ) : Prop extends Balanced P X m C where
  power4 : ∀ s, MemLp (fun ω => X ω s) 4 P
  fourth : ∀ s t u v, ∫ ω, (X ω s - m s) * (X ω t - m t) * (X ω u - m u) * (X ω v - m v) ∂P = C s t * C u v + C s u * C t v + C s v * C t u

/-- A polynomial function of degree at most `d`. -/
def PolyFun (d : ℕ) (f : (σ → ℝ) → ℝ) : Prop := ∃ p : MvPolynomial σ ℝ, p.totalDegree ≤ d ∧ ∀ x, f x = MvPolynomial.eval x p

end OpenKalman.Moments
