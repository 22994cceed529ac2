import Verif.Spec.CovArith
import Mathlib.Probability.Distributions.Gaussian.Multivariate

/-!
# Specification: Gaussian random vectors

Laws of random vectors are taken from Mathlib (`multivariateGaussian`), so that the statements are about actual Gaussian random vectors.
-/

namespace OpenKalman.Gaussian
open MeasureTheory ProbabilityTheory Matrix

variable {Ω : Type*} [MeasurableSpace Ω] {n k : ℕ}

abbrev Vec (n : ℕ) := EuclideanSpace ℝ (Fin n)

/-- A linear map given by a matrix. -/
noncomputable def act (A : Matrix (Fin k) (Fin n) ℝ) (x : Vec n) : Vec k := WithLp.toLp 2 (A *ᵥ x.ofLp)

/-- The random vector `X` is Gaussian with mean `m` and (positive semidefinite) covariance matrix `P`. -/
structure Law (μ : Measure Ω) (X : Ω → Vec n) (m : Fin n → ℝ) (P : Matrix (Fin n) (Fin n) ℝ) : Prop where
  meas : AEMeasurable X μ
  psd : P.PosSemidef
  map : μ.map X = multivariateGaussian (WithLp.toLp 2 m) P

/-- Joining two random vectors. -/
noncomputable def join {m : ℕ} (x : Vec n) (y : Vec m) : Vec (n + m) := WithLp.toLp 2 (Fin.append x.ofLp y.ofLp)

/-- The `k` components from `off` on. -/
noncomputable def part (off k : ℕ) (h : off + k ≤ n) (x : Vec n) : Vec k := WithLp.toLp 2 fun i => x.ofLp ⟨off + i, by omega⟩

/-- The density of a Gaussian random vector with an invertible covariance matrix. -/
noncomputable def density (m : Fin n → ℝ) (P : Matrix (Fin n) (Fin n) ℝ) (x : Fin n → ℝ) : ℝ :=
  (Real.sqrt ((2 * Real.pi) ^ n * P.det))⁻¹ * Real.exp (-(x - m) ⬝ᵥ (P⁻¹ *ᵥ (x - m)) / 2)

/-- A distribution: the nested matrix of the mean and the covariance. -/
structure Dist (n : ℕ) where
  mean : Fin n → ℝ
  cov : CovArith.Cov ℝ n

/-- A consistent object: the covariance is stored as its type says, and is not a square root (`cdiag` only exists for complex scalars). -/
def Dist.Valid (d : Dist n) : Prop := d.cov.WF ∧ d.cov.root = false ∧ d.cov.form ≠ .cdiag

/-- The distribution describes the random vector `X` (its mean only up to wrapping). -/
def Dist.Describes (wrap : (Fin n → ℝ) → Fin n → ℝ) (μ : Measure Ω) (d : Dist n) (X : Ω → Vec n) : Prop :=
  ∃ a P, Law μ X a P ∧ d.mean = wrap a ∧ d.cov.Represents P

end OpenKalman.Gaussian
