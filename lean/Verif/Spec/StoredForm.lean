import Verif.Spec.Gaussian
import Mathlib.LinearAlgebra.Matrix.NonsingularInverse

/-!
# What a filter step computes, whatever form covariances are stored in (C64)
-/

namespace OpenKalman.StoredForm
open Matrix

variable {n m : ℕ}

/-- Mean and covariance of a random vector. -/
@[ext] structure Moments (n : ℕ) where
  mean : Fin n → ℝ
  cov : Matrix (Fin n) (Fin n) ℝ

/-- A matrix applied to an independent random vector of which the moments are known. -/
structure Part (p : ℕ) where
  k : ℕ
  J : Matrix (Fin p) (Fin k) ℝ
  x : Moments k

/-- The moments of the sum of independent random vectors, each multiplied by a matrix. -/
def total {p : ℕ} (ts : List (Part p)) : Moments p := ⟨(ts.map fun t => t.J *ᵥ t.x.mean).sum, (ts.map fun t => t.J * t.x.cov * t.Jᵀ).sum⟩

/-- The conditional moments of `x` given that `y` is `z`, for jointly Gaussian vectors with cross-covariance `C`. -/
noncomputable def condition (x : Moments n) (y : Moments m) (C : Matrix (Fin n) (Fin m) ℝ) (z : Fin m → ℝ) : Moments n :=
  ⟨x.mean + (C * y.cov⁻¹) *ᵥ (z - y.mean), x.cov - C * y.cov⁻¹ * Cᵀ⟩

/-- One step: the state is replaced by a sum of independent vectors, or a measurement that is such a sum is taken into account. -/
inductive Step : ℕ → ℕ → Type
  | predict {n p : ℕ} (F : Matrix (Fin p) (Fin n) ℝ) (ts : List (Part p)) : Step n p
  | update {n m : ℕ} (H : Matrix (Fin m) (Fin n) ℝ) (ts : List (Part m)) (z : Fin m → ℝ) : Step n n

noncomputable def Step.exact : {n p : ℕ} → Step n p → Moments n → Moments p
  | _, _, .predict F ts, x => total (⟨_, F, x⟩ :: ts)
  | _, _, .update H ts z, x => condition x (total (⟨_, H, x⟩ :: ts)) (x.cov * Hᵀ) z

/-- The distribution `d` has the moments `x`, and is stored consistently. -/
structure Holds (d : Gaussian.Dist n) (x : Moments n) : Prop where
  valid : d.Valid
  mean : d.mean = x.mean
  cov : d.cov.Represents x.cov
  psd : x.cov.PosSemidef

/-- Stored as a lower triangular factor, a diagonal matrix, or the lower triangle of a definite matrix. -/
def Lower (c : CovArith.Cov ℝ n) (P : Matrix (Fin n) (Fin n) ℝ) : Prop := c.form = .tri false ∨ c.form = .diag ∨ c.form = .herm false ∧ P.PosDef

/-- What is assumed of `solve` (C42). -/
def SolveOk (solve : {m k : ℕ} → Matrix (Fin m) (Fin m) ℝ → Matrix (Fin m) (Fin k) ℝ → Matrix (Fin m) (Fin k) ℝ) : Prop :=
  ∀ {m k : ℕ} (A : Matrix (Fin m) (Fin m) ℝ) (B : Matrix (Fin m) (Fin k) ℝ), IsUnit A.det → A * solve A B = B

end OpenKalman.StoredForm
