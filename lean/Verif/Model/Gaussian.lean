import Verif.Model.CovBlocks
import Verif.Spec.Gaussian
import Mathlib.Analysis.SpecialFunctions.Log.Base
import Mathlib.Analysis.SpecialFunctions.Trigonometric.Basic
import Mathlib.LinearAlgebra.Matrix.Determinant.Basic

/-!
# Model: Gaussian distributions

/repo/OpenKalman/distributions/GaussianDistribution.hpp.  Scalars are real numbers (exactly); `Mean {…}` wraps its argument, which is the parameter
`wrap` (the identity for Euclidean patterns); the covariance operations are those of C47 and C63.  `make_GaussianDistribution` (516-642) is only
modelled for the arguments that the operators below give it.
-/

namespace OpenKalman.Gaussian
open Matrix OpenKalman.CovArith

variable {n k m : ℕ}

/-- `square(cov)` of a square root as an object (SquareRootCovariance.hpp: the same nested matrix, now standing for its square; a diagonal one is squared). -/
noncomputable def squareCov (c : Cov ℝ n) : Cov ℝ n :=
  match c.form with
  | .herm up => ⟨false, .herm up, c.nested, false, false⟩
  | .tri up => ⟨false, .tri up, c.nested, false, false⟩
  | _ => ⟨false, .diag, c.nested * c.nestedᴴ, false, false⟩

/-- `make_GaussianDistribution<re>(mean, cov)` (GaussianDistribution.hpp:516-538, with the constructor 167-171 and `cov_adapter`, 66-70): a square root is squared; a matrix that
is neither a covariance nor a square root is not `covariance_nestable`. -/
noncomputable def make (wrap : (Fin n → ℝ) → Fin n → ℝ) (m : Fin n → ℝ) : Opd ℝ n → Option (Dist n)
  | .cov c => some ⟨wrap m, if c.root then squareCov c else c⟩
  | .mat _ _ => none

/-- `operator+` (GaussianDistribution.hpp:960-967). -/
noncomputable def Dist.add (lib : Lib ℝ) (wrap : (Fin n → ℝ) → Fin n → ℝ) (d e : Dist n) : Option (Dist n) :=
  make wrap (d.mean + e.mean) (CovArith.add lib (.cov d.cov) (.cov e.cov))

/-- `operator-` (GaussianDistribution.hpp:979-986). -/
noncomputable def Dist.sub (lib : Lib ℝ) (wrap : (Fin n → ℝ) → Fin n → ℝ) (d e : Dist n) : Option (Dist n) :=
  (CovArith.sub lib (.cov d.cov) (.cov e.cov)).bind fun c => make wrap (d.mean - e.mean) c

/-- `operator*(a, d)` for a matrix (GaussianDistribution.hpp:998-1005). -/
noncomputable def Dist.matMul (lib : Lib ℝ) (wrap : (Fin k → ℝ) → Fin k → ℝ) (A : Matrix (Fin k) (Fin n) ℝ) (d : Dist n) : Option (Dist k) :=
  make wrap (A *ᵥ d.mean) (.cov (scaleMat lib d.cov A))

/-- `operator*(d, s)` and `operator*(s, d)` (GaussianDistribution.hpp:1014-1039). -/
noncomputable def Dist.smul (wrap : (Fin n → ℝ) → Fin n → ℝ) (d : Dist n) (s : ℝ) : Option (Dist n) :=
  make wrap (s • d.mean) (.cov (scale d.cov s))

/-- `operator/(d, s)` (GaussianDistribution.hpp:1048-1055). -/
noncomputable def Dist.sdiv (wrap : (Fin n → ℝ) → Fin n → ℝ) (d : Dist n) (s : ℝ) : Option (Dist n) :=
  (inverseScale d.cov s).bind fun c => make wrap (fun i => d.mean i / s) (.cov c)

/-- `concatenate(d, ds)` (GaussianDistribution.hpp:878-892): `concatenate` of the means is vertical. -/
noncomputable def Dist.concat (wrap : (Fin (n + m) → ℝ) → Fin (n + m) → ℝ) (d : Dist n) (e : Dist m) : Option (Dist (n + m)) :=
  (d.cov.concat e.cov).bind fun c => make wrap (Fin.append d.mean e.mean) (.cov c)

/-- One part of `split<Cs...>(d)` (GaussianDistribution.hpp:909-933) when it does not return the whole. -/
noncomputable def Dist.splitPart (lib : Lib ℝ) (wrap : (Fin k → ℝ) → Fin k → ℝ) (d : Dist n) (off : ℕ) (h : off + k ≤ n) : Option (Dist k) :=
  make wrap (fun i => d.mean ⟨off + i, by omega⟩) (.cov (d.cov.splitBlock lib off k h))

/-- `square_root(sigma)` (Covariance.hpp:526-554): the same nested matrix, now standing for its factor, except for a diagonal matrix that is not an identity or zero, whose factor is
computed (elementwise, cholesky_factor.hpp:68-77).  Returns the factor and whether its type is upper triangular. -/
noncomputable def squareRoot (lib : Lib ℝ) (c : Cov ℝ n) : Mat ℝ n × Bool :=
  match c.form with
  | .herm up => (lib.chol up c.nested, up)
  | .tri up => (c.nested, up)
  | _ => if c.ident || c.zero then (c.nested, true) else (diagonal fun i => Real.sqrt (c.nested i i), true)

/-- `operator()()` (GaussianDistribution.hpp:325-334) for given standard normal components `norm`. -/
noncomputable def Dist.sample (lib : Lib ℝ) (d : Dist n) (norm : Fin n → ℝ) : Fin n → ℝ :=
  let s := squareRoot lib d.cov
  if s.2 then d.mean + s.1ᵀ *ᵥ norm else d.mean + s.1 *ᵥ norm

/-- `operator+=`, `operator-=`, `operator*=`, `operator/=` (GaussianDistribution.hpp:268-300) for a covariance in Cholesky form with its synchronisation state; the mean is wrapped by `Mean::operator+=` etc. -/
structure DistState (n : ℕ) where
  mean : Fin n → ℝ
  sigma : State ℝ n

noncomputable def DistState.addAssign (lib : Lib ℝ) (wrap : (Fin n → ℝ) → Fin n → ℝ) (up : Bool) (o : DistState n) (d : Dist n) : DistState n :=
  ⟨wrap (o.mean + d.mean), o.sigma.addCov lib up d.cov⟩

noncomputable def DistState.mulAssign (wrap : (Fin n → ℝ) → Fin n → ℝ) (o : DistState n) (s : ℝ) : DistState n :=
  ⟨wrap (s • o.mean), o.sigma.scaleCov s⟩

noncomputable def DistState.divAssign (wrap : (Fin n → ℝ) → Fin n → ℝ) (o : DistState n) (s : ℝ) : DistState n :=
  ⟨wrap (fun i => o.mean i / s), o.sigma.inverseScaleCov s⟩

/-- `determinant(sigma)` (CovarianceImpl.hpp:296-340, when only the nested matrix is up to date; C46 shows that the other states agree). -/
noncomputable def covDet (c : Cov ℝ n) : ℝ :=
  if c.form.hermitian then c.nested.det else c.nested.det * c.nested.det

/-- `log_likelihood(z...)` (GaussianDistribution.hpp:347-353); `solve(sigma, b)` is the library's `solve` with the self-adjoint nested matrix (covariance-overloads.hpp:191-198), whose contract is C42.  The
difference of the typed vectors `z - mu` is not wrapped. -/
noncomputable def Dist.logLikelihood (solve : Mat ℝ n → (Fin n → ℝ) → Fin n → ℝ) (d : Dist n) (zs : List (Fin n → ℝ)) : ℝ :=
  -(1 / 2) * (zs.length * (n * Real.log (2 * Real.pi) + Real.log (covDet d.cov)) +
    (zs.map fun z => (z - d.mean) ⬝ᵥ solve d.cov.selfAdjointNested (z - d.mean)).sum)

/-- `entropy()` (GaussianDistribution.hpp:357-361). -/
noncomputable def Dist.entropy (d : Dist n) : ℝ :=
  1 / 2 * (n * (1 + Real.logb 2 Real.pi + Real.logb 2 (Real.exp 1)) + Real.logb 2 (covDet d.cov))

end OpenKalman.Gaussian
