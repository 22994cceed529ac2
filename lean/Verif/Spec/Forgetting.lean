import Verif.Spec.Kalman

/-!
# Specification: least squares with a forgetting factor over long histories (C172)

What observations say about the parameters, and sequences of observations without end.
-/

namespace OpenKalman.Kalman
open Matrix
open scoped ComplexOrder

variable {𝕜 : Type} [RCLike 𝕜] {n : Type} [Fintype n] [DecidableEq n]

/-- What one observation says of the parameters. -/
noncomputable def Obs.info (o : Obs 𝕜 n) : Matrix n n 𝕜 := o.Hᴴ * o.R⁻¹ * o.H

/-- Together the observations say at least `a` in every direction. -/
def Excites (a : ℝ) (os : List (Obs 𝕜 n)) : Prop := ((os.map Obs.info).sum - (a : 𝕜) • (1 : Matrix n n 𝕜)).PosSemidef

/-- The `N` observations from number `s` on, latest first. -/
def recent (o : ℕ → Obs 𝕜 n) (s : ℕ) : ℕ → List (Obs 𝕜 n)
  | 0 => []
  | N + 1 => o (s + N) :: recent o s N

/-- The observation of `θ` without error. -/
def Obs.Exact (θ : n → 𝕜) (o : Obs 𝕜 n) : Prop := o.z = o.H *ᵥ θ

end OpenKalman.Kalman
