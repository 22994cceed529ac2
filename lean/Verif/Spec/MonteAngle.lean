import Verif.Spec.Angular
import Verif.Spec.MonteCarlo

/-! # Samples that stay away from the ends of an angle (C114) -/

namespace OpenKalman.MonteAngle
open OpenKalman.Angular OpenKalman.MonteCarlo

variable {n m : ℕ}

/-- In coordinate `a`, of kind `c`, the sum of the positive inputs and that of the negative ones are numbers that the coordinate leaves alone. -/
def Narrow (c : Coord) (l : List (Sample ℝ n m)) (a : Fin n) : Prop :=
  c.Canonical (l.map fun s => max (s.x a) 0).sum ∧ c.Canonical (l.map fun s => min (s.x a) 0).sum

end OpenKalman.MonteAngle
