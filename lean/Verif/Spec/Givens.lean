import Mathlib.Analysis.Complex.Basic

/-!
# Rotations of the plane

A rotation that takes the vector `(f, g)` to `(r, 0)`.
-/

namespace OpenKalman.Givens

/-- The matrix `(c, s; -s, c)` is orthogonal and takes `(f, g)` to `(r, 0)`. -/
structure Rotates (f g c s r : ℝ) : Prop where
  unit : c ^ 2 + s ^ 2 = 1
  first : c * f + s * g = r
  second : c * g - s * f = 0

/-- The matrix `(c, s; -s̄, c)` is unitary up to `ε` and takes the second component of `(f, g)` to 0. -/
structure AlmostRotates (ε : ℝ) (f g : ℂ) (c : ℝ) (s : ℂ) : Prop where
  lower : 1 ≤ c ^ 2 + ‖s‖ ^ 2
  upper : c ^ 2 + ‖s‖ ^ 2 ≤ 1 + ε
  second : (c : ℂ) * g - (starRingEnd ℂ) s * f = 0

end OpenKalman.Givens
