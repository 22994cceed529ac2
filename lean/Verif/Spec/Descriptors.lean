import Mathlib.Analysis.SpecialFunctions.Trigonometric.Basic

/-!
# Specification vocabulary for the pattern descriptors (C01–C08)
-/

namespace OpenKalman.Patterns

/-- The half-open canonical interval of an angle. -/
def InRange (min max x : ℝ) : Prop := min ≤ x ∧ x < max

/-- `x` and `y` differ by a whole number of periods. -/
def SameAngle (period x y : ℝ) : Prop := ∃ k : ℤ, y = x + k * period

/-- Inclinations equal up to sign and multiples of `2 * down`. -/
def SameIncl (down x y : ℝ) : Prop := ∃ k : ℤ, y = x + k * (2 * down) ∨ y = -x + k * (2 * down)

/-- The point of the unit circle at angle `φ` measured in units of which a full turn is `turn`. -/
noncomputable def circlePoint (turn φ : ℝ) : ℝ × ℝ := (Real.cos (2 * Real.pi * φ / turn), Real.sin (2 * Real.pi * φ / turn))

/-- The point of the plane with polar coordinates `(r, φ)`; a full turn is `turn`.  Negative radii allowed. -/
noncomputable def planePoint (turn r φ : ℝ) : ℝ × ℝ := (r * Real.cos (2 * Real.pi * φ / turn), r * Real.sin (2 * Real.pi * φ / turn))

/-- The unit vector with inclination `i` (half turn: `down`) and azimuth `a` (full turn: `turn`). -/
noncomputable def direction (down turn i a : ℝ) : ℝ × ℝ × ℝ :=
  (Real.sin (Real.pi * i / down) * Real.cos (2 * Real.pi * a / turn),
   Real.sin (Real.pi * i / down) * Real.sin (2 * Real.pi * a / turn),
   Real.cos (Real.pi * i / down))

/-- The point of three-space with spherical coordinates `(r, i, a)`. -/
noncomputable def spacePoint (down turn r i a : ℝ) : ℝ × ℝ × ℝ := r • direction down turn i a

end OpenKalman.Patterns
