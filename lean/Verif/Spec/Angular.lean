import Verif.Spec.Descriptors
import Mathlib.Algebra.BigOperators.Group.Finset.Basic
import Mathlib.Data.Fintype.BigOperators

/-!
# Specification vocabulary for means with angles (C78, C79)

A coordinate lies on the line, or on a circle on which the numbers of an interval stand for the points.
-/

namespace OpenKalman.Angular
open OpenKalman.Patterns (SameAngle circlePoint)

/-- `circle mn mx top`: the canonical numbers are those from `mn` to `mx`, with the upper end if `top` and the lower end otherwise. -/
inductive Coord
  | line
  | circle (mn mx : ℝ) (top : Bool)

namespace Coord

/-- Two numbers that stand for the same point. -/
def Same : Coord → ℝ → ℝ → Prop
  | line, x, y => x = y
  | circle mn mx _, x, y => SameAngle (mx - mn) x y

/-- The number is the chosen one among those that stand for its point. -/
def Canonical : Coord → ℝ → Prop
  | line, _ => True
  | circle mn mx true, x => mn < x ∧ x ≤ mx
  | circle mn mx false, x => mn ≤ x ∧ x < mx

/-- The squared straight-line distance between two points: of the line, or of the unit circle in the plane. -/
noncomputable def distSq : Coord → ℝ → ℝ → ℝ
  | line, x, y => (x - y) ^ 2
  | circle mn mx _, x, y => ((circlePoint (mx - mn) x).1 - (circlePoint (mx - mn) y).1) ^ 2 + ((circlePoint (mx - mn) x).2 - (circlePoint (mx - mn) y).2) ^ 2

end Coord

/-- `x` and `y` stand for the same point, coordinate by coordinate. -/
def SameVec (cs : List Coord) (x y : List ℝ) : Prop :=
  x.length = cs.length ∧ y.length = cs.length ∧ ∀ (i : ℕ) (c : Coord), cs[i]? = some c → c.Same (x.getD i 0) (y.getD i 0)

/-- All coordinates are canonical. -/
def CanonicalVec (cs : List Coord) (x : List ℝ) : Prop := x.length = cs.length ∧ ∀ (i : ℕ) (c : Coord), cs[i]? = some c → c.Canonical (x.getD i 0)

/-- The weighted mean of squared distances to a point, in one coordinate. -/
noncomputable def spread {count : ℕ} (w : Fin count → ℝ) (c : Coord) (y : Fin count → ℝ) (m : ℝ) : ℝ := ∑ i, w i * c.distSq (y i) m

end OpenKalman.Angular
