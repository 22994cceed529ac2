import Verif.Spec.Angular

/-! # Numbers that stand for a point (C115) -/

namespace OpenKalman.TypedConv
open OpenKalman.Angular OpenKalman.Patterns

/-- The numbers by which the statistical space describes a point: the number itself on a line, a point of the unit circle for an angle. -/
noncomputable def image : Coord → ℝ → List ℝ
  | .line, x => [x]
  | .circle mn mx _, x => [(circlePoint (mx - mn) x).1, (circlePoint (mx - mn) x).2]

/-- The images of all coordinates, one after the other. -/
noncomputable def imageVec (cs : List Coord) (x : List ℝ) : List ℝ := (cs.mapIdx fun i c => image c (x.getD i 0)).flatten

end OpenKalman.TypedConv
