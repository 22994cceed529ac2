import Verif.Spec.Signs
import Mathlib.Analysis.SpecialFunctions.Complex.Arg

/-!
# Specification: `atan2` of floating-point numbers with signed zeros, infinities and NaN (C171)

Annex F of the C standard: the result has the sign of `y`; its magnitude is that of the angle between the positive half of the first axis and the point.
-/

namespace OpenKalman.Signs
open NNReal Real

namespace C
noncomputable section

/-- The angle; a zero beside a zero is as small as can be. -/
def angle : Fl → Fl → ℝ
  | .inf _, .inf s => if s then 3 * π / 4 else π / 4
  | .inf _, _ => π / 2
  | _, .inf s => if s then π else 0
  | .fin _ m, .fin s k => if m = 0 then (if s then π else 0) else Complex.arg ⟨Fl.val s k, m⟩
  | _, _ => 0

open scoped Classical in
def atan2 (y x : Fl) : Fl := if y.IsNaN ∨ x.IsNaN then .nan false else .fin y.sign (Real.toNNReal (angle y x))

end
end C

end OpenKalman.Signs
