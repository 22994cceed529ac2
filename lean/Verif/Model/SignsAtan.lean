import Verif.Model.Signs
import Verif.Spec.SignsAtan
import Verif.Model.ValuesComplex

/-!
# Model: `atan2` in constant expressions

/repo/OpenKalman/values/math/atan2.hpp:93-95 and values/math/internal/math_utils.hpp:36-81, for a floating-point type with infinity and real arguments; `atanReal` (Model/ValuesComplex.lean) is
`atan_impl`.  Arithmetic is exact.
-/

namespace OpenKalman.Signs
noncomputable section
open scoped Classical
open Real

/-- math_utils.hpp:65-80, for finite arguments. -/
def atan2Fin (y x : Fl) : Option Fl :=
  if (Fl.fin false 0).Lt x then (Values.atanReal (Fl.val y.sign y.mag / Fl.val x.sign x.mag)).map Fl.ofReal
  else if x.Lt (.fin false 0) then
    if (Fl.fin false 0).Lt y then (Values.atanReal (Fl.val y.sign y.mag / Fl.val x.sign x.mag)).map fun a => Fl.ofReal (a + π)
    else if y.Lt (.fin false 0) then (Values.atanReal (Fl.val y.sign y.mag / Fl.val x.sign x.mag)).map fun a => Fl.ofReal (a - π)
    else some (copysign (Fl.ofReal π) y)
  else
    if (Fl.fin false 0).Lt y then some (Fl.ofReal (π / 2))
    else if y.Lt (.fin false 0) then some (Fl.ofReal (-π / 2))
    else some (if signbit x then copysign (Fl.ofReal π) y else copysign (.fin false 0) y)

/-- math_utils.hpp:36-81. -/
def atan2Impl (y x : Fl) : Option Fl :=
  if y.Eq (.inf false) then
    if x.Eq (.inf false) then some (Fl.ofReal (π / 4)) else if x.Eq (.inf true) then some (Fl.ofReal (3 * π / 4)) else some (Fl.ofReal (π / 2))
  else if y.Eq (.inf true) then
    if x.Eq (.inf false) then some (Fl.ofReal (-π / 4)) else if x.Eq (.inf true) then some (Fl.ofReal (-3 * π / 4)) else some (Fl.ofReal (-π / 2))
  else if x.Eq (.inf false) then some (copysign (.fin false 0) y)
  else if x.Eq (.inf true) then some (copysign (Fl.ofReal π) y)
  else atan2Fin y x

/-- atan2.hpp:93-95; `none` if the iteration has no limit. -/
def atan2 (y x : Fl) : Option Fl := if isnan y ∨ isnan x then some (.nan false) else atan2Impl y x

end
end OpenKalman.Signs
