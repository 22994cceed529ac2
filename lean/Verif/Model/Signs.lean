import Verif.Spec.Signs

/-!
# Model: the constant-evaluated branches of functions of one or more floating-point numbers

/repo/OpenKalman/values/math (isnan.hpp, isinf.hpp, signbit.hpp, copysign.hpp, abs.hpp, hypot.hpp, fmod.hpp, sqrt.hpp), for types with `is_iec559`, where the library's own functions cannot be
called in constant expressions (`constexpr_callable` is false).  Arithmetic of finite numbers is exact, so that nothing overflows; the iteration of `sqrt` has reached its limit (C65).
-/

namespace OpenKalman.Signs
noncomputable section
open scoped Classical

/-- isnan.hpp:44: `arg != arg`. -/
def isnan (x : Fl) : Bool := decide (¬ x.Eq x)

/-- isinf.hpp:45: `arg == infinity() or arg == -infinity()`. -/
def isinf (x : Fl) : Bool := decide (x.Eq (.inf false)) || decide (x.Eq (Fl.neg (.inf false)))

/-- signbit.hpp:55: `arg < 0`. -/
def signbit (x : Fl) : Bool := decide (x.Lt (.fin false 0))

/-- copysign.hpp:64-66, for a floating-point magnitude. -/
def copysign (mag sgn : Fl) : Fl :=
  if isnan mag then (if signbit sgn then Fl.neg (.nan false) else .nan false)
  else if mag.Eq (.fin false 0) then (if signbit sgn then .fin true 0 else .fin false 0)
  else if signbit mag = signbit sgn then mag else mag.neg

/-- copysign.hpp:63, for an integer as magnitude. -/
def copysignInt (mag : ℤ) (sgn : Fl) : Fl := if signbit sgn = decide (mag < 0) then Fl.ofReal mag else (Fl.ofReal mag).neg

/-- abs.hpp:55, and hypot.hpp:58 for one argument. -/
def abs (x : Fl) : Fl := if signbit x then x.neg else x

/-- sqrt.hpp:90-102: the special cases; then Newton's method. -/
def sqrt (x : Fl) : Fl :=
  if isnan x ∨ x.Eq (.fin false 0) then x
  else if x.Lt (.fin false 0) then .nan false
  else if x.Eq (.inf false) then .inf false
  else .fin false (NNReal.sqrt x.mag)

/-- `std::max` of an initialiser list: the first of the greatest. -/
def maxOf : Fl → List Fl → Fl
  | m, [] => m
  | m, x :: l => if m.Lt x then maxOf x l else maxOf m l

/-- hypot.hpp:81-85, for two arguments or more. -/
def hypot (x : Fl) (l : List Fl) : Fl :=
  if (x :: l).any isinf then .inf false
  else if (x :: l).any isnan then .nan false
  else
    let m := maxOf (abs x) (l.map abs)
    if m.Eq (.fin false 0) then m
    else .fin false (m.mag * NNReal.sqrt (((x :: l).map fun a => (a.mag / m.mag) ^ 2).sum))

/-- What `fmod` does: it gives a number, throws, or converts out of range. -/
inductive Out
  | ret (x : Fl)
  | throws
  | undefined

/-- fmod.hpp:60-64, for finite numbers: `high` is `2^63 - 1` converted to floating point, which is `2^63`; a conversion to `intmax_t` truncates, and is undefined for `2^63`. -/
def fmodFin (a b : ℝ) : Out :=
  if a / b < -2 ^ 63 ∨ a / b > 2 ^ 63 then .throws
  else if a / b = 2 ^ 63 then .undefined
  else .ret (Fl.ofReal (a - (if 0 ≤ a / b then ⌊a / b⌋ else ⌈a / b⌉ : ℤ) * b))

/-- fmod.hpp:58-64. -/
def fmod (x y : Fl) : Out :=
  if isnan x ∨ isnan y ∨ isinf x ∨ y.Eq (.fin false 0) then .ret (.nan false)
  else if x.Eq (.fin false 0) ∨ isinf y then .ret x
  else fmodFin (Fl.val x.sign x.mag) (Fl.val y.sign y.mag)

end
end OpenKalman.Signs
