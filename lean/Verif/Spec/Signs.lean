import Mathlib.Data.Real.Sqrt
import Mathlib.Algebra.Order.Floor.Ring
import Mathlib.Algebra.BigOperators.Group.List.Basic

/-!
# Specification: functions of floating-point numbers with signed zeros, infinities and NaN (C171)

What Annex F of the C standard says of `signbit`, `copysign`, `fabs`, `isnan`, `isinf`, `sqrt`, `hypot` and `fmod`.  The magnitude of a finite number is an exact real number.
-/

namespace OpenKalman.Signs
open NNReal

/-- A floating-point number; `s` says that the sign bit is set. -/
inductive Fl
  | nan (s : Bool)
  | inf (s : Bool)
  | fin (s : Bool) (m : ℝ≥0)

namespace Fl

def sign : Fl → Bool
  | nan s => s
  | inf s => s
  | fin s _ => s

def withSign (s : Bool) : Fl → Fl
  | nan _ => nan s
  | inf _ => inf s
  | fin _ m => fin s m

def IsNaN : Fl → Prop
  | nan _ => True
  | _ => False

def IsInf : Fl → Prop
  | inf _ => True
  | _ => False

def IsZero : Fl → Prop
  | fin _ m => m = 0
  | _ => False

/-- The magnitude of a finite number. -/
def mag : Fl → ℝ≥0
  | fin _ m => m
  | _ => 0

/-- The real number of a finite one. -/
noncomputable def val (s : Bool) (m : ℝ≥0) : ℝ := if s then -m else m

/-! ### Operators of the language -/

/-- Unary minus. -/
def neg (x : Fl) : Fl := x.withSign !x.sign

/-- `x < y`, which is false if one is NaN. -/
def Lt : Fl → Fl → Prop
  | nan _, _ => False
  | _, nan _ => False
  | inf s, inf t => s = true ∧ t = false
  | inf s, fin _ _ => s = true
  | fin _ _, inf t => t = false
  | fin s m, fin t k => val s m < val t k

/-- `x == y`. -/
def Eq : Fl → Fl → Prop
  | inf s, inf t => s = t
  | fin s m, fin t k => val s m = val t k
  | _, _ => False

/-- An exact result; an exact zero is positive. -/
noncomputable def ofReal (r : ℝ) : Fl := fin (decide (r < 0)) (Real.nnabs r)

end Fl

/-- Equal, but for the sign of a zero or of a NaN. -/
def Agree : Fl → Fl → Prop
  | .nan _, .nan _ => True
  | .inf s, .inf t => s = t
  | .fin s m, .fin t k => m = k ∧ (m ≠ 0 → s = t)
  | _, _ => False

namespace C
noncomputable section
open scoped Classical

def sqrt : Fl → Fl
  | .nan s => .nan s
  | .inf s => if s then .nan false else .inf false
  | .fin s m => if m = 0 then .fin s 0 else if s then .nan false else .fin false (NNReal.sqrt m)

/-- Infinite if an argument is, even if another is NaN. -/
def hypot (l : List Fl) : Fl :=
  if ∃ x ∈ l, x.IsInf then .inf false
  else if ∃ x ∈ l, x.IsNaN then .nan false
  else .fin false (NNReal.sqrt (l.map fun x => x.mag ^ 2).sum)

/-- The remainder has the sign of `x`, even if it is zero. -/
def fmod : Fl → Fl → Fl
  | .fin s m, .fin _ k => if k = 0 then .nan false else .fin s (m - ⌊m / k⌋₊ * k)
  | .fin s m, .inf _ => .fin s m
  | _, _ => .nan false

end
end C

end OpenKalman.Signs
