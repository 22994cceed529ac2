/-
What the functions of `values/math` are meant to compute. The results of floating-point functions are numbers, infinities and NaN; the meaning of
the integer power on them is the one of the C standard (Annex F, `pow`).
-/
import Mathlib.Data.Real.Basic
import Mathlib.Algebra.Field.Basic

namespace OpenKalman.Values

/-- A floating-point result: a number, an infinity with its sign, or NaN. -/
inductive Num (F : Type) where
  | fin (x : F)
  | inf (neg : Bool)
  | nan

/-- What a function that may throw does. -/
inductive Outcome (α : Type) where
  | ret (a : α)
  | throw
  | undefined

namespace Spec

open Classical in
/-- `pow(x, n)` for an integer `n`: one for `n = 0`, even if `x` is NaN; the power of a nonzero number; for a zero (with sign bit `zneg`) zero if
`n > 0`, and an infinity if `n < 0`, signed only if `n` is odd; for an infinity zero if `n < 0` and an infinity if `n > 0`, signed only if `n` is
odd. -/
noncomputable def pow (x : Num ℝ) (zneg : Bool) (n : ℤ) : Num ℝ :=
  if n = 0 then .fin 1
  else match x with
    | .nan => .nan
    | .fin x =>
      if x ≠ 0 then .fin (x ^ n)
      else if 0 < n then .fin 0
      else .inf (zneg && decide (Odd n))
    | .inf neg => if n < 0 then .fin 0 else .inf (neg && decide (Odd n))

/-- `r` is the remainder of `x` modulo `y` truncated toward zero: `x` minus an integral multiple of `y`, smaller than `y` in magnitude, and not of
the sign opposite to `x`. -/
def IsFmod (x y r : ℝ) : Prop := (∃ k : ℤ, r = x - k * y) ∧ |r| < |y| ∧ 0 ≤ r * x

end Spec

end OpenKalman.Values
