import Mathlib.Data.Rat.Floor

/-!
# Specification of closeness, comparison and conversion of numbers (C92–C94)

A number has a type: unsigned or signed with so many bits, floating with so many digits, or complex with parts of one of these types.  Two real numbers
are close if they differ by no more than the tolerance, and conversion to a type that can represent a number keeps the number.
-/

namespace OpenKalman.Scalars

/-- Real number types.  `float` and `double` are `flt 24` and `flt 53`. -/
inductive RTy | uint (w : ℕ) | sint (w : ℕ) | flt (digits : ℕ)
  deriving DecidableEq

/-- Number types. -/
inductive Ty | real (t : RTy) | cplx (t : RTy)
  deriving DecidableEq

/-- A number with its type. -/
structure Num where
  ty : Ty
  re : ℚ
  im : ℚ
  deriving DecidableEq

/-- The values of a type.  Floating types are unlimited here: neither rounding nor the largest number is modelled. -/
def RTy.Rep : RTy → ℚ → Prop
  | .uint w, x => ∃ z : ℤ, x = z ∧ 0 ≤ z ∧ z < 2 ^ w
  | .sint w, x => ∃ z : ℤ, x = z ∧ -2 ^ w ≤ 2 * z ∧ 2 * z < 2 ^ w
  | .flt _, _ => True

/-- The type of the parts. -/
def Ty.elem : Ty → RTy
  | .real t => t
  | .cplx t => t

/-- The type is complex. -/
def Ty.Complex : Ty → Prop
  | .real _ => False
  | .cplx _ => True

/-- The number is a value of its type. -/
def Num.Ok (p : Num) : Prop := p.ty.elem.Rep p.re ∧ p.ty.elem.Rep p.im ∧ (¬ p.ty.Complex → p.im = 0)

/-- Bits of an integral type, at least those of `int`, which has 32. -/
def RTy.bits : RTy → ℕ
  | .uint w => max 32 w
  | .sint w => max 32 w
  | .flt _ => 0

/-- Digits of a floating type. -/
def RTy.digits : RTy → ℕ
  | .flt k => k
  | _ => 0

/-- Floating. -/
def RTy.IsFlt (t : RTy) : Prop := ∃ k, t = .flt k

/-- Unsigned, also in expressions: narrower unsigned types become `int`. -/
def RTy.IsWideUnsigned (t : RTy) : Prop := ∃ w, t = .uint w ∧ 32 ≤ w

/-- The machine epsilon of the wider of two types of which one is floating. -/
def epsilon (a b : RTy) : ℚ := 2 / 2 ^ max a.digits b.digits

/-- A difference of two integers that the type of their difference can hold if it is signed. -/
def DiffFits (a b : RTy) (d : ℚ) : Prop := -2 ^ max a.bits b.bits ≤ 2 * d ∧ 2 * d < 2 ^ max a.bits b.bits

/-- Squared modulus of the difference. -/
def Num.distSq (p q : Num) : ℚ := (p.re - q.re) ^ 2 + (p.im - q.im) ^ 2

end OpenKalman.Scalars
