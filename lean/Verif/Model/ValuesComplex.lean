/-
Model of the Euclidean norm and of the complex-valued and inverse functions of `OpenKalman/values/math`.

Simplifications as in `Verif/Model/ValuesReal.lean`; `values::sqrt` of a non-negative real number is its square root, to which the iteration there
converges. `none` is a result that is not a number (NaN, an infinity, or undefined behaviour of a function called).
-/
import Verif.Model.ValuesReal
import Mathlib.Analysis.SpecialFunctions.Complex.Log

namespace OpenKalman.Values

open Real

/-- `signbit` by comparison with zero (values/math/signbit.hpp:58). -/
noncomputable def signbit (x : ℝ) : Bool := decide (x < 0)

/-- `copysign` of finite numbers (values/math/copysign.hpp:67). -/
noncomputable def copysign (mag sgn : ℝ) : ℝ := if signbit mag = signbit sgn then mag else -mag

/-- `values::signbit(a) ? -a : a` (values/math/abs.hpp:55, hypot.hpp:58, 64, 85). -/
noncomputable def absReal (x : ℝ) : ℝ := if signbit x then -x else x

/-- `hypot` of finite real arguments (values/math/hypot.hpp:53-59, 85-87): one argument, or the scaled sum of squares. -/
noncomputable def hypotReal : List ℝ → ℝ
  | [] => 0
  | [x] => absReal x
  | x :: y :: l =>
    let m := ((y :: l).map absReal).foldl max (absReal x)
    if m = 0 then m else m * √((((y :: l).map fun a => a / m * (a / m)).foldl (· + ·) (x / m * (x / m))))

/-- `sqrt` of a finite complex number (values/math/sqrt.hpp:81-87). -/
noncomputable def sqrtC (z : ℂ) : ℂ :=
  let nx := √(z.re * z.re + z.im * z.im)
  ⟨√(0.5 * (nx + z.re)), copysign (√(0.5 * (nx - z.re))) z.im⟩

/-- `hypot` of finite complex arguments (values/math/hypot.hpp:60-70). -/
noncomputable def hypotC (x y : ℂ) (l : List ℂ) : ℂ :=
  let m := ((y :: l).map fun a => absReal a.re).foldl max (absReal x.re)
  let m := ((x :: y :: l).map fun a => absReal a.im).foldl max m
  if m = 0 then ⟨0, 0⟩
  else
    let sq := fun a b : ℝ => a * a - b * b
    let pr := fun a b : ℝ => 2 * a * b
    let r := ((y :: l).map fun a => sq (a.re / m) (a.im / m)).foldl (· + ·) (sq (x.re / m) (x.im / m))
    let i := ((y :: l).map fun a => pr (a.re / m) (a.im / m)).foldl (· + ·) (pr (x.re / m) (x.im / m))
    let s := sqrtC ⟨r, i⟩
    ⟨m * s.re, m * s.im⟩

/-- `abs` of a complex number (values/math/abs.hpp:53). -/
noncomputable def absC (z : ℂ) : ℝ := hypotReal [z.re, z.im]

theorem sqrt_one_sub_sq_lt {x : ℝ} (h : √2 * 0.5 < |x|) : √(1 - x * x) ≤ √2 * 0.5 := by
  have h2 : √2 ^ 2 = 2 := Real.sq_sqrt (by norm_num)
  have h0 := Real.sqrt_nonneg 2
  rw [Real.sqrt_le_left (by positivity)]
  have h3 : (√2 * 0.5) ^ 2 < |x| ^ 2 := by gcongr
  rw [sq_abs] at h3
  norm_num at h3 ⊢
  nlinarith

/-- `asin_impl` (values/math/internal/asin_utils.hpp:34-45). -/
noncomputable def asinReal (x : ℝ) : Option ℝ :=
  if -(√2 * 0.5) ≤ x ∧ x ≤ √2 * 0.5 then some (limit (asinCalls x))
  else if √2 * 0.5 < x ∧ x < 1 then (asinReal (√(1 - x * x))).map (π * 0.5 - ·)
  else if -1 < x ∧ x < -(√2 * 0.5) then (asinReal (√(1 - x * x))).map (-(π * 0.5) + ·)
  else if x = 1 then some (π * 0.5)
  else if x = -1 then some (-(π * 0.5))
  else none
termination_by if |x| ≤ √2 * 0.5 then 0 else 1
decreasing_by
  all_goals
    rename_i hc
    have hx : √2 * 0.5 < |x| := by
      first
      | exact hc.1.trans_le (le_abs_self x)
      | exact lt_of_lt_of_le (by linarith [hc.2]) (neg_le_abs x)
    rw [if_pos (by rw [abs_of_nonneg (Real.sqrt_nonneg _)]; exact sqrt_one_sub_sq_lt hx), if_neg (not_le.2 hx)]
    exact Nat.one_pos

/-- `acos` of a finite real number (values/math/acos.hpp:63-66). -/
noncomputable def acosReal (x : ℝ) : Option ℝ := if x = 1 then some 0 else (asinReal x).map (π / 2 - ·)

/-- `atan_impl` (values/math/internal/math_utils.hpp:29-32). -/
noncomputable def atanReal (x : ℝ) : Option ℝ := asinReal (x / √(1 + x * x))

/-- `atan2_impl` of finite numbers (values/math/internal/math_utils.hpp:64-79). -/
noncomputable def atan2Real (y x : ℝ) : Option ℝ :=
  if x > 0 then atanReal (y / x)
  else if x < 0 then
    if y > 0 then (atanReal (y / x)).map (· + π)
    else if y < 0 then (atanReal (y / x)).map (· - π)
    else some (copysign π y)
  else
    if y > 0 then some (π / 2)
    else if y < 0 then some (-π / 2)
    else some (if signbit x then copysign π y else copysign 0 y)

/-- The number in a result, if it is one. -/
def Num.toOption {F : Type} : Num F → Option F
  | .fin x => some x
  | _ => none

/-- `log` of a finite complex number in an IEC 559 type (values/math/log.hpp:64-71). -/
noncomputable def logC (z : ℂ) : Option ℂ := do
  let l ← (logReal (z.re * z.re + z.im * z.im)).bind Num.toOption
  let t ← atan2Real z.im z.re
  some ⟨0.5 * l, t⟩

/-- `log1p` of a finite complex number (values/math/log1p.hpp:71-78). -/
noncomputable def log1pC (z : ℂ) : Option ℂ := do
  let l ← (log1pReal (z.re * z.re + 2 * z.re + z.im * z.im)).bind Num.toOption
  let t ← atan2Real z.im (z.re + 1)
  some ⟨0.5 * l, t⟩

/-- `exp` of a finite complex number (values/math/exp.hpp:66-73). -/
noncomputable def expC (w : ℕ) (z : ℂ) : Option ℂ := do
  let ea ← expReal w z.re
  let theta ← scalePeriodic z.im
  let sinb := limit (sinCalls theta)
  let cosb := limit (cosCalls 1 theta)
  some ⟨ea * cosb, ea * sinb⟩

/-- `expm1` of a finite complex number (values/math/expm1.hpp:59-67). -/
noncomputable def expm1C (w : ℕ) (z : ℂ) : Option ℂ := do
  let ea ← expm1Real w z.re
  let theta ← scalePeriodic z.im
  let sinb := limit (sinCalls theta)
  let cosbm1 := limit (cosCalls 0 theta)
  some ⟨ea * (cosbm1 + 1) + cosbm1, ea * sinb + sinb⟩

/-- `sinh` of a finite real number (values/math/sinh.hpp:80-83). -/
noncomputable def sinhReal (w : ℕ) (x : ℝ) : Option ℝ :=
  if x = 0 then some x else (expReal w x).map fun ex => (ex - 1 / ex) * 0.5

/-- `cosh` of a finite real number (values/math/cosh.hpp:77-78). -/
noncomputable def coshReal (w : ℕ) (x : ℝ) : Option ℝ := (expReal w x).map fun ex => (ex + 1 / ex) * 0.5

/-- `tanh` of a finite real number (values/math/tanh.hpp:80-84). -/
noncomputable def tanhReal (w : ℕ) (x : ℝ) : Option ℝ :=
  if x = 0 then some x else (expReal w x).map fun ex => (ex * ex - 1) / (ex * ex + 1)

/-- `sinh` of a finite complex number (values/math/sinh.hpp:66-75). -/
noncomputable def sinhC (w : ℕ) (z : ℂ) : Option ℂ := (expC w z).map fun ex =>
  if ex.im = 0 then ⟨(ex.re - 1 / ex.re) * 0.5, 0⟩
  else
    let denom1 := 1 / (ex.re * ex.re + ex.im * ex.im)
    ⟨0.5 * ex.re * (1 - denom1), 0.5 * ex.im * (1 + denom1)⟩

/-- `cosh` of a finite complex number (values/math/cosh.hpp:62-71). -/
noncomputable def coshC (w : ℕ) (z : ℂ) : Option ℂ := (expC w z).map fun ex =>
  if ex.im = 0 then ⟨(ex.re + 1 / ex.re) * 0.5, 0⟩
  else
    let denom1 := 1 / (ex.re * ex.re + ex.im * ex.im)
    ⟨0.5 * ex.re * (1 + denom1), 0.5 * ex.im * (1 - denom1)⟩

/-- `tanh` of a finite complex number (values/math/tanh.hpp:60-70); a zero denominator gives no number. -/
noncomputable def tanhC (w : ℕ) (z : ℂ) : Option ℂ :=
  if z.re = 0 ∧ z.im = 0 then some ⟨0, 0⟩
  else (expC w z).bind fun ex =>
    let d := ex.re * ex.re - ex.im * ex.im
    let b := 2 * ex.re * ex.im
    let d2b2 := d * d + b * b
    let denom := d2b2 + 2 * d + 1
    if denom = 0 then none else some ⟨(d2b2 - 1) / denom, 2 * b / denom⟩

/-- `sin` of a finite complex number (values/math/sin.hpp:59-66). -/
noncomputable def sinC (w : ℕ) (z : ℂ) : Option ℂ := do
  let theta ← scalePeriodic z.re
  let sinre := limit (sinCalls theta)
  let cosre := limit (cosCalls 1 theta)
  let ch ← coshReal w z.im
  let sh ← sinhReal w z.im
  some ⟨sinre * ch, cosre * sh⟩

/-- `cos` of a finite complex number (values/math/cos.hpp:58-66). -/
noncomputable def cosC (w : ℕ) (z : ℂ) : Option ℂ := do
  let theta ← scalePeriodic z.re
  let sinre := limit (sinCalls theta)
  let cosre := limit (cosCalls 1 theta)
  let ch ← coshReal w z.im
  let sh ← sinhReal w z.im
  some ⟨cosre * ch, -sinre * sh⟩

/-- `tan` of a finite complex number (values/math/tan.hpp:57-64); a zero denominator gives no number. -/
noncomputable def tanC (w : ℕ) (z : ℂ) : Option ℂ := do
  let sx ← sinC w z
  let cx ← cosC w z
  let denom := cx.re * cx.re + cx.im * cx.im
  if denom = 0 then none
  else some ⟨(sx.re * cx.re + sx.im * cx.im) / denom, (sx.im * cx.re - sx.re * cx.im) / denom⟩

/-- `asin` of a finite complex number (values/math/asin.hpp:59-63). -/
noncomputable def asinC (z : ℂ) : Option ℂ :=
  let sqt := sqrtC ⟨1 - z.re * z.re + z.im * z.im, -2 * z.re * z.im⟩
  (logC ⟨sqt.re + z.im, sqt.im - z.re⟩).map fun lg => ⟨-lg.im, lg.re⟩

/-- `acos` of a finite complex number (values/math/acos.hpp:58-59). -/
noncomputable def acosC (z : ℂ) : Option ℂ := (asinC z).map fun s => ⟨π / 2 - s.re, -s.im⟩

/-- `atan_impl_general` of a finite complex number (values/math/internal/atan_utils.hpp:34-48). -/
noncomputable def atanC (z : ℂ) : Option ℂ := do
  let ar := -z.im
  let ai := z.re
  let la ← (log1pReal (ar * ar + 2 * ar + ai * ai)).bind Num.toOption
  let lar := 0.5 * la
  let lai ← atan2Real ai (ar + 1)
  let br := z.im
  let bi := -z.re
  let lb ← (log1pReal (br * br + 2 * br + bi * bi)).bind Num.toOption
  let lbr := 0.5 * lb
  let lbi ← atan2Real bi (br + 1)
  some ⟨0.5 * (lai - lbi), 0.5 * (lbr - lar)⟩

/-- `atan2` of finite complex arguments (values/math/atan2.hpp:60-86). -/
noncomputable def atan2C (y x : ℂ) : Option ℂ :=
  if x.re = 0 ∧ x.im = 0 then
    if y.re > 0 then some ⟨0.5 * π, 0⟩
    else if y.re < 0 then some ⟨-(0.5 * π), 0⟩
    else some ⟨0, 0⟩
  else if y.re = 0 ∧ y.im = 0 then
    if x.re < 0 then some ⟨π, 0⟩ else some ⟨0, 0⟩
  else
    let denom := x.re * x.re + x.im * x.im
    (atanC ⟨(y.re * x.re + y.im * x.im) / denom, (y.im * x.re - y.re * x.im) / denom⟩).map fun raw =>
      if raw.re > π then ⟨raw.re - π, raw.im⟩
      else if raw.re < -π then ⟨raw.re + π, raw.im⟩
      else ⟨raw.re, raw.im⟩

/-- `asinh` of a finite real number (values/math/asinh.hpp:70-76). -/
noncomputable def asinhReal (x : ℝ) : Option ℝ :=
  if x = 0 then some x else (logReal (x + √(x * x + 1))).bind Num.toOption

/-- `acosh` of a finite real number (values/math/acosh.hpp:73-78). -/
noncomputable def acoshReal (x : ℝ) : Option ℝ :=
  if x = 1 then some 0 else if x < 1 then none else (logReal (x + √(x * x - 1))).bind Num.toOption

/-- `atanh` of a finite real number (values/math/atanh.hpp:71-77). -/
noncomputable def atanhReal (x : ℝ) : Option ℝ :=
  if x < -1 ∨ x > 1 then none
  else if x = 1 ∨ x = -1 then none
  else if x = 0 then some x
  else ((logReal ((1 + x) / (1 - x))).bind Num.toOption).map (0.5 * ·)

/-- `asinh` of a finite complex number (values/math/asinh.hpp:59-65). -/
noncomputable def asinhC (z : ℂ) : Option ℂ :=
  let sqt := sqrtC ⟨z.re * z.re - z.im * z.im + 1, 2 * z.re * z.im⟩
  logC ⟨z.re + sqt.re, z.im + sqt.im⟩

/-- `acosh` of a finite complex number (values/math/acosh.hpp:59-68). -/
noncomputable def acoshC (z : ℂ) : Option ℂ :=
  let p := sqrtC ⟨z.re + 1, z.im⟩
  let m := sqrtC ⟨z.re - 1, z.im⟩
  logC ⟨z.re + p.re * m.re - p.im * m.im, z.im + p.re * m.im + p.im * m.re⟩

/-- `atanh` of a finite complex number (values/math/atanh.hpp:58-64); a zero denominator gives no number. -/
noncomputable def atanhC (z : ℂ) : Option ℂ :=
  let denom := 1 - 2 * z.re + z.re * z.re + z.im * z.im
  if denom = 0 then none
  else (logC ⟨(1 - z.re * z.re - z.im * z.im) / denom, 2 * z.im / denom⟩).map fun lg => ⟨0.5 * lg.re, 0.5 * lg.im⟩

end OpenKalman.Values
