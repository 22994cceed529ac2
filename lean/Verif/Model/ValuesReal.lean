/-
Model of the real-valued functions of `OpenKalman/values/math`: the integer power, the exponential and logarithm with their range scaling, the
square-root iteration, the remainder, and the range reduction of sine and cosine.

Simplifications.
* A floating-point number is an exact real number; infinities and NaN are kept as separate results (`Num`, see Verif/Spec/Values.lean), and zero has the positive sign unless a
  sign is passed explicitly.
* Only the fallback written in OpenKalman is modelled, not the branch that calls the `std` function when that one can be called in a constant
  expression.
* A loop or recursion that runs until two successive floating-point values agree is modelled by the sequence of values it goes through; where another
  function uses its result, the limit of the sequence is used.
* Undefined behaviour (signed overflow, an out-of-range conversion to an integer type) and a recursion that never ends are the result `none`.
-/
import Verif.Spec.Values
import Mathlib.Analysis.SpecialFunctions.Log.Basic
import Mathlib.Analysis.SpecialFunctions.Trigonometric.Basic
import Mathlib.Analysis.SpecialFunctions.Pow.Real
import Mathlib.Topology.Separation.Hausdorff

namespace OpenKalman.Values

open Real Topology

/-- `Arg{1} / r` on results. -/
def Num.inv {F : Type} [Field F] : Num F → Num F
  | .fin x => .fin (1 / x)
  | .inf _ => .fin 0
  | .nan => .nan

/-- `a * r` on results that are numbers; the recursion below only multiplies numbers. -/
def Num.mul {F : Type} [Field F] : Num F → Num F → Num F
  | .fin x, .fin y => .fin (x * y)
  | _, _ => .nan

/-- `r / a` on results that are numbers. -/
def Num.div {F : Type} [Field F] : Num F → F → Num F
  | .fin x, a => .fin (x / a)
  | _, _ => .nan

/-- The least value of a signed integer type with `w` bits. -/
def intMin (w : ℕ) : ℤ := -2 ^ (w - 1)

/-- Unary minus on a signed integer type with `w` bits: overflows on the least value. -/
def negInt (w : ℕ) (n : ℤ) : Option ℤ := if n = intMin w then none else some (-n)

open Classical in
/-- `detail::pow_integral` (values/math/pow.hpp:41-73). `zneg` is the sign bit of the real part of a zero argument. The integer type of the exponent
has `w` bits; `%` and `/` truncate toward zero. -/
noncomputable def powIntegral {F : Type} [Field F] (w : ℕ) (arg : F) (zneg : Bool) (n : ℤ) : Option (Num F) :=
  if h0 : n = 0 then some (.fin 1)
  else if h1 : arg ≠ 0 ∧ n < 0 then
    if n = intMin w then none else (powIntegral w arg zneg (-n)).map Num.inv
  else if h2 : n.tmod 2 = 1 then
    if arg = 0 then some (.fin arg) else (powIntegral w arg zneg (n - 1)).map (Num.mul (.fin arg))
  else if n = intMin w then none
  else if h3 : (-n).tmod 2 = 1 then
    if arg = 0 then some (.inf zneg) else (powIntegral w arg zneg (n + 1)).map (Num.div · arg)
  else
    if arg = 0 then some (if n > 0 then .fin 0 else .inf false)
    else do
      let a ← powIntegral w arg zneg (n.tdiv 2)
      let b ← powIntegral w arg zneg (n.tdiv 2)
      some (a.mul b)
termination_by 2 * n.natAbs + (if n < 0 then 1 else 0)
decreasing_by
  · have := h1.2
    rw [if_pos this, if_neg (by omega : ¬ (-n < 0))]; omega
  · have hn : 0 < n := by
      rcases lt_trichotomy n 0 with h | h | h
      · have := Int.tmod_nonneg (a := -n) 2 (by omega); rw [Int.neg_tmod] at this; omega
      · omega
      · exact h
    rw [if_neg (by omega : ¬ (n - 1 < 0)), if_neg (by omega : ¬ (n < 0))]; omega
  · have hn : n < 0 := by
      rcases lt_trichotomy n 0 with h | h | h
      · exact h
      · omega
      · have := Int.tmod_nonneg (a := n) 2 (by omega); rw [Int.neg_tmod] at h3; omega
    rw [if_pos hn]; split_ifs <;> omega
  all_goals
    have hlt : (n.tdiv 2).natAbs < n.natAbs := by
      rw [Int.natAbs_tdiv]; exact Nat.div_lt_self (by omega) (by decide)
    split_ifs <;> omega

/-- `pow` with a real base and an integral exponent (values/math/pow.hpp:120-146). -/
noncomputable def powReal (w : ℕ) (arg : Num ℝ) (zneg : Bool) (n : ℤ) : Option (Num ℝ) :=
  match arg with
  | .nan => some (if n = 0 then .fin 1 else .nan)
  | .inf neg =>
    if n = 0 then some (.fin 1)
    else if n.tmod 2 = 1 then some (.inf neg)
    else if n = intMin w then none
    else if (-n).tmod 2 = 1 then some (.fin 0)
    else if n > 0 then some (.inf false)
    else some (.fin 0)
  | .fin x =>
    if x = 1 then some (.fin 1)
    else if n = 0 then some (.fin 1)
    else if n.tmod 2 ≠ 1 ∧ n = intMin w then none
    else powIntegral w x zneg n

/-- `integral_exp` (values/math/internal/exp_utils.hpp:32-41). -/
noncomputable def integralExp (w : ℕ) (x : ℤ) : Option ℝ :=
  if _h0 : x = 0 then some 1
  else if _h1 : x = 1 then some (rexp 1)
  else if h2 : x < 0 then
    if x = intMin w then none else (integralExp w (-x)).map (1 / ·)
  else if x.tmod 2 = 1 then (integralExp w (x - 1)).map (rexp 1 * ·)
  else (integralExp w (x.tdiv 2)).map fun ehalf => ehalf * ehalf
termination_by 2 * x.natAbs + (if x < 0 then 1 else 0)
decreasing_by
  · rw [if_pos h2, if_neg (by omega : ¬ (-x < 0))]; omega
  · rw [if_neg (by omega : ¬ (x - 1 < 0)), if_neg h2]; omega
  · have hlt : (x.tdiv 2).natAbs < x.natAbs := by
      rw [Int.natAbs_tdiv]; exact Nat.div_lt_self (by omega) (by decide)
    split_ifs <;> omega

/-- The state of a series recursion after some number of calls: the counter, the partial sum and the next term. -/
structure Series where
  i : ℕ
  sum : ℝ
  term : ℝ

/-- One call of `exp_impl` (values/math/internal/exp_utils.hpp:24-29). -/
noncomputable def expStep (x : ℝ) (s : Series) : Series := ⟨s.i + 1, s.sum + s.term, s.term * x / (s.i + 1 : ℕ)⟩

/-- The calls of `exp_impl(1, x, c, x)`: `c = 1` in `exp` (values/math/exp.hpp:86, 92) and `c = 0` in `expm1` (values/math/expm1.hpp:90, 97). -/
noncomputable def expCalls (c x : ℝ) : ℕ → Series
  | 0 => ⟨1, c, x⟩
  | n + 1 => expStep x (expCalls c x n)

/-- One call of `sin_cos_impl` (values/math/internal/periodic_utils.hpp:26-32). -/
noncomputable def sinCosStep (x : ℝ) (s : Series) : Series :=
  ⟨s.i + 2, s.sum + s.term, s.term * x * x / (-(s.i : ℝ) * (s.i + 1))⟩

/-- The calls of `sin_cos_impl(4, x, x, x*x*x / -6)`: the sine (values/math/sin.hpp:72, exp.hpp:70). -/
noncomputable def sinCalls (x : ℝ) : ℕ → Series
  | 0 => ⟨4, x, x * x * x / -6⟩
  | n + 1 => sinCosStep x (sinCalls x n)

/-- The calls of `sin_cos_impl(3, x, c, -0.5*x*x)`: the cosine with `c = 1` (values/math/cos.hpp:72, exp.hpp:71) and the cosine minus one with
`c = 0` (expm1.hpp:65). -/
noncomputable def cosCalls (c x : ℝ) : ℕ → Series
  | 0 => ⟨3, c, -0.5 * x * x⟩
  | n + 1 => sinCosStep x (cosCalls c x n)

/-- One call of `log1p_impl` (values/math/log1p.hpp:41-47). -/
noncomputable def log1pStep (x : ℝ) (s : Series) : Series := ⟨s.i + 1, s.sum + x * s.term / s.i, s.term * -x⟩

/-- The calls of `log1p_impl(2, x, x, -x)` (values/math/log1p.hpp:95). -/
noncomputable def log1pCalls (x : ℝ) : ℕ → Series
  | 0 => ⟨2, x, -x⟩
  | n + 1 => log1pStep x (log1pCalls x n)

/-- One call of `asin_series` (values/math/internal/asin_utils.hpp:25-30). -/
noncomputable def asinStep (x : ℝ) (s : Series) : Series :=
  ⟨s.i + 2, s.sum + s.term / s.i, s.term * x * x * s.i / (s.i + 1 : ℕ)⟩

/-- The calls of `asin_series(3, x, x, half*x*x*x)` (values/math/internal/asin_utils.hpp:39). -/
noncomputable def asinCalls (x : ℝ) : ℕ → Series
  | 0 => ⟨3, x, 0.5 * x * x * x⟩
  | n + 1 => asinStep x (asinCalls x n)

/-- Truncation toward zero, as in a conversion of a floating-point number to an integer. -/
noncomputable def trunc (x : ℝ) : ℤ := if 0 ≤ x then ⌊x⌋ else ⌈x⌉

/-- Conversion of a floating-point number to a signed integer type with `w` bits: undefined when the truncated value does not fit. -/
noncomputable def castInt (w : ℕ) (x : ℝ) : Option ℤ :=
  if -2 ^ (w - 1) ≤ trunc x ∧ trunc x < 2 ^ (w - 1) then some (trunc x) else none

/-- The value a converging series recursion returns. -/
noncomputable def limit (u : ℕ → Series) : ℝ := Filter.limUnder Filter.atTop fun n => (u n).sum

/-- `int arg_trunc = static_cast<int>(arg) - (arg < 0 ? 1 : 0)` (values/math/exp.hpp:90, expm1.hpp:94), for an `int` with `w` bits. -/
noncomputable def truncDown (w : ℕ) (x : ℝ) : Option ℤ := do
  let t ← castInt w x
  if x < 0 then (if t = intMin w then none else some (t - 1)) else some t

/-- `exp` of a finite real number (values/math/exp.hpp:83-94). -/
noncomputable def expReal (w : ℕ) (x : ℝ) : Option ℝ :=
  if x = 0 then some 1
  else if 0 < x ∧ x < 1 then some (limit (expCalls 1 x))
  else do
    let t ← truncDown w x
    let frac := x - t
    let e ← integralExp w t
    some (e * limit (expCalls 1 frac))

/-- `expm1` of a finite real number (values/math/expm1.hpp:87-99). -/
noncomputable def expm1Real (w : ℕ) (x : ℝ) : Option ℝ :=
  if 0 ≤ x ∧ x < 1 then (if x = 0 then some x else some (limit (expCalls 0 x)))
  else do
    let t ← truncDown w x
    let frac := x - t
    let e ← integralExp w t
    let et := e - 1
    let er := limit (expCalls 0 frac)
    some (et * er + et + er)

/-- `log_scaling_gt` (values/math/internal/log_utils.hpp:44-51). -/
noncomputable def logScalingGt (x corr : ℝ) : ℝ × ℝ :=
  if x < 2 ^ 4 then (x, corr)
  else if x < 2 ^ 16 then logScalingGt (x * (2 ^ 4)⁻¹) (corr + 4 * log 2)
  else if x < 2 ^ 64 then logScalingGt (x * (2 ^ 16)⁻¹) (corr + 16 * log 2)
  else logScalingGt (x * (2 ^ 64)⁻¹) (corr + 64 * log 2)
termination_by ⌊x⌋₊
decreasing_by
  all_goals
    apply (Nat.floor_lt' (by rw [Ne, Nat.floor_eq_zero, not_lt]; linarith)).2
    have h1 : (⌊x⌋₊ : ℝ) + 1 > x := Nat.lt_floor_add_one x
    have h2 : (1 : ℝ) ≤ ⌊x⌋₊ := by
      have : 1 ≤ ⌊x⌋₊ := Nat.le_floor (by push_cast; linarith)
      exact_mod_cast this
    norm_num at *
    linarith

/-- `log_scaling_lt` (values/math/internal/log_utils.hpp:54-61). It does not return when `x` is not positive. -/
noncomputable def logScalingLt (x corr : ℝ) : Option (ℝ × ℝ) :=
  if hx : x ≤ 0 then none
  else if x > (2 ^ 4)⁻¹ then some (x, corr)
  else if x > (2 ^ 16)⁻¹ then logScalingLt (x * 2 ^ 4) (corr - 4 * log 2)
  else if x > (2 ^ 64)⁻¹ then logScalingLt (x * 2 ^ 16) (corr - 16 * log 2)
  else logScalingLt (x * 2 ^ 64) (corr - 64 * log 2)
termination_by ⌊x⁻¹⌋₊
decreasing_by
  all_goals
    have hx' : 0 < x := lt_of_not_ge hx
    have hinv : (16 : ℝ) ≤ x⁻¹ := by
      rw [le_inv_comm₀ (by norm_num) hx']; norm_num at *; linarith
    apply (Nat.floor_lt' (by rw [Ne, Nat.floor_eq_zero, not_lt]; linarith)).2
    have h1 : (⌊x⁻¹⌋₊ : ℝ) + 1 > x⁻¹ := Nat.lt_floor_add_one _
    rw [mul_inv]
    norm_num at *
    linarith

/-- One step of `log_impl`, Halley's iteration for the logarithm of `x` (values/math/internal/log_utils.hpp:26-27). -/
noncomputable def halleyStep (x y : ℝ) : ℝ := y + 2 * (x - rexp y) / (x + rexp y)

/-- The values `log_impl(x)` goes through; it starts at zero (values/math/internal/log_utils.hpp:24). -/
noncomputable def halley (x : ℝ) : ℕ → ℝ
  | 0 => 0
  | n + 1 => halleyStep x (halley x n)

/-- The argument `cmp` of the call of `log_impl` that starts from the `n`-th value: the direction of the step before
(values/math/internal/log_utils.hpp:24, 37). -/
noncomputable def halleyCmp (x : ℝ) : ℕ → ℤ
  | 0 => 0
  | n + 1 => if halley x (n + 1) > halley x n then 1 else if halley x (n + 1) < halley x n then -1 else 0

/-- The stop test of `log_impl` after the step from `y0` to `y1`; `cmp` is the direction of the step before
(values/math/internal/log_utils.hpp:35-38). -/
noncomputable def halleyStop (y0 y1 : ℝ) (cmp : ℤ) : Prop := y1 = y0 ∨ (cmp < 0 ∧ y1 > y0) ∨ (cmp > 0 ∧ y1 < y0)

/-- `log` of a finite real number (values/math/log.hpp:74-78); `none` when the scaling does not return. -/
noncomputable def logReal (x : ℝ) : Option (Num ℝ) :=
  if x = 1 then some (.fin 0)
  else if x = 0 then some (.inf true)
  else if x < 0 then some .nan
  else
    (if x ≥ 16 then some (logScalingGt x 0) else logScalingLt x 0).map fun (scaled, corr) =>
      .fin (Filter.limUnder Filter.atTop (halley scaled) + corr)

/-- `log1p` of a finite real number (values/math/log1p.hpp:89-97). -/
noncomputable def log1pReal (x : ℝ) : Option (Num ℝ) :=
  if x = 0 then some (.fin x)
  else if x = -1 then some (.inf true)
  else if x < -1 then some .nan
  else if -0.125 < x ∧ x < 0.125 then some (.fin (limit (log1pCalls x)))
  else
    (if x ≥ 16 then some (logScalingGt (x + 1) 0) else logScalingLt (x + 1) 0).map fun (scaled, corr) =>
      .fin (Filter.limUnder Filter.atTop (halley scaled) + corr)

/-- `pow` with a real base and a real exponent of non-integral type, both finite (values/math/pow.hpp:166, 189-199). -/
noncomputable def powRealExp (w : ℕ) (arg e : ℝ) : Option (Num ℝ) :=
  if arg = 1 then some (.fin 1)
  else if arg > 0 then
    if e = 1 then some (.fin arg)
    else do
      match (← logReal arg) with
      | .fin l => (expReal w (l * e)).map .fin
      | r => some r
  else if arg = 0 then (if e < 0 then some (.inf false) else some (.fin 0))
  else some .nan

/-- The body of the loop of `sqrt` (values/math/sqrt.hpp:99-103). -/
noncomputable def newtonStep (a previous : ℝ) : ℝ := 0.5 * (previous + a / previous)

/-- The values of `next` in `sqrt`; the first one is half of the argument (values/math/sqrt.hpp:97-103). -/
noncomputable def newton (a : ℝ) : ℕ → ℝ
  | 0 => 0.5 * a
  | n + 1 => newtonStep a (newton a n)

/-- `sqrt` of a finite real number (values/math/sqrt.hpp:92-105). -/
noncomputable def sqrtReal (a : ℝ) : Num ℝ :=
  if a = 0 then .fin a
  else if a < 0 then .nan
  else .fin (Filter.limUnder Filter.atTop (newton a))

/-- `fmod` of finite numbers (values/math/fmod.hpp:57-64) for a floating-point type with a 53-bit significand, where converting the greatest
`intmax_t`, `2^63 - 1`, gives `2^63`. -/
noncomputable def fmodReal (x y : ℝ) : Outcome (Num ℝ) :=
  if y = 0 then .ret .nan
  else if x = 0 then .ret (.fin x)
  else
    let iquot := x / y
    if iquot < -2 ^ 63 ∨ iquot > 2 ^ 63 then .throw
    else match castInt 64 iquot with
      | none => .undefined
      | some q => .ret (.fin (x - q * y))

/-- The loop `while ((theta - corr) / pi2 > max) corr *= 2` (values/math/internal/periodic_utils.hpp:52-53, 58-59) with `t = theta / pi2 - max` and
`corr = pi2 * 2^j`. -/
noncomputable def growCorr (t : ℝ) (j : ℕ) : ℕ := if t > 2 ^ j then growCorr t (j + 1) else j
termination_by ⌈t⌉₊ - 2 ^ j
decreasing_by
  have h : 2 ^ j < ⌈t⌉₊ := Nat.lt_ceil.2 (by push_cast; assumption)
  have : 2 ^ j < 2 ^ (j + 1) := Nat.pow_lt_pow_right (by decide) (by omega)
  omega

theorem growCorr_spec (t : ℝ) (j : ℕ) :
    t ≤ 2 ^ growCorr t j ∧ (growCorr t j = j ∨ ((2 : ℝ) ^ growCorr t j < 2 * t ∧ j < growCorr t j)) := by
  fun_induction growCorr t j with
  | case1 j h ih =>
    refine ⟨ih.1, ?_⟩
    rcases ih.2 with h2 | h2
    · right; rw [h2, pow_succ]; constructor
      · linarith
      · omega
    · right; exact ⟨h2.1, by omega⟩
  | case2 j h => exact ⟨le_of_not_gt h, Or.inl rfl⟩

theorem growCorr_decreases {v : ℝ} (hv : v > 2 ^ 63) : ⌊|v - 2 ^ growCorr (v - 2 ^ 63) 0|⌋₊ < ⌊|v|⌋₊ := by
  obtain ⟨h1, h2⟩ := growCorr_spec (v - 2 ^ 63) 0
  set c : ℝ := 2 ^ growCorr (v - 2 ^ 63) 0 with hc
  have hc1 : 1 ≤ c := one_le_pow₀ (by norm_num)
  have hc2 : c = 1 ∨ c < 2 * (v - 2 ^ 63) := by
    rcases h2 with h2 | h2
    · left; rw [hc, h2]; norm_num
    · right; exact h2.1
  have hv0 : |v| = v := abs_of_pos (by linarith [show (0 : ℝ) < 2 ^ 63 by positivity])
  have key : |v - c| ≤ v - 1 := by
    rw [abs_le]
    constructor
    · rcases hc2 with h | h
      · rw [h]; norm_num at *; linarith
      · norm_num at *; linarith
    · linarith
  rw [hv0]
  apply (Nat.floor_lt' (by rw [Ne, Nat.floor_eq_zero, not_lt]; norm_num at *; linarith)).2
  have := Nat.lt_floor_add_one v
  linarith

/-- `scale_periodic_function` (values/math/internal/periodic_utils.hpp:36-62) for a floating-point type in which the greatest `intmax_t` converts
to `2^63`. -/
noncomputable def scalePeriodic (theta : ℝ) : Option ℝ :=
  if theta > -(π * 2) ∧ theta < π * 2 then some theta
  else if theta / (π * 2) ≥ -2 ^ 63 ∧ theta / (π * 2) ≤ 2 ^ 63 then
    (castInt 64 (theta / (π * 2))).map fun q : ℤ => theta - q * (π * 2)
  else if theta > 0 then scalePeriodic (theta - π * 2 * 2 ^ growCorr (theta / (π * 2) - 2 ^ 63) 0)
  else scalePeriodic (theta + π * 2 * 2 ^ growCorr (-2 ^ 63 - theta / (π * 2)) 0)
termination_by ⌊|theta / (π * 2)|⌋₊
decreasing_by
  · have hpi : 0 < π * 2 := by positivity
    have h0 : 0 < theta / (π * 2) := div_pos (by assumption) hpi
    have hv : theta / (π * 2) > 2 ^ 63 := by
      by_contra hc
      rename_i hr _
      exact hr ⟨by linarith [show (0 : ℝ) < 2 ^ 63 by positivity], le_of_not_gt hc⟩
    have := growCorr_decreases hv
    rwa [sub_div, mul_div_cancel_left₀ _ hpi.ne']
  · have hpi : 0 < π * 2 := by positivity
    have h0 : theta / (π * 2) ≤ 0 := div_nonpos_of_nonpos_of_nonneg (le_of_not_gt (by assumption)) hpi.le
    have hv : -(theta / (π * 2)) > 2 ^ 63 := by
      by_contra hc
      rename_i hr _
      exact hr ⟨by linarith, by linarith [show (0 : ℝ) < 2 ^ 63 by positivity]⟩
    have := growCorr_decreases hv
    rw [add_div, mul_div_cancel_left₀ _ hpi.ne', ← abs_neg, ← abs_neg (theta / (π * 2))]
    rw [show -2 ^ 63 - theta / (π * 2) = -(theta / (π * 2)) - 2 ^ 63 by ring]
    rwa [neg_add']

/-- `sin` of a finite real number (values/math/sin.hpp:71-72). -/
noncomputable def sinReal (x : ℝ) : Option ℝ := (scalePeriodic x).map fun theta => limit (sinCalls theta)

/-- `cos` of a finite real number (values/math/cos.hpp:71-72). -/
noncomputable def cosReal (x : ℝ) : Option ℝ := (scalePeriodic x).map fun theta => limit (cosCalls 1 theta)

end OpenKalman.Values
