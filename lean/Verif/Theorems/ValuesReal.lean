/-
C27: the integer power. C28: scaling of the exponential and the logarithm. C31: the remainder. C65: convergence of the iterations and series.
C66: the range reduction of sine and cosine.
-/
import Verif.Proof.ValuesAsin

namespace OpenKalman.Values

open Real Topology Filter

/-! ### C27 -/

/-- A nonzero element of any field, raised to any exponent other than the least value of the exponent type, is the power; squaring and the truncating
remainders lose nothing, and the recursion ends. -/
theorem C27_power {F : Type} [Field F] (w : ℕ) {arg : F} (zneg : Bool) (harg : arg ≠ 0) {n : ℤ} (hn : intMin w < n) :
    powIntegral w arg zneg n = some (.fin (arg ^ n)) := powIntegral_eq w zneg harg n hn

example : powIntegral 32 (2 : ℚ) false (-5) = some (.fin (1 / 32)) := by
  rw [C27_power 32 false (by norm_num) (by simp [intMin])]; norm_num

/-- On every real argument, infinite and NaN ones included, and every exponent other than the least, `pow` is the power of the C standard. -/
theorem C27_standard (w : ℕ) (x : Num ℝ) (zneg : Bool) {n : ℤ} (hn : intMin w < n) :
    powReal w x zneg n = some (Spec.pow x zneg n) := by
  have hn' : n ≠ intMin w := by omega
  have hodd : n.tmod 2 = 1 → Odd n ∧ 0 < n := by
    intro h
    have h1 := Int.tmod_add_mul_tdiv n 2
    refine ⟨⟨n.tdiv 2, by omega⟩, ?_⟩
    by_contra hc
    have := Int.tmod_nonneg (a := -n) 2 (by omega); rw [Int.neg_tmod] at this; omega
  have hoddn : (-n).tmod 2 = 1 → Odd n ∧ n < 0 := by
    intro h
    have h1 := Int.tmod_add_mul_tdiv (-n) 2
    refine ⟨⟨-(-n).tdiv 2 - 1, by omega⟩, ?_⟩
    by_contra hc
    have := Int.tmod_nonneg (a := n) 2 (by omega); rw [Int.neg_tmod] at h; omega
  have heven : n.tmod 2 ≠ 1 → (-n).tmod 2 ≠ 1 → ¬ Odd n := by
    rintro h1 h2 ⟨k, hk⟩
    have h3 := Int.tmod_add_mul_tdiv n 2
    have h4 := Int.tmod_lt_of_pos n (b := 2) (by norm_num)
    have h5 := Int.tmod_lt_of_pos (-n) (b := 2) (by norm_num)
    rw [Int.neg_tmod] at h2 h5
    omega
  unfold powReal Spec.pow
  rcases x with x | neg | _
  · simp only
    by_cases hx1 : x = 1
    · subst hx1; rw [if_pos rfl]; split_ifs <;> simp_all
    · rw [if_neg hx1]
      by_cases h0 : n = 0
      · rw [if_pos h0, if_pos h0]
      · rw [if_neg h0, if_neg h0, if_neg (by omega)]
        by_cases hx : x = 0
        · rw [if_neg (by simpa using hx)]
          rw [powIntegral, dif_neg h0, dif_neg (by simp [hx])]
          by_cases h1 : n.tmod 2 = 1
          · rw [dif_pos h1, if_pos hx, if_pos (hodd h1).2, hx]
          · rw [dif_neg h1, if_neg hn']
            by_cases h2 : (-n).tmod 2 = 1
            · obtain ⟨ho, hneg⟩ := hoddn h2
              rw [dif_pos h2, if_pos hx, if_neg (by omega)]; simp [ho]
            · rw [dif_neg h2, if_pos hx]
              have ho := heven h1 h2
              simp [ho]
        · rw [if_pos hx, powIntegral_eq w zneg hx n hn]
  · simp only
    by_cases h0 : n = 0
    · rw [if_pos h0, if_pos h0]
    · rw [if_neg h0, if_neg h0]
      by_cases h1 : n.tmod 2 = 1
      · obtain ⟨ho, hp⟩ := hodd h1
        rw [if_pos h1, if_neg (by omega)]; simp [ho]
      · rw [if_neg h1, if_neg hn']
        by_cases h2 : (-n).tmod 2 = 1
        · rw [if_pos h2, if_pos (hoddn h2).2]
        · have ho := heven h1 h2
          rw [if_neg h2]
          by_cases hp : 0 < n
          · rw [if_pos hp, if_neg (by omega)]; simp [ho]
          · rw [if_neg hp, if_pos (by omega)]
  · simp only

example : powReal 32 (.fin 0) true (-3) = some (.inf true) ∧ powReal 32 (.fin 0) true (-4) = some (.inf false) ∧
    powReal 32 (.inf true) false 3 = some (.inf true) := by
  refine ⟨?_, ?_, ?_⟩ <;> rw [C27_standard _ _ _ (by simp [intMin])] <;> simp [Spec.pow] <;> decide

/-- At the least value of the exponent type the exponent is negated, which overflows: the power is undefined for every argument except one, for
which `pow` returns before. (The recursion itself negates it even for the argument one.) -/
theorem C27_least_exponent_violated (w : ℕ) :
    (∀ (x : ℝ) (zneg : Bool), x ≠ 1 → powReal w (.fin x) zneg (intMin w) = none) ∧
      ∀ (F : Type) [Field F] (x : F) (zneg : Bool), powIntegral w x zneg (intMin w) = none := by
  have hneg := intMin_neg w
  have ht : (intMin w).tmod 2 ≠ 1 := by
    intro h
    have := Int.tmod_nonneg (a := -intMin w) 2 (by omega); rw [Int.neg_tmod] at this; omega
  constructor
  · intro x zneg hx
    unfold powReal
    simp only
    rw [if_neg hx, if_neg (by omega), if_pos ⟨ht, trivial⟩]
  · intro F _ x zneg
    rw [powIntegral, dif_neg (by omega), if_pos rfl, if_pos rfl, dif_neg ht]
    split_ifs <;> rfl

example : powReal 32 (.fin 2) false (-2147483648) = none :=
  (C27_least_exponent_violated 32).1 2 false (by norm_num)

/-- With an exponent of a floating-point type the fallback is the real power of a positive argument, as long as the exponent of `e` it computes is in
the range of `int`. -/
theorem C27_real_exponent {w : ℕ} {arg e : ℝ} (harg : 0 < arg) (h1 : -2 ^ (w - 1) + 1 < log arg * e) (h2 : log arg * e < 2 ^ (w - 1)) :
    powRealExp w arg e = some (.fin (arg ^ e)) := by
  unfold powRealExp
  split_ifs with h3 h4
  · simp [h3]
  · simp [h4]
  · simp only [logReal_eq harg, Option.bind_eq_bind, Option.bind_some, expReal_eq h1 h2, Option.map_some, Real.rpow_def_of_pos harg]

example : powRealExp 32 2 0.5 = some (.fin (2 ^ (0.5 : ℝ))) := by
  have h : 0 < log 2 := Real.log_pos (by norm_num)
  have h' : log 2 < 1 := by have := Real.log_lt_sub_one_of_pos (show (0 : ℝ) < 2 by norm_num) (by norm_num); linarith
  exact C27_real_exponent (by norm_num) (by norm_num; linarith) (by norm_num; linarith)

/-- It is not the power elsewhere: zero to the power zero is zero instead of one, and a negative number to an integral power given in a floating-point
type is NaN. -/
theorem C27_real_exponent_violated (w : ℕ) :
    powRealExp w 0 0 = some (.fin 0) ∧ powRealExp w (-2) 2 = some .nan ∧ Spec.pow (.fin 0) false 0 = .fin 1 ∧
      Spec.pow (.fin (-2)) false 2 = .fin 4 := by
  refine ⟨?_, ?_, ?_, ?_⟩
  · unfold powRealExp; norm_num
  · unfold powRealExp; norm_num
  · simp [Spec.pow]
  · norm_num [Spec.pow]

/-! ### C28 -/

/-- Scaling down ends with a number in `[1, 16)` and keeps the logarithm. -/
theorem C28_scaling_down {x : ℝ} (hx : 1 ≤ x) (corr : ℝ) :
    let p := logScalingGt x corr
    log p.1 + p.2 = log x + corr ∧ 1 ≤ p.1 ∧ p.1 < 16 := logScalingGt_spec x corr hx

example : 1 ≤ (logScalingGt (10 ^ 300) 0).1 ∧ (logScalingGt (10 ^ 300) 0).1 < 16 := (C28_scaling_down (one_le_pow₀ (by norm_num)) 0).2

/-- Scaling up ends, for every positive number, with a number greater than `1/16` and not greater than one or the given number, and keeps the
logarithm. -/
theorem C28_scaling_up {x : ℝ} (hx : 0 < x) (corr : ℝ) : ∃ s c, logScalingLt x corr = some (s, c) ∧
    log s + c = log x + corr ∧ 1 / 16 < s ∧ s ≤ max x 1 := logScalingLt_spec x corr hx

example : ∃ s c, logScalingLt (1 / 10 ^ 300) 0 = some (s, c) ∧ log s + c = log (1 / 10 ^ 300) ∧ 1 / 16 < s ∧ s ≤ 1 := by
  obtain ⟨s, c, h1, h2, h3, h4⟩ := C28_scaling_up (x := 1 / 10 ^ 300) (by positivity) 0
  exact ⟨s, c, h1, by linarith, h3, by
    rwa [max_eq_right (by rw [one_div]; exact inv_le_one_of_one_le₀ (one_le_pow₀ (by norm_num)))] at h4⟩

/-- The logarithm is the logarithm of every positive number; it is minus infinity at zero and NaN below. -/
theorem C28_log (x : ℝ) : logReal x = some (if 0 < x then .fin (log x) else if x = 0 then .inf true else .nan) := by
  rcases lt_trichotomy x 0 with h | h | h
  · rw [if_neg h.not_gt, if_neg h.ne, logReal, if_neg (by linarith), if_neg h.ne, if_pos h]
  · subst h; simp [logReal]
  · rw [if_pos h, logReal_eq h]

/-- Likewise the logarithm of one plus the argument. -/
theorem C28_log1p (x : ℝ) :
    log1pReal x = some (if -1 < x then .fin (log (1 + x)) else if x = -1 then .inf true else .nan) := by
  rcases lt_trichotomy x (-1) with h | h | h
  · rw [if_neg h.not_gt, if_neg h.ne, log1pReal, if_neg (by linarith), if_neg h.ne, if_pos h]
  · subst h; simp [log1pReal]
  · rw [if_pos h, log1pReal_eq h]

/-- The split into an integral and a fractional part gives the exponential, wherever the integral part and its negative are in the range of `int`
(of `w` bits). -/
theorem C28_exp_partial {w : ℕ} {x : ℝ} (h1 : -2 ^ (w - 1) + 1 < x) (h2 : x < 2 ^ (w - 1)) :
    expReal w x = some (rexp x) ∧ expm1Real w x = some (rexp x - 1) := ⟨expReal_eq h1 h2, expm1Real_eq h1 h2⟩

example : expReal 32 (-7.25) = some (rexp (-7.25)) := (C28_exp_partial (by norm_num) (by norm_num)).1

/-- Everywhere else both are undefined, although the exponential is defined there (and is an infinity or zero in floating point). -/
theorem C28_exp_violated {w : ℕ} (hw : 2 ≤ w) {x : ℝ} (h : x ≤ -2 ^ (w - 1) + 1 ∨ 2 ^ (w - 1) ≤ x) :
    expReal w x = none ∧ expm1Real w x = none := by
  have h2w : (2 : ℝ) ≤ 2 ^ (w - 1) := by
    calc (2 : ℝ) = 2 ^ 1 := by norm_num
      _ ≤ _ := pow_le_pow_right₀ (by norm_num) (by omega)
  have hp : (0 : ℤ) < 2 ^ (w - 1) := by positivity
  have key : truncDown w x = none ∨ truncDown w x = some (intMin w) := by
    unfold truncDown castInt
    rcases h with h | h
    · have hx : x < 0 := by linarith
      have hc : ⌈x⌉ ≤ -2 ^ (w - 1) + 1 := Int.ceil_le.2 (by push_cast; exact h)
      rw [trunc_neg hx]
      by_cases h3 : -2 ^ (w - 1) ≤ ⌈x⌉ ∧ ⌈x⌉ < 2 ^ (w - 1)
      · rw [if_pos h3]
        simp only [Option.bind_eq_bind, Option.bind_some, if_pos hx]
        unfold intMin
        split_ifs with h4
        · left; rfl
        · right; congr 1; omega
      · rw [if_neg h3]; left; rfl
    · have hx : 0 ≤ x := by linarith
      rw [trunc_nonneg hx, if_neg]
      · left; rfl
      · rintro ⟨-, h3⟩
        have : (2 ^ (w - 1) : ℤ) ≤ ⌊x⌋ := Int.le_floor.2 (by push_cast; exact h)
        omega
  have hx0 : x ≠ 0 := by rintro rfl; rcases h with h | h <;> linarith
  have hx1 : ¬ (0 ≤ x ∧ x < 1) := by rintro ⟨a, b⟩; rcases h with h | h <;> linarith
  constructor
  · unfold expReal
    rw [if_neg hx0, if_neg (fun hc => hx1 ⟨hc.1.le, hc.2⟩)]
    rcases key with k | k
    · simp [k]
    · simp [k, integralExp_min]
  · unfold expm1Real
    rw [if_neg hx1]
    rcases key with k | k
    · simp [k]
    · simp [k, integralExp_min]

example : expReal 32 2147483648 = none := (C28_exp_violated (by norm_num) (Or.inr (by norm_num))).1

/-- The integral powers of `e` are computed for every integer except the least. -/
theorem C28_integral_exp (w : ℕ) (n : ℤ) (hn : intMin w ≤ n) : integralExp w n = if n = intMin w then none else some (rexp n) := by
  split_ifs with h
  · rw [h, integralExp_min]
  · exact integralExp_eq w n (by omega)

/-! ### C31 -/

/-- The remainder of every pair of reals whose quotient is less than `2^63` in magnitude. -/
theorem C31_remainder {x y : ℝ} (hy : y ≠ 0) (h : |x / y| < 2 ^ 63) : ∃ r, fmodReal x y = .ret (.fin r) ∧ Spec.IsFmod x y r := by
  unfold fmodReal
  rw [if_neg hy]
  by_cases hx : x = 0
  · subst hx
    rw [if_pos rfl]
    exact ⟨0, rfl, ⟨0, by simp⟩, by simpa using hy, by simp⟩
  · rw [if_neg hx]
    obtain ⟨h1, h2⟩ := abs_lt.1 h
    simp only
    rw [if_neg (by push Not; exact ⟨h1.le, h2.le⟩), castInt_of_lt (by norm_num at h1 ⊢; linarith) (by norm_num at h2 ⊢; linarith)]
    obtain ⟨-, t2, t3⟩ := abs_trunc_le (x / y)
    have e : x - trunc (x / y) * y = (x / y - trunc (x / y)) * y := by field_simp
    refine ⟨_, rfl, ⟨_, rfl⟩, ?_, ?_⟩
    · rw [e, abs_mul]; exact mul_lt_of_lt_one_left (abs_pos.2 hy) t2
    · rw [e]
      have : (x / y - trunc (x / y)) * y * x = (x / y - trunc (x / y)) * (x / y) * y ^ 2 := by field_simp
      rw [this]; positivity

example : ∃ r, fmodReal (-7.5) 2 = .ret (.fin r) ∧ Spec.IsFmod (-7.5) 2 r := C31_remainder (by norm_num) (by norm_num [abs_lt])

/-- The result is determined by its specification, so no other value would do. -/
theorem C31_unique {x y r s : ℝ} (hr : Spec.IsFmod x y r) (hs : Spec.IsFmod x y s) (hx : x ≠ 0) : r = s := by
  obtain ⟨⟨k, hk⟩, hr2, hr3⟩ := hr
  obtain ⟨⟨l, hl⟩, hs2, hs3⟩ := hs
  have hy : 0 < |y| := (abs_nonneg r).trans_lt hr2
  have hsame : |r - s| < |y| := by
    rcases lt_or_gt_of_ne hx with h | h
    · have a : r ≤ 0 := by by_contra hc; nlinarith
      have b : s ≤ 0 := by by_contra hc; nlinarith
      rw [abs_of_nonpos a] at hr2; rw [abs_of_nonpos b] at hs2
      rw [abs_lt]; constructor <;> linarith
    · have a : 0 ≤ r := by by_contra hc; nlinarith
      have b : 0 ≤ s := by by_contra hc; nlinarith
      rw [abs_of_nonneg a] at hr2; rw [abs_of_nonneg b] at hs2
      rw [abs_lt]; constructor <;> linarith
  have e : r - s = ((l - k : ℤ) : ℝ) * y := by rw [hk, hl]; push_cast; ring
  rw [e, abs_mul] at hsame
  have h1 : |((l - k : ℤ) : ℝ)| < 1 := by
    by_contra hc; push Not at hc; nlinarith
  rw [← Int.cast_abs] at h1
  have h2 : |l - k| < 1 := by exact_mod_cast h1
  have h3 : l - k = 0 := Int.abs_lt_one_iff.1 h2
  rw [h3] at e; simp at e; linarith

/-- It is NaN exactly for a zero divisor, and throws exactly if the quotient is greater than `2^63` in magnitude. -/
theorem C31_exceptions (x y : ℝ) :
    (fmodReal x y = .ret .nan ↔ y = 0) ∧ (fmodReal x y = .throw ↔ y ≠ 0 ∧ 2 ^ 63 < |x / y|) := by
  unfold fmodReal
  by_cases hy : y = 0
  · simp [hy]
  · rw [if_neg hy]
    by_cases hx : x = 0
    · simp [hx, hy]
    · rw [if_neg hx]
      simp only
      have habs : (x / y < -2 ^ 63 ∨ x / y > 2 ^ 63) ↔ 2 ^ 63 < |x / y| := by
        rw [lt_abs]; constructor
        · rintro (h | h)
          · right; linarith
          · left; exact h
        · rintro (h | h)
          · right; exact h
          · left; linarith
      by_cases hq : x / y < -2 ^ 63 ∨ x / y > 2 ^ 63
      · rw [if_pos hq]; simp [hy, habs.1 hq]
      · rw [if_neg hq]
        have h3 : |x / y| ≤ 2 ^ 63 := not_lt.1 fun h => hq (habs.2 h)
        cases castInt 64 (x / y) <;> simp [hy, h3]

/-- The bound of the range test is `2^63`, one more than the greatest `intmax_t`, because the conversion to the floating-point type rounds up: a
quotient of exactly `2^63` passes the test and the conversion back is undefined. -/
theorem C31_bound_violated {x y : ℝ} (hy : y ≠ 0) (h : x / y = 2 ^ 63) : fmodReal x y = .undefined := by
  have hx : x ≠ 0 := by rintro rfl; norm_num at h
  unfold fmodReal
  rw [if_neg hy, if_neg hx]
  simp only
  have hc : castInt 64 (x / y) = none := by
    unfold castInt
    rw [h, trunc_nonneg (by positivity), if_neg]
    have : ⌊(2 : ℝ) ^ 63⌋ = 2 ^ 63 := by
      rw [show (2 : ℝ) ^ 63 = ((2 ^ 63 : ℤ) : ℝ) by norm_num, Int.floor_intCast]
    rw [this]; norm_num
  rw [hc, h, if_neg (by norm_num)]

example : fmodReal (2 ^ 63) 1 = .undefined := C31_bound_violated one_ne_zero (by norm_num)

/-! ### C65 -/

/-- The square-root loop: after its first step it is at or above the root, it never rises, the error at least halves and is squared relative to the
value, it stops only at the root, and it converges to the root. -/
theorem C65_sqrt {a : ℝ} (ha : 0 < a) :
    (∀ n, √a ≤ newton a (n + 1) ∧ newton a (n + 2) ≤ newton a (n + 1) ∧ newton a (n + 2) - √a ≤ (newton a (n + 1) - √a) / 2 ∧
        newton a (n + 1) - √a = (newton a n - √a) ^ 2 / (2 * newton a n)) ∧
      (∀ n, newton a (n + 1) = newton a n ↔ newton a n = √a) ∧
      Tendsto (newton a) atTop (𝓝 (√a)) ∧ sqrtReal a = .fin (√a) := by
  refine ⟨fun n => ⟨newton_ge ha n, ?_, newton_halves ha n, newton_err ha n⟩, fun n => newtonStep_fixed ha.le (newton_pos ha n),
    newton_tendsto ha, ?_⟩
  · have h1 := newton_halves ha n; have h2 := newton_ge ha n; linarith
  · unfold sqrtReal; rw [if_neg ha.ne', if_neg ha.not_gt, (newton_tendsto ha).limUnder_eq]

example : newton 2 1 = 1.5 ∧ newton 2 2 = 17 / 12 := by
  constructor <;> norm_num [newton, newtonStep]

/-- The logarithm loop: it starts at zero, moves strictly toward the logarithm without passing it, so the test for a change of direction never
stops it early; it stops only at the logarithm, and converges to it. -/
theorem C65_log {x : ℝ} (hx : 0 < x) :
    (∀ y, y < log x → y < halleyStep x y ∧ halleyStep x y < log x) ∧ (∀ y, log x < y → log x < halleyStep x y ∧ halleyStep x y < y) ∧
      (∀ n, halleyStop (halley x n) (halley x (n + 1)) (halleyCmp x n) ↔ halley x n = log x) ∧
      Tendsto (halley x) atTop (𝓝 (log x)) := by
  have up : ∀ y, y < log x → y < halleyStep x y ∧ halleyStep x y < log x := fun y h => halleyStep_between hx h
  have down : ∀ y, log x < y → log x < halleyStep x y ∧ halleyStep x y < y := by
    intro y hy
    have h := halleyStep_between (x := x⁻¹) (y := -y) (by positivity) (by rw [Real.log_inv]; linarith)
    rw [halleyStep_inv hx, Real.log_inv] at h
    exact ⟨by linarith [h.2], by linarith [h.1]⟩
  refine ⟨up, down, ?_, halley_tendsto hx⟩
  have hmono : (∀ n, halley x n ≤ halley x (n + 1)) ∨ (∀ n, halley x (n + 1) ≤ halley x n) := by
    rcases le_or_gt 1 x with h | h
    · left; exact fun n => halley_mono h (Nat.le_succ n)
    · right
      intro n
      have h1 := halley_mono ((one_le_inv₀ hx).2 h.le) (Nat.le_succ n)
      rw [halley_inv hx, halley_inv hx] at h1
      exact neg_le_neg_iff.1 h1
  intro n
  rw [← halleyStep_fixed hx, show halleyStep x (halley x n) = halley x (n + 1) from rfl]
  unfold halleyStop
  refine ⟨?_, Or.inl⟩
  rintro (h | ⟨h1, h2⟩ | ⟨h1, h2⟩)
  · exact h
  · rcases n with _ | n
    · simp [halleyCmp] at h1
    · exfalso
      rw [halleyCmp] at h1
      rcases hmono with m | m
      · have := m n; split_ifs at h1 <;> first | omega | linarith
      · linarith [m (n + 1)]
  · rcases n with _ | n
    · simp [halleyCmp] at h1
    · exfalso
      rw [halleyCmp] at h1
      rcases hmono with m | m
      · linarith [m (n + 1)]
      · have := m n; split_ifs at h1 <;> first | omega | linarith

example : halley 3 1 = 1 ∧ ¬ halleyStop (halley 3 0) (halley 3 1) (halleyCmp 3 0) := by
  have h : halley 3 1 = 1 := by norm_num [halley, halleyStep]
  refine ⟨h, ?_⟩
  rw [(C65_log (by norm_num : (0 : ℝ) < 3)).2.2.1 0]
  have : 0 < log 3 := Real.log_pos (by norm_num)
  exact this.ne

/-- The series of the exponential (starting from one or from zero), the sine, the cosine (starting from one or from zero), the logarithm of one plus
the argument, and the arcsine converge to those functions, the last two where they are used. -/
theorem C65_series (x : ℝ) :
    Tendsto (fun n => (expCalls 1 x n).sum) atTop (𝓝 (rexp x)) ∧ Tendsto (fun n => (expCalls 0 x n).sum) atTop (𝓝 (rexp x - 1)) ∧
      Tendsto (fun n => (sinCalls x n).sum) atTop (𝓝 (sin x)) ∧ Tendsto (fun n => (cosCalls 1 x n).sum) atTop (𝓝 (cos x)) ∧
      Tendsto (fun n => (cosCalls 0 x n).sum) atTop (𝓝 (cos x - 1)) ∧
      (|x| < 1 → Tendsto (fun n => (log1pCalls x n).sum) atTop (𝓝 (log (1 + x)))) ∧
      (|x| < 1 → Tendsto (fun n => (asinCalls x n).sum) atTop (𝓝 (arcsin x))) := by
  refine ⟨?_, ?_, sinCalls_tendsto x, ?_, ?_, log1pCalls_tendsto, asinCalls_tendsto⟩
  · simpa using expCalls_tendsto 1 x
  · simpa using expCalls_tendsto 0 x
  · simpa using cosCalls_tendsto 1 x
  · simpa using cosCalls_tendsto 0 x

example : (asinCalls (1 / 2) 1).sum = 1 / 2 + 1 / 48 ∧ (sinCalls 1 1).sum = 5 / 6 := by
  constructor <;> norm_num [asinCalls, asinStep, sinCalls, sinCosStep]

/-! ### C66 -/

/-- The range reduction ends for every angle. When it has a result, that is the angle less a whole number of turns, and less than one turn in
magnitude; it has one for every angle of less than `2^63` turns. -/
theorem C66_reduction (theta : ℝ) :
    (∀ r, scalePeriodic theta = some r → ∃ k : ℤ, r = theta - k * (2 * π) ∧ |r| < 2 * π) ∧
      (|theta / (2 * π)| < 2 ^ 63 → ∃ r, scalePeriodic theta = some r) :=
  ⟨fun _ h => scalePeriodic_spec theta h, scalePeriodic_defined⟩

/-- So the sine and the cosine are those of the given angle, whenever the reduction has a result. -/
theorem C66_sin_cos (theta : ℝ) :
    (∀ s, sinReal theta = some s → s = sin theta) ∧ (∀ c, cosReal theta = some c → c = cos theta) ∧
      (|theta / (2 * π)| < 2 ^ 63 → sinReal theta = some (sin theta) ∧ cosReal theta = some (cos theta)) := by
  have hs : ∀ r, scalePeriodic theta = some r → limit (sinCalls r) = sin theta ∧ limit (cosCalls 1 r) = cos theta := by
    intro r hr
    obtain ⟨k, rfl, -⟩ := scalePeriodic_spec theta hr
    rw [limit_eq (sinCalls_tendsto _), limit_eq (cosCalls_tendsto 1 _), Real.sin_sub_int_mul_two_pi, Real.cos_sub_int_mul_two_pi]
    exact ⟨rfl, by ring⟩
  unfold sinReal cosReal
  refine ⟨?_, ?_, ?_⟩
  · intro s h
    obtain ⟨r, hr, rfl⟩ := Option.map_eq_some_iff.1 h
    exact (hs r hr).1
  · intro c h
    obtain ⟨r, hr, rfl⟩ := Option.map_eq_some_iff.1 h
    exact (hs r hr).2
  · intro h
    obtain ⟨r, hr⟩ := scalePeriodic_defined h
    rw [hr, Option.map_some, Option.map_some, (hs r hr).1, (hs r hr).2]
    exact ⟨rfl, rfl⟩

example : sinReal 100 = some (sin 100) := by
  refine ((C66_sin_cos 100).2.2 ?_).1
  have := Real.two_le_pi
  rw [abs_of_pos (by positivity), div_lt_iff₀ (by positivity)]
  nlinarith

/-- The comment on the function promises an angle within half a turn; three quarters of a turn are left as they are. -/
theorem C66_half_turn_violated : scalePeriodic (3 / 4 * (2 * π)) = some (3 / 4 * (2 * π)) ∧ ¬ |3 / 4 * (2 * π)| ≤ π := by
  have hpi := Real.pi_pos
  constructor
  · rw [scalePeriodic, if_pos ⟨by linarith, by linarith⟩]
  · rw [abs_of_pos (by positivity)]; linarith

/-- An angle of exactly `2^63` turns passes the range test, and its conversion to an integer is undefined. -/
theorem C66_bound_violated : scalePeriodic (2 ^ 63 * (π * 2)) = none := by
  have hpi := Real.pi_pos
  have e : 2 ^ 63 * (π * 2) / (π * 2) = 2 ^ 63 := by field_simp
  rw [scalePeriodic, if_neg, e, if_pos ⟨by norm_num, le_refl _⟩]
  · have : castInt 64 (2 ^ 63 : ℝ) = none := by
      unfold castInt
      rw [trunc_nonneg (by positivity), if_neg]
      have : ⌊(2 : ℝ) ^ 63⌋ = 2 ^ 63 := by
        rw [show (2 : ℝ) ^ 63 = ((2 ^ 63 : ℤ) : ℝ) by norm_num, Int.floor_intCast]
      rw [this]; norm_num
    rw [this]; rfl
  · rintro ⟨-, h⟩
    have : (1 : ℝ) ≤ 2 ^ 63 := by norm_num
    nlinarith

end OpenKalman.Values
