/-
C29, C30, C32, C33 and C67: the Euclidean norm, the complex square root, the arguments and the complex-valued and inverse functions of
`values/math`, against the functions of Mathlib.
-/
import Verif.Proof.ValuesComplex

namespace OpenKalman.Values

open Real

/-! ### C29: norm -/

/-- The scaled evaluation gives the square root of the sum of the squares, zeros included. -/
theorem C29_hypot {l : List ℝ} (hl : l ≠ []) :
    0 ≤ hypotReal l ∧ hypotReal l ^ 2 = (l.map (· ^ 2)).sum ∧ ∀ k : List ℝ, k.Perm l → hypotReal k = hypotReal l := by
  have h0 : ∀ k : List ℝ, 0 ≤ (k.map (· ^ 2)).sum := by
    intro k
    apply List.sum_nonneg
    intro b hb
    obtain ⟨a, -, rfl⟩ := List.mem_map.1 hb
    exact sq_nonneg a
  refine ⟨?_, ?_, ?_⟩
  · rw [hypotReal_eq hl]; exact Real.sqrt_nonneg _
  · rw [hypotReal_eq hl, Real.sq_sqrt (h0 l)]
  · intro k hk
    have hk0 : k ≠ [] := by rintro rfl; exact hl (List.nil_perm.1 hk)
    rw [hypotReal_eq hl, hypotReal_eq hk0, (hk.map _).sum_eq]

example : hypotReal [3, -4] = 5 := by
  obtain ⟨h1, h2, -⟩ := C29_hypot (l := [3, -4]) (by simp)
  norm_num at h2
  nlinarith

example : hypotReal [0, 0, 0] = 0 := by
  obtain ⟨h1, h2, -⟩ := C29_hypot (l := [0, 0, 0]) (by simp)
  norm_num at h2
  exact h2

/-- The absolute value of a complex number is its modulus. -/
theorem C29_abs (z : ℂ) : absC z = ‖z‖ := by
  unfold absC
  rw [hypotReal_eq (by simp), Complex.norm_def, Complex.normSq_apply]
  simp [pow_two]

/-- With complex arguments the result is the principal square root of the sum of the squares (of the numbers themselves, not of their moduli). -/
theorem C29_complex (x y : ℂ) (l : List ℂ) :
    hypotC x y l ^ 2 = ((x :: y :: l).map (· ^ 2)).sum ∧ (0 < (hypotC x y l).re ∨ (hypotC x y l).re = 0 ∧ 0 ≤ (hypotC x y l).im) := by
  obtain ⟨h1, h2⟩ := hypotC_spec x y l
  refine ⟨?_, h2⟩
  simp only [pow_two]
  exact h1

/-- So it can be zero for arguments that are not: there it is not a norm. -/
theorem C29_complex_not_norm : hypotC 1 Complex.I [] = 0 := by
  have h := (C29_complex 1 Complex.I []).1
  simpa using h

/-! ### C30: square root -/

/-- The square root of a complex number: it squares to the number, its real part is not negative, and its imaginary part has the sign of that of
the number. -/
theorem C30_sqrt (z : ℂ) :
    sqrtC z ^ 2 = z ∧ 0 ≤ (sqrtC z).re ∧ (0 ≤ z.im → 0 ≤ (sqrtC z).im) ∧ (z.im < 0 → (sqrtC z).im < 0) := by
  have hsq := sqrtC_sq z
  have hre := sqrtC_re z
  have him : z.im = 2 * (sqrtC z).re * (sqrtC z).im := by
    conv_lhs => rw [← hsq, Complex.mul_im]
    ring
  refine ⟨by rw [pow_two, hsq], hre, ?_, ?_⟩
  · intro h
    rcases sqrtC_principal z with hp | hp
    · by_contra hc
      push Not at hc
      nlinarith
    · exact hp.2
  · intro h
    by_contra hc
    push Not at hc
    nlinarith [mul_nonneg hre hc]

/-- It is the only root in the right half plane closed by the upper imaginary axis. -/
theorem C30_principal (z s : ℂ) (h : s ^ 2 = z) (hs : 0 < s.re ∨ s.re = 0 ∧ 0 ≤ s.im) : sqrtC z = s :=
  principal_unique (by rw [sqrtC_sq, ← h, pow_two]) (sqrtC_principal z) hs

example : sqrtC (-4) = ⟨0, 2⟩ := by
  apply C30_principal
  · apply Complex.ext <;> simp [pow_two]; norm_num
  · right; norm_num

example : sqrtC ⟨-3, -4⟩ = ⟨1, -2⟩ := by
  apply C30_principal
  · apply Complex.ext <;> simp [pow_two] <;> norm_num
  · left; norm_num

/-! ### C32: arguments -/

/-- The arctangent of two real numbers is the principal argument of `x + i y`, for all of them (zero at the origin). -/
theorem C32_atan2 (y x : ℝ) : atan2Real y x = some (Complex.arg ⟨x, y⟩) := atan2Real_eq y x

/-- Hence it lies in `(-π, π]` and gives the direction of the point. -/
theorem C32_direction (y x : ℝ) :
    ∃ t, atan2Real y x = some t ∧ -π < t ∧ t ≤ π ∧ x = √(x ^ 2 + y ^ 2) * cos t ∧ y = √(x ^ 2 + y ^ 2) * sin t := by
  have hn : ‖(⟨x, y⟩ : ℂ)‖ = √(x ^ 2 + y ^ 2) := by
    rw [Complex.norm_def, Complex.normSq_mk]; congr 1; ring
  refine ⟨_, atan2Real_eq y x, Complex.neg_pi_lt_arg _, Complex.arg_le_pi _, ?_, ?_⟩
  · rw [← hn]; exact (Complex.norm_mul_cos_arg ⟨x, y⟩).symm
  · rw [← hn]; exact (Complex.norm_mul_sin_arg ⟨x, y⟩).symm

example : atan2Real 0 (-1) = some π := by
  rw [C32_atan2]; congr 1; rw [Complex.arg_eq_pi_iff]; norm_num

/-- The real arcsine, arccosine and arctangent. -/
theorem C32_inverse_real (x : ℝ) :
    asinReal x = (if |x| ≤ 1 then some (arcsin x) else none) ∧ acosReal x = (if |x| ≤ 1 then some (arccos x) else none) ∧
      atanReal x = some (arctan x) := by
  refine ⟨?_, ?_, atanReal_eq x⟩
  · split_ifs with h
    · exact asinReal_eq h
    · exact asinReal_none (not_le.1 h)
  · unfold acosReal
    split_ifs with h1 h2 h2
    · rw [h1, Real.arccos_one]
    · rw [h1] at h2; norm_num at h2
    · rw [asinReal_eq h2]; rfl
    · rw [asinReal_none (not_le.1 h2)]; rfl

/-- The arctangent of complex numbers on the real line. -/
theorem atanC_real (x : ℝ) : atanC x = some ((arctan x : ℝ) : ℂ) := by
  have h1 : 1 + Complex.I * (x : ℂ) ≠ 0 := by intro h; have := congrArg Complex.re h; simp at this
  have h2 : 1 - Complex.I * (x : ℂ) ≠ 0 := by intro h; have := congrArg Complex.re h; simp at this
  rw [atanC_eq h1 h2]
  congr 1
  have hc : (starRingEnd ℂ) (1 + Complex.I * (x : ℂ)) = 1 - Complex.I * x := by simp [sub_eq_add_neg]
  have ha : Complex.log (1 - Complex.I * x) = (starRingEnd ℂ) (Complex.log (1 + Complex.I * x)) := by
    rw [← hc, Complex.log_conj]
    intro h
    have := (Complex.arg_eq_pi_iff.1 h).1
    simp at this; linarith
  have harg : (1 + Complex.I * (x : ℂ)).arg = arctan x := by
    have h := atan2Real_eq x 1
    rw [atan2Real, if_pos one_pos, atanReal_eq, div_one] at h
    have e : (⟨1, x⟩ : ℂ) = 1 + Complex.I * x := by apply Complex.ext <;> simp
    rw [← e]; exact (Option.some.inj h).symm
  rw [ha]
  apply Complex.ext
  · simp [-Complex.ofReal_arctan, Complex.log_im, harg]; ring
  · simp [-Complex.ofReal_arctan, Complex.log_re, Complex.log_im]

/-- The overload for complex arguments agrees with the real one on real arguments to the right of, or on, the imaginary axis, and on the real
axis. The claim for all real arguments fails (`C32_complex_violated`). -/
theorem C32_complex_partial (y x : ℝ) (h : 0 ≤ x ∨ y = 0) : atan2C y x = (atan2Real y x).map (fun t : ℝ => (t : ℂ)) := by
  unfold atan2C
  simp only [Complex.ofReal_re, Complex.ofReal_im, and_true]
  by_cases hx : x = 0
  · subst hx
    rw [if_pos rfl, atan2Real, if_neg (lt_irrefl _), if_neg (lt_irrefl _)]
    split_ifs with h1 h2 h3
    · rw [Option.map_some]; congr 1; apply Complex.ext <;> simp; ring
    · rw [Option.map_some]; congr 1; apply Complex.ext <;> simp; ring
    · exact absurd h3 (by simp [signbit])
    · rw [Option.map_some, copysign_nonneg le_rfl, if_neg h2]; congr 1
  · rw [if_neg hx]
    by_cases hy : y = 0
    · subst hy
      rw [if_pos rfl, atan2Real]
      rcases lt_or_gt_of_ne hx with h0 | h0
      · rw [if_pos h0, if_neg (by linarith), if_pos h0, if_neg (lt_irrefl _), if_neg (lt_irrefl _), copysign_nonneg pi_pos.le, if_neg (lt_irrefl _)]
        rfl
      · rw [if_neg (by linarith), if_pos h0, zero_div, atanReal_eq, arctan_zero]; rfl
    · have h0 : 0 < x := lt_of_le_of_ne (h.resolve_right hy) (Ne.symm hx)
      rw [if_neg hy, atan2Real, if_pos h0, atanReal_eq, Option.map_some]
      have e : (⟨(y * x + 0 * 0) / (x * x + 0 * 0), (0 * x - y * 0) / (x * x + 0 * 0)⟩ : ℂ) = ((y / x : ℝ) : ℂ) := by
        apply Complex.ext
        · simp only [Complex.ofReal_re]; field_simp; ring
        · simp
      rw [e, atanC_real, Option.map_some, Complex.ofReal_re, Complex.ofReal_im]
      have b1 := arctan_lt_pi_div_two (y / x)
      have b2 := neg_pi_div_two_lt_arctan (y / x)
      have hp := pi_pos
      rw [if_neg (by linarith), if_neg (by linarith)]
      rfl

/-- To the left of the imaginary axis and off the real axis the two overloads always differ, by half a turn: the complex one does not look at the
quadrant. -/
theorem C32_complex_violated (y x : ℝ) (hx : x < 0) (hy : y ≠ 0) :
    ∃ t : ℝ, atan2Real y x = some t ∧ atan2C y x = some ((t + (if 0 < y then -π else π) : ℝ) : ℂ) := by
  have e : (⟨(y * x + 0 * 0) / (x * x + 0 * 0), (0 * x - y * 0) / (x * x + 0 * 0)⟩ : ℂ) = ((y / x : ℝ) : ℂ) := by
    apply Complex.ext
    · have := hx.ne
      simp only [Complex.ofReal_re]; field_simp; ring
    · simp
  have hC : atan2C y x = some ((arctan (y / x) : ℝ) : ℂ) := by
    unfold atan2C
    simp only [Complex.ofReal_re, Complex.ofReal_im, and_true]
    rw [if_neg hx.ne, if_neg hy, e, atanC_real, Option.map_some, Complex.ofReal_re, Complex.ofReal_im]
    have b1 := arctan_lt_pi_div_two (y / x)
    have b2 := neg_pi_div_two_lt_arctan (y / x)
    have hp := pi_pos
    rw [if_neg (by linarith), if_neg (by linarith)]
    rfl
  rw [hC, atan2Real, if_neg (by linarith), if_pos hx]
  rcases lt_or_gt_of_ne hy with h | h
  · rw [if_neg (by linarith), if_pos h, atanReal_eq]
    exact ⟨_, rfl, by rw [if_neg (by linarith)]; congr 2; ring⟩
  · rw [if_pos h, atanReal_eq]
    exact ⟨_, rfl, by rw [if_pos h]; congr 2; ring⟩

example : ∃ t : ℝ, atan2Real 1 (-1) = some t ∧ atan2C (1 : ℝ) (-1 : ℝ) = some ((t + -π : ℝ) : ℂ) := by
  have := C32_complex_violated 1 (-1) (by norm_num) (by norm_num)
  rwa [if_pos one_pos] at this

/-! ### C33: arcsine and arccosine -/

/-- The logarithm of a complex number. -/
theorem C33_log (z : ℂ) : (z ≠ 0 → logC z = some (Complex.log z)) ∧ (1 + z ≠ 0 → log1pC z = some (Complex.log (1 + z))) :=
  ⟨logC_eq, log1pC_eq⟩

/-- The arcsine of every complex number exists, is a right inverse of the sine, and has its real part within a quarter turn of zero. -/
theorem C33_asin (z : ℂ) : ∃ s, asinC z = some s ∧ Complex.sin s = z ∧ -(π / 2) ≤ s.re ∧ s.re ≤ π / 2 := by
  obtain ⟨s, h1, h2, h3, -⟩ := asinC_eq z
  exact ⟨s, h1, h2, (abs_le.1 h3).1, (abs_le.1 h3).2⟩

/-- The arccosine of every complex number exists, is a right inverse of the cosine, and has its real part between zero and half a turn. -/
theorem C33_acos (z : ℂ) : ∃ s, acosC z = some s ∧ Complex.cos s = z ∧ 0 ≤ s.re ∧ s.re ≤ π := by
  obtain ⟨s, h1, h2, h3, h4⟩ := C33_asin z
  refine ⟨⟨π / 2 - s.re, -s.im⟩, ?_, ?_, by simp only; linarith, by simp only; linarith⟩
  · unfold acosC; rw [h1]; rfl
  · have e : (⟨π / 2 - s.re, -s.im⟩ : ℂ) = (π : ℂ) / 2 - s := by
      apply Complex.ext
      · rw [Complex.sub_re, show ((π : ℂ) / 2) = ((π / 2 : ℝ) : ℂ) by push_cast; rfl, Complex.ofReal_re]
      · rw [Complex.sub_im, show ((π : ℂ) / 2) = ((π / 2 : ℝ) : ℂ) by push_cast; rfl, Complex.ofReal_im]; simp
    rw [e, Complex.cos_pi_div_two_sub, h2]

/-- On the real interval `[-1, 1]` they are the real functions. -/
theorem C33_real (x : ℝ) (h : |x| ≤ 1) : asinC x = some ((arcsin x : ℝ) : ℂ) ∧ acosC x = some ((arccos x : ℝ) : ℂ) := by
  have key : asinC x = some ((arcsin x : ℝ) : ℂ) := by
    obtain ⟨s, h1, h2, h3, h4⟩ := asinC_eq x
    rw [h1]
    congr 1
    have hx : 0 ≤ 1 - x ^ 2 := by nlinarith [abs_le.1 h, sq_abs x, abs_nonneg x]
    have hq : sqrtC (1 - (x : ℂ) * x) = (√(1 - x ^ 2) : ℝ) := by
      apply C30_principal
      · rw [← Complex.ofReal_pow, Real.sq_sqrt hx]; push_cast; ring
      · rw [Complex.ofReal_re, Complex.ofReal_im]
        rcases (Real.sqrt_nonneg (1 - x ^ 2)).lt_or_eq with h | h
        · exact Or.inl h
        · exact Or.inr ⟨h.symm, le_rfl⟩
    have him : s.im = 0 := by
      rw [h4, hq, Complex.norm_def, Complex.normSq_apply]
      simp only [Complex.sub_re, Complex.sub_im, Complex.ofReal_re, Complex.ofReal_im, Complex.mul_re, Complex.mul_im, Complex.I_re, Complex.I_im]
      have : (√(1 - x ^ 2) - (0 * x - 1 * 0)) * (√(1 - x ^ 2) - (0 * x - 1 * 0)) + (0 - (0 * 0 + 1 * x)) * (0 - (0 * 0 + 1 * x)) = 1 := by
        have := Real.mul_self_sqrt hx
        nlinarith
      rw [this, Real.sqrt_one, Real.log_one]
    have hs : s = (s.re : ℂ) := Complex.ext (by simp) (by simp [him])
    rw [hs, ← Complex.ofReal_sin] at h2
    have h2' : sin s.re = x := Complex.ofReal_injective h2
    rw [hs, ← h2', Real.arcsin_sin (abs_le.1 h3).1 (abs_le.1 h3).2]
  refine ⟨key, ?_⟩
  unfold acosC
  rw [key, Option.map_some]
  congr 1
  apply Complex.ext
  · simp [Real.arccos]
  · simp

example : asinC 2 ≠ none := by
  obtain ⟨s, h, -⟩ := C33_asin 2
  rw [h]; exact Option.some_ne_none s

/-! ### C67: exponentials, hyperbolic and trigonometric functions and the inverses -/

/-- Within the range of the integer conversions, the exponential and the hyperbolic functions of a complex number are the mathematical ones; the
hyperbolic tangent exists exactly where the cosine does not vanish. -/
theorem C67_hyperbolic (w : ℕ) (z : ℂ) (h1 : -2 ^ (w - 1) + 1 < z.re) (h2 : z.re < 2 ^ (w - 1)) (h3 : |z.im / (2 * π)| < 2 ^ 63) :
    expC w z = some (Complex.exp z) ∧ expm1C w z = some (Complex.exp z - 1) ∧ sinhC w z = some (Complex.sinh z) ∧
      coshC w z = some (Complex.cosh z) ∧ tanhC w z = if Complex.cosh z = 0 then none else some (Complex.tanh z) :=
  ⟨expC_eq ⟨h1, h2, h3⟩, expm1C_eq ⟨h1, h2, h3⟩, sinhC_eq ⟨h1, h2, h3⟩, coshC_eq ⟨h1, h2, h3⟩, tanhC_eq ⟨h1, h2, h3⟩⟩

example : expC 32 (Complex.I) = some (Complex.exp Complex.I) := by
  refine (C67_hyperbolic 32 Complex.I (by norm_num) (by norm_num) ?_).1
  have := Real.two_le_pi
  rw [Complex.I_im, abs_of_pos (by positivity), div_lt_iff₀ (by positivity)]
  nlinarith

/-- The real hyperbolic functions, within the same range. -/
theorem C67_hyperbolic_real (w : ℕ) (x : ℝ) (h1 : -2 ^ (w - 1) + 1 < x) (h2 : x < 2 ^ (w - 1)) :
    sinhReal w x = some (sinh x) ∧ coshReal w x = some (cosh x) ∧ tanhReal w x = some (tanh x) :=
  ⟨sinhReal_eq h1 h2, coshReal_eq h1 h2, tanhReal_eq h1 h2⟩

/-- Within the range, the sine and the cosine of a complex number are the mathematical ones; the tangent exists exactly where the cosine does not
vanish. -/
theorem C67_trigonometric (w : ℕ) (z : ℂ) (h1 : |z.re / (2 * π)| < 2 ^ 63) (h2 : -2 ^ (w - 1) + 1 < z.im) (h3 : z.im < 2 ^ (w - 1)) :
    sinC w z = some (Complex.sin z) ∧ cosC w z = some (Complex.cos z) ∧
      tanC w z = if Complex.cos z = 0 then none else some (Complex.tan z) :=
  ⟨sinC_eq h1 h2 h3, cosC_eq h1 h2 h3, tanC_eq h1 h2 h3⟩

example : sinC 32 ⟨1, 2⟩ = some (Complex.sin ⟨1, 2⟩) := by
  refine (C67_trigonometric 32 ⟨1, 2⟩ ?_ (by norm_num) (by norm_num)).1
  have := Real.two_le_pi
  rw [abs_of_pos (by positivity), div_lt_iff₀ (by positivity)]
  nlinarith

/-- The inverse hyperbolic sine and cosine are right inverses everywhere, the inverse tangent and hyperbolic tangent everywhere except at the two
points where the tangent has no inverse image. -/
theorem C67_inverse (z : ℂ) :
    (∃ s, asinhC z = some s ∧ Complex.sinh s = z) ∧ (∃ s, acoshC z = some s ∧ Complex.cosh s = z) ∧
      (z ≠ 1 → z ≠ -1 → ∃ s, atanhC z = some s ∧ Complex.tanh s = z) ∧
      (z ≠ Complex.I → z ≠ -Complex.I → ∃ s, atanC z = some s ∧ Complex.tan s = z) := by
  refine ⟨asinhC_eq z, acoshC_eq z, atanhC_eq, ?_⟩
  intro h1 h2
  have n1 : 1 + Complex.I * z ≠ 0 := by
    intro h; apply h1; linear_combination (-Complex.I) * h + z * Complex.I_mul_I
  have n2 : 1 - Complex.I * z ≠ 0 := by
    intro h; apply h2; linear_combination Complex.I * h + z * Complex.I_mul_I
  exact ⟨_, atanC_eq n1 n2, tan_atan n1 n2⟩

/-- The inverse hyperbolic functions of a real number: defined exactly on the domain of the function, and equal to it there. -/
theorem C67_inverse_real (x : ℝ) :
    asinhReal x = some (arsinh x) ∧ acoshReal x = (if 1 ≤ x then some (arcosh x) else none) ∧
      atanhReal x = if -1 < x ∧ x < 1 then some (artanh x) else none := by
  refine ⟨?_, ?_, ?_⟩
  · unfold asinhReal
    split_ifs with h
    · rw [h, arsinh_zero]
    · have hp : 0 < x + √(x * x + 1) := by
        have := Real.exp_arsinh x
        rw [show 1 + x ^ 2 = x * x + 1 by ring] at this
        rw [← this]; exact Real.exp_pos _
      rw [logReal_eq hp]
      simp only [Option.bind_some, Num.toOption]
      rw [arsinh, show 1 + x ^ 2 = x * x + 1 by ring]
  · unfold acoshReal
    by_cases h1 : x = 1
    · rw [if_pos h1, if_pos h1.ge, h1]; simp [arcosh]
    · rw [if_neg h1]
      by_cases h2 : x < 1
      · rw [if_pos h2, if_neg (not_le.2 h2)]
      · have h3 := not_lt.1 h2
        rw [if_neg h2, if_pos h3, logReal_eq (by have := Real.sqrt_nonneg (x * x - 1); linarith)]
        simp only [Option.bind_some, Num.toOption]
        rw [arcosh, pow_two]
  · unfold atanhReal
    by_cases h : -1 < x ∧ x < 1
    · rw [if_neg (by rintro (h' | h') <;> linarith [h.1, h.2]), if_neg (by rintro (h' | h') <;> linarith [h.1, h.2]), if_pos h]
      split_ifs with h0
      · rw [h0, artanh_zero]
      · rw [logReal_eq (div_pos (by linarith [h.1]) (by linarith [h.2]))]
        simp only [Option.bind_some, Num.toOption, Option.map_some]
        rw [artanh_eq_half_log ⟨h.1.le, h.2.le⟩]
        norm_num
    · rw [if_neg h]
      split_ifs with h1 h2 h3
      · rfl
      · rfl
      · exfalso; apply h; rw [h3]; norm_num
      · exfalso
        push Not at h1 h2
        exact h ⟨lt_of_le_of_ne h1.1 (Ne.symm h2.2), lt_of_le_of_ne h1.2 h2.1⟩

end OpenKalman.Values
