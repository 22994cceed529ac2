import Verif.Proof.Givens
import Mathlib.Tactic.NormNum

/-!
# C125, C126: plane rotations of the bundled linear algebra library
-/

namespace OpenKalman.Givens

section C125

/-- C125: for real numbers the set-up ends, and gives a rotation that takes `(f, g)` to `(r, 0)`, however large or small they are.  If `f` is the larger one, the
cosine is positive; otherwise, with both not zero, `r` is the length. -/
theorem C125_setup {safmn2 : ℝ} (h0 : 0 < safmn2) (h1 : safmn2 < 1) (f g : ℝ) : ∃ N, ∀ fuel, N ≤ fuel → ∃ o, setupReal safmn2 fuel f g = some o ∧
    Rotates f g o.cs o.sn o.r ∧ (|g| < |f| → 0 < o.cs) ∧ (f ≠ 0 → g ≠ 0 → |f| ≤ |g| → o.r = Real.sqrt (f ^ 2 + g ^ 2)) := setupReal_spec h0 h1 f g

/-- C125: the number of rounds allowed does not matter once the loop ends: all results agree. -/
theorem C125_setup_unique {safmn2 : ℝ} (h0 : 0 < safmn2) (h1 : safmn2 < 1) (f g : ℝ) (fuel : ℕ) (o : Rot ℝ) (h : setupReal safmn2 fuel f g = some o) :
    Rotates f g o.cs o.sn o.r ∧ |o.r| = Real.sqrt (f ^ 2 + g ^ 2) := by
  have hr : Rotates f g o.cs o.sn o.r := by
    obtain ⟨N, hN⟩ := setupReal_spec h0 h1 f g
    obtain ⟨o', ho', hR, -⟩ := hN (max N fuel) (le_max_left _ _)
    have := setupReal_mono (le_max_right N fuel) h
    rw [ho'] at this
    obtain rfl := Option.some.inj this
    exact hR
  refine ⟨hr, ?_⟩
  have : o.r ^ 2 = f ^ 2 + g ^ 2 := by
    have e1 := hr.first
    have e2 := hr.second
    have e3 := hr.unit
    calc o.r ^ 2 = (o.cs * f + o.sn * g) ^ 2 + (o.cs * g - o.sn * f) ^ 2 := by rw [e1, e2]; ring
      _ = (o.cs ^ 2 + o.sn ^ 2) * (f ^ 2 + g ^ 2) := by ring
      _ = f ^ 2 + g ^ 2 := by rw [e3, one_mul]
  rw [← this, Real.sqrt_sq_eq_abs]

example : (0 : ℝ) < 1 / 2 ^ 485 ∧ (1 : ℝ) / 2 ^ 485 < 1 := ⟨by positivity, by rw [div_lt_one (by positivity)]; exact one_lt_pow₀ (by norm_num) (by norm_num)⟩

/-- C125: applying a rotation treats every pair of components from its old values and touches nothing past the end; with a unit `(c, s)` lengths are kept, and
the rotation the other way undoes it. -/
theorem C125_apply (n : ℕ) (c s : ℝ) (x y : ℕ → ℝ) :
    (∀ i < n, (applyReal n c s (x, y)).1 i = c * x i + s * y i ∧ (applyReal n c s (x, y)).2 i = c * y i - s * x i) ∧
    (∀ i, n ≤ i → (applyReal n c s (x, y)).1 i = x i ∧ (applyReal n c s (x, y)).2 i = y i) ∧
    (c ^ 2 + s ^ 2 = 1 → (∀ i, (applyReal n c s (x, y)).1 i ^ 2 + (applyReal n c s (x, y)).2 i ^ 2 = x i ^ 2 + y i ^ 2) ∧ applyReal n c (-s) (applyReal n c s (x, y)) = (x, y)) := by
  rw [applyReal_apply]
  refine ⟨fun i hi => by simp [hi], fun i hi => by simp [not_lt.mpr hi], fun h => ⟨fun i => ?_, ?_⟩⟩
  · by_cases hi : i < n
    · simp only [hi, if_true]
      calc _ = (c ^ 2 + s ^ 2) * (x i ^ 2 + y i ^ 2) := by ring
        _ = _ := by rw [h, one_mul]
    · simp [hi]
  · rw [applyReal_apply]
    refine Prod.ext ?_ ?_
    · funext i
      by_cases hi : i < n
      · simp only [hi, if_true]
        calc _ = (c ^ 2 + s ^ 2) * x i := by ring
          _ = _ := by rw [h, one_mul]
      · simp [hi]
    · funext i
      by_cases hi : i < n
      · simp only [hi, if_true]
        calc _ = (c ^ 2 + s ^ 2) * y i := by ring
          _ = _ := by rw [h, one_mul]
      · simp [hi]

/-- C125: setting up for the first components of two vectors and applying the result clears the first component of the second one. -/
theorem C125_clears {safmn2 : ℝ} (h0 : 0 < safmn2) (h1 : safmn2 < 1) (n fuel : ℕ) (hn : 0 < n) (x y : ℕ → ℝ) (o : Rot ℝ) (h : setupReal safmn2 fuel (x 0) (y 0) = some o) :
    (applyReal n o.cs o.sn (x, y)).1 0 = o.r ∧ (applyReal n o.cs o.sn (x, y)).2 0 = 0 := by
  have hr := (C125_setup_unique h0 h1 _ _ fuel o h).1
  have ha := (C125_apply n o.cs o.sn x y).1 0 hn
  exact ⟨ha.1.trans hr.first, ha.2.trans hr.second⟩

example : setupReal (1 / 2 ^ 485) 1 0 3 = some { cs := 0, sn := 1, r := 3 } := by
  simp [setupReal]

end C125

section C126

/-- C126: for complex numbers too the set-up ends, and gives a cosine and a sine that take `(f, g)` to `(·, 0)`; they are exact, or unitary up to `safmin / safmn2²`
(for `double`, `2^-52`). -/
theorem C126_rotation {safmin safmn2 : ℝ} (h0 : 0 < safmn2) (h1 : safmn2 < 1) (hm : 0 < safmin) (hms : safmin < safmn2 ^ 2) (f g : ℂ) :
    ∃ N, ∀ fuel, N ≤ fuel → ∃ o, setupComplex safmin safmn2 fuel f g = some o ∧ AlmostRotates (safmin / safmn2 ^ 2) f g o.cs o.sn := by
  obtain ⟨N, hN⟩ := setupComplex_spec h0 h1 hm hms f g
  refine ⟨N, fun fuel hf => ?_⟩
  obtain ⟨o, ho, hr, -⟩ := hN fuel hf
  exact ⟨o, ho, hr⟩

/-- C126: `r` is the first component of the rotated vector, if one of the numbers is zero or one exceeds `safmn2²` in a component.  Missing: smaller numbers. -/
theorem C126_r_partial {safmin safmn2 : ℝ} (h0 : 0 < safmn2) (h1 : safmn2 < 1) (hm : 0 < safmin) (hms : safmin < safmn2 ^ 2) (f g : ℂ)
    (h : f = 0 ∨ g = 0 ∨ safmn2 ^ 2 < max (max |f.re| |f.im|) (max |g.re| |g.im|)) (fuel : ℕ) (o : Rot ℂ) (ho : setupComplex safmin safmn2 fuel f g = some o) :
    o.r = (o.cs : ℂ) * f + o.sn * g := by
  obtain ⟨N, hN⟩ := setupComplex_spec h0 h1 hm hms f g
  obtain ⟨o', ho', -, hr, -⟩ := hN (max N fuel) (le_max_left _ _)
  have := setupComplex_mono (le_max_right N fuel) ho
  rw [ho'] at this
  obtain rfl := Option.some.inj this
  exact hr h

example : (1 : ℝ) / 2 ^ 1022 < (1 / 2 ^ 485) ^ 2 ∧ ((1 : ℝ) / 2 ^ 485) ^ 2 < max (max |(3 : ℂ).re| |(3 : ℂ).im|) (max |(4 : ℂ).re| |(4 : ℂ).im|) := by
  constructor
  · rw [div_pow, one_pow, ← pow_mul, one_div_lt_one_div (by positivity) (by positivity)]
    exact pow_lt_pow_right₀ (by norm_num) (by norm_num)
  · refine lt_of_lt_of_le (pow_lt_one₀ (by positivity) ?_ (by norm_num)) (le_max_of_le_left (le_max_of_le_left ?_))
    · rw [div_lt_one (by positivity)]; exact one_lt_pow₀ (by norm_num) (by norm_num)
    · norm_num

/-- C126: for numbers that small `r` is always wrong (if `g`, not zero, is not the larger one). -/
theorem C126_small_wrong {safmin safmn2 : ℝ} (h0 : 0 < safmn2) (h1 : safmn2 < 1) (hm : 0 < safmin) (hms : safmin < safmn2 ^ 2) (f g : ℂ)
    (hg : g ≠ 0) (hgf : ‖g‖ ≤ ‖f‖) (hs : max (max |f.re| |f.im|) (max |g.re| |g.im|) ≤ safmn2 ^ 2) (fuel : ℕ) (o : Rot ℂ) (ho : setupComplex safmin safmn2 fuel f g = some o) :
    o.r ≠ (o.cs : ℂ) * f + o.sn * g := by
  obtain ⟨N, hN⟩ := setupComplex_spec h0 h1 hm hms f g
  obtain ⟨o', ho', -, -, hr⟩ := hN (max N fuel) (le_max_left _ _)
  have := setupComplex_mono (le_max_right N fuel) ho
  rw [ho'] at this
  obtain rfl := Option.some.inj this
  exact hr (norm_pos_iff.mpr hg) hgf hs

/-- C126 does not hold as stated: with the constants of `double` and `f = g = 2^-1000` the set-up ends, but `r` is not the first component of the rotated vector. -/
theorem C126_r_violated : ¬ ∀ (f g : ℂ) (fuel : ℕ) (o : Rot ℂ), setupComplex (1 / 2 ^ 1022) (1 / 2 ^ 485) fuel f g = some o → o.r = (o.cs : ℂ) * f + o.sn * g := by
  intro h
  have h0 : (0 : ℝ) < 1 / 2 ^ 485 := by positivity
  have h1 : (1 : ℝ) / 2 ^ 485 < 1 := by rw [div_lt_one (by positivity)]; exact one_lt_pow₀ (by norm_num) (by norm_num)
  have hm : (0 : ℝ) < 1 / 2 ^ 1022 := by positivity
  have hms : (1 : ℝ) / 2 ^ 1022 < (1 / 2 ^ 485) ^ 2 := by
    rw [div_pow, one_pow, ← pow_mul, one_div_lt_one_div (by positivity) (by positivity)]
    exact pow_lt_pow_right₀ (by norm_num) (by norm_num)
  set z : ℂ := ((1 / 2 ^ 1000 : ℝ) : ℂ) with hz
  obtain ⟨N, hN⟩ := C126_rotation h0 h1 hm hms z z
  obtain ⟨o, ho, -⟩ := hN N (le_refl N)
  refine C126_small_wrong h0 h1 hm hms z z ?_ (le_refl _) ?_ N o ho (h z z N o ho)
  · rw [hz]
    exact_mod_cast (by positivity : (0 : ℝ) < 1 / 2 ^ 1000).ne'
  · rw [max_self, hz, Complex.ofReal_re, Complex.ofReal_im, abs_zero, abs_of_pos (by positivity), max_eq_left (by positivity), div_pow, one_pow, ← pow_mul,
      one_div_le_one_div (by positivity) (by positivity)]
    exact pow_le_pow_right₀ (by norm_num) (by norm_num)

/-- C126: applying a complex rotation; with `c² + |s|² = 1` lengths are kept and `(c, -s)` undoes it. -/
theorem C126_apply (n : ℕ) (c : ℝ) (s : ℂ) (x y : ℕ → ℂ) :
    (∀ i < n, (applyComplex n c s (x, y)).1 i = c * x i + s * y i ∧ (applyComplex n c s (x, y)).2 i = c * y i - (starRingEnd ℂ) s * x i) ∧
    (∀ i, n ≤ i → (applyComplex n c s (x, y)).1 i = x i ∧ (applyComplex n c s (x, y)).2 i = y i) ∧
    (c ^ 2 + ‖s‖ ^ 2 = 1 → (∀ i, ‖(applyComplex n c s (x, y)).1 i‖ ^ 2 + ‖(applyComplex n c s (x, y)).2 i‖ ^ 2 = ‖x i‖ ^ 2 + ‖y i‖ ^ 2) ∧
      applyComplex n c (-s) (applyComplex n c s (x, y)) = (x, y)) := by
  rw [applyComplex_apply]
  refine ⟨fun i hi => by simp [hi], fun i hi => by simp [not_lt.mpr hi], fun h => ?_⟩
  have hc : (c : ℂ) * c + s * (starRingEnd ℂ) s = 1 := by
    rw [Complex.mul_conj']
    exact_mod_cast (by rw [← h]; ring : c * c + ‖s‖ ^ 2 = 1)
  refine ⟨fun i => ?_, ?_⟩
  · by_cases hi : i < n
    · simp only [hi, if_true]
      have : ∀ a b : ℂ, ((‖a‖ ^ 2 + ‖b‖ ^ 2 : ℝ) : ℂ) = a * (starRingEnd ℂ) a + b * (starRingEnd ℂ) b := by
        intro a b
        rw [Complex.mul_conj', Complex.mul_conj']
        push_cast
        rfl
      have key : ((‖(c : ℂ) * x i + s * y i‖ ^ 2 + ‖(c : ℂ) * y i - (starRingEnd ℂ) s * x i‖ ^ 2 : ℝ) : ℂ) = ((‖x i‖ ^ 2 + ‖y i‖ ^ 2 : ℝ) : ℂ) := by
        rw [this, this]
        simp only [map_add, map_sub, map_mul, Complex.conj_ofReal, Complex.conj_conj]
        calc _ = ((c : ℂ) * c + s * (starRingEnd ℂ) s) * (x i * (starRingEnd ℂ) (x i) + y i * (starRingEnd ℂ) (y i)) := by ring
          _ = _ := by rw [hc, one_mul]
      exact_mod_cast key
    · simp [hi]
  · rw [applyComplex_apply]
    refine Prod.ext ?_ ?_
    · funext i
      by_cases hi : i < n
      · simp only [hi, if_true]
        calc _ = ((c : ℂ) * c + s * (starRingEnd ℂ) s) * x i := by ring
          _ = _ := by rw [hc, one_mul]
      · simp [hi]
    · funext i
      by_cases hi : i < n
      · simp only [hi, if_true, map_neg]
        calc _ = ((c : ℂ) * c + s * (starRingEnd ℂ) s) * y i := by ring
          _ = _ := by rw [hc, one_mul]
      · simp [hi]

example : ((3 : ℝ) / 5) ^ 2 + ‖(4 / 5 : ℂ) * Complex.I‖ ^ 2 = 1 := by
  rw [norm_mul, Complex.norm_I, mul_one]
  rw [show (4 / 5 : ℂ) = ((4 / 5 : ℝ) : ℂ) by push_cast; rfl, Complex.norm_real]
  norm_num

end C126

end OpenKalman.Givens
