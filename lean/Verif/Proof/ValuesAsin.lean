/-
The series of `asin_series` sums to the arcsine.
-/
import Verif.Proof.ValuesReal
import Mathlib.Analysis.SpecialFunctions.Trigonometric.InverseDeriv
import Mathlib.Analysis.Calculus.SmoothSeries
import Mathlib.Analysis.Calculus.MeanValue

namespace OpenKalman.Values

open Real Topology Filter

/-- The coefficients of `1 / √(1 - x²)` in powers of `x²`. -/
noncomputable def asinCoeff : ℕ → ℝ
  | 0 => 1
  | m + 1 => asinCoeff m * ((2 * m + 1) / (2 * m + 2))

theorem asinCoeff_bounds (m : ℕ) : 0 ≤ asinCoeff m ∧ asinCoeff m ≤ 1 := by
  induction m with
  | zero => simp [asinCoeff]
  | succ m ih =>
    rw [asinCoeff]
    have h1 : (2 * (m : ℝ) + 1) / (2 * m + 2) ≤ 1 := by rw [div_le_one (by positivity)]; linarith
    exact ⟨mul_nonneg ih.1 (by positivity), mul_le_one₀ ih.2 (by positivity) h1⟩

theorem asinCalls_state (x : ℝ) (n : ℕ) : asinCalls x n =
    ⟨2 * n + 3, ∑ k ∈ Finset.range (n + 1), asinCoeff k * x ^ (2 * k + 1) / (2 * k + 1), asinCoeff (n + 1) * x ^ (2 * (n + 1) + 1)⟩ := by
  induction n with
  | zero => simp [asinCalls, asinCoeff]; ring
  | succ n ih =>
    rw [asinCalls, ih, asinStep]
    simp only [Series.mk.injEq]
    refine ⟨by ring, ?_, ?_⟩
    · rw [Finset.sum_range_succ _ (n + 1)]
      push_cast
      congr 2; ring
    · rw [show asinCoeff (n + 1 + 1) = asinCoeff (n + 1) * ((2 * (n + 1 : ℕ) + 1) / (2 * (n + 1 : ℕ) + 2)) from rfl]
      push_cast
      rw [show 2 * (n + 1 + 1) + 1 = 2 * (n + 1) + 1 + 2 by ring, pow_add x _ 2]
      have e1 : (2 * ((n : ℝ) + 1) + 1) = 2 * n + 3 := by ring
      have e2 : (2 * ((n : ℝ) + 1) + 2) = 2 * n + 3 + 1 := by ring
      rw [e1, e2]; ring

theorem summable_coeff {r : ℝ} (hr0 : 0 ≤ r) (hr : r < 1) : Summable fun m : ℕ => r ^ (2 * m) := by
  simp_rw [pow_mul]
  exact summable_geometric_of_lt_one (by positivity) (by nlinarith)

theorem summable_coeff' {r : ℝ} (hr0 : 0 ≤ r) (hr : r < 1) : Summable fun m : ℕ => 2 * (m : ℝ) * r ^ (2 * m - 1) := by
  have h : Summable fun m : ℕ => (m : ℝ) ^ 1 * (r ^ 2) ^ m :=
    summable_pow_mul_geometric_of_norm_lt_one 1 (by rw [Real.norm_eq_abs, abs_of_nonneg (by positivity)]; nlinarith)
  have h1 := (summable_nat_add_iff 1).2 h
  rw [← summable_nat_add_iff 1]
  rcases hr0.eq_or_lt with h0 | h0
  · rw [← h0]
    have : (fun n : ℕ => 2 * (((n + 1 : ℕ) : ℝ)) * (0 : ℝ) ^ (2 * (n + 1) - 1)) = fun _ => 0 := by
      funext n; rw [zero_pow (by omega), mul_zero]
    rw [this]; exact summable_zero
  · refine (h1.mul_left (2 / r)).congr fun m => ?_
    rw [pow_one, ← pow_mul, show 2 * (m + 1) = (2 * (m + 1) - 1) + 1 by omega, pow_succ]
    simp only [Nat.add_sub_cancel]
    field_simp

/-- `Σ cₘ z^(2m)`. -/
noncomputable def asinG (z : ℝ) : ℝ := ∑' m, asinCoeff m * z ^ (2 * m)

theorem summable_asinG {z : ℝ} (hz : |z| < 1) : Summable fun m => asinCoeff m * z ^ (2 * m) := by
  refine Summable.of_norm_bounded (summable_coeff (abs_nonneg z) hz) fun m => ?_
  rw [norm_mul, norm_pow, Real.norm_eq_abs, Real.norm_eq_abs, abs_of_nonneg (asinCoeff_bounds m).1]
  exact mul_le_of_le_one_left (by positivity) (asinCoeff_bounds m).2

theorem summable_asinG' {z : ℝ} (hz : |z| < 1) : Summable fun m : ℕ => asinCoeff m * ((2 * m : ℕ) * z ^ (2 * m - 1)) := by
  refine Summable.of_norm_bounded (summable_coeff' (abs_nonneg z) hz) fun m => ?_
  rw [norm_mul, norm_mul, norm_pow, Real.norm_eq_abs, Real.norm_eq_abs, Real.norm_eq_abs, abs_of_nonneg (asinCoeff_bounds m).1, Nat.abs_cast]
  push_cast
  exact mul_le_of_le_one_left (by positivity) (asinCoeff_bounds m).2

theorem asinG_deriv {z : ℝ} (hz : |z| < 1) :
    HasDerivAt asinG (∑' m : ℕ, asinCoeff m * ((2 * m : ℕ) * z ^ (2 * m - 1))) z := by
  obtain ⟨r, hr1, hr2⟩ := exists_between hz
  have hr0 : 0 ≤ r := (abs_nonneg z).trans hr1.le
  refine hasDerivAt_tsum_of_isPreconnected (𝕜 := ℝ) (t := Metric.ball 0 r) (y₀ := 0)
    (g := fun m y => asinCoeff m * y ^ (2 * m)) (g' := fun m y => asinCoeff m * ((2 * m : ℕ) * y ^ (2 * m - 1))) (summable_coeff' hr0 hr2) Metric.isOpen_ball
    (convex_ball 0 r).isPreconnected (fun n y _ => (hasDerivAt_pow (2 * n) y).const_mul _) ?_ ?_ ?_ ?_
  · intro n y hy
    rw [mem_ball_zero_iff, Real.norm_eq_abs] at hy
    rw [norm_mul, norm_mul, norm_pow, Real.norm_eq_abs, Real.norm_eq_abs, Real.norm_eq_abs, abs_of_nonneg (asinCoeff_bounds n).1, Nat.abs_cast]
    push_cast
    calc _ ≤ 2 * (n : ℝ) * |y| ^ (2 * n - 1) := mul_le_of_le_one_left (by positivity) (asinCoeff_bounds n).2
      _ ≤ _ := by gcongr
  · rw [mem_ball_zero_iff, norm_zero]; exact (abs_nonneg z).trans_lt hr1
  · exact summable_asinG (by simp)
  · rwa [mem_ball_zero_iff, Real.norm_eq_abs]

theorem asinG_ode {z : ℝ} (hz : |z| < 1) :
    (1 - z ^ 2) * (∑' m : ℕ, asinCoeff m * ((2 * m : ℕ) * z ^ (2 * m - 1))) = z * asinG z := by
  have hs' := summable_asinG' hz
  have hs := summable_asinG hz
  have h1 : (∑' m : ℕ, asinCoeff m * ((2 * m : ℕ) * z ^ (2 * m - 1))) =
      ∑' m : ℕ, asinCoeff (m + 1) * ((2 * (m + 1) : ℕ) * z ^ (2 * (m + 1) - 1)) := by
    rw [hs'.tsum_eq_zero_add]; simp
  rw [sub_mul, one_mul]
  have h2 : z ^ 2 * (∑' m : ℕ, asinCoeff m * ((2 * m : ℕ) * z ^ (2 * m - 1))) =
      ∑' m : ℕ, asinCoeff m * ((2 * m : ℕ) * z ^ (2 * m + 1)) := by
    rw [← tsum_mul_left]
    refine tsum_congr fun m => ?_
    rcases m with _ | m
    · simp
    · rw [show 2 * (m + 1) + 1 = 2 + (2 * (m + 1) - 1) by omega, pow_add]; ring
  have hs2 : Summable fun m : ℕ => asinCoeff m * ((2 * m : ℕ) * z ^ (2 * m + 1)) := by
    refine (hs'.mul_left (z ^ 2)).congr fun m => ?_
    rcases m with _ | m
    · simp
    · rw [show 2 * (m + 1) + 1 = 2 + (2 * (m + 1) - 1) by omega, pow_add]; ring
  rw [h2, h1, ← ((summable_nat_add_iff 1).2 hs').tsum_sub hs2, asinG, ← tsum_mul_left]
  refine tsum_congr fun m => ?_
  rw [asinCoeff, show 2 * (m + 1) - 1 = 2 * m + 1 by omega]
  push_cast
  have : (2 * (m : ℝ) + 2) ≠ 0 := by positivity
  rw [pow_succ]
  field_simp
  ring

theorem asinG_eq {x : ℝ} (hx : |x| < 1) : asinG x = 1 / √(1 - x ^ 2) := by
  have hpos : ∀ z : ℝ, |z| < 1 → 0 < 1 - z ^ 2 := fun z hz => by
    have := (sq_lt_one_iff_abs_lt_one z).2 hz; linarith
  have hd : ∀ z ∈ Metric.ball (0 : ℝ) 1, HasDerivAt (fun z => asinG z * √(1 - z ^ 2)) 0 z := by
    intro z hz
    rw [mem_ball_zero_iff, Real.norm_eq_abs] at hz
    have hp := hpos z hz
    have h1 := (asinG_deriv hz).mul (((hasDerivAt_pow 2 z).const_sub 1).sqrt hp.ne')
    convert! h1 using 1
    have ho := asinG_ode hz
    have hsq : √(1 - z ^ 2) ^ 2 = 1 - z ^ 2 := Real.sq_sqrt hp.le
    have hs0 : √(1 - z ^ 2) ≠ 0 := (Real.sqrt_pos.2 hp).ne'
    set D := ∑' m : ℕ, asinCoeff m * ((2 * m : ℕ) * z ^ (2 * m - 1))
    field_simp
    rw [hsq]
    push_cast
    linear_combination (-2 : ℝ) * ho
  have hc := (convex_ball (0 : ℝ) 1).is_const_of_fderivWithin_eq_zero (𝕜 := ℝ) (f := fun z => asinG z * √(1 - z ^ 2))
    (fun z hz => (hd z hz).differentiableAt.differentiableWithinAt)
    (fun z hz => by
      rw [fderivWithin_of_isOpen Metric.isOpen_ball hz]
      have := (hd z hz).hasFDerivAt.fderiv
      rw [this]; ext; simp)
    (show x ∈ Metric.ball (0 : ℝ) 1 by rwa [mem_ball_zero_iff, Real.norm_eq_abs]) (show (0 : ℝ) ∈ Metric.ball (0 : ℝ) 1 by simp)
  have h0 : asinG 0 = 1 := by
    rw [asinG, tsum_eq_single 0]
    · simp [asinCoeff]
    · intro m hm; rw [zero_pow (by omega), mul_zero]
  simp only [h0] at hc
  rw [eq_div_iff (Real.sqrt_pos.2 (hpos x hx)).ne', hc]; simp

theorem asin_series {x : ℝ} (hx : |x| < 1) : HasSum (fun k : ℕ => asinCoeff k * x ^ (2 * k + 1) / (2 * k + 1)) (arcsin x) := by
  have hg0 : ∀ z : ℝ, |z| < 1 → Summable fun k : ℕ => asinCoeff k * z ^ (2 * k + 1) / (2 * k + 1) := by
    intro z hz
    refine Summable.of_norm_bounded (summable_coeff (abs_nonneg z) hz) fun m => ?_
    rw [norm_div, norm_mul, norm_pow, Real.norm_eq_abs, Real.norm_eq_abs, Real.norm_eq_abs, abs_of_nonneg (asinCoeff_bounds m).1,
      abs_of_pos (by positivity : 0 < 2 * (m : ℝ) + 1), div_le_iff₀ (by positivity)]
    calc _ ≤ |z| ^ (2 * m + 1) := mul_le_of_le_one_left (by positivity) (asinCoeff_bounds m).2
      _ = |z| ^ (2 * m) * |z| := pow_succ _ _
      _ ≤ |z| ^ (2 * m) * (2 * m + 1) := by
        gcongr
        have : (0 : ℝ) ≤ m := by positivity
        linarith
  have hd : ∀ z : ℝ, |z| < 1 → HasDerivAt (fun z => ∑' k : ℕ, asinCoeff k * z ^ (2 * k + 1) / (2 * k + 1)) (asinG z) z := by
    intro z hz
    obtain ⟨r, hr1, hr2⟩ := exists_between hz
    have hr0 : 0 ≤ r := (abs_nonneg z).trans hr1.le
    refine hasDerivAt_tsum_of_isPreconnected (t := Metric.ball 0 r) (y₀ := 0) (g' := fun m y => asinCoeff m * y ^ (2 * m))
      (summable_coeff hr0 hr2) Metric.isOpen_ball (convex_ball 0 r).isPreconnected (fun n y _ => ?_) ?_ ?_ ?_ ?_
    · have h := ((hasDerivAt_pow (2 * n + 1) y).const_mul (asinCoeff n)).div_const (2 * (n : ℝ) + 1)
      convert! h using 1
      rw [Nat.add_sub_cancel]
      push_cast
      field_simp
    · intro n y hy
      rw [mem_ball_zero_iff, Real.norm_eq_abs] at hy
      rw [norm_mul, norm_pow, Real.norm_eq_abs, Real.norm_eq_abs, abs_of_nonneg (asinCoeff_bounds n).1]
      calc _ ≤ |y| ^ (2 * n) := mul_le_of_le_one_left (by positivity) (asinCoeff_bounds n).2
        _ ≤ _ := by gcongr
    · rw [mem_ball_zero_iff, norm_zero]; exact (abs_nonneg z).trans_lt hr1
    · exact hg0 0 (by simp)
    · rwa [mem_ball_zero_iff, Real.norm_eq_abs]
  have hdd : ∀ z ∈ Metric.ball (0 : ℝ) 1,
      HasDerivAt (fun z => (∑' k : ℕ, asinCoeff k * z ^ (2 * k + 1) / (2 * k + 1)) - arcsin z) 0 z := by
    intro z hz
    rw [mem_ball_zero_iff, Real.norm_eq_abs] at hz
    have h1 := (hd z hz).sub (Real.hasDerivAt_arcsin (by intro h; rw [h] at hz; norm_num at hz) (by intro h; rw [h] at hz; norm_num at hz))
    convert! h1 using 1
    rw [asinG_eq hz, sub_self]
  have hc := (convex_ball (0 : ℝ) 1).is_const_of_fderivWithin_eq_zero (𝕜 := ℝ)
    (fun z hz => (hdd z hz).differentiableAt.differentiableWithinAt)
    (fun z hz => by
      rw [fderivWithin_of_isOpen Metric.isOpen_ball hz]
      have := (hdd z hz).hasFDerivAt.fderiv
      rw [this]; ext; simp)
    (show x ∈ Metric.ball (0 : ℝ) 1 by rwa [mem_ball_zero_iff, Real.norm_eq_abs]) (show (0 : ℝ) ∈ Metric.ball (0 : ℝ) 1 by simp)
  have h0 : (∑' k : ℕ, asinCoeff k * (0 : ℝ) ^ (2 * k + 1) / (2 * k + 1)) = 0 := by
    simp
  simp only [h0, arcsin_zero, sub_zero] at hc
  have hx' : (∑' k : ℕ, asinCoeff k * x ^ (2 * k + 1) / (2 * k + 1)) = arcsin x := by linarith
  rw [← hx']
  exact (hg0 x hx).hasSum

theorem asinCalls_tendsto {x : ℝ} (hx : |x| < 1) : Tendsto (fun n => (asinCalls x n).sum) atTop (𝓝 (arcsin x)) := by
  simp only [asinCalls_state]
  exact (tendsto_add_atTop_iff_nat 1).2 (asin_series hx).tendsto_sum_nat

end OpenKalman.Values
