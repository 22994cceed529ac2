/-
Lemmas about the real-valued functions of `values/math`.
-/
import Verif.Model.ValuesReal
import Mathlib.Analysis.SpecialFunctions.Log.Deriv
import Mathlib.Analysis.SpecialFunctions.Trigonometric.Series
import Mathlib.Analysis.SpecialFunctions.Exponential
import Mathlib.Analysis.SpecialFunctions.Sqrt
import Mathlib.Topology.Order.MonotoneConvergence
import Mathlib.Tactic

namespace OpenKalman.Values

open Real Topology Filter

theorem intMin_neg (w : ℕ) : intMin w < 0 := by
  unfold intMin; have : (0 : ℤ) < 2 ^ (w - 1) := by positivity
  omega

/-! ### Powers -/

theorem tmod_two_even {n : ℤ} (h1 : n.tmod 2 ≠ 1) (hn : 0 < n) : 2 * n.tdiv 2 = n := by
  have h := Int.tmod_add_mul_tdiv n 2
  have h2 := Int.tmod_nonneg (a := n) 2 hn.le
  have h3 := Int.tmod_lt_of_pos n (b := 2) (by norm_num)
  omega

theorem powIntegral_eq {F : Type} [Field F] (w : ℕ) {arg : F} (zneg : Bool) (harg : arg ≠ 0) (n : ℤ)
    (hn : intMin w < n) : powIntegral w arg zneg n = some (.fin (arg ^ n)) := by
  have hw := intMin_neg w
  fun_induction powIntegral w arg zneg n with
  | case1 => simp
  | case2 => omega
  | case3 n h0 h1 h2 ih =>
    rw [ih (by omega)]; simp [Num.inv]
  | case4 => contradiction
  | case5 n h0 h1 h2 h3 ih =>
    have hpos : 0 < n := by
      have : ¬ n < 0 := fun h => h1 ⟨harg, h⟩
      omega
    rw [ih (by omega)]
    simp only [Option.map_some, Num.mul, Option.some.injEq, Num.fin.injEq]
    rw [mul_comm, ← zpow_add_one₀ harg]; congr 1; omega
  | case6 => omega
  | case7 => contradiction
  | case8 n h0 h1 h2 h3 h4 h5 =>
    exfalso
    have : ¬ n < 0 := fun h => h1 ⟨harg, h⟩
    have h6 := Int.tmod_nonneg (a := n) 2 (by omega)
    rw [Int.neg_tmod] at h4; omega
  | case9 => contradiction
  | case10 n h0 h1 h2 h3 h4 h5 ih =>
    have hpos : 0 < n := by
      have : ¬ n < 0 := fun h => h1 ⟨harg, h⟩
      omega
    have he := tmod_two_even h2 hpos
    rw [ih (by omega)]
    simp only [Option.bind_eq_bind, Option.bind_some, Num.mul, Option.some.injEq, Num.fin.injEq]
    rw [← zpow_add₀ harg]; congr 1; omega

theorem integralExp_eq (w : ℕ) (n : ℤ) (hn : intMin w < n) : integralExp w n = some (rexp n) := by
  have hw := intMin_neg w
  fun_induction integralExp w n with
  | case1 => simp
  | case2 => simp
  | case3 n => omega
  | case4 n h0 h1 h2 h3 ih => rw [ih (by omega)]; simp [Real.exp_neg]
  | case5 n h0 h1 h2 h3 ih =>
    rw [ih (by omega)]; simp only [Option.map_some, Option.some.injEq]
    rw [← Real.exp_add]; congr 1; push_cast; ring
  | case6 n h0 h1 h2 h3 ih =>
    have he := tmod_two_even h3 (by omega)
    rw [ih (by omega)]; simp only [Option.map_some, Option.some.injEq]
    rw [← Real.exp_add]; congr 1
    have : ((2 * n.tdiv 2 : ℤ) : ℝ) = n := by rw [he]
    push_cast at this; linarith

theorem integralExp_min (w : ℕ) : integralExp w (intMin w) = none := by
  have := intMin_neg w
  rw [integralExp, dif_neg (by omega), dif_neg (by omega), dif_pos this, if_pos rfl]

/-! ### Series -/

theorem limit_eq {u : ℕ → Series} {l : ℝ} (h : Tendsto (fun n => (u n).sum) atTop (𝓝 l)) : limit u = l := h.limUnder_eq

theorem expCalls_state (c x : ℝ) (n : ℕ) : expCalls c x n =
    ⟨n + 1, c + ∑ k ∈ Finset.range n, x ^ (k + 1) / (k + 1).factorial, x ^ (n + 1) / (n + 1).factorial⟩ := by
  induction n with
  | zero => simp [expCalls]
  | succ n ih =>
    rw [expCalls, ih, expStep]
    simp only [Series.mk.injEq]
    refine ⟨trivial, ?_, ?_⟩
    · rw [Finset.sum_range_succ]; ring
    · rw [pow_succ x (n + 1), Nat.factorial_succ (n + 1)]
      push_cast
      have h1 : ((n : ℝ) + 1 + 1) ≠ 0 := by positivity
      have h2 : ((n + 1).factorial : ℝ) ≠ 0 := by positivity
      field_simp

theorem expCalls_tendsto (c x : ℝ) : Tendsto (fun n => (expCalls c x n).sum) atTop (𝓝 (c + (rexp x - 1))) := by
  simp only [expCalls_state]
  refine Tendsto.const_add c ?_
  have h := NormedSpace.expSeries_div_hasSum_exp x
  rw [← Real.exp_eq_exp_ℝ] at h
  have h2 := (hasSum_nat_add_iff' (f := fun n => x ^ n / (n.factorial : ℝ)) 1).2 h
  simpa using h2.tendsto_sum_nat

theorem sinCalls_state (x : ℝ) (n : ℕ) : sinCalls x n =
    ⟨2 * n + 4, ∑ k ∈ Finset.range (n + 1), (-1) ^ k * x ^ (2 * k + 1) / (2 * k + 1).factorial,
      (-1) ^ (n + 1) * x ^ (2 * (n + 1) + 1) / (2 * (n + 1) + 1).factorial⟩ := by
  induction n with
  | zero => simp [sinCalls, Nat.factorial]; ring
  | succ n ih =>
    rw [sinCalls, ih, sinCosStep]
    simp only [Series.mk.injEq]
    refine ⟨by ring, ?_, ?_⟩
    · rw [Finset.sum_range_succ _ (n + 1)]
    · rw [show 2 * (n + 1 + 1) + 1 = (2 * (n + 1) + 1) + 1 + 1 by ring, Nat.factorial_succ (2 * (n + 1) + 1 + 1),
        Nat.factorial_succ (2 * (n + 1) + 1), pow_succ x (2 * (n + 1) + 1 + 1), pow_succ x (2 * (n + 1) + 1), pow_succ (-1 : ℝ) (n + 1)]
      have h2 : ((2 * (n + 1) + 1).factorial : ℝ) ≠ 0 := by positivity
      push_cast
      have h3 : (2 * (n : ℝ) + 4) ≠ 0 := by positivity
      have h4 : (2 * (n : ℝ) + 4 + 1) ≠ 0 := by positivity
      have e1 : (2 * ((n : ℝ) + 1) + 1 + 1 + 1) = 2 * (n : ℝ) + 4 + 1 := by ring
      have e2 : (2 * ((n : ℝ) + 1) + 1 + 1) = 2 * (n : ℝ) + 4 := by ring
      rw [e1, e2]
      field_simp

theorem sinCalls_tendsto (x : ℝ) : Tendsto (fun n => (sinCalls x n).sum) atTop (𝓝 (sin x)) := by
  simp only [sinCalls_state]
  exact (tendsto_add_atTop_iff_nat 1).2 (Real.hasSum_sin x).tendsto_sum_nat

theorem cosCalls_state (c x : ℝ) (n : ℕ) : cosCalls c x n =
    ⟨2 * n + 3, c + (∑ k ∈ Finset.range (n + 1), (-1) ^ k * x ^ (2 * k) / (2 * k).factorial - 1),
      (-1) ^ (n + 1) * x ^ (2 * (n + 1)) / (2 * (n + 1)).factorial⟩ := by
  induction n with
  | zero => simp [cosCalls, Nat.factorial]; ring
  | succ n ih =>
    rw [cosCalls, ih, sinCosStep]
    simp only [Series.mk.injEq]
    refine ⟨by ring, ?_, ?_⟩
    · rw [Finset.sum_range_succ _ (n + 1)]; ring
    · rw [show 2 * (n + 1 + 1) = (2 * (n + 1)) + 1 + 1 by ring, Nat.factorial_succ (2 * (n + 1) + 1),
        Nat.factorial_succ (2 * (n + 1)), pow_succ x (2 * (n + 1) + 1), pow_succ x (2 * (n + 1)), pow_succ (-1 : ℝ) (n + 1)]
      have h2 : ((2 * (n + 1)).factorial : ℝ) ≠ 0 := by positivity
      push_cast
      have h3 : (2 * (n : ℝ) + 3) ≠ 0 := by positivity
      have h4 : (2 * (n : ℝ) + 3 + 1) ≠ 0 := by positivity
      have e1 : (2 * ((n : ℝ) + 1) + 1 + 1) = 2 * (n : ℝ) + 3 + 1 := by ring
      have e2 : (2 * ((n : ℝ) + 1) + 1) = 2 * (n : ℝ) + 3 := by ring
      rw [e1, e2]
      field_simp

theorem cosCalls_tendsto (c x : ℝ) : Tendsto (fun n => (cosCalls c x n).sum) atTop (𝓝 (c + (cos x - 1))) := by
  simp only [cosCalls_state]
  exact ((((tendsto_add_atTop_iff_nat 1).2 (Real.hasSum_cos x).tendsto_sum_nat)).sub_const 1).const_add c

theorem log1pCalls_state (x : ℝ) (n : ℕ) : log1pCalls x n =
    ⟨n + 2, -∑ k ∈ Finset.range (n + 1), (-x) ^ (k + 1) / (k + 1), (-x) ^ (n + 1)⟩ := by
  induction n with
  | zero => simp [log1pCalls]
  | succ n ih =>
    rw [log1pCalls, ih, log1pStep]
    simp only [Series.mk.injEq]
    refine ⟨trivial, ?_, (pow_succ _ _).symm⟩
    rw [Finset.sum_range_succ _ (n + 1), neg_add]
    congr 1
    push_cast
    have h3 : ((n : ℝ) + 2) ≠ 0 := by positivity
    have e : (n : ℝ) + 1 + 1 = n + 2 := by ring
    rw [e, pow_succ (-x) (n + 1)]; ring

theorem log1pCalls_tendsto {x : ℝ} (hx : |x| < 1) : Tendsto (fun n => (log1pCalls x n).sum) atTop (𝓝 (log (1 + x))) := by
  simp only [log1pCalls_state]
  have h := Real.hasSum_pow_div_log_of_abs_lt_one (x := -x) (by rwa [abs_neg])
  have h2 := ((tendsto_add_atTop_iff_nat 1).2 h.tendsto_sum_nat).neg
  rw [neg_neg, sub_neg_eq_add] at h2
  exact h2

/-! ### Truncation and the exponential -/

theorem trunc_nonneg {x : ℝ} (h : 0 ≤ x) : trunc x = ⌊x⌋ := if_pos h
theorem trunc_neg {x : ℝ} (h : x < 0) : trunc x = ⌈x⌉ := if_neg (not_le.2 h)

theorem abs_trunc_le (x : ℝ) : |(trunc x : ℝ)| ≤ |x| ∧ |x - trunc x| < 1 ∧ 0 ≤ (x - trunc x) * x := by
  rcases le_or_gt 0 x with h | h
  · rw [trunc_nonneg h, abs_of_nonneg h]
    have h1 := Int.floor_le x
    have h2 := Int.lt_floor_add_one x
    have h3 : (0 : ℝ) ≤ ⌊x⌋ := by exact_mod_cast Int.floor_nonneg.2 h
    refine ⟨by rw [abs_of_nonneg h3]; exact h1, ?_, mul_nonneg (by linarith) h⟩
    rw [abs_of_nonneg (by linarith)]; linarith
  · rw [trunc_neg h, abs_of_neg h]
    have h1 := Int.le_ceil x
    have h2 := Int.ceil_lt_add_one x
    have h3 : (⌈x⌉ : ℝ) ≤ 0 := by exact_mod_cast Int.ceil_nonpos.2 h.le
    refine ⟨by rw [abs_of_nonpos h3]; linarith, ?_, mul_nonneg_of_nonpos_of_nonpos (by linarith) h.le⟩
    rw [abs_of_nonpos (by linarith)]; linarith

theorem truncDown_eq {w : ℕ} {x : ℝ} (h1 : -2 ^ (w - 1) + 1 < x) (h2 : x < 2 ^ (w - 1)) :
    ∃ t : ℤ, truncDown w x = some t ∧ intMin w < t := by
  unfold truncDown castInt intMin
  rcases le_or_gt 0 x with h | h
  · rw [trunc_nonneg h, if_pos]
    · simp only [Option.bind_eq_bind, Option.bind_some, if_neg (not_lt.2 h)]
      refine ⟨⌊x⌋, rfl, ?_⟩
      have := Int.floor_nonneg.2 h
      have h0 : (0 : ℤ) < 2 ^ (w - 1) := by positivity
      omega
    · have h0 : (0 : ℤ) < 2 ^ (w - 1) := by positivity
      have := Int.floor_nonneg.2 h
      refine ⟨by omega, Int.floor_lt.2 (by push_cast; exact h2)⟩
  · have h4 : (⌈x⌉ : ℤ) ≤ 0 := Int.ceil_nonpos.2 h.le
    have h3 : -2 ^ (w - 1) + 1 < ⌈x⌉ := Int.lt_ceil.2 (by push_cast; exact h1)
    have h0 : (0 : ℤ) < 2 ^ (w - 1) := by positivity
    rw [trunc_neg h, if_pos ⟨by omega, by omega⟩]
    simp only [Option.bind_eq_bind, Option.bind_some, if_pos h]
    rw [if_neg (by omega)]
    exact ⟨_, rfl, by omega⟩

theorem expReal_eq {w : ℕ} {x : ℝ} (h1 : -2 ^ (w - 1) + 1 < x) (h2 : x < 2 ^ (w - 1)) :
    expReal w x = some (rexp x) := by
  unfold expReal
  split_ifs with h0 h3
  · simp [h0]
  · rw [limit_eq (expCalls_tendsto 1 x)]; simp
  · obtain ⟨t, ht, htm⟩ := truncDown_eq h1 h2
    simp only [ht, Option.bind_eq_bind, Option.bind_some, integralExp_eq w t htm, limit_eq (expCalls_tendsto 1 _)]
    congr 1
    rw [show (1 : ℝ) + (rexp (x - t) - 1) = rexp (x - t) by ring, ← Real.exp_add]; congr 1; ring

theorem expm1Real_eq {w : ℕ} {x : ℝ} (h1 : -2 ^ (w - 1) + 1 < x) (h2 : x < 2 ^ (w - 1)) :
    expm1Real w x = some (rexp x - 1) := by
  unfold expm1Real
  split_ifs with h0 h3
  · simp [h3]
  · rw [limit_eq (expCalls_tendsto 0 x)]; simp
  · obtain ⟨t, ht, htm⟩ := truncDown_eq h1 h2
    simp only [ht, Option.bind_eq_bind, Option.bind_some, integralExp_eq w t htm, limit_eq (expCalls_tendsto 0 _)]
    congr 1
    have : rexp x = rexp t * rexp (x - t) := by rw [← Real.exp_add]; congr 1; ring
    rw [this]; ring

/-! ### Logarithm -/

theorem logScalingGt_spec (x corr : ℝ) (hx : 1 ≤ x) :
    log (logScalingGt x corr).1 + (logScalingGt x corr).2 = log x + corr ∧ 1 ≤ (logScalingGt x corr).1 ∧
      (logScalingGt x corr).1 < 16 := by
  fun_induction logScalingGt x corr with
  | case1 x corr h => exact ⟨rfl, hx, by norm_num at h; exact h⟩
  | case2 x corr h h2 ih =>
    obtain ⟨i1, i2⟩ := ih (by norm_num at h ⊢; linarith)
    refine ⟨?_, i2⟩
    rw [i1, Real.log_mul (by linarith) (by positivity), Real.log_inv, Real.log_pow]; push_cast; ring
  | case3 x corr h h2 h3 ih =>
    obtain ⟨i1, i2⟩ := ih (by norm_num at h2 ⊢; linarith)
    refine ⟨?_, i2⟩
    rw [i1, Real.log_mul (by linarith) (by positivity), Real.log_inv, Real.log_pow]; push_cast; ring
  | case4 x corr h h2 h3 ih =>
    obtain ⟨i1, i2⟩ := ih (by norm_num at h3 ⊢; linarith)
    refine ⟨?_, i2⟩
    rw [i1, Real.log_mul (by linarith) (by positivity), Real.log_inv, Real.log_pow]; push_cast; ring

theorem logScalingLt_spec (x corr : ℝ) (hx : 0 < x) : ∃ s c, logScalingLt x corr = some (s, c) ∧
    log s + c = log x + corr ∧ 1 / 16 < s ∧ s ≤ max x 1 := by
  fun_induction logScalingLt x corr with
  | case1 x corr h => linarith
  | case2 x corr h h2 =>
    refine ⟨x, corr, rfl, rfl, ?_, le_max_left _ _⟩
    norm_num at h2 ⊢; linarith
  | case3 x corr h h2 h3 ih =>
    obtain ⟨s, c, i0, i1, i2, i3⟩ := ih (by positivity)
    refine ⟨s, c, i0, ?_, i2, i3.trans ?_⟩
    · rw [i1, Real.log_mul (by linarith) (by positivity), Real.log_pow]; push_cast; ring
    · refine max_le (le_max_of_le_right ?_) (le_max_right _ _)
      norm_num at h2 ⊢; linarith
  | case4 x corr h h2 h3 h4 ih =>
    obtain ⟨s, c, i0, i1, i2, i3⟩ := ih (by positivity)
    refine ⟨s, c, i0, ?_, i2, i3.trans ?_⟩
    · rw [i1, Real.log_mul (by linarith) (by positivity), Real.log_pow]; push_cast; ring
    · refine max_le (le_max_of_le_right ?_) (le_max_right _ _)
      norm_num at h3 ⊢; linarith
  | case5 x corr h h2 h3 h4 ih =>
    obtain ⟨s, c, i0, i1, i2, i3⟩ := ih (by positivity)
    refine ⟨s, c, i0, ?_, i2, i3.trans ?_⟩
    · rw [i1, Real.log_mul (by linarith) (by positivity), Real.log_pow]; push_cast; ring
    · refine max_le (le_max_of_le_right ?_) (le_max_right _ _)
      norm_num at h4 ⊢; linarith

/-- A step of the iteration never passes the logarithm: from below it moves up, strictly, and stays below. -/
theorem halleyStep_between {x y : ℝ} (hx : 0 < x) (hy : y < log x) : y < halleyStep x y ∧ halleyStep x y < log x := by
  have he : rexp y < x := (Real.lt_log_iff_exp_lt hx).1 hy
  have hp := Real.exp_pos y
  unfold halleyStep
  constructor
  · have : 0 < 2 * (x - rexp y) / (x + rexp y) := by apply div_pos <;> linarith
    linarith
  · have h := Real.lt_log_one_add_of_pos (x := x / rexp y - 1) (by rw [sub_pos, one_lt_div hp]; exact he)
    rw [add_sub_cancel, Real.log_div hx.ne' hp.ne', Real.log_exp] at h
    have e : 2 * (x / rexp y - 1) / (x / rexp y - 1 + 2) = 2 * (x - rexp y) / (x + rexp y) := by
      rw [show x / rexp y - 1 + 2 = (x + rexp y) / rexp y by field_simp; ring]
      field_simp
    rw [e] at h
    linarith

theorem halleyStep_fixed {x y : ℝ} (hx : 0 < x) : halleyStep x y = y ↔ y = log x := by
  unfold halleyStep
  have hp := Real.exp_pos y
  rw [add_eq_left, div_eq_zero_iff]
  constructor
  · rintro (h | h)
    · have : rexp y = x := by linarith
      rw [← this, Real.log_exp]
    · linarith
  · rintro rfl
    left; rw [Real.exp_log hx]; ring

theorem halleyStep_inv {x : ℝ} (hx : 0 < x) (y : ℝ) : halleyStep x⁻¹ (-y) = -halleyStep x y := by
  unfold halleyStep
  have hp := Real.exp_pos y
  rw [Real.exp_neg]
  have h1 : x + rexp y ≠ 0 := by positivity
  have h2 : x⁻¹ + (rexp y)⁻¹ ≠ 0 := by positivity
  have e : 2 * (x⁻¹ - (rexp y)⁻¹) / (x⁻¹ + (rexp y)⁻¹) = -(2 * (x - rexp y) / (x + rexp y)) := by
    rw [← neg_div, div_eq_div_iff h2 h1]
    field_simp
    ring
  rw [e]; ring

theorem halley_inv {x : ℝ} (hx : 0 < x) (n : ℕ) : halley x⁻¹ n = -halley x n := by
  induction n with
  | zero => simp [halley]
  | succ n ih => rw [halley, halley, ih, halleyStep_inv hx]

theorem halley_le {x : ℝ} (hx : 1 ≤ x) (n : ℕ) : halley x n ≤ log x := by
  induction n with
  | zero => exact Real.log_nonneg hx
  | succ n ih =>
    rw [halley]
    rcases ih.lt_or_eq with h | h
    · exact (halleyStep_between (by linarith) h).2.le
    · rw [h, (halleyStep_fixed (by linarith)).2 rfl]

theorem halley_mono {x : ℝ} (hx : 1 ≤ x) : Monotone (halley x) := by
  apply monotone_nat_of_le_succ
  intro n
  rw [halley]
  rcases (halley_le hx n).lt_or_eq with h | h
  · exact (halleyStep_between (by linarith) h).1.le
  · rw [h, (halleyStep_fixed (by linarith)).2 rfl]

theorem halley_tendsto_ge {x : ℝ} (hx : 1 ≤ x) : Tendsto (halley x) atTop (𝓝 (log x)) := by
  have hx0 : 0 < x := by linarith
  have hb : BddAbove (Set.range (halley x)) := ⟨log x, by rintro _ ⟨n, rfl⟩; exact halley_le hx n⟩
  have h := tendsto_atTop_ciSup (halley_mono hx) hb
  set l := ⨆ i, halley x i
  have hc : Continuous (halleyStep x) := by
    unfold halleyStep
    apply Continuous.add continuous_id
    apply Continuous.div (by fun_prop) (by fun_prop)
    intro y; have := Real.exp_pos y; positivity
  have h1 : Tendsto (fun n => halleyStep x (halley x n)) atTop (𝓝 (halleyStep x l)) := (hc.tendsto l).comp h
  have h2 : Tendsto (fun n => halley x (n + 1)) atTop (𝓝 l) := (tendsto_add_atTop_iff_nat 1).2 h
  have h3 : halleyStep x l = l := tendsto_nhds_unique h1 h2
  rwa [(halleyStep_fixed hx0).1 h3] at h

theorem halley_tendsto {x : ℝ} (hx : 0 < x) : Tendsto (halley x) atTop (𝓝 (log x)) := by
  rcases le_or_gt 1 x with h | h
  · exact halley_tendsto_ge h
  · have h1 := (halley_tendsto_ge (x := x⁻¹) ((one_le_inv₀ hx).2 h.le)).neg
    rw [Real.log_inv, neg_neg] at h1
    refine h1.congr fun n => ?_
    rw [halley_inv hx, neg_neg]

theorem logReal_eq {x : ℝ} (hx : 0 < x) : logReal x = some (.fin (log x)) := by
  unfold logReal
  split_ifs with h1 h2 h3 h4
  · simp [h1]
  · linarith
  · linarith
  · obtain ⟨i1, i2, -⟩ := logScalingGt_spec x 0 (by linarith)
    simp only [Option.map_some]
    rw [(halley_tendsto (by linarith : 0 < (logScalingGt x 0).1)).limUnder_eq, i1, add_zero]
  · obtain ⟨s, c, i0, i1, i2, -⟩ := logScalingLt_spec x 0 hx
    simp only [i0, Option.map_some]
    rw [(halley_tendsto (by linarith : 0 < s)).limUnder_eq, i1, add_zero]

theorem log1pReal_eq {x : ℝ} (hx : -1 < x) : log1pReal x = some (.fin (log (1 + x))) := by
  unfold log1pReal
  split_ifs with h1 h2 h3 h4 h5
  · simp [h1]
  · linarith
  · linarith
  · rw [limit_eq (log1pCalls_tendsto (abs_lt.2 ⟨by norm_num at h4 ⊢; linarith, by norm_num at h4 ⊢; linarith⟩))]
  · obtain ⟨i1, i2, -⟩ := logScalingGt_spec (x + 1) 0 (by linarith)
    simp only [Option.map_some]
    rw [(halley_tendsto (by linarith : 0 < (logScalingGt (x + 1) 0).1)).limUnder_eq, i1, add_zero, add_comm x 1]
  · obtain ⟨s, c, i0, i1, i2, -⟩ := logScalingLt_spec (x + 1) 0 (by linarith)
    simp only [i0, Option.map_some]
    rw [(halley_tendsto (by linarith : 0 < s)).limUnder_eq, i1, add_zero, add_comm x 1]

/-! ### Square root -/

theorem newton_pos {a : ℝ} (ha : 0 < a) (n : ℕ) : 0 < newton a n := by
  induction n with
  | zero => rw [newton]; positivity
  | succ n ih => rw [newton, newtonStep]; positivity

theorem newton_err {a : ℝ} (ha : 0 < a) (n : ℕ) :
    newton a (n + 1) - √a = (newton a n - √a) ^ 2 / (2 * newton a n) := by
  have hp := newton_pos ha n
  have hs : √a ^ 2 = a := Real.sq_sqrt ha.le
  rw [newton, newtonStep]
  field_simp
  rw [sub_sq, hs]; ring

theorem newton_ge {a : ℝ} (ha : 0 < a) (n : ℕ) : √a ≤ newton a (n + 1) := by
  have h := newton_err ha n
  have hp := newton_pos ha n
  have : 0 ≤ (newton a n - √a) ^ 2 / (2 * newton a n) := by positivity
  linarith

theorem newton_halves {a : ℝ} (ha : 0 < a) (n : ℕ) : newton a (n + 2) - √a ≤ (newton a (n + 1) - √a) / 2 := by
  rw [newton_err ha (n + 1)]
  have hp := newton_pos ha (n + 1)
  have hg := newton_ge ha n
  have hs := Real.sqrt_nonneg a
  rw [div_le_div_iff₀ (by positivity) (by norm_num)]
  nlinarith [mul_nonneg (sub_nonneg.2 hg) hs]

theorem newton_tendsto {a : ℝ} (ha : 0 < a) : Tendsto (newton a) atTop (𝓝 (√a)) := by
  have hb : ∀ n, newton a (n + 1) - √a ≤ (newton a 1 - √a) * (1 / 2) ^ n := by
    intro n
    induction n with
    | zero => simp
    | succ n ih =>
      have := newton_halves ha n
      rw [pow_succ]; linarith
  have h1 : Tendsto (fun n => newton a (n + 1) - √a) atTop (𝓝 0) := by
    refine squeeze_zero (fun n => sub_nonneg.2 (newton_ge ha n)) hb ?_
    have := (tendsto_pow_atTop_nhds_zero_of_lt_one (r := (1 / 2 : ℝ)) (by norm_num) (by norm_num)).const_mul (newton a 1 - √a)
    rwa [mul_zero] at this
  have h2 := h1.add_const (√a)
  simp only [sub_add_cancel, zero_add] at h2
  exact (tendsto_add_atTop_iff_nat 1).1 h2

theorem newtonStep_fixed {a p : ℝ} (ha : 0 ≤ a) (hp : 0 < p) : newtonStep a p = p ↔ p = √a := by
  unfold newtonStep
  constructor
  · intro h
    have h2 : p * p = a := by
      have : a / p = p := by norm_num at h; linarith
      rw [div_eq_iff hp.ne'] at this; exact this.symm
    rw [← h2, Real.sqrt_mul_self hp.le]
  · intro h
    have h2 : a = p * p := by rw [h, Real.mul_self_sqrt ha]
    rw [h2]; field_simp; norm_num

/-! ### Periodic reduction -/

theorem castInt_some {w : ℕ} {x : ℝ} {q : ℤ} (h : castInt w x = some q) : q = trunc x := by
  unfold castInt at h; split_ifs at h; exact (Option.some.inj h).symm

theorem castInt_of_lt {w : ℕ} {x : ℝ} (h1 : -2 ^ (w - 1) - 1 < x) (h2 : x < 2 ^ (w - 1)) : castInt w x = some (trunc x) := by
  unfold castInt
  rw [if_pos]
  have hp : (0 : ℤ) < 2 ^ (w - 1) := by positivity
  rcases le_or_gt 0 x with h | h
  · rw [trunc_nonneg h]
    have := Int.floor_nonneg.2 h
    exact ⟨by omega, Int.floor_lt.2 (by push_cast; exact h2)⟩
  · rw [trunc_neg h]
    have := Int.ceil_nonpos.2 h.le
    have h3 : -2 ^ (w - 1) - 1 < ⌈x⌉ := Int.lt_ceil.2 (by push_cast; exact h1)
    exact ⟨by omega, by omega⟩

theorem scalePeriodic_spec (theta : ℝ) {r : ℝ} (h : scalePeriodic theta = some r) :
    ∃ k : ℤ, r = theta - k * (2 * π) ∧ |r| < 2 * π := by
  have hpi := Real.pi_pos
  fun_induction scalePeriodic theta with
  | case1 theta h1 =>
    obtain rfl := Option.some.inj h
    exact ⟨0, by simp, abs_lt.2 ⟨by linarith [h1.1], by linarith [h1.2]⟩⟩
  | case2 theta h1 h2 =>
    rw [Option.map_eq_some_iff] at h
    obtain ⟨q, hq, rfl⟩ := h
    obtain rfl := castInt_some hq
    refine ⟨trunc (theta / (π * 2)), by ring, ?_⟩
    have h3 := (abs_trunc_le (theta / (π * 2))).2.1
    have e : theta - trunc (theta / (π * 2)) * (π * 2) = (theta / (π * 2) - trunc (theta / (π * 2))) * (π * 2) := by
      field_simp
    rw [e, abs_mul, abs_of_pos (by positivity : 0 < π * 2)]
    nlinarith
  | case3 theta h1 h2 h3 ih =>
    obtain ⟨k, e, hr⟩ := ih h
    exact ⟨k + 2 ^ growCorr (theta / (π * 2) - 2 ^ 63) 0, by rw [e]; push_cast; ring, hr⟩
  | case4 theta h1 h2 h3 ih =>
    obtain ⟨k, e, hr⟩ := ih h
    exact ⟨k - 2 ^ growCorr (-2 ^ 63 - theta / (π * 2)) 0, by rw [e]; push_cast; ring, hr⟩

theorem scalePeriodic_defined {theta : ℝ} (h : |theta / (2 * π)| < 2 ^ 63) : ∃ r, scalePeriodic theta = some r := by
  rw [mul_comm 2 π] at h
  obtain ⟨h1, h2⟩ := abs_lt.1 h
  rw [scalePeriodic]
  split_ifs with c1 c2 c3
  · exact ⟨_, rfl⟩
  · rw [castInt_of_lt (by norm_num at h1 ⊢; linarith) (by norm_num at h2 ⊢; linarith)]
    exact ⟨_, rfl⟩
  · exact absurd ⟨h1.le, h2.le⟩ c2
  · exact absurd ⟨h1.le, h2.le⟩ c2

end OpenKalman.Values
