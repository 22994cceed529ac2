/-
Lemmas about the norm and the complex-valued functions of `values/math`.
-/
import Verif.Model.ValuesComplex
import Verif.Proof.ValuesAsin
import Mathlib.Analysis.SpecialFunctions.Arsinh
import Mathlib.Analysis.SpecialFunctions.Arcosh
import Mathlib.Analysis.SpecialFunctions.Artanh
import Mathlib.Analysis.SpecialFunctions.Complex.Arctan
import Mathlib.Analysis.SpecialFunctions.Trigonometric.Arctan

namespace OpenKalman.Values

open Real Topology Filter

theorem copysign_nonneg {a : ℝ} (ha : 0 ≤ a) (s : ℝ) : copysign a s = if s < 0 then -a else a := by
  unfold copysign signbit
  have : ¬ a < 0 := not_lt.2 ha
  by_cases hs : s < 0 <;> simp [hs, this]

theorem absReal_eq (x : ℝ) : absReal x = |x| := by
  unfold absReal signbit
  by_cases h : x < 0
  · simp [h, abs_of_neg h]
  · simp [h, abs_of_nonneg (not_lt.1 h)]

/-! ### Norm -/

theorem foldl_max_spec (l : List ℝ) (m : ℝ) :
    m ≤ l.foldl max m ∧ (∀ a ∈ l, a ≤ l.foldl max m) ∧ (l.foldl max m = m ∨ l.foldl max m ∈ l) := by
  induction l generalizing m with
  | nil => simp
  | cons b l ih =>
    obtain ⟨h1, h2, h3⟩ := ih (max m b)
    rw [List.foldl_cons]
    refine ⟨(le_max_left _ _).trans h1, ?_, ?_⟩
    · intro a ha
      rcases List.mem_cons.1 ha with rfl | ha
      · exact (le_max_right _ _).trans h1
      · exact h2 a ha
    · rcases h3 with h3 | h3
      · rcases max_choice m b with hc | hc
        · left; rw [h3, hc]
        · right; rw [h3, hc]; exact List.mem_cons_self
      · right; exact List.mem_cons_of_mem _ h3

theorem foldl_add_eq (l : List ℝ) (a : ℝ) : l.foldl (· + ·) a = a + l.sum := by
  induction l generalizing a with
  | nil => simp
  | cons b l ih => rw [List.foldl_cons, ih, List.sum_cons]; ring

theorem sum_scaled (l : List ℝ) (m : ℝ) : m ^ 2 * (l.map fun a => a / m * (a / m)).sum = if m = 0 then 0 else (l.map (· ^ 2)).sum := by
  split_ifs with h
  · simp [h]
  · induction l with
    | nil => simp
    | cons a l ih =>
      rw [List.map_cons, List.sum_cons, List.map_cons, List.sum_cons, mul_add, ih]
      congr 1; field_simp

theorem hypotReal_eq {l : List ℝ} (hl : l ≠ []) : hypotReal l = √((l.map (· ^ 2)).sum) := by
  match l, hl with
  | [x], _ => simp [hypotReal, absReal_eq, Real.sqrt_sq_eq_abs]
  | x :: y :: t, _ =>
    rw [hypotReal]
    set m := ((y :: t).map absReal).foldl max (absReal x) with hm
    obtain ⟨h1, h2, -⟩ := foldl_max_spec ((y :: t).map absReal) (absReal x)
    rw [← hm] at h1 h2
    rw [absReal_eq] at h1
    have hm0 : 0 ≤ m := (abs_nonneg x).trans h1
    have hmem : ∀ a ∈ y :: t, |a| ≤ m := by
      intro a ha
      rw [← absReal_eq]
      exact h2 _ (List.mem_map_of_mem ha)
    show (if m = 0 then m else m * √((((y :: t).map fun a => a / m * (a / m)).foldl (· + ·) (x / m * (x / m))))) = _
    by_cases h0 : m = 0
    · rw [if_pos h0, h0]
      have hz : ∀ a ∈ x :: y :: t, a = 0 := by
        intro a ha
        rcases List.mem_cons.1 ha with rfl | ha
        · exact abs_nonpos_iff.1 (h0 ▸ h1)
        · exact abs_nonpos_iff.1 (h0 ▸ hmem a ha)
      have : ((x :: y :: t).map (· ^ 2)).sum = 0 := by
        apply List.sum_eq_zero
        intro b hb
        obtain ⟨a, ha, rfl⟩ := List.mem_map.1 hb
        rw [hz a ha]; norm_num
      rw [this, Real.sqrt_zero]
    · rw [if_neg h0, foldl_add_eq]
      have e : x / m * (x / m) + ((y :: t).map fun a => a / m * (a / m)).sum = ((x :: y :: t).map fun a => a / m * (a / m)).sum := by
        rw [List.map_cons (l := y :: t), List.sum_cons]
      have e2 : ((x :: y :: t).map (· ^ 2)).sum = m ^ 2 * ((x :: y :: t).map fun a => a / m * (a / m)).sum := by
        rw [sum_scaled, if_neg h0]
      rw [e, e2, Real.sqrt_mul (sq_nonneg m), Real.sqrt_sq hm0]

/-! ### Square root -/

theorem sqrtC_sq (z : ℂ) : sqrtC z * sqrtC z = z := by
  unfold sqrtC
  simp only
  have hn : √(z.re * z.re + z.im * z.im) ^ 2 = z.re * z.re + z.im * z.im :=
    Real.sq_sqrt (add_nonneg (mul_self_nonneg _) (mul_self_nonneg _))
  set nx := √(z.re * z.re + z.im * z.im)
  have hn0 : 0 ≤ nx := Real.sqrt_nonneg _
  have hle : |z.re| ≤ nx := by
    apply abs_le_of_sq_le_sq _ hn0
    nlinarith [mul_self_nonneg z.im]
  obtain ⟨h1, h2⟩ := abs_le.1 hle
  have hp : 0 ≤ 0.5 * (nx + z.re) := by norm_num; linarith
  have hm : 0 ≤ 0.5 * (nx - z.re) := by norm_num; linarith
  rw [copysign_nonneg (Real.sqrt_nonneg _)]
  have sp := Real.mul_self_sqrt hp
  have sm := Real.mul_self_sqrt hm
  have hpm : √(0.5 * (nx + z.re)) * √(0.5 * (nx - z.re)) = |z.im| / 2 := by
    rw [← Real.sqrt_mul hp, show 0.5 * (nx + z.re) * (0.5 * (nx - z.re)) = (z.im / 2) ^ 2 by norm_num; nlinarith,
      Real.sqrt_sq_eq_abs, abs_div, abs_two]
  apply Complex.ext
  · rw [Complex.mul_re]
    simp only
    split_ifs
    · norm_num at *; linarith
    · norm_num at *; linarith
  · rw [Complex.mul_im]
    simp only
    split_ifs with h
    · rw [abs_of_neg h] at hpm; linarith
    · rw [abs_of_nonneg (not_lt.1 h)] at hpm; linarith

theorem sqrtC_re (z : ℂ) : 0 ≤ (sqrtC z).re := Real.sqrt_nonneg _

theorem sqrtC_principal (z : ℂ) : 0 < (sqrtC z).re ∨ (sqrtC z).re = 0 ∧ 0 ≤ (sqrtC z).im := by
  rcases (sqrtC_re z).lt_or_eq with h | h
  · exact Or.inl h
  · right
    refine ⟨h.symm, ?_⟩
    have hz := sqrtC_sq z
    have him : z.im = 0 := by
      rw [← hz, Complex.mul_im, ← h]; ring
    unfold sqrtC
    simp only
    rw [copysign_nonneg (Real.sqrt_nonneg _), if_neg (by rw [him]; exact lt_irrefl 0)]
    exact Real.sqrt_nonneg _

theorem principal_unique {s t : ℂ} (h : s * s = t * t) (hs : 0 < s.re ∨ s.re = 0 ∧ 0 ≤ s.im) (ht : 0 < t.re ∨ t.re = 0 ∧ 0 ≤ t.im) :
    s = t := by
  rcases mul_self_eq_mul_self_iff.1 h with h | h
  · exact h
  · have hr : s.re = -t.re := by rw [h]; simp
    have hi : s.im = -t.im := by rw [h]; simp
    rcases hs with hs | ⟨hs1, hs2⟩ <;> rcases ht with ht | ⟨ht1, ht2⟩
    · linarith
    · linarith
    · linarith
    · apply Complex.ext <;> linarith

theorem hypotC_spec (x y : ℂ) (l : List ℂ) :
    hypotC x y l * hypotC x y l = ((x :: y :: l).map fun a => a * a).sum ∧
      (0 < (hypotC x y l).re ∨ (hypotC x y l).re = 0 ∧ 0 ≤ (hypotC x y l).im) := by
  set m0 := ((y :: l).map fun a => absReal a.re).foldl max (absReal x.re) with hm0
  set m := ((x :: y :: l).map fun a => absReal a.im).foldl max m0 with hm
  obtain ⟨h1, h2, -⟩ := foldl_max_spec ((y :: l).map fun a => absReal a.re) (absReal x.re)
  obtain ⟨h3, h4, -⟩ := foldl_max_spec ((x :: y :: l).map fun a => absReal a.im) m0
  rw [← hm0] at h1 h2
  rw [← hm] at h3 h4
  have hpos : 0 ≤ m := by
    have := h4 _ (List.mem_map_of_mem (List.mem_cons_self (a := x)))
    rw [absReal_eq] at this
    exact (abs_nonneg _).trans this
  have hdef : hypotC x y l = if m = 0 then ⟨0, 0⟩ else
      ⟨m * (sqrtC ⟨((y :: l).map fun a => a.re / m * (a.re / m) - a.im / m * (a.im / m)).foldl (· + ·) (x.re / m * (x.re / m) - x.im / m * (x.im / m)),
        ((y :: l).map fun a => 2 * (a.re / m) * (a.im / m)).foldl (· + ·) (2 * (x.re / m) * (x.im / m))⟩).re,
      m * (sqrtC ⟨((y :: l).map fun a => a.re / m * (a.re / m) - a.im / m * (a.im / m)).foldl (· + ·) (x.re / m * (x.re / m) - x.im / m * (x.im / m)),
        ((y :: l).map fun a => 2 * (a.re / m) * (a.im / m)).foldl (· + ·) (2 * (x.re / m) * (x.im / m))⟩).im⟩ := rfl
  by_cases h0 : m = 0
  · rw [hdef, if_pos h0]
    have hz : ∀ a ∈ x :: y :: l, a = 0 := by
      intro a ha
      have hi := h4 _ (List.mem_map_of_mem ha)
      rw [h0, absReal_eq] at hi
      have hr : |a.re| ≤ 0 := by
        rcases List.mem_cons.1 ha with rfl | ha
        · rw [← absReal_eq]; linarith
        · have := h2 _ (List.mem_map_of_mem ha)
          rw [← absReal_eq]; linarith
      exact Complex.ext (abs_nonpos_iff.1 hr) (abs_nonpos_iff.1 hi)
    constructor
    · rw [List.sum_eq_zero]
      · apply Complex.ext <;> simp
      · intro b hb
        obtain ⟨a, ha, rfl⟩ := List.mem_map.1 hb
        rw [hz a ha]; simp
    · right; exact ⟨rfl, le_rfl⟩
  · rw [hdef, if_neg h0]
    have hs : ∀ k : List ℂ, (⟨(k.map fun a => a.re / m * (a.re / m) - a.im / m * (a.im / m)).sum, (k.map fun a => 2 * (a.re / m) * (a.im / m)).sum⟩ : ℂ) * (m * m)
        = (k.map fun a => a * a).sum := by
      intro k
      induction k with
      | nil => apply Complex.ext <;> simp
      | cons a k ih =>
        simp only [List.map_cons, List.sum_cons]
        rw [← ih]
        have e : (a : ℂ) * a = (⟨a.re / m * (a.re / m) - a.im / m * (a.im / m), 2 * (a.re / m) * (a.im / m)⟩ : ℂ) * (m * m) := by
          apply Complex.ext
          · simp; field_simp
          · simp; field_simp; ring
        rw [e, ← add_mul]
        rfl
    have hq := sqrtC_sq ⟨((y :: l).map fun a => a.re / m * (a.re / m) - a.im / m * (a.im / m)).foldl (· + ·) (x.re / m * (x.re / m) - x.im / m * (x.im / m)),
        ((y :: l).map fun a => 2 * (a.re / m) * (a.im / m)).foldl (· + ·) (2 * (x.re / m) * (x.im / m))⟩
    have hpr := sqrtC_principal ⟨((y :: l).map fun a => a.re / m * (a.re / m) - a.im / m * (a.im / m)).foldl (· + ·) (x.re / m * (x.re / m) - x.im / m * (x.im / m)),
        ((y :: l).map fun a => 2 * (a.re / m) * (a.im / m)).foldl (· + ·) (2 * (x.re / m) * (x.im / m))⟩
    generalize hgq : sqrtC ⟨((y :: l).map fun a => a.re / m * (a.re / m) - a.im / m * (a.im / m)).foldl (· + ·) (x.re / m * (x.re / m) - x.im / m * (x.im / m)),
        ((y :: l).map fun a => 2 * (a.re / m) * (a.im / m)).foldl (· + ·) (2 * (x.re / m) * (x.im / m))⟩ = q at *
    have hmp : 0 < m := lt_of_le_of_ne hpos (Ne.symm h0)
    constructor
    · have e : (⟨m * q.re, m * q.im⟩ : ℂ) = m * q := by apply Complex.ext <;> simp
      rw [e, ← hs (x :: y :: l), mul_mul_mul_comm, hq, foldl_add_eq, foldl_add_eq, mul_comm]
      simp only [List.map_cons, List.sum_cons]
    · rcases hpr with h | ⟨ha, hb⟩
      · exact Or.inl (mul_pos hmp h)
      · right; exact ⟨by simp only; rw [ha, mul_zero], mul_nonneg hmp.le hb⟩

/-! ### Arcsine, arctangent, argument, logarithm -/

theorem half_sqrt_two : √2 * 0.5 < 1 ∧ 0 < √2 * 0.5 ∧ (√2 * 0.5) ^ 2 = 1 / 2 := by
  have h2 : √2 ^ 2 = 2 := Real.sq_sqrt (by norm_num)
  have h0 : 0 < √2 := Real.sqrt_pos.2 (by norm_num)
  refine ⟨?_, by positivity, ?_⟩
  · norm_num; nlinarith
  · rw [mul_pow, h2]; norm_num

theorem asinReal_core {x : ℝ} (h : |x| ≤ √2 * 0.5) : asinReal x = some (arcsin x) := by
  rw [asinReal, if_pos (abs_le.1 h), limit_eq (asinCalls_tendsto (h.trans_lt half_sqrt_two.1))]

theorem asinReal_eq {x : ℝ} (h : |x| ≤ 1) : asinReal x = some (arcsin x) := by
  obtain ⟨q1, q0, q2⟩ := half_sqrt_two
  by_cases hc : |x| ≤ √2 * 0.5
  · exact asinReal_core hc
  · have hc' : √2 * 0.5 < |x| := not_le.1 hc
    have hs : asinReal (√(1 - x * x)) = some (arcsin (√(1 - x * x))) := by
      apply asinReal_core
      rw [abs_of_nonneg (Real.sqrt_nonneg _)]
      exact sqrt_one_sub_sq_lt hc'
    rw [asinReal, if_neg (fun h => hc (abs_le.2 h)), hs]
    rcases le_or_gt 0 x with hx | hx
    · rw [abs_of_nonneg hx] at h hc'
      rcases h.lt_or_eq with h1 | h1
      · rw [if_pos ⟨hc', h1⟩, Option.map_some, ← pow_two, ← Real.arccos_eq_arcsin hx, Real.arccos]
        congr 1; ring
      · rw [if_neg (by rintro ⟨-, a⟩; linarith), if_neg (by rintro ⟨-, a⟩; linarith), if_pos h1, h1, Real.arcsin_one]; congr 1; ring
    · rw [abs_of_neg hx] at h hc'
      rcases h.lt_or_eq with h1 | h1
      · rw [if_neg (by rintro ⟨a, -⟩; linarith), if_pos ⟨by linarith, by linarith⟩, Option.map_some]
        have e := Real.arccos_eq_arcsin (x := -x) (by linarith)
        rw [neg_sq, Real.arccos, Real.arcsin_neg] at e
        rw [← pow_two, ← e]
        congr 1; ring
      · have : x = -1 := by linarith
        rw [if_neg (by rintro ⟨a, -⟩; linarith), if_neg (by rintro ⟨a, -⟩; linarith), if_neg (by linarith), if_pos this, this,
          Real.arcsin_neg, Real.arcsin_one]; congr 1; ring

theorem asinReal_none {x : ℝ} (h : 1 < |x|) : asinReal x = none := by
  obtain ⟨q1, q0, -⟩ := half_sqrt_two
  rw [asinReal]
  rcases lt_abs.1 h with h | h
  · rw [if_neg, if_neg, if_neg, if_neg, if_neg]
    all_goals first | linarith | (rintro ⟨a, b⟩; linarith)
  · rw [if_neg, if_neg, if_neg, if_neg, if_neg]
    all_goals first | linarith | (rintro ⟨a, b⟩; linarith)

theorem atanReal_eq (x : ℝ) : atanReal x = some (arctan x) := by
  unfold atanReal
  rw [asinReal_eq, Real.arctan_eq_arcsin, ← pow_two]
  rw [abs_div, abs_of_nonneg (Real.sqrt_nonneg _), div_le_one (Real.sqrt_pos.2 (by nlinarith [mul_self_nonneg x])), ← Real.sqrt_sq_eq_abs]
  exact Real.sqrt_le_sqrt (by nlinarith)

theorem atan2Real_eq (y x : ℝ) : atan2Real y x = some (Complex.arg ⟨x, y⟩) := by
  have hnorm : ‖(⟨x, y⟩ : ℂ)‖ = √(x ^ 2 + y ^ 2) := by
    rw [Complex.norm_def, Complex.normSq_mk]; congr 1; ring
  have key : x ≠ 0 → arctan (y / x) = arcsin ((if 0 < x then y else -y) / √(x ^ 2 + y ^ 2)) := by
    intro hx
    have hr : 0 < √(x ^ 2 + y ^ 2) := Real.sqrt_pos.2 (by have := pow_pos (abs_pos.2 hx) 2; rw [sq_abs] at this; nlinarith [sq_nonneg y])
    have e1 : √(1 + (y / x) ^ 2) = √(x ^ 2 + y ^ 2) / |x| := by
      rw [show 1 + (y / x) ^ 2 = (x ^ 2 + y ^ 2) / x ^ 2 by field_simp, Real.sqrt_div (by positivity), Real.sqrt_sq_eq_abs]
    rw [Real.arctan_eq_arcsin, e1]
    congr 1
    split_ifs with h
    · rw [abs_of_pos h]; field_simp
    · rw [abs_of_neg (lt_of_le_of_ne (not_lt.1 h) hx)]; field_simp
  unfold atan2Real
  split_ifs with h1 h2 h3 h4 h5 h6 h7
  · rw [atanReal_eq, key h1.ne', if_pos h1, Complex.arg_of_re_nonneg (by exact h1.le), hnorm]
  · rw [atanReal_eq, Option.map_some, key h2.ne, if_neg h1, Complex.arg_of_re_neg_of_im_nonneg (by exact h2) (by exact h3.le), hnorm]; rfl
  · rw [atanReal_eq, Option.map_some, key h2.ne, if_neg h1, Complex.arg_of_re_neg_of_im_neg (by exact h2) (by exact h4), hnorm]; rfl
  · have hy : y = 0 := le_antisymm (not_lt.1 h3) (not_lt.1 h4)
    rw [copysign_nonneg Real.pi_pos.le, if_neg h4, hy]
    congr 1
    rw [eq_comm, Complex.arg_eq_pi_iff]; exact ⟨h2, rfl⟩
  · have hx : x = 0 := le_antisymm (not_lt.1 h1) (not_lt.1 h2)
    congr 1
    rw [eq_comm, Complex.arg_eq_pi_div_two_iff]; exact ⟨hx, h5⟩
  · have hx : x = 0 := le_antisymm (not_lt.1 h1) (not_lt.1 h2)
    congr 1
    rw [eq_comm, neg_div, Complex.arg_eq_neg_pi_div_two_iff]; exact ⟨hx, h6⟩
  · exact absurd (by simpa [signbit] using h7) h2
  · have hx : x = 0 := le_antisymm (not_lt.1 h1) (not_lt.1 h2)
    have hy : y = 0 := le_antisymm (not_lt.1 h5) (not_lt.1 h6)
    rw [copysign_nonneg le_rfl, if_neg h6]
    congr 1
    rw [eq_comm, Complex.arg_eq_zero_iff]; exact ⟨hx.ge, hy⟩

theorem half_log_normSq {z : ℂ} : 0.5 * log (z.re * z.re + z.im * z.im) = log ‖z‖ := by
  rw [show z.re * z.re + z.im * z.im = ‖z‖ ^ 2 by rw [← Complex.normSq_eq_norm_sq, Complex.normSq_apply], Real.log_pow]
  push_cast; ring

theorem normSq_pos' {z : ℂ} (hz : z ≠ 0) : 0 < z.re * z.re + z.im * z.im := by
  have := Complex.normSq_pos.2 hz; rwa [Complex.normSq_apply] at this

theorem logC_eq {z : ℂ} (hz : z ≠ 0) : logC z = some (Complex.log z) := by
  unfold logC
  rw [logReal_eq (normSq_pos' hz), atan2Real_eq]
  simp only [Option.bind_some, Num.toOption, Option.bind_eq_bind]
  congr 1
  apply Complex.ext
  · rw [Complex.log_re]; exact half_log_normSq
  · rw [Complex.log_im]

theorem logC_zero : logC 0 = none := by
  unfold logC logReal
  simp [Num.toOption]

theorem half_log1p {z : ℂ} (hz : 1 + z ≠ 0) :
    (log1pReal (z.re * z.re + 2 * z.re + z.im * z.im)).bind Num.toOption = some (2 * log ‖1 + z‖) := by
  have h := normSq_pos' hz
  have e : (1 + z).re * (1 + z).re + (1 + z).im * (1 + z).im = 1 + (z.re * z.re + 2 * z.re + z.im * z.im) := by
    simp; ring
  rw [e] at h
  rw [log1pReal_eq (by linarith), ← e]
  simp only [Option.bind_some, Num.toOption]
  congr 1
  have := half_log_normSq (z := 1 + z)
  norm_num at this ⊢; linarith

theorem log1pC_eq {z : ℂ} (hz : 1 + z ≠ 0) : log1pC z = some (Complex.log (1 + z)) := by
  unfold log1pC
  rw [half_log1p hz, atan2Real_eq]
  simp only [Option.bind_eq_bind, Option.bind_some]
  congr 1
  apply Complex.ext
  · rw [Complex.log_re]; norm_num; ring
  · rw [Complex.log_im]
    have : (⟨z.re + 1, z.im⟩ : ℂ) = 1 + z := by apply Complex.ext <;> simp [add_comm]
    rw [← this]

/-! ### Exponential, hyperbolic and trigonometric functions -/

/-- The arguments on which the exponential of the code is defined: the real part within the range of an `int` of `w` bits, and the imaginary part
less than `2^63` turns. -/
def ExpRange (w : ℕ) (z : ℂ) : Prop := -2 ^ (w - 1) + 1 < z.re ∧ z.re < 2 ^ (w - 1) ∧ |z.im / (2 * π)| < 2 ^ 63

theorem sin_cos_of_reduced {theta r : ℝ} (h : scalePeriodic theta = some r) (c : ℝ) :
    limit (sinCalls r) = sin theta ∧ limit (cosCalls c r) = c + (cos theta - 1) := by
  obtain ⟨k, rfl, -⟩ := scalePeriodic_spec theta h
  rw [limit_eq (sinCalls_tendsto _), limit_eq (cosCalls_tendsto c _), Real.sin_sub_int_mul_two_pi, Real.cos_sub_int_mul_two_pi]
  exact ⟨rfl, rfl⟩

theorem expC_eq {w : ℕ} {z : ℂ} (h : ExpRange w z) : expC w z = some (Complex.exp z) := by
  obtain ⟨r, hr⟩ := scalePeriodic_defined h.2.2
  obtain ⟨hs, hc⟩ := sin_cos_of_reduced hr 1
  unfold expC
  simp only [expReal_eq h.1 h.2.1, hr, Option.bind_eq_bind, Option.bind_some, hs, hc]
  congr 1
  apply Complex.ext
  · rw [Complex.exp_re]; simp only; ring
  · rw [Complex.exp_im]

theorem expm1C_eq {w : ℕ} {z : ℂ} (h : ExpRange w z) : expm1C w z = some (Complex.exp z - 1) := by
  obtain ⟨r, hr⟩ := scalePeriodic_defined h.2.2
  obtain ⟨hs, hc⟩ := sin_cos_of_reduced hr 0
  unfold expm1C
  simp only [expm1Real_eq h.1 h.2.1, hr, Option.bind_eq_bind, Option.bind_some, hs, hc]
  congr 1
  apply Complex.ext
  · rw [Complex.sub_re, Complex.exp_re, Complex.one_re]; simp only; ring
  · rw [Complex.sub_im, Complex.exp_im, Complex.one_im]; simp only; ring

theorem sinhReal_eq {w : ℕ} {x : ℝ} (h1 : -2 ^ (w - 1) + 1 < x) (h2 : x < 2 ^ (w - 1)) : sinhReal w x = some (sinh x) := by
  unfold sinhReal
  split_ifs with h
  · simp [h]
  · rw [expReal_eq h1 h2, Option.map_some, Real.sinh_eq, Real.exp_neg]; congr 1; ring

theorem coshReal_eq {w : ℕ} {x : ℝ} (h1 : -2 ^ (w - 1) + 1 < x) (h2 : x < 2 ^ (w - 1)) : coshReal w x = some (cosh x) := by
  unfold coshReal
  rw [expReal_eq h1 h2, Option.map_some, Real.cosh_eq, Real.exp_neg]; congr 1; ring

theorem tanhReal_eq {w : ℕ} {x : ℝ} (h1 : -2 ^ (w - 1) + 1 < x) (h2 : x < 2 ^ (w - 1)) : tanhReal w x = some (tanh x) := by
  unfold tanhReal
  split_ifs with h
  · simp [h]
  · rw [expReal_eq h1 h2, Option.map_some, Real.tanh_eq_sinh_div_cosh, Real.sinh_eq, Real.cosh_eq, Real.exp_neg]
    congr 1
    have := Real.exp_pos x
    field_simp

theorem inv_parts (e : ℂ) :
    (e⁻¹).re = e.re * (1 / (e.re * e.re + e.im * e.im)) ∧ (e⁻¹).im = -e.im * (1 / (e.re * e.re + e.im * e.im)) := by
  rw [Complex.inv_re, Complex.inv_im, Complex.normSq_apply]
  constructor <;> ring

theorem sinhC_eq {w : ℕ} {z : ℂ} (h : ExpRange w z) : sinhC w z = some (Complex.sinh z) := by
  unfold sinhC
  rw [expC_eq h, Option.map_some]
  congr 1
  have he := Complex.exp_ne_zero z
  obtain ⟨i1, i2⟩ := inv_parts (Complex.exp z)
  have e : Complex.sinh z = (Complex.exp z - (Complex.exp z)⁻¹) / 2 := by rw [Complex.sinh, Complex.exp_neg]
  rw [e]
  have hp := normSq_pos' he
  generalize Complex.exp z = x at *
  split_ifs with h0
  · have hx : x.re ≠ 0 := by intro hx; exact he (Complex.ext hx h0)
    apply Complex.ext
    · simp only [Complex.div_ofNat_re, Complex.sub_re]; rw [i1, h0]; field_simp; ring
    · simp only [Complex.div_ofNat_im, Complex.sub_im]; rw [i2, h0]; simp
  · apply Complex.ext
    · simp only [Complex.div_ofNat_re, Complex.sub_re]; rw [i1]; ring
    · simp only [Complex.div_ofNat_im, Complex.sub_im]; rw [i2]; ring

theorem coshC_eq {w : ℕ} {z : ℂ} (h : ExpRange w z) : coshC w z = some (Complex.cosh z) := by
  unfold coshC
  rw [expC_eq h, Option.map_some]
  congr 1
  have he := Complex.exp_ne_zero z
  obtain ⟨i1, i2⟩ := inv_parts (Complex.exp z)
  have e : Complex.cosh z = (Complex.exp z + (Complex.exp z)⁻¹) / 2 := by rw [Complex.cosh, Complex.exp_neg]
  rw [e]
  have hp := normSq_pos' he
  generalize Complex.exp z = x at *
  split_ifs with h0
  · have hx : x.re ≠ 0 := by intro hx; exact he (Complex.ext hx h0)
    apply Complex.ext
    · simp only [Complex.div_ofNat_re, Complex.add_re]; rw [i1, h0]; field_simp; ring
    · simp only [Complex.div_ofNat_im, Complex.add_im]; rw [i2, h0]; simp
  · apply Complex.ext
    · simp only [Complex.div_ofNat_re, Complex.add_re]; rw [i1]; ring
    · simp only [Complex.div_ofNat_im, Complex.add_im]; rw [i2]; ring

theorem sinC_eq {w : ℕ} {z : ℂ} (h1 : |z.re / (2 * π)| < 2 ^ 63) (h2 : -2 ^ (w - 1) + 1 < z.im) (h3 : z.im < 2 ^ (w - 1)) :
    sinC w z = some (Complex.sin z) := by
  obtain ⟨r, hr⟩ := scalePeriodic_defined h1
  obtain ⟨hs, hc⟩ := sin_cos_of_reduced hr 1
  unfold sinC
  simp only [hr, Option.bind_eq_bind, Option.bind_some, hs, hc, coshReal_eq h2 h3, sinhReal_eq h2 h3]
  congr 1
  rw [Complex.sin_eq]
  apply Complex.ext
  · rw [← Complex.ofReal_sin, ← Complex.ofReal_cosh, ← Complex.ofReal_cos, ← Complex.ofReal_sinh]
    simp only [Complex.add_re, Complex.mul_re, Complex.mul_im, Complex.ofReal_re, Complex.ofReal_im, Complex.I_re, Complex.I_im]
    ring
  · rw [← Complex.ofReal_sin, ← Complex.ofReal_cosh, ← Complex.ofReal_cos, ← Complex.ofReal_sinh]
    simp only [Complex.add_im, Complex.mul_re, Complex.mul_im, Complex.ofReal_re, Complex.ofReal_im, Complex.I_re, Complex.I_im]
    ring

theorem cosC_eq {w : ℕ} {z : ℂ} (h1 : |z.re / (2 * π)| < 2 ^ 63) (h2 : -2 ^ (w - 1) + 1 < z.im) (h3 : z.im < 2 ^ (w - 1)) :
    cosC w z = some (Complex.cos z) := by
  obtain ⟨r, hr⟩ := scalePeriodic_defined h1
  obtain ⟨hs, hc⟩ := sin_cos_of_reduced hr 1
  unfold cosC
  simp only [hr, Option.bind_eq_bind, Option.bind_some, hs, hc, coshReal_eq h2 h3, sinhReal_eq h2 h3]
  congr 1
  rw [Complex.cos_eq]
  apply Complex.ext
  · rw [← Complex.ofReal_sin, ← Complex.ofReal_cosh, ← Complex.ofReal_cos, ← Complex.ofReal_sinh]
    simp only [Complex.sub_re, Complex.mul_re, Complex.mul_im, Complex.ofReal_re, Complex.ofReal_im, Complex.I_re, Complex.I_im]
    ring
  · rw [← Complex.ofReal_sin, ← Complex.ofReal_cosh, ← Complex.ofReal_cos, ← Complex.ofReal_sinh]
    simp only [Complex.sub_im, Complex.mul_re, Complex.mul_im, Complex.ofReal_re, Complex.ofReal_im, Complex.I_re, Complex.I_im]
    ring

/-- Quotient of complex numbers by parts. -/
theorem div_parts (a b : ℂ) : a / b = ⟨(a.re * b.re + a.im * b.im) / (b.re * b.re + b.im * b.im),
    (a.im * b.re - a.re * b.im) / (b.re * b.re + b.im * b.im)⟩ := by
  apply Complex.ext
  · rw [Complex.div_re, Complex.normSq_apply]; simp only; ring
  · rw [Complex.div_im, Complex.normSq_apply]; simp only; ring

theorem normSq_zero' {z : ℂ} : z.re * z.re + z.im * z.im = 0 ↔ z = 0 := by
  rw [← Complex.normSq_apply, Complex.normSq_eq_zero]

theorem tanC_eq {w : ℕ} {z : ℂ} (h1 : |z.re / (2 * π)| < 2 ^ 63) (h2 : -2 ^ (w - 1) + 1 < z.im) (h3 : z.im < 2 ^ (w - 1)) :
    tanC w z = if Complex.cos z = 0 then none else some (Complex.tan z) := by
  unfold tanC
  simp only [sinC_eq h1 h2 h3, cosC_eq h1 h2 h3, Option.bind_eq_bind, Option.bind_some, normSq_zero']
  rw [Complex.tan_eq_sin_div_cos, div_parts]

theorem tanhC_eq {w : ℕ} {z : ℂ} (h : ExpRange w z) :
    tanhC w z = if Complex.cosh z = 0 then none else some (Complex.tanh z) := by
  unfold tanhC
  by_cases hz : z.re = 0 ∧ z.im = 0
  · have : z = 0 := Complex.ext hz.1 hz.2
    subst this
    rw [if_pos hz, Complex.cosh_zero, if_neg one_ne_zero, Complex.tanh_zero]; rfl
  · rw [if_neg hz, expC_eq h, Option.bind_some]
    have he := Complex.exp_ne_zero z
    have hc : Complex.cosh z = (Complex.exp z * Complex.exp z + 1) / (2 * Complex.exp z) := by
      rw [Complex.cosh, Complex.exp_neg]; field_simp
    have hs : Complex.sinh z = (Complex.exp z * Complex.exp z - 1) / (2 * Complex.exp z) := by
      rw [Complex.sinh, Complex.exp_neg]; field_simp
    rw [Complex.tanh_eq_sinh_div_cosh, hs, hc]
    generalize Complex.exp z = x at *
    have hden : (x.re * x.re - x.im * x.im) * (x.re * x.re - x.im * x.im) + 2 * x.re * x.im * (2 * x.re * x.im) +
        2 * (x.re * x.re - x.im * x.im) + 1 = (x * x + 1).re * (x * x + 1).re + (x * x + 1).im * (x * x + 1).im := by
      simp; ring
    simp only
    rw [hden]
    by_cases h0 : x * x + 1 = 0
    · rw [if_pos (normSq_zero'.2 h0), h0]; simp
    · rw [if_neg (fun hc => h0 (normSq_zero'.1 hc)), if_neg (div_ne_zero h0 (mul_ne_zero two_ne_zero he))]
      have hq : (x * x - 1) / (2 * x) / ((x * x + 1) / (2 * x)) = (x * x - 1) / (x * x + 1) := by field_simp
      rw [hq, div_parts]
      congr 2
      · congr 1; simp; ring
      · congr 1; simp; ring

/-! ### Inverse functions -/

theorem asinC_eq (z : ℂ) : ∃ s, asinC z = some s ∧ Complex.sin s = z ∧ |s.re| ≤ π / 2 ∧
    s.im = log ‖sqrtC (1 - z * z) - Complex.I * z‖ := by
  have e1 : (⟨1 - z.re * z.re + z.im * z.im, -2 * z.re * z.im⟩ : ℂ) = 1 - z * z := by
    apply Complex.ext <;> simp <;> ring
  set q := sqrtC (1 - z * z) with hq
  have hq2 : q * q = 1 - z * z := sqrtC_sq _
  have e2 : (⟨q.re + z.im, q.im - z.re⟩ : ℂ) = q - Complex.I * z := by
    apply Complex.ext <;> simp
  have hprod : (q - Complex.I * z) * (q + Complex.I * z) = 1 := by
    have := Complex.I_mul_I
    linear_combination hq2 - z * z * this
  have hne : q - Complex.I * z ≠ 0 := left_ne_zero_of_mul_eq_one hprod
  have hinv : (q - Complex.I * z)⁻¹ = q + Complex.I * z := inv_eq_of_mul_eq_one_right hprod
  have hre : 0 ≤ (q - Complex.I * z).re := by
    have h1 : (q + Complex.I * z).re = (q - Complex.I * z).re / Complex.normSq (q - Complex.I * z) := by
      rw [← hinv, Complex.inv_re]
    have h2 : (q - Complex.I * z).re + (q + Complex.I * z).re = 2 * q.re := by simp; ring
    have h3 := sqrtC_re (1 - z * z)
    rw [← hq] at h3
    have h4 := Complex.normSq_pos.2 hne
    by_contra hc
    push Not at hc
    have h5 : (q - Complex.I * z).re / Complex.normSq (q - Complex.I * z) < 0 := div_neg_of_neg_of_pos hc h4
    linarith
  refine ⟨⟨-(Complex.log (q - Complex.I * z)).im, (Complex.log (q - Complex.I * z)).re⟩, ?_, ?_, ?_, ?_⟩
  · unfold asinC
    simp only [e1, ← hq, e2, logC_eq hne, Option.map_some]
  · have hs : (⟨-(Complex.log (q - Complex.I * z)).im, (Complex.log (q - Complex.I * z)).re⟩ : ℂ) =
        Complex.I * Complex.log (q - Complex.I * z) := by apply Complex.ext <;> simp
    have i1 : -(Complex.I * Complex.log (q - Complex.I * z)) * Complex.I = Complex.log (q - Complex.I * z) := by
      linear_combination (-Complex.log (q - Complex.I * z)) * Complex.I_mul_I
    have i2 : Complex.I * Complex.log (q - Complex.I * z) * Complex.I = -Complex.log (q - Complex.I * z) := by
      linear_combination (Complex.log (q - Complex.I * z)) * Complex.I_mul_I
    rw [hs, Complex.sin, i1, i2, Complex.exp_neg, Complex.exp_log hne, hinv]
    linear_combination (-z) * Complex.I_mul_I
  · simp only [Complex.log_im, abs_neg]
    exact Complex.abs_arg_le_pi_div_two_iff.2 hre
  · simp only [Complex.log_re]

theorem atanC_eq {z : ℂ} (h1 : 1 + Complex.I * z ≠ 0) (h2 : 1 - Complex.I * z ≠ 0) :
    atanC z = some (-(Complex.I / 2) * (Complex.log (1 + Complex.I * z) - Complex.log (1 - Complex.I * z))) := by
  have ea : (⟨-z.im, z.re⟩ : ℂ) = Complex.I * z := by apply Complex.ext <;> simp
  have eb : (⟨z.im, -z.re⟩ : ℂ) = -(Complex.I * z) := by apply Complex.ext <;> simp
  have ha := half_log1p (z := Complex.I * z) h1
  have hb := half_log1p (z := -(Complex.I * z)) (by rwa [← sub_eq_add_neg])
  rw [← ea] at ha
  rw [← eb] at hb
  unfold atanC
  simp only [atan2Real_eq, Option.bind_eq_bind, Option.bind_some]
  simp only at ha hb
  rw [ha, hb]
  simp only [Option.bind_some]
  congr 1
  have a1 : (⟨-z.im + 1, z.re⟩ : ℂ) = 1 + Complex.I * z := by apply Complex.ext <;> simp [add_comm]
  have b1 : (⟨z.im + 1, -z.re⟩ : ℂ) = 1 - Complex.I * z := by apply Complex.ext <;> simp [add_comm]
  rw [a1, b1, ea, eb, ← sub_eq_add_neg]
  apply Complex.ext
  · simp only [Complex.mul_re, Complex.neg_re, Complex.neg_im, Complex.sub_re, Complex.sub_im, Complex.log_re, Complex.log_im,
      Complex.div_ofNat_re, Complex.div_ofNat_im, Complex.I_re, Complex.I_im]
    norm_num
  · simp only [Complex.mul_im, Complex.neg_re, Complex.neg_im, Complex.sub_re, Complex.sub_im, Complex.log_re, Complex.log_im,
      Complex.div_ofNat_re, Complex.div_ofNat_im, Complex.I_re, Complex.I_im]
    norm_num; ring

theorem tan_atan {z : ℂ} (h1 : 1 + Complex.I * z ≠ 0) (h2 : 1 - Complex.I * z ≠ 0) :
    Complex.tan (-(Complex.I / 2) * (Complex.log (1 + Complex.I * z) - Complex.log (1 - Complex.I * z))) = z := by
  set s := -(Complex.I / 2) * (Complex.log (1 + Complex.I * z) - Complex.log (1 - Complex.I * z)) with hs
  have he : Complex.exp (s * Complex.I) * Complex.exp (s * Complex.I) = (1 + Complex.I * z) / (1 - Complex.I * z) := by
    rw [← Complex.exp_add, show s * Complex.I + s * Complex.I = Complex.log (1 + Complex.I * z) - Complex.log (1 - Complex.I * z) by
      rw [hs]; linear_combination (-(Complex.log (1 + Complex.I * z) - Complex.log (1 - Complex.I * z))) * Complex.I_mul_I,
      Complex.exp_sub, Complex.exp_log h1, Complex.exp_log h2]
  have hne := Complex.exp_ne_zero (s * Complex.I)
  rw [Complex.tan_eq_sin_div_cos, Complex.sin, Complex.cos, neg_mul, Complex.exp_neg]
  set x := Complex.exp (s * Complex.I)
  have hx1 : x * x + 1 ≠ 0 := by
    rw [he, div_add_one h2]
    refine div_ne_zero ?_ h2
    ring_nf; norm_num
  have e : (x⁻¹ - x) * Complex.I / 2 / ((x + x⁻¹) / 2) = (1 - x * x) * Complex.I / (x * x + 1) := by
    have : x + x⁻¹ ≠ 0 := by
      intro h0; apply hx1
      have : x * (x + x⁻¹) = 0 := by rw [h0, mul_zero]
      rwa [mul_add, mul_inv_cancel₀ hne] at this
    field_simp
  rw [e, div_eq_iff hx1, he]
  field_simp
  linear_combination (-2 * z) * Complex.I_mul_I

theorem sinh_log {u v : ℂ} (h : u * v = 1) : Complex.sinh (Complex.log u) = (u - v) / 2 := by
  have hu : u ≠ 0 := left_ne_zero_of_mul_eq_one h
  rw [Complex.sinh, Complex.exp_neg, Complex.exp_log hu, inv_eq_of_mul_eq_one_right h]

theorem cosh_log {u v : ℂ} (h : u * v = 1) : Complex.cosh (Complex.log u) = (u + v) / 2 := by
  have hu : u ≠ 0 := left_ne_zero_of_mul_eq_one h
  rw [Complex.cosh, Complex.exp_neg, Complex.exp_log hu, inv_eq_of_mul_eq_one_right h]

theorem asinhC_eq (z : ℂ) : ∃ s, asinhC z = some s ∧ Complex.sinh s = z := by
  have e1 : (⟨z.re * z.re - z.im * z.im + 1, 2 * z.re * z.im⟩ : ℂ) = z * z + 1 := by
    apply Complex.ext <;> simp; ring
  set q := sqrtC (z * z + 1) with hq
  have hq2 : q * q = z * z + 1 := sqrtC_sq _
  have e2 : (⟨z.re + q.re, z.im + q.im⟩ : ℂ) = z + q := by apply Complex.ext <;> simp
  have hp : (z + q) * (q - z) = 1 := by linear_combination hq2
  refine ⟨Complex.log (z + q), ?_, ?_⟩
  · unfold asinhC
    simp only [e1, ← hq, e2]
    exact logC_eq (left_ne_zero_of_mul_eq_one hp)
  · rw [sinh_log hp]; ring

theorem acoshC_eq (z : ℂ) : ∃ s, acoshC z = some s ∧ Complex.cosh s = z := by
  have ep : (⟨z.re + 1, z.im⟩ : ℂ) = z + 1 := by apply Complex.ext <;> simp
  have em : (⟨z.re - 1, z.im⟩ : ℂ) = z - 1 := by apply Complex.ext <;> simp
  set p := sqrtC (z + 1) with hp
  set m := sqrtC (z - 1) with hm
  have hp2 : p * p = z + 1 := sqrtC_sq _
  have hm2 : m * m = z - 1 := sqrtC_sq _
  have e2 : (⟨z.re + p.re * m.re - p.im * m.im, z.im + p.re * m.im + p.im * m.re⟩ : ℂ) = z + p * m := by
    apply Complex.ext <;> simp <;> ring
  have hprod : (z + p * m) * (z - p * m) = 1 := by linear_combination (-(m * m)) * hp2 - (z + 1) * hm2
  refine ⟨Complex.log (z + p * m), ?_, ?_⟩
  · unfold acoshC
    simp only [ep, em, ← hp, ← hm, e2]
    exact logC_eq (left_ne_zero_of_mul_eq_one hprod)
  · rw [cosh_log hprod]; ring

theorem atanhC_eq {z : ℂ} (h1 : z ≠ 1) (h2 : z ≠ -1) : ∃ s, atanhC z = some s ∧ Complex.tanh s = z := by
  have hm : 1 - z ≠ 0 := sub_ne_zero.2 (Ne.symm h1)
  have hp : 1 + z ≠ 0 := by intro h; apply h2; linear_combination h
  have hd : 1 - 2 * z.re + z.re * z.re + z.im * z.im = (1 - z).re * (1 - z).re + (1 - z).im * (1 - z).im := by
    simp; ring
  have e : (⟨(1 - z.re * z.re - z.im * z.im) / (1 - 2 * z.re + z.re * z.re + z.im * z.im),
      2 * z.im / (1 - 2 * z.re + z.re * z.re + z.im * z.im)⟩ : ℂ) = (1 + z) / (1 - z) := by
    rw [div_parts, hd]
    congr 2
    · simp; ring
    · simp; ring
  have hq : (1 + z) / (1 - z) ≠ 0 := div_ne_zero hp hm
  refine ⟨(1 / 2) * Complex.log ((1 + z) / (1 - z)), ?_, ?_⟩
  · unfold atanhC
    simp only
    rw [if_neg (by rw [hd]; exact fun h => hm (normSq_zero'.1 h)), e, logC_eq hq, Option.map_some]
    congr 1
    apply Complex.ext <;> simp <;> norm_num
  · set s := (1 / 2) * Complex.log ((1 + z) / (1 - z)) with hs
    have he : Complex.exp s * Complex.exp s = (1 + z) / (1 - z) := by
      rw [← Complex.exp_add, show s + s = Complex.log ((1 + z) / (1 - z)) by rw [hs]; ring, Complex.exp_log hq]
    have hne := Complex.exp_ne_zero s
    rw [Complex.tanh_eq_sinh_div_cosh, Complex.sinh, Complex.cosh, Complex.exp_neg]
    set x := Complex.exp s
    have hx1 : x * x + 1 ≠ 0 := by
      rw [he, div_add_one hm]
      refine div_ne_zero ?_ hm
      ring_nf; norm_num
    have e : (x - x⁻¹) / 2 / ((x + x⁻¹) / 2) = (x * x - 1) / (x * x + 1) := by
      have : x + x⁻¹ ≠ 0 := by
        intro h0; apply hx1
        have : x * (x + x⁻¹) = 0 := by rw [h0, mul_zero]
        rwa [mul_add, mul_inv_cancel₀ hne] at this
      field_simp
    rw [e, div_eq_iff hx1, he]
    field_simp
    ring

end OpenKalman.Values
