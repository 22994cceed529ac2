import Verif.Proof.Signs
import Mathlib.Algebra.Order.Floor.Semiring

/-!
# C171: signed zeros, infinities and NaN in constant expressions
-/

namespace OpenKalman.Signs
open NNReal
open scoped Classical

/-- The sign can be seen by comparing with zero: it is not the sign of a zero or a NaN. -/
def Visible (x : Fl) : Prop := x.sign = true → ¬ x.IsZero ∧ ¬ x.IsNaN

/-- **C171** (classes): NaN and infinities are recognised. -/
theorem C171_classes (x : Fl) : (isnan x = true ↔ x.IsNaN) ∧ (isinf x = true ↔ x.IsInf) := ⟨isnan_iff x, isinf_iff x⟩

/-- **C171** (sign), in part: the sign bit is found if it can be seen by comparing with zero.  Missing: zeros and NaN with the sign bit set; see `C171_signs_violated`. -/
theorem C171_signbit_partial (x : Fl) (h : Visible x) : signbit x = x.sign := by
  cases hs : x.sign with
  | true => exact (signbit_iff x).2 ⟨hs, h hs⟩
  | false => exact Bool.eq_false_iff.2 fun hc => by rw [((signbit_iff x).1 hc).1] at hs; cases hs

/-- **C171** (copysign), in part: any number, a zero and a NaN included, gets the sign of any number whose sign can be seen.  Missing: see `C171_signs_violated`. -/
theorem C171_copysign_partial (m s : Fl) (h : Visible s) : copysign m s = m.withSign s.sign := by
  unfold copysign
  rw [C171_signbit_partial s h]
  simp only [isnan_iff, eqZero_iff]
  by_cases h1 : m.IsNaN
  · rw [if_pos h1]
    cases m with
    | nan t => cases s.sign <;> simp [Fl.neg, Fl.withSign, Fl.sign]
    | inf t => exact h1.elim
    | fin t k => exact h1.elim
  rw [if_neg h1]
  by_cases h2 : m.IsZero
  · rw [if_pos h2]
    cases m with
    | nan t => exact h2.elim
    | inf t => exact h2.elim
    | fin t k => obtain rfl : k = 0 := h2; cases s.sign <;> rfl
  rw [if_neg h2, C171_signbit_partial m fun _ => ⟨h2, h1⟩]
  split
  · next h3 => rw [← h3, withSign_self]
  · next h3 =>
    have : (!m.sign) = s.sign := by cases hm : m.sign <;> cases hs : s.sign <;> simp_all
    show m.withSign (!m.sign) = _
    rw [this]

/-- **C171** (copysign), in part: the same for an integer, whose sign is that of the number. -/
theorem C171_copysign_integer_partial (k : ℤ) (s : Fl) (h : Visible s) : copysignInt k s = (Fl.ofReal k).withSign s.sign := by
  unfold copysignInt
  rw [C171_signbit_partial s h]
  have hk : (Fl.ofReal k).sign = decide (k < 0) := by simp [Fl.ofReal, Fl.sign]
  split
  · next h3 => rw [h3, ← hk, withSign_self]
  · next h3 =>
    have : (!(Fl.ofReal k).sign) = s.sign := by
      rw [hk]
      generalize decide (k < 0) = d at h3
      cases d <;> cases hs : s.sign <;> simp_all
    show (Fl.ofReal k).withSign (!(Fl.ofReal k).sign) = _
    rw [this]

/-- **C171** (abs): but for the sign of zeros and NaN, the result is the number without its sign. -/
theorem C171_abs (x : Fl) : Agree (abs x) (x.withSign false) := by
  cases x with
  | nan s =>
    have : signbit (.nan s) = false := Bool.eq_false_iff.2 fun hc => ((signbit_iff _).1 hc).2.2 trivial
    simp [abs, this, Fl.withSign, Agree]
  | inf s =>
    have : signbit (.inf s) = s := C171_signbit_partial _ fun _ => ⟨id, id⟩
    cases s <;> simp [abs, this, Fl.withSign, Fl.neg, Fl.sign, Agree]
  | fin s m =>
    rw [abs_fin]
    exact ⟨rfl, fun h => by simp [h]⟩

/-- **C171** (abs), in part: and exactly so if the sign can be seen.  Missing: see `C171_signs_violated`. -/
theorem C171_abs_partial (x : Fl) (h : Visible x) : abs x = x.withSign false := by
  unfold abs
  rw [C171_signbit_partial x h]
  cases hs : x.sign with
  | true => rw [if_pos rfl, Fl.neg, hs]; rfl
  | false => rw [if_neg (by simp), ← hs, withSign_self]

/-- **C171** (sqrt): all special cases are as the standard says; the sign of a zero is kept. -/
theorem C171_sqrt (x : Fl) : sqrt x = C.sqrt x := by
  unfold sqrt
  simp only [isnan_iff, eqZero_iff]
  cases x with
  | nan s => simp [Fl.IsNaN, C.sqrt]
  | inf s => cases s <;> simp [Fl.IsNaN, Fl.IsZero, C.sqrt, Fl.Lt, Fl.Eq]
  | fin s m =>
    by_cases h : m = 0
    · subst h; simp [Fl.IsZero, C.sqrt]
    · have h0 : 0 < m := pos_iff_ne_zero.2 h
      cases s <;> simp [Fl.IsNaN, Fl.IsZero, C.sqrt, Fl.Lt, Fl.Eq, Fl.val, Fl.mag, h, h0]

theorem hypot_cases (x : Fl) (l : List Fl) : hypot x l = C.hypot (x :: l) ∨ ∃ s m, x = .fin s m ∧ AllFin l := by
  unfold hypot C.hypot
  have e1 : ((x :: l).any isinf = true) ↔ ∃ y ∈ x :: l, y.IsInf := by simp only [List.any_eq_true, isinf_iff]
  have e2 : ((x :: l).any isnan = true) ↔ ∃ y ∈ x :: l, y.IsNaN := by simp only [List.any_eq_true, isnan_iff]
  by_cases h1 : ∃ y ∈ x :: l, y.IsInf
  · left; rw [if_pos (e1.2 h1), if_pos h1]
  by_cases h2 : ∃ y ∈ x :: l, y.IsNaN
  · left; rw [if_neg (fun hc => h1 (e1.1 hc)), if_pos (e2.2 h2), if_neg h1, if_pos h2]
  right
  have hall : ∀ y ∈ x :: l, ¬ y.IsInf ∧ ¬ y.IsNaN := fun y hy => ⟨fun hc => h1 ⟨y, hy, hc⟩, fun hc => h2 ⟨y, hy, hc⟩⟩
  have hx := hall x (by simp)
  cases x with
  | nan s => exact absurd trivial hx.2
  | inf s => exact absurd trivial hx.1
  | fin s m => exact ⟨s, m, rfl, fun y hy => hall y (by simp [hy])⟩

theorem hypot_C_fin (s : Bool) (m : ℝ≥0) (l : List Fl) (hl : AllFin l) :
    C.hypot (.fin s m :: l) = .fin false (NNReal.sqrt (((Fl.fin s m :: l).map fun x => x.mag ^ 2).sum)) := by
  unfold C.hypot
  rw [if_neg, if_neg]
  · rintro ⟨y, hy, h⟩
    obtain rfl | hy := List.mem_cons.1 hy
    · exact h
    · exact (hl y hy).2 h
  · rintro ⟨y, hy, h⟩
    obtain rfl | hy := List.mem_cons.1 hy
    · exact h
    · exact (hl y hy).1 h

/-- **C171** (hypot): for any number of arguments, an infinite one gives infinity even beside NaN, otherwise NaN gives NaN, otherwise the result is the root of the sum of the squares; only
the sign of a zero may be wrong. -/
theorem C171_hypot (x : Fl) (l : List Fl) : Agree (hypot x l) (C.hypot (x :: l)) := by
  obtain h | ⟨s, m, rfl, hl⟩ := hypot_cases x l
  · rw [h]
    generalize C.hypot (x :: l) = y
    cases y <;> simp [Agree]
  · rw [hypot_fin s m l hl, hypot_C_fin s m l hl]
    exact ⟨rfl, fun h => by rw [decide_eq_false h, Bool.and_false]⟩

/-- **C171** (hypot), in part: it is right if the first argument is not a negative zero.  Missing: see `C171_hypot_violated`. -/
theorem C171_hypot_partial (x : Fl) (l : List Fl) (h : x.sign = true → ¬ x.IsZero) : hypot x l = C.hypot (x :: l) := by
  obtain h' | ⟨s, m, rfl, hl⟩ := hypot_cases x l
  · exact h'
  · rw [hypot_fin s m l hl, hypot_C_fin s m l hl]
    congr 1
    cases s with
    | false => rfl
    | true =>
      have hm : m ≠ 0 := h rfl
      rw [decide_eq_false, Bool.and_false]
      rw [NNReal.sqrt_eq_zero, List.sum_eq_zero_iff]
      intro hc
      exact hm (pow_eq_zero_iff two_ne_zero |>.1 (hc _ (List.mem_map.2 ⟨_, List.mem_cons_self, rfl⟩)))

theorem val_neg (s : Bool) (m : ℝ≥0) : Fl.val (!s) m = -Fl.val s m := by cases s <;> simp [Fl.val]

theorem agree_ofReal (s : Bool) (m : ℝ≥0) : Agree (Fl.ofReal (Fl.val s m)) (.fin s m) := by
  cases s with
  | false => exact ⟨by simp [Fl.val], fun _ => by simp [Fl.val]⟩
  | true =>
    have hn : Real.nnabs (Fl.val true m) = m := by ext; simp [Fl.val]
    refine ⟨hn, fun h => ?_⟩
    rw [hn] at h
    have h' : m ≠ 0 := h
    simp [Fl.val, pos_iff_ne_zero.2 h']

/-- The quotient truncated, times the divisor. -/
theorem trunc_mul (s t : Bool) (m k : ℝ≥0) (hm : m ≠ 0) (hk : k ≠ 0) :
    Fl.val s m - ((if 0 ≤ Fl.val s m / Fl.val t k then ⌊Fl.val s m / Fl.val t k⌋ else ⌈Fl.val s m / Fl.val t k⌉ : ℤ) : ℝ) * Fl.val t k = Fl.val s (m - ⌊m / k⌋₊ * k) := by
  have hle : (⌊m / k⌋₊ : ℝ≥0) * k ≤ m := by
    have := Nat.floor_le (zero_le (a := m / k))
    calc (⌊m / k⌋₊ : ℝ≥0) * k ≤ m / k * k := mul_le_mul_left this k
      _ = m := div_mul_cancel₀ _ hk
  have hf : ⌊(m : ℝ) / k⌋ = (⌊m / k⌋₊ : ℤ) := by
    rw [Int.floor_eq_iff]
    have h1 := Nat.floor_le (zero_le (a := m / k))
    have h2 := Nat.lt_floor_add_one (m / k)
    exact ⟨by exact_mod_cast h1, by exact_mod_cast h2⟩
  have hpos : 0 < (m : ℝ) / k := div_pos (NNReal.coe_pos.2 (pos_iff_ne_zero.2 hm)) (NNReal.coe_pos.2 (pos_iff_ne_zero.2 hk))
  have hn : ¬ (0 ≤ -((m : ℝ) / k)) := by linarith
  cases s <;> cases t <;> simp only [Fl.val, Bool.false_eq_true, if_false, if_true, div_neg, neg_div, neg_neg, if_pos hpos.le, if_neg hn, Int.ceil_neg, hf, NNReal.coe_sub hle] <;>
    push_cast <;> ring

/-- **C171** (fmod), in part: all special cases are as the standard says, and the remainder is right but for the sign of a zero, if the quotient is less than 2^63.
Missing: greater quotients (C31), and the sign of a remainder that is zero; see `C171_fmod_violated`. -/
theorem C171_fmod_partial (x y : Fl) (h : ∀ s m t k, x = .fin s m → y = .fin t k → m < 2 ^ 63 * k ∨ k = 0) : ∃ r, fmod x y = .ret r ∧ Agree r (C.fmod x y) := by
  unfold fmod
  simp only [isnan_iff, isinf_iff, eqZero_iff]
  cases x with
  | nan s => exact ⟨_, if_pos (.inl trivial), by simp [C.fmod, Agree]⟩
  | inf s => exact ⟨_, if_pos (.inr (.inr (.inl trivial))), by simp [C.fmod, Agree]⟩
  | fin s m =>
    cases y with
    | nan t => exact ⟨_, if_pos (.inr (.inl trivial)), by simp [C.fmod, Agree]⟩
    | inf t =>
      refine ⟨.fin s m, ?_, by simp [C.fmod, Agree]⟩
      rw [if_neg (by simp [Fl.IsNaN, Fl.IsInf, Fl.IsZero]), if_pos (.inr trivial)]
    | fin t k =>
      by_cases hk : k = 0
      · exact ⟨_, if_pos (.inr (.inr (.inr hk))), by simp [C.fmod, hk, Agree]⟩
      rw [if_neg (by simp [Fl.IsNaN, Fl.IsInf, Fl.IsZero, hk])]
      by_cases hm : m = 0
      · refine ⟨.fin s m, if_pos (.inl hm), ?_⟩
        subst hm
        simp [C.fmod, hk, Agree]
      rw [if_neg (by simp [Fl.IsInf, Fl.IsZero, hm])]
      have hlt : (m : ℝ) / k < 2 ^ 63 := by
        have h1 : m < 2 ^ 63 * k := (h s m t k rfl rfl).resolve_right hk
        rw [div_lt_iff₀ (NNReal.coe_pos.2 (pos_iff_ne_zero.2 hk))]
        exact_mod_cast h1
      have hq : Fl.val s m / Fl.val t k < 2 ^ 63 ∧ -2 ^ 63 < Fl.val s m / Fl.val t k := by
        have h0 : 0 ≤ (m : ℝ) / k := div_nonneg (NNReal.coe_nonneg _) (NNReal.coe_nonneg _)
        cases s <;> cases t <;> simp only [Fl.val, Bool.false_eq_true, if_false, if_true, div_neg, neg_div, neg_neg] <;> constructor <;> linarith
      show ∃ r, fmodFin (Fl.val s m) (Fl.val t k) = _ ∧ _
      unfold fmodFin
      rw [if_neg (by rintro (h | h) <;> linarith [hq.1, hq.2]), if_neg (ne_of_lt hq.1)]
      refine ⟨_, rfl, ?_⟩
      rw [trunc_mul s t m k hm hk, C.fmod, if_neg hk]
      exact agree_ofReal s _

/-! ## Cases -/

example : Visible (.inf true) ∧ Visible (.fin true 3) ∧ Visible (.fin false 0) := by simp [Visible, Fl.IsZero, Fl.IsNaN, Fl.sign]

example : copysign (.fin false 0) (.inf true) = .fin true 0 := C171_copysign_partial _ _ (by simp [Visible, Fl.IsZero, Fl.IsNaN])

example : hypot (.nan true) [.inf true, .fin false 2] = .inf false := by
  rw [C171_hypot_partial _ _ (by simp [Fl.IsZero])]
  simp [C.hypot, Fl.IsInf]

/-- 7 modulo -2, which is 1. -/
example : C.fmod (.fin false 7) (.fin true 2) = .fin false 1 := by
  have : ⌊(7 : ℝ≥0) / 2⌋₊ = 3 := by rw [Nat.floor_eq_iff (by positivity)]; exact ⟨by rw [le_div_iff₀ (by norm_num)]; norm_num, by rw [div_lt_iff₀ (by norm_num)]; norm_num⟩
  rw [C.fmod, if_neg (by norm_num), this]
  congr 1
  rw [tsub_eq_iff_eq_add_of_le (by norm_num)]; norm_num

/-- **C171** (signs): the sign bit of a negative zero is not seen, `copysign` takes it for a positive number, and `abs` leaves it. -/
theorem C171_signs_violated : signbit (.fin true 0) ≠ (Fl.fin true 0).sign ∧ copysign (.fin false 1) (.fin true 0) ≠ (Fl.fin false 1).withSign (Fl.fin true 0).sign ∧
    abs (.fin true 0) ≠ (Fl.fin true 0).withSign false := by
  have h : signbit (.fin true 0) = false := Bool.eq_false_iff.2 fun hc => ((signbit_iff _).1 hc).2.1 rfl
  refine ⟨by rw [h]; simp [Fl.sign], ?_, ?_⟩
  · have h1 : signbit (.fin false 1) = false := Bool.eq_false_iff.2 fun hc => by simpa [Fl.sign] using ((signbit_iff _).1 hc).1
    unfold copysign
    simp only [isnan_iff, eqZero_iff, h, h1]
    simp [Fl.IsNaN, Fl.IsZero, Fl.withSign, Fl.sign]
  · rw [abs_fin]; simp [Fl.withSign]

/-- **C171** (hypot): of a negative and a positive zero it is a negative zero. -/
theorem C171_hypot_violated : hypot (.fin true 0) [.fin false 0] = .fin true 0 ∧ C.hypot [.fin true 0, .fin false 0] = .fin false 0 := by
  have hl : AllFin [.fin false 0] := by simp [AllFin, Fl.IsInf, Fl.IsNaN]
  constructor
  · rw [hypot_fin _ _ _ hl]; simp [Fl.mag]
  · rw [hypot_C_fin _ _ _ hl]; simp [Fl.mag]

/-- **C171** (fmod): the remainder of -4 and 2 is a positive zero; it should have the sign of -4. -/
theorem C171_fmod_violated : ∃ r, fmod (.fin true 4) (.fin false 2) = .ret r ∧ r.sign = false ∧ C.fmod (.fin true 4) (.fin false 2) = .fin true 0 := by
  have hf : ⌊(4 : ℝ≥0) / 2⌋₊ = 2 := by rw [show (4 : ℝ≥0) / 2 = 2 by rw [div_eq_iff] <;> norm_num]; simp
  have hs : Fl.val true (4 - ⌊(4 : ℝ≥0) / 2⌋₊ * 2) = 0 := by
    rw [hf, show (4 : ℝ≥0) - ((2 : ℕ) : ℝ≥0) * 2 = 0 by rw [tsub_eq_zero_iff_le]; norm_num]
    simp [Fl.val]
  refine ⟨Fl.ofReal 0, ?_, by simp [Fl.ofReal, Fl.sign], ?_⟩
  · unfold fmod
    simp only [isnan_iff, isinf_iff, eqZero_iff]
    rw [if_neg (by simp [Fl.IsNaN, Fl.IsInf, Fl.IsZero]), if_neg (by simp [Fl.IsInf, Fl.IsZero])]
    have hq : Fl.val true 4 / Fl.val false 2 = -2 := by simp [Fl.val]; norm_num
    show fmodFin (Fl.val true 4) (Fl.val false 2) = _
    unfold fmodFin
    rw [if_neg (by rw [hq]; norm_num), if_neg (by rw [hq]; norm_num)]
    rw [trunc_mul true false 4 2 (by norm_num) (by norm_num), hs]
  · rw [C.fmod, if_neg (by norm_num), hf]
    congr 1
    rw [tsub_eq_zero_iff_le]; norm_num

end OpenKalman.Signs
