import Verif.Model.SignsAtan
import Verif.Proof.Signs
import Verif.Theorems.Signs
import Verif.Proof.ValuesComplex

/-!
# Theorems: `atan2` in constant expressions agrees with the C standard except at negative zeros (C171)
-/

namespace OpenKalman.Signs
open NNReal Real

theorem ofReal_nonneg' {r : ℝ} (h : 0 ≤ r) : Fl.ofReal r = .fin false (Real.toNNReal r) := by
  unfold Fl.ofReal
  have : ¬ r < 0 := not_lt.2 h
  simp only [this, decide_false, Fl.fin.injEq, true_and]
  ext; simp [h]

theorem ofReal_neg_pos {r : ℝ} (h : 0 < r) : Fl.ofReal (-r) = .fin true (Real.toNNReal r) := by
  unfold Fl.ofReal
  have : -r < 0 := by linarith
  simp only [this, decide_true, Fl.fin.injEq, true_and]
  ext; simp [abs_of_pos h, h.le]

theorem zero_lt_fin (s : Bool) (m : ℝ≥0) : (Fl.fin false 0).Lt (.fin s m) ↔ 0 < Fl.val s m := by simp [Fl.Lt, Fl.val]

theorem fin_lt_zero (s : Bool) (m : ℝ≥0) : (Fl.fin s m).Lt (.fin false 0) ↔ Fl.val s m < 0 := by simp [Fl.Lt, Fl.val]

theorem val_ne_zero {s : Bool} {m : ℝ≥0} (h : m ≠ 0) : Fl.val s m ≠ 0 := by cases s <;> simp [Fl.val, h]

/-- Away from the first axis nothing depends on signs of zeros. -/
theorem atan2Fin_ne (s t : Bool) (m k : ℝ≥0) (h : m ≠ 0) :
    atan2Fin (.fin s m) (.fin t k) = some (Fl.ofReal (Complex.arg ⟨Fl.val t k, Fl.val s m⟩)) := by
  have e := congrArg (Option.map Fl.ofReal) (Values.atan2Real_eq (Fl.val s m) (Fl.val t k))
  rw [Option.map_some] at e
  rw [← e]
  have hy := val_ne_zero (s := s) h
  unfold atan2Fin Values.atan2Real
  simp only [zero_lt_fin, fin_lt_zero, Fl.sign, Fl.mag, gt_iff_lt]
  rcases lt_or_gt_of_ne hy with h1 | h1 <;> split_ifs <;> simp [Option.map_map, Function.comp_def]

/-- On the first axis a zero counts as positive. -/
theorem atan2Fin_zero (s t : Bool) (k : ℝ≥0) :
    atan2Fin (.fin s 0) (.fin t k) = some (.fin false (if t = true ∧ k ≠ 0 then Real.toNNReal π else 0)) := by
  have z : Fl.val s 0 = 0 := by cases s <;> simp [Fl.val]
  have hs : signbit (.fin s 0) = false := by
    refine Bool.eq_false_iff.2 fun hc => ((signbit_iff _).1 hc).2.1 rfl
  have hp : copysign (Fl.ofReal π) (.fin s 0) = .fin false (Real.toNNReal π) := by
    rw [ofReal_nonneg' Real.pi_pos.le]
    have h0 : ¬ (Fl.fin false (Real.toNNReal π)).Eq (.fin false 0) := by
      simp [Fl.Eq, Fl.val, Real.pi_pos.le, Real.pi_ne_zero]
    have h1 : signbit (.fin false (Real.toNNReal π)) = false := Bool.eq_false_iff.2 fun hc => by simpa [Fl.sign] using ((signbit_iff _).1 hc).1
    unfold copysign
    rw [if_neg (by simp [isnan, Fl.Eq]), if_neg h0, hs, h1, if_pos rfl]
  have hz : copysign (.fin false 0) (.fin s 0) = .fin false 0 := by
    unfold copysign
    rw [if_neg (by simp [isnan, Fl.Eq]), if_pos (show (Fl.fin false 0).Eq (.fin false 0) from rfl), hs]; rfl
  unfold atan2Fin
  simp only [zero_lt_fin, fin_lt_zero, Fl.sign, Fl.mag, z, zero_div, Values.atanReal_eq, hp, hz, lt_irrefl, if_false]
  by_cases hk : k = 0
  · subst hk
    have ht : signbit (.fin t 0) = false := Bool.eq_false_iff.2 fun hc => ((signbit_iff _).1 hc).2.1 rfl
    cases t <;> simp [Fl.val, ht]
  · have hk' : (0 : ℝ) < k := by exact_mod_cast pos_iff_ne_zero.2 hk
    cases t
    · simp [Fl.val, hk', Fl.ofReal]
    · have : ¬ (0 : ℝ) < -k := by linarith
      simp [Fl.val, hk', this, hk]

theorem arg_upper {x : ℝ} {m : ℝ≥0} (h : m ≠ 0) : 0 < Complex.arg ⟨x, m⟩ ∧ Complex.arg ⟨x, m⟩ < π ∧ Complex.arg ⟨x, -m⟩ = -Complex.arg ⟨x, m⟩ := by
  have hm : (0 : ℝ) < m := by exact_mod_cast pos_iff_ne_zero.2 h
  have h1 : Complex.arg ⟨x, m⟩ < π := Complex.arg_lt_pi_iff.2 (Or.inr hm.ne')
  have h2 : Complex.arg ⟨x, -m⟩ = -Complex.arg ⟨x, m⟩ := by
    have := Complex.arg_conj (⟨x, m⟩ : ℂ)
    rw [if_neg h1.ne] at this
    rw [← this]; rfl
  have h3 : Complex.arg ⟨x, -m⟩ < 0 := Complex.arg_neg_iff.2 (by simpa using hm)
  exact ⟨by linarith, h1, h2⟩

/-- **C171** (`atan2`): the result is that of the C standard, up to the sign of a zero, unless `y` is a zero, the sign bit of `x` is set, and `y` is a negative zero or `x` is a zero. -/
theorem C171_atan2_partial (y x : Fl) (h : y.IsZero → x.sign = true → y.sign = false ∧ ¬ x.IsZero) : ∃ r, atan2 y x = some r ∧ Agree r (C.atan2 y x) := by
  have hpi := Real.pi_pos
  unfold atan2 C.atan2
  by_cases hn : y.IsNaN ∨ x.IsNaN
  · rw [if_pos (by rwa [isnan_iff, isnan_iff]), if_pos hn]
    exact ⟨_, rfl, trivial⟩
  rw [if_neg (by rwa [isnan_iff, isnan_iff]), if_neg hn]
  unfold atan2Impl
  match y, x, h, hn with
  | .nan _, _, _, hn => exact absurd (Or.inl trivial) hn
  | .inf _, .nan _, _, hn => exact absurd (Or.inr trivial) hn
  | .fin _ _, .nan _, _, hn => exact absurd (Or.inr trivial) hn
  | .inf false, .inf false, _, _ =>
    refine ⟨Fl.ofReal (π / 4), by simp [Fl.Eq], ?_⟩
    rw [ofReal_nonneg' (by positivity)]
    simp [Agree, C.angle, Fl.sign]
  | .inf false, .inf true, _, _ =>
    refine ⟨Fl.ofReal (3 * π / 4), by simp [Fl.Eq], ?_⟩
    rw [ofReal_nonneg' (by positivity)]
    simp [Agree, C.angle, Fl.sign]
  | .inf false, .fin _ _, _, _ =>
    refine ⟨Fl.ofReal (π / 2), by simp [Fl.Eq], ?_⟩
    rw [ofReal_nonneg' (by positivity)]
    simp [Agree, C.angle, Fl.sign]
  | .inf true, .inf false, _, _ =>
    refine ⟨Fl.ofReal (-π / 4), by simp [Fl.Eq], ?_⟩
    rw [show -π / 4 = -(π / 4) by ring, ofReal_neg_pos (by positivity)]
    simp [Agree, C.angle, Fl.sign]
  | .inf true, .inf true, _, _ =>
    refine ⟨Fl.ofReal (-3 * π / 4), by simp [Fl.Eq], ?_⟩
    rw [show -3 * π / 4 = -(3 * π / 4) by ring, ofReal_neg_pos (by positivity)]
    simp [Agree, C.angle, Fl.sign]
  | .inf true, .fin _ _, _, _ =>
    refine ⟨Fl.ofReal (-π / 2), by simp [Fl.Eq], ?_⟩
    rw [show -π / 2 = -(π / 2) by ring, ofReal_neg_pos (by positivity)]
    simp [Agree, C.angle, Fl.sign]
  | .fin s m, .inf false, _, _ =>
    refine ⟨copysign (.fin false 0) (.fin s m), by simp [Fl.Eq], ?_⟩
    unfold copysign
    rw [if_neg (by simp [isnan, Fl.Eq]), if_pos (by simp [Fl.Eq])]
    split_ifs <;> simp [Agree, C.angle]
  | .fin s m, .inf true, h, _ =>
    refine ⟨copysign (Fl.ofReal π) (.fin s m), by simp [Fl.Eq], ?_⟩
    have hv : Visible (.fin s m) := fun hs => ⟨fun hz => by
      have h2 := (h hz rfl).1
      exact Bool.false_ne_true (h2.symm.trans hs), fun hc => hc⟩
    rw [C171_copysign_partial _ _ hv, ofReal_nonneg' hpi.le]
    simp [Agree, C.angle, Fl.withSign, Fl.sign]
  | .fin s m, .fin t k, h, _ =>
    by_cases hm : m = 0
    · subst hm
      refine ⟨_, by simpa [Fl.Eq] using atan2Fin_zero s t k, ?_⟩
      by_cases hk : k = 0
      · subst hk
        have ht : t = false := by
          cases t with
          | false => rfl
          | true => exact absurd rfl (h rfl rfl).2
        subst ht
        simp [Agree, C.angle]
      · cases t with
        | false => simp [Agree, C.angle]
        | true =>
          have hs : s = false := (h rfl rfl).1
          subst hs
          simp [Agree, C.angle, hk, Fl.sign]
    · refine ⟨_, by simpa [Fl.Eq] using atan2Fin_ne s t m k hm, ?_⟩
      obtain ⟨h1, h2, h3⟩ := arg_upper (x := Fl.val t k) hm
      cases s
      · simp only [Fl.val, Bool.false_eq_true, if_false] at *
        rw [ofReal_nonneg' h1.le]
        simp [Agree, C.angle, Fl.sign, hm, Fl.val]
      · have e : Fl.val true m = -(m : ℝ) := by simp [Fl.val]
        rw [e, h3, ofReal_neg_pos h1]
        simp [Agree, C.angle, Fl.sign, hm]

/-- On the negative half of the axis, and for infinities. -/
example : (∃ r, atan2 (.fin false 0) (.fin true 2) = some r ∧ Agree r (.fin false (Real.toNNReal π))) ∧
    (∃ r, atan2 (.inf true) (.inf true) = some r ∧ Agree r (.fin true (Real.toNNReal (3 * π / 4)))) := by
  refine ⟨?_, ?_⟩
  · obtain ⟨r, h1, h2⟩ := C171_atan2_partial (.fin false 0) (.fin true 2) fun _ _ => ⟨rfl, by simp [Fl.IsZero]⟩
    exact ⟨r, h1, by simpa [C.atan2, C.angle, Fl.IsNaN, Fl.sign] using h2⟩
  · obtain ⟨r, h1, h2⟩ := C171_atan2_partial (.inf true) (.inf true) fun h => h.elim
    exact ⟨r, h1, by simpa [C.atan2, C.angle, Fl.IsNaN, Fl.sign] using h2⟩

/-- **Violated**: below the cut the angle should be `-π`, and it is `π`; from the negative zero of `x` it should be `π`, and it is 0. -/
theorem C171_atan2_violated :
    (∀ k : ℝ≥0, k ≠ 0 → atan2 (.fin true 0) (.fin true k) = some (.fin false (Real.toNNReal π)) ∧ C.atan2 (.fin true 0) (.fin true k) = .fin true (Real.toNNReal π)) ∧
      ∀ s, atan2 (.fin s 0) (.fin true 0) = some (.fin false 0) ∧ C.atan2 (.fin s 0) (.fin true 0) = .fin s (Real.toNNReal π) := by
  have e : ∀ (s : Bool) (k : ℝ≥0), atan2 (.fin s 0) (.fin true k) = atan2Fin (.fin s 0) (.fin true k) := by
    intro s k
    simp [atan2, atan2Impl, isnan, Fl.Eq]
  refine ⟨fun k hk => ⟨?_, ?_⟩, fun s => ⟨?_, ?_⟩⟩
  · rw [e, atan2Fin_zero]; simp [hk]
  · simp [C.atan2, C.angle, Fl.IsNaN, Fl.sign]
  · rw [e, atan2Fin_zero]; simp
  · simp [C.atan2, C.angle, Fl.IsNaN, Fl.sign]

end OpenKalman.Signs
