import Verif.Model.Signs
import Mathlib.Tactic.Linarith
import Mathlib.Tactic.NormNum
import Mathlib.Tactic.FieldSimp
import Mathlib.Tactic.Positivity

/-! # Lemmas for C171 -/

namespace OpenKalman.Signs
open NNReal
open scoped Classical

theorem val_lt_zero (s : Bool) (m : ℝ≥0) : Fl.val s m < Fl.val false 0 ↔ s = true ∧ m ≠ 0 := by
  cases s <;> simp [Fl.val, pos_iff_ne_zero]

theorem val_eq_zero (s : Bool) (m : ℝ≥0) : Fl.val s m = Fl.val false 0 ↔ m = 0 := by
  cases s <;> simp [Fl.val]

theorem isnan_iff (x : Fl) : isnan x = true ↔ x.IsNaN := by
  cases x <;> simp [isnan, Fl.Eq, Fl.IsNaN]

theorem isinf_iff (x : Fl) : isinf x = true ↔ x.IsInf := by
  unfold isinf
  rw [Bool.or_eq_true, decide_eq_true_iff, decide_eq_true_iff]
  cases x with
  | inf s => cases s <;> simp [Fl.Eq, Fl.IsInf, Fl.neg, Fl.withSign, Fl.sign]
  | nan s => simp [Fl.Eq, Fl.IsInf]
  | fin s m => simp [Fl.Eq, Fl.IsInf, Fl.neg, Fl.withSign]

theorem eqZero_iff (x : Fl) : x.Eq (.fin false 0) ↔ x.IsZero := by
  cases x with
  | fin s m => simp [Fl.Eq, Fl.IsZero, val_eq_zero]
  | inf s => simp [Fl.Eq, Fl.IsZero]
  | nan s => simp [Fl.Eq, Fl.IsZero]

theorem signbit_iff (x : Fl) : signbit x = true ↔ x.sign = true ∧ ¬ x.IsZero ∧ ¬ x.IsNaN := by
  unfold signbit
  rw [decide_eq_true_iff]
  cases x with
  | fin s m => simp [Fl.Lt, val_lt_zero, Fl.sign, Fl.IsZero, Fl.IsNaN]
  | inf s => simp [Fl.Lt, Fl.sign, Fl.IsZero, Fl.IsNaN]
  | nan s => simp [Fl.Lt, Fl.sign, Fl.IsZero, Fl.IsNaN]

theorem withSign_self (x : Fl) : x.withSign x.sign = x := by cases x <;> rfl

/-- `abs` of a finite number. -/
theorem abs_fin (s : Bool) (m : ℝ≥0) : abs (.fin s m) = .fin (s && decide (m = 0)) m := by
  unfold abs
  have h := signbit_iff (.fin s m)
  simp only [Fl.sign, Fl.IsZero, Fl.IsNaN, not_false_eq_true, and_true] at h
  by_cases h1 : signbit (.fin s m) = true
  · obtain ⟨rfl, h0⟩ := h.1 h1
    rw [if_pos h1]
    simp [Fl.neg, Fl.withSign, Fl.sign, h0]
  · rw [if_neg h1]
    have : ¬ (s = true ∧ ¬ m = 0) := fun hc => h1 (h.2 hc)
    cases s <;> simp_all

theorem val_abs (s : Bool) (m : ℝ≥0) : Fl.val (s && decide (m = 0)) m = m := by
  by_cases h : m = 0
  · subst h; cases s <;> simp [Fl.val]
  · simp [Fl.val, h]

/-- Every number of the list is finite. -/
def AllFin (l : List Fl) : Prop := ∀ x ∈ l, ¬ x.IsInf ∧ ¬ x.IsNaN

/-- The greatest of some magnitudes: it is one of them, none is greater, and if it is zero it is the first. -/
theorem maxOf_spec (l : List Fl) (hl : AllFin l) : ∀ s0 m0, ∃ s m, maxOf (abs (.fin s0 m0)) (l.map abs) = .fin (s && decide (m = 0)) m ∧ m0 ≤ m ∧ (∀ x ∈ l, x.mag ≤ m) ∧
    (m = 0 → s = s0) ∧ (m = m0 ∨ ∃ x ∈ l, x.mag = m) := by
  induction l with
  | nil => intro s0 m0; exact ⟨s0, m0, abs_fin s0 m0, le_rfl, by simp, fun _ => rfl, .inl rfl⟩
  | cons x l ih =>
    intro s0 m0
    have hx := hl x (by simp)
    have hl' : AllFin l := fun y hy => hl y (by simp [hy])
    cases x with
    | nan s => exact absurd trivial hx.2
    | inf s => exact absurd trivial hx.1
    | fin s1 m1 =>
      have hlt : (abs (.fin s0 m0)).Lt (abs (.fin s1 m1)) ↔ m0 < m1 := by
        rw [abs_fin, abs_fin]
        show Fl.val _ _ < Fl.val _ _ ↔ _
        rw [val_abs, val_abs, NNReal.coe_lt_coe]
      show ∃ s m, (if (abs (.fin s0 m0)).Lt (abs (.fin s1 m1)) then maxOf (abs (.fin s1 m1)) (l.map abs) else maxOf (abs (.fin s0 m0)) (l.map abs)) = _ ∧ _
      by_cases h : m0 < m1
      · obtain ⟨s, m, h1, h2, h3, h4, h5⟩ := ih hl' s1 m1
        refine ⟨s, m, by rw [if_pos (hlt.2 h)]; exact h1, h.le.trans h2, ?_, fun h0 => ?_, .inr ?_⟩
        · intro y hy
          obtain rfl | hy := List.mem_cons.1 hy
          · exact h2
          · exact h3 y hy
        · subst h0
          exact absurd (h.trans_le h2) (by simp)
        · obtain rfl | ⟨y, hy, rfl⟩ := h5
          · exact ⟨_, List.mem_cons_self, rfl⟩
          · exact ⟨y, List.mem_cons_of_mem _ hy, rfl⟩
      · obtain ⟨s, m, h1, h2, h3, h4, h5⟩ := ih hl' s0 m0
        refine ⟨s, m, by rw [if_neg (fun hc => h (hlt.1 hc))]; exact h1, h2, ?_, h4, h5.imp_right fun ⟨y, hy, e⟩ => ⟨y, List.mem_cons_of_mem _ hy, e⟩⟩
        intro y hy
        obtain rfl | hy := List.mem_cons.1 hy
        · exact (not_lt.1 h).trans h2
        · exact h3 y hy

theorem scaled_sum (l : List Fl) {m : ℝ≥0} (hm : m ≠ 0) : m * NNReal.sqrt ((l.map fun a => (a.mag / m) ^ 2).sum) = NNReal.sqrt ((l.map fun a => a.mag ^ 2).sum) := by
  have h : (l.map fun a => a.mag ^ 2).sum = m ^ 2 * (l.map fun a => (a.mag / m) ^ 2).sum := by
    induction l with
    | nil => simp
    | cons a l ih => simp only [List.map_cons, List.sum_cons, ih, mul_add]; congr 1; field_simp
  rw [h, NNReal.sqrt_mul, NNReal.sqrt_sq]

/-- The result of `hypot` for finite numbers. -/
theorem hypot_fin (s0 : Bool) (m0 : ℝ≥0) (l : List Fl) (hl : AllFin l) : hypot (.fin s0 m0) l =
    .fin (s0 && decide (NNReal.sqrt (((Fl.fin s0 m0 :: l).map fun x => x.mag ^ 2).sum) = 0)) (NNReal.sqrt (((Fl.fin s0 m0 :: l).map fun x => x.mag ^ 2).sum)) := by
  have h1 : ¬ ((Fl.fin s0 m0 :: l).any isinf = true) := by
    rw [List.any_eq_true]
    rintro ⟨x, hx, h⟩
    obtain rfl | hx := List.mem_cons.1 hx
    · exact (isinf_iff _).1 h
    · exact (hl x hx).1 ((isinf_iff _).1 h)
  have h2 : ¬ ((Fl.fin s0 m0 :: l).any isnan = true) := by
    rw [List.any_eq_true]
    rintro ⟨x, hx, h⟩
    obtain rfl | hx := List.mem_cons.1 hx
    · exact (isnan_iff _).1 h
    · exact (hl x hx).2 ((isnan_iff _).1 h)
  obtain ⟨s, m, e, hm0, hm, hs, hat⟩ := maxOf_spec l hl s0 m0
  unfold hypot
  rw [if_neg h1, if_neg h2, e]
  simp only [eqZero_iff]
  by_cases h : m = 0
  · obtain rfl := hs h
    subst h
    have hz : ((Fl.fin s m0 :: l).map fun x => x.mag ^ 2).sum = 0 := by
      apply List.sum_eq_zero
      intro y hy
      obtain ⟨x, hx, rfl⟩ := List.mem_map.1 hy
      obtain rfl | hx := List.mem_cons.1 hx
      · simpa [Fl.mag] using hm0
      · simpa using hm x hx
    rw [if_pos (show (Fl.fin _ 0).IsZero from rfl), hz]
    simp
  · rw [if_neg (show ¬ (Fl.fin _ m).IsZero from h)]
    show Fl.fin false (m * _) = _
    rw [show (Fl.fin (s && decide (m = 0)) m).mag = m from rfl, scaled_sum _ h]
    have hne : NNReal.sqrt (((Fl.fin s0 m0 :: l).map fun x => x.mag ^ 2).sum) ≠ 0 := by
      rw [Ne, NNReal.sqrt_eq_zero, List.sum_eq_zero_iff]
      intro hc
      have hmem : m ^ 2 ∈ (Fl.fin s0 m0 :: l).map fun x => x.mag ^ 2 := by
        obtain rfl | ⟨x, hx, rfl⟩ := hat
        · exact List.mem_map.2 ⟨_, List.mem_cons_self, rfl⟩
        · exact List.mem_map.2 ⟨x, List.mem_cons_of_mem _ hx, rfl⟩
      exact h (pow_eq_zero_iff (two_ne_zero) |>.1 (hc _ hmem))
    rw [decide_eq_false hne, Bool.and_false]

end OpenKalman.Signs
