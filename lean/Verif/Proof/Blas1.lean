import Verif.Model.Blas1
import Verif.Spec.Blas1
import Mathlib.Tactic.Linarith
import Mathlib.Tactic.Ring
import Mathlib.Tactic.FieldSimp
import Mathlib.Tactic.Positivity
import Mathlib.Analysis.SpecialFunctions.Sqrt

namespace OpenKalman.Blas
open Finset

theorem idxLoop_spec {n : ℕ} (hn : 0 < n) (m : ℕ → ℝ) : FirstMax n m (idxLoop n m).1 := by
  have := loop_invariant (fun k (s : ℕ × ℝ) => s.2 = m s.1 ∧ FirstMax k m s.1) (lo := 1) (hi := n) hn
    (fun i s => if s.2 < m i then (i, m i) else s) (0, m 0) ?_ ?_
  · exact this.2
  · refine ⟨rfl, Nat.one_pos, ?_, ?_⟩
    · intro k hk
      have : k = 0 := by omega
      subst this
      exact le_rfl
    · intro k hk
      exact absurd hk (Nat.not_lt_zero _)
  · rintro i hi1 hi2 ⟨j, v⟩ ⟨hv, hj, hmax, hfirst⟩
    simp only at hv hj hmax hfirst
    subst hv
    by_cases h : m j < m i
    · simp only [h, if_true]
      refine ⟨trivial, Nat.lt_succ_self i, ?_, ?_⟩
      · intro k hk
        rcases Nat.lt_succ_iff_lt_or_eq.mp hk with hk | rfl
        · exact (hmax k hk).trans h.le
        · exact le_rfl
      · intro k hk
        exact (hmax k hk).trans_lt h
    · simp only [h, if_false]
      refine ⟨trivial, Nat.lt_succ_of_lt hj, ?_, hfirst⟩
      intro k hk
      rcases Nat.lt_succ_iff_lt_or_eq.mp hk with hk | rfl
      · exact hmax k hk
      · exact not_lt.mp h

/-- What one pass of the scaled sum of squares keeps. -/
theorem Scaled.add_spec (s : Scaled) (a : ℝ) (hs : 0 ≤ s.scale) (hq : 0 ≤ s.ssq) (ha : 0 ≤ a) :
    (s.add a).scale = max s.scale a ∧ (s.add a).scale ^ 2 * (s.add a).ssq = s.scale ^ 2 * s.ssq + a ^ 2 ∧ 0 ≤ (s.add a).ssq ∧ (s.add a).ssq ≤ s.ssq + 1 := by
  unfold Scaled.add
  by_cases h0 : a = 0
  · subst h0
    simp [hs, hq]
  · have ha' : 0 < a := lt_of_le_of_ne ha (Ne.symm h0)
    simp only [ne_eq, h0, not_false_eq_true, if_true]
    by_cases hlt : s.scale < a
    · simp only [hlt, if_true]
      refine ⟨(max_eq_right hlt.le).symm, ?_, by positivity, ?_⟩
      · field_simp
        ring
      · have h1 : s.scale / a ≤ 1 := (div_le_one ha').mpr hlt.le
        have h2 : 0 ≤ s.scale / a := by positivity
        have h3 : (s.scale / a) * (s.scale / a) ≤ 1 := by nlinarith
        nlinarith [mul_le_mul_of_nonneg_left h3 hq]
    · simp only [hlt, if_false]
      have hle := not_lt.mp hlt
      have hsc : 0 < s.scale := ha'.trans_le hle
      refine ⟨(max_eq_left hle).symm, ?_, by positivity, ?_⟩
      · field_simp
      · have h1 : a / s.scale ≤ 1 := (div_le_one hsc).mpr hle
        have h2 : 0 ≤ a / s.scale := by positivity
        nlinarith

/-- The state of `vector_sum_of_squares` after `k` components. -/
theorem sumOfSquares_spec {𝕜 : Type*} [RCLike 𝕜] (n : ℕ) (x : ℕ → 𝕜) (init : Scaled) (hs : 0 ≤ init.scale) (hq : 0 ≤ init.ssq) :
    let r := sumOfSquares n x init
    r.scale ^ 2 * r.ssq = init.scale ^ 2 * init.ssq + squares n x ∧ init.scale ≤ r.scale ∧ (∀ k < n, ‖x k‖ ≤ r.scale) ∧
      (r.scale = init.scale ∨ ∃ k < n, ‖x k‖ = r.scale) ∧ 0 ≤ r.ssq ∧ r.ssq ≤ init.ssq + n := by
  have e : sumOfSquares n x init = loop 0 n (fun i (s : Scaled) => s.add ‖x i‖) init := by
    unfold sumOfSquares
    split_ifs with h
    · subst h; rfl
    · rfl
  rw [e]
  refine loop_invariant (fun k (r : Scaled) => r.scale ^ 2 * r.ssq = init.scale ^ 2 * init.ssq + squares k x ∧ init.scale ≤ r.scale ∧ (∀ j < k, ‖x j‖ ≤ r.scale) ∧
      (r.scale = init.scale ∨ ∃ j < k, ‖x j‖ = r.scale) ∧ 0 ≤ r.ssq ∧ r.ssq ≤ init.ssq + k) (Nat.zero_le n) _ init ?_ ?_
  · simp [squares, hq]
  · rintro i - hi t ⟨h1, h2, h3, h4, h5, h6⟩
    obtain ⟨g1, g2, g3, g4⟩ := t.add_spec ‖x i‖ (hs.trans h2) h5 (norm_nonneg _)
    refine ⟨?_, ?_, ?_, ?_, g3, ?_⟩
    · rw [g2, h1, squares, squares, Finset.sum_range_succ]
      ring
    · rw [g1]; exact h2.trans (le_max_left _ _)
    · intro j hj
      rw [g1]
      rcases Nat.lt_succ_iff_lt_or_eq.mp hj with hj | rfl
      · exact (h3 j hj).trans (le_max_left _ _)
      · exact le_max_right _ _
    · rw [g1]
      rcases max_choice t.scale ‖x i‖ with h | h
      · rw [h]
        rcases h4 with h4 | ⟨j, hj, h4⟩
        · exact Or.inl h4
        · exact Or.inr ⟨j, by omega, h4⟩
      · exact Or.inr ⟨i, by omega, h.symm⟩
    · push_cast
      linarith

theorem sqrt_scaled {a b c : ℝ} (ha : 0 ≤ a) (h : a ^ 2 * b = c) : a * Real.sqrt b = Real.sqrt c := by
  rw [← h, Real.sqrt_mul (by positivity), Real.sqrt_sq ha]

/-- With magnitudes no smaller than the scale, one pass of the Frobenius norm is right. -/
theorem Scaled.addFrob_eq (s : Scaled) (a : ℝ) (h : a = 0 ∨ s.scale ≤ a) : s.addFrob a = s.add a := by
  unfold Scaled.addFrob Scaled.add
  rcases h with rfl | h
  · simp
  · by_cases h0 : a = 0
    · simp [h0]
    · simp only [ne_eq, h0, not_false_eq_true, if_true]
      rcases h.lt_or_eq with h | h
      · simp [h]
      · rw [h]

/-- The loop over the rows of a matrix, and over the components of a row, is one loop over all components. -/
theorem loop_loop {σ : Type*} (m n : ℕ) (body : ℕ → ℕ → σ → σ) (s : σ) :
    loop 0 m (fun i s => loop 0 n (fun j s => body i j s) s) s = loop 0 (m * n) (fun k s => body (k / n) (k % n) s) s := by
  induction m with
  | zero => simp [loop]
  | succ m ih =>
    rw [loop_zero_succ, ih]
    have key : ∀ k ≤ n, loop 0 (m * n + k) (fun k s => body (k / n) (k % n) s) s =
        loop 0 k (fun j s => body m j s) (loop 0 (m * n) (fun k s => body (k / n) (k % n) s) s) := by
      intro k hk
      induction k with
      | zero => rfl
      | succ k ihk =>
        have hn : 0 < n := by omega
        rw [← Nat.add_assoc, loop_zero_succ, ihk (by omega), loop_zero_succ, Nat.mul_comm m n, Nat.mul_add_div hn, Nat.mul_add_mod,
          Nat.div_eq_of_lt (by omega), Nat.mod_eq_of_lt (by omega), Nat.add_zero]
    rw [Nat.succ_mul, key n le_rfl]

/-- One pass of the Frobenius norm: never too small, and right just if no number smaller than the scale comes. -/
theorem Scaled.addFrob_spec (s : Scaled) (a : ℝ) (hs : 0 ≤ s.scale) (hq : 0 ≤ s.ssq) (ha : 0 ≤ a) :
    (s.addFrob a).scale = max s.scale a ∧ 0 ≤ (s.addFrob a).ssq ∧ s.scale ^ 2 * s.ssq + a ^ 2 ≤ (s.addFrob a).scale ^ 2 * (s.addFrob a).ssq ∧
      ((s.addFrob a).scale ^ 2 * (s.addFrob a).ssq = s.scale ^ 2 * s.ssq + a ^ 2 ↔ a = 0 ∨ s.scale ≤ a) := by
  by_cases h : a = 0 ∨ s.scale ≤ a
  · rw [s.addFrob_eq a h]
    obtain ⟨h1, h2, h3, -⟩ := s.add_spec a hs hq ha
    exact ⟨h1, h3, h2.ge, fun _ => h, fun _ => h2⟩
  · have h' := h
    push Not at h'
    obtain ⟨h0, hlt⟩ := h'
    have ha' : 0 < a := lt_of_le_of_ne ha (Ne.symm h0)
    have hn : ¬ s.scale < a := not_lt.mpr hlt.le
    have hq1 : 1 < s.scale / a := (one_lt_div ha').mpr hlt
    have hgt : s.scale ^ 2 * s.ssq + a ^ 2 < s.scale ^ 2 * (s.ssq + s.scale / a * (s.scale / a)) := by
      have h1 : 1 < s.scale / a * (s.scale / a) := by nlinarith
      have h2 : a ^ 2 < s.scale ^ 2 := by nlinarith
      nlinarith
    have e : s.addFrob a = ⟨s.scale, s.ssq + s.scale / a * (s.scale / a)⟩ := by simp [Scaled.addFrob, h0, hn]
    rw [e]
    exact ⟨(max_eq_left hlt.le).symm, by positivity, hgt.le, fun hh => absurd hh hgt.ne', fun hh => absurd hh h⟩

theorem frob_line (N : ℕ) (f : ℕ → ℝ) (hf : ∀ k, 0 ≤ f k) :
    let r := loop 0 N (fun k (s : Scaled) => s.addFrob (f k)) ⟨0, 1⟩
    0 ≤ r.scale ∧ 0 ≤ r.ssq ∧ ∑ k ∈ range N, f k ^ 2 ≤ r.scale ^ 2 * r.ssq ∧
      (r.scale ^ 2 * r.ssq = ∑ k ∈ range N, f k ^ 2 ↔ ∀ l < N, f l ≠ 0 → ∀ j < l, f j ≤ f l) := by
  have := loop_invariant (fun K (r : Scaled) => (0 ≤ r.scale ∧ (∀ j < K, f j ≤ r.scale) ∧ (r.scale = 0 ∨ ∃ j < K, f j = r.scale)) ∧ 0 ≤ r.ssq ∧
    ∑ k ∈ range K, f k ^ 2 ≤ r.scale ^ 2 * r.ssq ∧ (r.scale ^ 2 * r.ssq = ∑ k ∈ range K, f k ^ 2 ↔ ∀ l < K, f l ≠ 0 → ∀ j < l, f j ≤ f l))
    (Nat.zero_le N) (fun k (s : Scaled) => s.addFrob (f k)) ⟨0, 1⟩ (by simp) ?_
  · exact ⟨this.1.1, this.2⟩
  · rintro k - hk t ⟨⟨h0, hmax, hex⟩, hq, hle, hiff⟩
    obtain ⟨g1, g2, g3, g4⟩ := t.addFrob_spec (f k) h0 hq (hf k)
    refine ⟨⟨?_, ?_, ?_⟩, g2, ?_, ?_⟩
    · rw [g1]; exact h0.trans (le_max_left _ _)
    · intro j hj
      rw [g1]
      rcases Nat.lt_succ_iff_lt_or_eq.mp hj with hj | rfl
      · exact (hmax j hj).trans (le_max_left _ _)
      · exact le_max_right _ _
    · rw [g1]
      rcases max_choice t.scale (f k) with h | h
      · rw [h]
        rcases hex with h4 | ⟨j, hj, h4⟩
        · exact Or.inl h4
        · exact Or.inr ⟨j, by omega, h4⟩
      · exact Or.inr ⟨k, by omega, h.symm⟩
    · rw [Finset.sum_range_succ]
      linarith
    · rw [Finset.sum_range_succ]
      have last : (f k = 0 ∨ t.scale ≤ f k) ↔ (f k ≠ 0 → ∀ j < k, f j ≤ f k) := by
        constructor
        · rintro (h | h) h' j hj
          · exact absurd h h'
          · exact (hmax j hj).trans h
        · intro h
          by_cases hz : f k = 0
          · exact Or.inl hz
          · rcases hex with h4 | ⟨j, hj, h4⟩
            · exact Or.inr (h4 ▸ hf k)
            · exact Or.inr (h4 ▸ h hz j hj)
      constructor
      · intro h
        have e1 : t.scale ^ 2 * t.ssq = ∑ j ∈ range k, f j ^ 2 := by linarith
        have e2 := g4.mp (by linarith)
        intro l hl
        rcases Nat.lt_succ_iff_lt_or_eq.mp hl with hl | rfl
        · exact hiff.mp e1 l hl
        · exact last.mp e2
      · intro h
        have e1 := hiff.mpr (fun l hl => h l (by omega))
        have e2 := g4.mpr (last.mpr (h k (by omega)))
        rw [e2, e1]

theorem squares2_line {𝕜 : Type*} [RCLike 𝕜] (m n : ℕ) (a : ℕ → ℕ → 𝕜) : squares2 m n a = ∑ k ∈ range (m * n), ‖a (k / n) (k % n)‖ ^ 2 := by
  have h := loop_loop m n (fun i j (s : ℝ) => s + ‖a i j‖ ^ 2) 0
  simp only [loop_sum, Nat.Ico_zero_eq_range, zero_add] at h
  exact h

theorem ascending_line {𝕜 : Type*} [RCLike 𝕜] (m n : ℕ) (a : ℕ → ℕ → 𝕜) :
    Ascending m n a ↔ ∀ l < m * n, ‖a (l / n) (l % n)‖ ≠ 0 → ∀ j < l, ‖a (j / n) (j % n)‖ ≤ ‖a (l / n) (l % n)‖ := by
  constructor
  · intro h l hl h0 j hj
    have hn : 0 < n := Nat.pos_of_ne_zero (by rintro rfl; simp at hl)
    refine h _ (Nat.div_lt_of_lt_mul (by rwa [Nat.mul_comm])) _ (Nat.mod_lt _ hn) (norm_ne_zero_iff.mp h0) _
      (Nat.div_lt_of_lt_mul (by rw [Nat.mul_comm]; omega)) _ (Nat.mod_lt _ hn) ?_
    rcases (Nat.div_le_div_right (c := n) hj.le).lt_or_eq with h1 | h1
    · exact Or.inl h1
    · refine Or.inr ⟨h1, ?_⟩
      have e1 := Nat.div_add_mod j n
      have e2 := Nat.div_add_mod l n
      rw [h1] at e1
      omega
  · intro h k hk l hl h0 i hi j hj hb
    have hn : 0 < n := by omega
    have key : ∀ p q, q < n → (p * n + q) / n = p ∧ (p * n + q) % n = q := by
      intro p q hq
      rw [Nat.mul_comm p n, Nat.mul_add_div hn, Nat.mul_add_mod, Nat.div_eq_of_lt hq, Nat.mod_eq_of_lt hq]
      simp
    have hlt : i * n + j < k * n + l := by
      rcases hb with hb | ⟨rfl, hb⟩
      · have : (i + 1) * n ≤ k * n := Nat.mul_le_mul_right n hb
        rw [Nat.succ_mul] at this
        omega
      · omega
    have hN : k * n + l < m * n := by
      have : (k + 1) * n ≤ m * n := Nat.mul_le_mul_right n hk
      rw [Nat.succ_mul] at this
      omega
    have := h (k * n + l) hN
    rw [(key k l hl).1, (key k l hl).2] at this
    have := this (norm_ne_zero_iff.mpr h0) (i * n + j) hlt
    rwa [(key i j hj).1, (key i j hj).2] at this

theorem frobNorm_spec {𝕜 : Type*} [RCLike 𝕜] (m n : ℕ) (a : ℕ → ℕ → 𝕜) (init : ℝ) :
    init + Real.sqrt (squares2 m n a) ≤ frobNorm m n a init ∧ (frobNorm m n a init = init + Real.sqrt (squares2 m n a) ↔ Ascending m n a) := by
  unfold frobNorm
  by_cases h0 : m = 0 ∨ n = 0
  · have hz : squares2 m n a = 0 := by rcases h0 with rfl | rfl <;> simp [squares2]
    rw [if_pos h0, hz]
    refine ⟨by simp, fun _ => ?_, fun _ => by simp⟩
    intro k hk l hl
    omega
  · rw [if_neg h0]
    by_cases h1 : m = 1 ∧ n = 1
    · rw [if_pos h1]
      obtain ⟨rfl, rfl⟩ := h1
      have hz : Real.sqrt (squares2 1 1 a) = ‖a 0 0‖ := by simp [squares2, Real.sqrt_sq]
      rw [hz]
      refine ⟨le_rfl, fun _ => ?_, fun _ => rfl⟩
      intro k hk l hl _ i hi j hj hb
      unfold Before at hb
      omega
    · rw [if_neg h1, squares2_line, ascending_line]
      have e := loop_loop m n (fun i j (s : Scaled) => s.addFrob ‖a i j‖) ⟨0, 1⟩
      simp only [e]
      obtain ⟨f1, f2, f3, f4⟩ := frob_line (m * n) (fun k => ‖a (k / n) (k % n)‖) (fun k => norm_nonneg _)
      rw [← f4]
      have hs := sqrt_scaled f1 (rfl : _ = (loop 0 (m * n) (fun k (s : Scaled) => s.addFrob ‖a (k / n) (k % n)‖) ⟨0, 1⟩).scale ^ 2 *
        (loop 0 (m * n) (fun k (s : Scaled) => s.addFrob ‖a (k / n) (k % n)‖) ⟨0, 1⟩).ssq)
      rw [hs]
      refine ⟨by linarith [Real.sqrt_le_sqrt f3], ?_⟩
      rw [add_right_inj, Real.sqrt_inj (by positivity) (by positivity)]

/-- The running maximum. -/
theorem loop_max (n : ℕ) (f : ℕ → ℝ) (init : ℝ) (h : ∀ k < n, init ≤ f k) :
    (n = 0 → loop 0 n (fun i r => if f i < r then r else f i) init = init) ∧ (0 < n → Largest n f (loop 0 n (fun i r => if f i < r then r else f i) init)) := by
  have := loop_invariant (fun k (r : ℝ) => (k = 0 → r = init) ∧ (0 < k → Largest k f r)) (Nat.zero_le n)
    (fun i r => if f i < r then r else f i) init ⟨fun _ => rfl, fun h => absurd h (Nat.lt_irrefl 0)⟩ ?_
  · exact this
  · rintro i - hi r ⟨h1, h2⟩
    refine ⟨fun h => absurd h (Nat.succ_ne_zero i), fun _ => ?_⟩
    by_cases hi0 : i = 0
    · subst hi0
      have hr := h1 rfl
      have : ¬ f 0 < r := by rw [hr]; exact not_lt.mpr (h 0 hi)
      simp only [this, if_false]
      exact ⟨fun k hk => by have : k = 0 := by omega
                            subst this; exact le_rfl, 0, by omega, rfl⟩
    · obtain ⟨h3, j, hj, h4⟩ := h2 (Nat.pos_of_ne_zero hi0)
      by_cases hlt : f i < r
      · simp only [hlt, if_true]
        refine ⟨fun k hk => ?_, j, by omega, h4⟩
        rcases Nat.lt_succ_iff_lt_or_eq.mp hk with hk | rfl
        · exact h3 k hk
        · exact hlt.le
      · simp only [hlt, if_false]
        refine ⟨fun k hk => ?_, i, by omega, rfl⟩
        rcases Nat.lt_succ_iff_lt_or_eq.mp hk with hk | rfl
        · exact (h3 k hk).trans (not_lt.mp hlt)
        · exact le_rfl

/-- The maximum of row sums that all start from `init`. -/
theorem loop_rows (m n : ℕ) (f : ℕ → ℕ → ℝ) (hf : ∀ i j, 0 ≤ f i j) (init : ℝ) (hm : 0 < m) :
    ∃ v, Largest m (fun i => ∑ j ∈ range n, f i j) v ∧
      loop 0 m (fun i result => let rowSum := loop 0 n (fun j s => s + f i j) init; if rowSum < result then result else rowSum) init = init + v := by
  simp only [loop_sum, Nat.Ico_zero_eq_range]
  obtain ⟨h1, k, hk, h2⟩ := (loop_max m (fun i => init + ∑ j ∈ range n, f i j) init
    (fun k _ => le_add_of_nonneg_right (Finset.sum_nonneg fun j _ => hf k j))).2 hm
  refine ⟨∑ j ∈ range n, f k j, ⟨fun i hi => ?_, k, hk, rfl⟩, h2.symm⟩
  have := h1 i hi
  rw [← h2] at this
  linarith

/-- A loop that writes each component once, from inputs it does not change. -/
theorem loop_write {M : Type*} (n : ℕ) (f : ℕ → M → M) (y : ℕ → M) (p : ℕ) :
    loop 0 n (fun i y => Function.update y i (f i (y i))) y p = if p < n then f p (y p) else y p := by
  have := loop_invariant (fun k (t : ℕ → M) => ∀ p, t p = if p < k then f p (y p) else y p) (Nat.zero_le n)
    (fun i y => Function.update y i (f i (y i))) y (by simp) ?_
  · exact this p
  · intro i _ hi t ht q
    by_cases hq : q = i
    · subst hq
      simp [ht]
    · rw [Function.update_of_ne hq, ht]
      have : q < i ↔ q < i + 1 := by omega
      simp only [this]

theorem loop_write2 {M : Type*} (m n : ℕ) (f : ℕ → ℕ → M → M) (y : ℕ → ℕ → M) (p q : ℕ) :
    loop 0 n (fun j y => loop 0 m (fun i y => Function.update y i (Function.update (y i) j (f i j (y i j)))) y) y p q =
      if p < m ∧ q < n then f p q (y p q) else y p q := by
  have inner : ∀ j (y : ℕ → ℕ → M), loop 0 m (fun i y => Function.update y i (Function.update (y i) j (f i j (y i j)))) y =
      fun p => if p < m then Function.update (y p) j (f p j (y p j)) else y p := by
    intro j y
    funext p
    exact loop_write m (fun i r => Function.update r j (f i j (r j))) y p
  simp only [inner]
  have := loop_invariant (fun k (t : ℕ → ℕ → M) => ∀ p q, t p q = if p < m ∧ q < k then f p q (y p q) else y p q) (Nat.zero_le n)
    (fun j y p => if p < m then Function.update (y p) j (f p j (y p j)) else y p) y (by simp) ?_
  · exact this p q
  · intro j _ hj t ht a b
    by_cases ha : a < m
    · by_cases hb : b = j
      · subst hb
        simp [ha, ht]
      · have : b < j ↔ b < j + 1 := by omega
        simp [ha, Function.update_of_ne hb, ht, this]
    · simp [ha, ht]

end OpenKalman.Blas
