import Verif.Proof.Blas1
import Mathlib.Tactic.NormNum

/-!
# C118, C119: vectors and norms in the bundled linear algebra library
-/

namespace OpenKalman.Blas
open Finset

section C118
variable {𝕜 : Type*}

/-- C118: the dot product is the sum of the products of the components, added to `init`, with no conjugate; `dotc` takes the conjugate of the first vector. -/
theorem C118_dot [RCLike 𝕜] (n : ℕ) (v1 v2 : ℕ → 𝕜) (init : 𝕜) :
    dot n v1 v2 init = init + ∑ k ∈ range n, v1 k * v2 k ∧ dotc n v1 v2 init = init + ∑ k ∈ range n, (starRingEnd 𝕜) (v1 k) * v2 k := by
  refine ⟨?_, ?_⟩
  · unfold dot
    rw [loop_sum, Nat.Ico_zero_eq_range]
  · unfold dotc dot
    rw [loop_sum, Nat.Ico_zero_eq_range]
    rfl

/-- C118: so `dotc` of a vector with itself is the square of its norm. -/
theorem C118_dotc_self [RCLike 𝕜] (n : ℕ) (v : ℕ → 𝕜) : dotc n v v 0 = ((squares n v : ℝ) : 𝕜) := by
  rw [(C118_dot n v v 0).2, zero_add, squares, RCLike.ofReal_sum]
  refine Finset.sum_congr rfl fun i _ => ?_
  rw [RCLike.conj_mul, RCLike.ofReal_pow]

example : dot 2 (fun i => ((i : ℝ) + 1)) (fun _ => 3) 1 = 10 := by
  rw [(C118_dot 2 _ _ _).1]; simp [Finset.sum_range_succ]; norm_num

/-- C118: the sum of magnitudes adds the magnitude of each component to `init`; for complex components it is the sum of the magnitudes of the two parts. -/
theorem C118_abs_sum (n : ℕ) (v : ℕ → ℝ) (w : ℕ → ℂ) (init : ℝ) :
    absSum n v init = init + ∑ k ∈ range n, |v k| ∧ absSumC n w init = init + ∑ k ∈ range n, (|(w k).re| + |(w k).im|) := by
  refine ⟨?_, ?_⟩
  · unfold absSum
    rw [loop_sum, Nat.Ico_zero_eq_range]
  · unfold absSumC
    simp only [add_assoc]
    rw [loop_sum, Nat.Ico_zero_eq_range]

example : absSum 2 (fun i => -((i : ℝ) + 1)) 0 = 3 := by
  rw [(C118_abs_sum 2 _ (fun _ => 0) 0).1]; simp [Finset.sum_range_succ]; norm_num [abs_of_neg]

/-- C118: the index of the component of largest magnitude is the first such index, and an empty vector has none. -/
theorem C118_idx_abs_max (n : ℕ) (v : ℕ → ℝ) (w : ℕ → ℂ) :
    (n = 0 → idxAbsMax n v = none ∧ idxAbsMaxC n w = none) ∧
    (0 < n → (∃ i, idxAbsMax n v = some i ∧ FirstMax n (fun k => |v k|) i) ∧
      ∃ i, idxAbsMaxC n w = some i ∧ FirstMax n (fun k => |(w k).re| + |(w k).im|) i) := by
  refine ⟨fun h => ⟨if_pos h, if_pos h⟩, fun h => ⟨⟨_, if_neg (by omega), idxLoop_spec h _⟩, ⟨_, if_neg (by omega), idxLoop_spec h _⟩⟩⟩

example : FirstMax 3 (fun k => if k = 0 then 1 else 2) 1 := by
  refine ⟨by decide, ?_, ?_⟩
  · intro k _
    by_cases h : k = 0 <;> simp [h]
  · intro k hk
    have : k = 0 := by omega
    subst this
    norm_num

/-- C118: `add`, `copy`, `swap_elements` and `scale` write every component in range once, from the old values, and nothing else; also if the sum is stored in
one of the arrays added. -/
theorem C118_componentwise [RCLike 𝕜] (m n : ℕ) (x y z : ℕ → 𝕜) (a b c : ℕ → ℕ → 𝕜) (alpha : 𝕜) (p q : ℕ) :
    addRank1 n x y z p = (if p < n then x p + y p else z p) ∧
    addRank1Onto n y z p = (if p < n then z p + y p else z p) ∧
    copyRank1 n x y p = (if p < n then x p else y p) ∧
    (swapRank1 n (x, y)).1 p = (if p < n then y p else x p) ∧ (swapRank1 n (x, y)).2 p = (if p < n then x p else y p) ∧
    scaleRank1 n alpha x p = (if p < n then alpha * x p else x p) ∧
    addRank2 m n a b c p q = (if p < m ∧ q < n then a p q + b p q else c p q) ∧
    scaleRank2 m n alpha a p q = (if p < m ∧ q < n then alpha * a p q else a p q) := by
  refine ⟨?_, ?_, ?_, ?_, ?_, ?_, ?_, ?_⟩
  · exact loop_write n (fun i _ => x i + y i) z p
  · exact loop_write n (fun i t => t + y i) z p
  · exact loop_write n (fun i _ => x i) y p
  · have := loop_invariant (fun k (s : (ℕ → 𝕜) × (ℕ → 𝕜)) => ∀ p, s.1 p = (if p < k then y p else x p) ∧ s.2 p = (if p < k then x p else y p)) (Nat.zero_le n)
      (fun i s => (Function.update s.1 i (s.2 i), Function.update s.2 i (s.1 i))) (x, y) (by simp) ?_
    · exact (this p).1
    · intro i _ _ t ht r
      by_cases hr : r = i
      · subst hr; simp [ht]
      · have : r < i ↔ r < i + 1 := by omega
        simp [Function.update_of_ne hr, ht, this]
  · have := loop_invariant (fun k (s : (ℕ → 𝕜) × (ℕ → 𝕜)) => ∀ p, s.1 p = (if p < k then y p else x p) ∧ s.2 p = (if p < k then x p else y p)) (Nat.zero_le n)
      (fun i s => (Function.update s.1 i (s.2 i), Function.update s.2 i (s.1 i))) (x, y) (by simp) ?_
    · exact (this p).2
    · intro i _ _ t ht r
      by_cases hr : r = i
      · subst hr; simp [ht]
      · have : r < i ↔ r < i + 1 := by omega
        simp [Function.update_of_ne hr, ht, this]
  · rw [mul_comm]; exact loop_write n (fun _ t => t * alpha) x p
  · exact loop_write2 m n (fun i j _ => a i j + b i j) c p q
  · rw [mul_comm]; exact loop_write2 m n (fun _ _ t => t * alpha) a p q

example : (swapRank1 1 ((fun _ => (1 : ℝ)), (fun _ => 2))).1 0 = 2 := by
  have := (C118_componentwise 0 1 (fun _ => (1 : ℝ)) (fun _ => 2) (fun _ => 0) 0 0 0 0 0 0).2.2.2.1
  simpa using this

end C118

section C119
variable {𝕜 : Type*} [RCLike 𝕜]

/-- C119: the scaled sum of squares keeps its meaning: the square of the scale times the sum is that of `init` plus the squares of all components. The new
scale is the largest of the old one and the magnitudes, so no quotient is above one, and the sum grows by at most one for a component. -/
theorem C119_sum_of_squares (n : ℕ) (x : ℕ → 𝕜) (init : Scaled) (hs : 0 ≤ init.scale) (hq : 0 ≤ init.ssq) :
    (sumOfSquares n x init).scale ^ 2 * (sumOfSquares n x init).ssq = init.scale ^ 2 * init.ssq + squares n x ∧
    Largest (n + 1) (fun k => if k = 0 then init.scale else ‖x (k - 1)‖) (sumOfSquares n x init).scale ∧
    (sumOfSquares n x init).ssq ≤ init.ssq + n := by
  obtain ⟨h1, h2, h3, h4, -, h6⟩ := sumOfSquares_spec n x init hs hq
  refine ⟨h1, ⟨?_, ?_⟩, h6⟩
  · intro k hk
    by_cases h : k = 0
    · simpa [h] using h2
    · simpa [h] using h3 (k - 1) (by omega)
  · rcases h4 with h | ⟨k, hk, h⟩
    · exact ⟨0, by omega, by simpa using h.symm⟩
    · exact ⟨k + 1, by omega, by simpa using h⟩

/-- C119: so the two-norm is `init` plus the Euclidean norm, for every vector, also the zero vector and the empty one. -/
theorem C119_two_norm (n : ℕ) (x : ℕ → 𝕜) (init : ℝ) : twoNorm n x init = init + Real.sqrt (∑ i ∈ range n, ‖x i‖ ^ 2) := by
  obtain ⟨h1, h2, -⟩ := sumOfSquares_spec n x ⟨0, 1⟩ le_rfl zero_le_one
  unfold twoNorm
  simp only
  rw [sqrt_scaled h2 (by rw [h1]; simp [squares] : _ = ∑ i ∈ range n, ‖x i‖ ^ 2)]

example : twoNorm 2 (fun i => if i = 0 then (4 : ℝ) else 3) 1 = 6 := by
  rw [C119_two_norm]
  have : (∑ i ∈ range 2, ‖(if i = 0 then (4 : ℝ) else 3)‖ ^ 2) = 5 ^ 2 := by simp [Finset.sum_range_succ]; norm_num
  rw [this, Real.sqrt_sq (by norm_num)]
  norm_num

/-- C119: the infinity norm is `init` plus the largest sum of magnitudes of a row, and the one-norm is `init` plus the largest sum for a column. -/
theorem C119_inf_one_norm (m n : ℕ) (a : ℕ → ℕ → 𝕜) (init : ℝ) :
    (m = 0 ∨ n = 0 → infNorm m n a init = init ∧ oneNorm m n a init = init) ∧
    (0 < m → 0 < n → (∃ v, Largest m (fun i => ∑ j ∈ range n, ‖a i j‖) v ∧ infNorm m n a init = init + v) ∧
      ∃ v, Largest n (fun j => ∑ i ∈ range m, ‖a i j‖) v ∧ oneNorm m n a init = init + v) := by
  refine ⟨fun h => ⟨if_pos h, if_pos h⟩, fun hm hn => ?_⟩
  have h0 : ¬ (m = 0 ∨ n = 0) := by omega
  unfold infNorm oneNorm
  rw [if_neg h0, if_neg h0]
  by_cases h1 : m = 1 ∧ n = 1
  · rw [if_pos h1, if_pos h1]
    obtain ⟨rfl, rfl⟩ := h1
    refine ⟨⟨‖a 0 0‖, ⟨?_, 0, by decide, by simp⟩, rfl⟩, ⟨‖a 0 0‖, ⟨?_, 0, by decide, by simp⟩, rfl⟩⟩ <;>
    · intro k hk
      have : k = 0 := by omega
      subst this
      simp
  · rw [if_neg h1, if_neg h1]
    exact ⟨loop_rows m n (fun i j => ‖a i j‖) (fun _ _ => norm_nonneg _) init hm, loop_rows n m (fun j i => ‖a i j‖) (fun _ _ => norm_nonneg _) init hn⟩

example : Largest 2 (fun i => ∑ j ∈ range 2, ‖((i : ℝ) + j)‖) 3 := by
  refine ⟨?_, 1, by decide, by simp [Finset.sum_range_succ]; norm_num⟩
  intro k hk
  have : k = 0 ∨ k = 1 := by omega
  rcases this with rfl | rfl <;> simp [Finset.sum_range_succ] <;> norm_num

/-- C119: the Frobenius norm as coded is never too small, and it is right just if no non-zero component is smaller in magnitude than one before it, row by row.
Full statement: `frobNorm m n a init = init + √(∑ ‖a i j‖²)` for every matrix. -/
theorem C119_frob_norm_partial (m n : ℕ) (a : ℕ → ℕ → 𝕜) (init : ℝ) :
    init + Real.sqrt (∑ i ∈ range m, ∑ j ∈ range n, ‖a i j‖ ^ 2) ≤ frobNorm m n a init ∧
    (frobNorm m n a init = init + Real.sqrt (∑ i ∈ range m, ∑ j ∈ range n, ‖a i j‖ ^ 2) ↔ Ascending m n a) := frobNorm_spec m n a init

example : Ascending 1 2 (fun _ j => if j = 0 then (3 : ℝ) else 4) ∧ frobNorm 1 2 (fun _ j => if j = 0 then (3 : ℝ) else 4) 0 = 5 := by
  have h : Ascending 1 2 (fun _ j => if j = 0 then (3 : ℝ) else 4) := by
    intro k hk l hl _ i hi j hj hb
    unfold Before at hb
    have : j = 0 ∧ l = 1 := by omega
    obtain ⟨rfl, rfl⟩ := this
    norm_num
  refine ⟨h, ?_⟩
  rw [(C119_frob_norm_partial 1 2 (fun _ j => if j = 0 then (3 : ℝ) else 4) 0).2.mpr h]
  have : (∑ i ∈ range 1, ∑ j ∈ range 2, ‖(if j = 0 then (3 : ℝ) else 4)‖ ^ 2) = 5 ^ 2 := by simp [Finset.sum_range_succ]; norm_num
  rw [this, Real.sqrt_sq (by norm_num)]
  norm_num

/-- C119: the Frobenius norm of the row `[2, 1]` comes out as `√20` instead of `√5`: the quotient in the second branch is upside down. -/
theorem C119_frob_norm_violated : frobNorm 1 2 (fun _ j => if j = 0 then (2 : ℝ) else 1) 0 = Real.sqrt 20 ∧
    Real.sqrt 20 ≠ 0 + Real.sqrt (∑ i ∈ range 1, ∑ j ∈ range 2, ‖(if j = 0 then (2 : ℝ) else 1)‖ ^ 2) := by
  refine ⟨?_, ?_⟩
  · have : frobNorm 1 2 (fun _ j => if j = 0 then (2 : ℝ) else 1) 0 = 0 + 2 * Real.sqrt 5 := by
      norm_num [frobNorm, loop, Scaled.addFrob, List.range']
    rw [this, zero_add]
    exact sqrt_scaled (by norm_num) (by norm_num)
  · have : (∑ i ∈ range 1, ∑ j ∈ range 2, ‖(if j = 0 then (2 : ℝ) else 1)‖ ^ 2) = 5 := by simp [Finset.sum_range_succ]; norm_num
    rw [this, zero_add]
    exact fun h => by
      rw [Real.sqrt_inj (by norm_num) (by norm_num)] at h
      norm_num at h

end C119

end OpenKalman.Blas
