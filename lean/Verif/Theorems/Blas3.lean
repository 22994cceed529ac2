import Verif.Proof.Blas3
import Mathlib.Tactic.NormNum
import Mathlib.Analysis.Complex.Basic

/-!
# C122, C123: products of matrices and solutions for matrices in the bundled linear algebra library
-/

namespace OpenKalman.Blas
open Finset

section C122
variable {𝕜 : Type*} [RCLike 𝕜]

/-- C122: `matrix_product` stores the product; with a matrix `E` it adds it; it touches nothing outside the output, and does not use what that held before. -/
theorem C122_general (m n K : ℕ) (A B E C : ℕ → ℕ → 𝕜) (p q : ℕ) :
    gemm m n K A B none C p q = (if p < m ∧ q < n then ∑ k ∈ range K, A p k * B k q else C p q) ∧
    gemm m n K A B (some E) C p q = (if p < m ∧ q < n then E p q + ∑ k ∈ range K, A p k * B k q else C p q) := by
  rw [gemm_apply, gemm_apply]
  simp only [base, zero_add]
  exact ⟨rfl, rfl⟩

example : gemm 2 2 2 (fun i j => ((2 * i + j : ℕ) : ℝ)) (fun i j => ((i + j : ℕ) : ℝ)) none (fun _ _ => 7) 1 1 = 8 := by
  rw [(C122_general 2 2 2 (fun i j => ((2 * i + j : ℕ) : ℝ)) (fun i j => ((i + j : ℕ) : ℝ)) (fun _ _ => 0) (fun _ _ => 7) 1 1).1]
  simp [Finset.sum_range_succ]
  norm_num

/-- C122: the products with a triangular matrix, from the left and from the right, with or without a matrix to add, stored elsewhere or in place. -/
theorem C122_triangular (m n : ℕ) (A : ℕ → ℕ → 𝕜) (t : Tri) (d : Diag) (B E C : ℕ → ℕ → 𝕜) (p q : ℕ) :
    (trmmLeft m n A t d B none C p q = if p < m ∧ q < n then mulMat m (triOf t d A) B p q else C p q) ∧
    (trmmLeft m n A t d B (some E) C p q = if p < m ∧ q < n then E p q + mulMat m (triOf t d A) B p q else C p q) ∧
    (trmmRight m n A t d B none C p q = if p < m ∧ q < n then mulMat n B (triOf t d A) p q else C p q) ∧
    (trmmRight m n A t d B (some E) C p q = if p < m ∧ q < n then E p q + mulMat n B (triOf t d A) p q else C p q) ∧
    (trmmLeftInPlace m n A t d C p q = if p < m ∧ q < n then mulMat m (triOf t d A) C p q else C p q) ∧
    (trmmRightInPlace m n A t d C p q = if p < m ∧ q < n then mulMat n C (triOf t d A) p q else C p q) := by
  rw [trmmLeft_apply, trmmLeft_apply, trmmRight_apply, trmmRight_apply, trmmLeftInPlace_apply, trmmRightInPlace_apply]
  simp [base]

example : trmmRightInPlace 1 2 (fun i j => ((2 * i + j + 1 : ℕ) : ℝ)) .lower .explicit (fun _ j => ((j + 1 : ℕ) : ℝ)) 0 0 = 7 := by
  rw [(C122_triangular 1 2 (fun i j => ((2 * i + j + 1 : ℕ) : ℝ)) .lower .explicit (fun _ _ => 0) (fun _ _ => 0) (fun _ j => ((j + 1 : ℕ) : ℝ)) 0 0).2.2.2.2.2]
  simp [mulMat, Finset.sum_range_succ, triOf, InTri]
  norm_num

/-- C122: the products with a symmetric or Hermitian matrix given by one triangle. -/
theorem C122_symmetric_hermitian (m n : ℕ) (A : ℕ → ℕ → 𝕜) (t : Tri) (B E C : ℕ → ℕ → 𝕜) (p q : ℕ) :
    (symmLeft m n A t B none C p q = if p < m ∧ q < n then mulMat m (symOf t A) B p q else C p q) ∧
    (symmLeft m n A t B (some E) C p q = if p < m ∧ q < n then E p q + mulMat m (symOf t A) B p q else C p q) ∧
    (symmRight m n A t B none C p q = if p < m ∧ q < n then mulMat n B (symOf t A) p q else C p q) ∧
    (symmRight m n A t B (some E) C p q = if p < m ∧ q < n then E p q + mulMat n B (symOf t A) p q else C p q) ∧
    (hemmLeft m n A t B none C p q = if p < m ∧ q < n then mulMat m (hermOf t A) B p q else C p q) ∧
    (hemmLeft m n A t B (some E) C p q = if p < m ∧ q < n then E p q + mulMat m (hermOf t A) B p q else C p q) ∧
    (hemmRight m n A t B none C p q = if p < m ∧ q < n then mulMat n B (hermOf t A) p q else C p q) ∧
    (hemmRight m n A t B (some E) C p q = if p < m ∧ q < n then E p q + mulMat n B (hermOf t A) p q else C p q) := by
  rw [symmLeft_apply, symmLeft_apply, symmRight_apply, symmRight_apply, hemmLeft_apply, hemmLeft_apply, hemmRight_apply, hemmRight_apply]
  simp [base]

example : hemmRight 1 2 (fun _ _ => Complex.I) .lower (fun _ _ => 1) none (fun _ _ => 7) 0 1 = -Complex.I := by
  rw [(C122_symmetric_hermitian 1 2 (fun _ _ => Complex.I) .lower (fun _ _ => 1) (fun _ _ => 0) (fun _ _ => 7) 0 1).2.2.2.2.2.2.1]
  simp [mulMat, Finset.sum_range_succ, hermOf, InTri]

end C122

section C123
variable {𝕜 : Type*} [RCLike 𝕜]

/-- C123: if the diagonal components that are used are not zero, the left solver stores the matrix `X` with `A X = B`, and touches nothing else. -/
theorem C123_left (m n : ℕ) (A : ℕ → ℕ → 𝕜) (t : Tri) (d : Diag) (B X : ℕ → ℕ → 𝕜) (hA : d = .explicit → ∀ i < m, A i i ≠ 0) :
    (∀ p < m, ∀ q < n, mulMat m (triOf t d A) (trsmLeft m n A t d B X) p q = B p q) ∧ ∀ p q, m ≤ p ∨ n ≤ q → trsmLeft m n A t d B X p q = X p q := by
  have hdiv : d = .explicit → ∀ i < m, ∀ s, A i i * (s / A i i) = s := fun hd i hi s => mul_div_cancel₀ s (hA hd i hi)
  refine ⟨fun p hp q hq => ?_, fun p q h => ?_⟩
  · unfold mulMat
    simp only [trsmLeft_apply, hq, if_true]
    exact (trsv_solves m (· / ·) A t d (fun p => B p q) (fun p => X p q) hdiv p).1 hp
  · rw [trsmLeft_apply]
    by_cases hq : q < n
    · rw [if_pos hq]
      exact (trsv_solves m (· / ·) A t d (fun p => B p q) (fun p => X p q) hdiv p).2 (by omega)
    · rw [if_neg hq]

/-- C123: likewise the right solver stores the matrix `X` with `X A = B`. -/
theorem C123_right (m n : ℕ) (A : ℕ → ℕ → 𝕜) (t : Tri) (d : Diag) (B X : ℕ → ℕ → 𝕜) (hA : d = .explicit → ∀ i < n, A i i ≠ 0) :
    (∀ p < m, ∀ q < n, mulMat n (trsmRight m n A t d B X) (triOf t d A) p q = B p q) ∧ ∀ p q, m ≤ p ∨ n ≤ q → trsmRight m n A t d B X p q = X p q := by
  have hdiv : d = .explicit → ∀ i < n, ∀ s, A i i * (s / A i i) = s := fun hd i hi s => mul_div_cancel₀ s (hA hd i hi)
  refine ⟨fun p hp q hq => ?_, fun p q h => ?_⟩
  · rw [mulMat_triRight]
    have : trsmRight m n A t d B X p = trsv n (· / ·) (fun a b => A b a) t.flip d (B p) (X p) := by
      funext q
      rw [trsmRight_apply, if_pos hp]
    rw [this]
    exact (trsv_solves n (· / ·) (fun a b => A b a) t.flip d (B p) (X p) hdiv q).1 hq
  · rw [trsmRight_apply]
    by_cases hp : p < m
    · rw [if_pos hp]
      exact (trsv_solves n (· / ·) (fun a b => A b a) t.flip d (B p) (X p) hdiv q).2 (by omega)
    · rw [if_neg hp]

/-- C123: solving undoes the products in place, from either side. -/
theorem C123_undo (m n : ℕ) (A : ℕ → ℕ → 𝕜) (t : Tri) (d : Diag) (C X : ℕ → ℕ → 𝕜) :
    ((d = .explicit → ∀ i < m, A i i ≠ 0) → ∀ p < m, ∀ q < n, trsmLeft m n A t d (trmmLeftInPlace m n A t d C) X p q = C p q) ∧
    ((d = .explicit → ∀ i < n, A i i ≠ 0) → ∀ p < m, ∀ q < n, trsmRight m n A t d (trmmRightInPlace m n A t d C) X p q = C p q) := by
  refine ⟨fun hA p hp q hq => ?_, fun hA p hp q hq => ?_⟩
  · refine tri_unique m A t d hA (fun p => trsmLeft m n A t d (trmmLeftInPlace m n A t d C) X p q) (fun p => C p q) (fun p hp => ?_) p hp
    refine ((C123_left m n A t d (trmmLeftInPlace m n A t d C) X hA).1 p hp q hq).trans ?_
    rw [trmmLeftInPlace_apply, if_pos ⟨hp, hq⟩]
    rfl
  · refine tri_unique n (fun a b => A b a) t.flip d hA (trsmRight m n A t d (trmmRightInPlace m n A t d C) X p) (C p) (fun q hq => ?_) q hq
    rw [← mulMat_triRight, ← mulMat_triRight]
    refine ((C123_right m n A t d (trmmRightInPlace m n A t d C) X hA).1 p hp q hq).trans ?_
    rw [trmmRightInPlace_apply, if_pos ⟨hp, hq⟩]

example : (Diag.explicit = .explicit → ∀ i < 2, (fun i j => ((i + j + 1 : ℕ) : ℝ)) i i ≠ 0) := by
  intro _ i _
  exact Nat.cast_ne_zero.mpr (Nat.succ_ne_zero _)

end C123

end OpenKalman.Blas
