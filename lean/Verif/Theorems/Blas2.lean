import Verif.Proof.Blas2
import Mathlib.Tactic.NormNum
import Mathlib.Tactic.FieldSimp
import Mathlib.Tactic.Positivity
import Mathlib.Analysis.Complex.Basic

/-!
# C120, C121: products and solutions with vectors in the bundled linear algebra library
-/

namespace OpenKalman.Blas
open Finset

section C120
variable {𝕜 : Type*} [RCLike 𝕜]

/-- C120: `matrix_vector_product` stores the product (with `y` added in the updating form), and touches nothing past the rows of the matrix, nor uses what the
output held before. -/
theorem C120_general (m n : ℕ) (A : ℕ → ℕ → 𝕜) (x y z : ℕ → 𝕜) (p : ℕ) :
    gemv m n A x z p = (if p < m then ∑ j ∈ range n, A p j * x j else z p) ∧ gemvAdd m n A x y z p = (if p < m then y p + ∑ j ∈ range n, A p j * x j else z p) := by
  refine ⟨?_, gemvAdd_apply m n A x y z p⟩
  rw [gemv_eq, gemvAdd_apply]
  simp only [zero_add]
  rfl

example : gemv 2 2 (fun i j => ((2 * i + j : ℕ) : ℝ)) (fun j => (j : ℝ) + 1) (fun _ => 7) 1 = 8 := by
  rw [(C120_general 2 2 (fun i j => ((2 * i + j : ℕ) : ℝ)) (fun j => (j : ℝ) + 1) (fun _ => 7) (fun _ => 7) 1).1]
  simp [Finset.sum_range_succ]
  norm_num

/-- C120: the symmetric product multiplies by the symmetric matrix of which the triangle is stored: the other triangle is never read. -/
theorem C120_symmetric (n : ℕ) (A : ℕ → ℕ → 𝕜) (t : Tri) (x y z : ℕ → 𝕜) (p : ℕ) :
    symv n A t x z p = (if p < n then mulVec n (symOf t A) x p else z p) ∧ symvAdd n A t x y z p = (if p < n then y p + mulVec n (symOf t A) x p else z p) := by
  refine ⟨?_, ?_⟩
  · unfold symv
    rw [symvLoop_apply, fillZero_apply]
    split_ifs <;> simp
  · unfold symvAdd
    rw [symvLoop_apply, fillWith_apply]
    split_ifs <;> simp

example : symOf Tri.upper (fun i j => ((2 * i + j : ℕ) : ℝ)) 1 0 = 1 ∧ (fun i j => ((2 * i + j : ℕ) : ℝ)) 1 0 = 2 := by
  constructor <;> simp [symOf, InTri]

/-- C120: the Hermitian product multiplies by the Hermitian matrix of which the triangle is stored: the other triangle and the imaginary parts of the diagonal
do not matter. -/
theorem C120_hermitian (n : ℕ) (A : ℕ → ℕ → 𝕜) (t : Tri) (x y z : ℕ → 𝕜) (p : ℕ) :
    hemv n A t x z p = (if p < n then mulVec n (hermOf t A) x p else z p) ∧ hemvAdd n A t x y z p = (if p < n then y p + mulVec n (hermOf t A) x p else z p) := by
  refine ⟨?_, ?_⟩
  · unfold hemv
    rw [hemvLoop_apply, fillZero_apply]
    split_ifs <;> simp
  · unfold hemvAdd
    rw [hemvLoop_apply, fillWith_apply]
    split_ifs <;> simp

/-- C120: that matrix is Hermitian, so for a vector `x` the number `xᴴ A x` that follows is real. -/
theorem C120_hermitian_is (A : ℕ → ℕ → 𝕜) (t : Tri) (i j : ℕ) : hermOf t A j i = (starRingEnd 𝕜) (hermOf t A i j) := by
  unfold hermOf
  by_cases h : i = j
  · subst h
    simp
  · have h' : ¬ j = i := fun e => h e.symm
    rw [if_neg h, if_neg h']
    rcases Nat.lt_or_gt_of_ne h with hlt | hlt
    · have h1 : ¬ j ≤ i := by omega
      cases t <;> simp [InTri, hlt.le, h1]
    · have h1 : ¬ i ≤ j := by omega
      cases t <;> simp [InTri, hlt.le, h1]

example : hermOf Tri.lower (fun _ _ => (Complex.I : ℂ)) 0 0 = 0 ∧ hermOf Tri.lower (fun _ _ => (Complex.I : ℂ)) 0 1 = -Complex.I := by
  constructor <;> simp [hermOf, InTri]

/-- C120: the triangular product, with a stored or a unit diagonal, storing into another vector or in place, multiplies by the triangular matrix. -/
theorem C120_triangular (n : ℕ) (A : ℕ → ℕ → 𝕜) (t : Tri) (d : Diag) (x y z : ℕ → 𝕜) (p : ℕ) :
    trmv n A t d x z p = (if p < n then mulVec n (triOf t d A) x p else z p) ∧
    trmvAdd n A t d x y z p = (if p < n then y p + mulVec n (triOf t d A) x p else z p) ∧
    trmvInPlace n A d t x p = (if p < n then mulVec n (triOf t d A) x p else x p) := by
  refine ⟨?_, ?_, trmvInPlace_apply n A d t x p⟩
  · unfold trmv
    rw [trmvLoop_apply, fillZero_apply]
    split_ifs <;> simp
  · unfold trmvAdd
    rw [trmvLoop_apply, fillWith_apply]
    split_ifs <;> simp

example : trmvInPlace 2 (fun i j => ((2 * i + j + 1 : ℕ) : ℝ)) .unit .lower (fun _ => 1) 1 = 4 := by
  rw [(C120_triangular 2 (fun i j => ((2 * i + j + 1 : ℕ) : ℝ)) .lower .unit (fun _ => 1) (fun _ => 0) (fun _ => 0) 1).2.2]
  simp [mulVec, Finset.sum_range_succ, triOf, InTri]
  norm_num

end C120

section C121
variable {𝕜 : Type*} [RCLike 𝕜]

/-- C121: the triangular solver stores the solution of the triangular system, if every diagonal component that is used may be divided by; with a unit
diagonal it always does.  `divide` is any operation that divides by the diagonal components. -/
theorem C121_solve (n : ℕ) (divide : 𝕜 → 𝕜 → 𝕜) (A : ℕ → ℕ → 𝕜) (t : Tri) (d : Diag) (b x : ℕ → 𝕜)
    (hdiv : d = .explicit → ∀ i < n, ∀ s, A i i * divide s (A i i) = s) :
    (∀ p < n, mulVec n (triOf t d A) (trsv n divide A t d b x) p = b p) ∧ ∀ p, n ≤ p → trsv n divide A t d b x p = x p :=
  ⟨fun p => (trsv_solves n divide A t d b x hdiv p).1, fun p => (trsv_solves n divide A t d b x hdiv p).2⟩

example : ∀ i : ℕ, i < 2 → ∀ s : ℝ, ((i : ℝ) + 1) * (s / ((i : ℝ) + 1)) = s := by
  intro i _ s
  have : ((i : ℝ) + 1) ≠ 0 := Nat.cast_add_one_ne_zero i
  field_simp

/-- C121: with the ordinary division and a diagonal without zeros the solution is the only one, and solving undoes the product in place. -/
theorem C121_unique (n : ℕ) (A : ℕ → ℕ → 𝕜) (t : Tri) (d : Diag) (hA : d = .explicit → ∀ i < n, A i i ≠ 0) (b x y : ℕ → 𝕜) :
    ((∀ p < n, mulVec n (triOf t d A) y p = b p) ↔ ∀ p < n, y p = trsv n (· / ·) A t d b x p) ∧
    ∀ p < n, trsv n (· / ·) A t d (trmvInPlace n A d t y) x p = y p := by
  have hdiv : d = .explicit → ∀ i < n, ∀ s, A i i * (s / A i i) = s := fun hd i hi s => mul_div_cancel₀ s (hA hd i hi)
  have hs := fun b => (C121_solve n (· / ·) A t d b x hdiv).1
  refine ⟨⟨fun h => ?_, fun h p hp => ?_⟩, ?_⟩
  · exact tri_unique n A t d hA _ _ fun p hp => by rw [h p hp, hs b p hp]
  · rw [← hs b p hp]
    exact Finset.sum_congr rfl fun j hj => by rw [h j (mem_range.mp hj)]
  · refine tri_unique n A t d hA _ _ fun p hp => ?_
    rw [hs _ p hp, (C120_triangular n A t d y y y p).2.2, if_pos hp]

example : (Diag.explicit = .explicit → ∀ i < 2, (fun i j => ((i + j + 1 : ℕ) : ℝ)) i i ≠ 0) := by
  intro _ i _
  simp only
  positivity

end C121

end OpenKalman.Blas
