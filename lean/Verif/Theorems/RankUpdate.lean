import Verif.Proof.RankUpdate
import Mathlib.Tactic.NormNum
import Mathlib.Analysis.Complex.Basic

/-!
# C124: updates of a matrix by products of low rank in the bundled linear algebra library

`fix` is whether the library overwrites (`LINALG_FIX_RANK_UPDATES`) or adds to what is there.
-/

namespace OpenKalman.Blas
open Finset

section C124
variable {𝕜 : Type*} [RCLike 𝕜]

/-- C124: the general rank-1 update adds `x yᵀ` (conjugated: `x yᴴ`), or stores it, or stores it with `E` added; it touches nothing outside the matrix. -/
theorem C124_general (fix : Bool) (m n : ℕ) (x y : ℕ → 𝕜) (E A : ℕ → ℕ → 𝕜) (p q : ℕ) :
    (ger fix m n x y A p q = if p < m ∧ q < n then (if fix then 0 else A p q) + x p * y q else A p q) ∧
    (gerc fix m n x y A p q = if p < m ∧ q < n then (if fix then 0 else A p q) + x p * (starRingEnd 𝕜) (y q) else A p q) ∧
    (gerE m n x y E A p q = if p < m ∧ q < n then E p q + x p * y q else A p q) := by
  have key : ∀ y : ℕ → 𝕜, ger fix m n x y A p q = if p < m ∧ q < n then (if fix then 0 else A p q) + x p * y q else A p q := by
    intro y
    unfold ger
    have inner : ∀ i A, loop 0 n (fun j A => set2 A i j (if fix then x i * y j else A i j + x i * y j)) A =
        fun p q => if q < n ∧ p = i then (if fix then 0 else A p q) + x p * y q else A p q := by
      intro i A
      funext p q
      rw [row_apply n i (fun i j A => set2 A i j (if fix then x i * y j else A i j + x i * y j)) (fun i j a => (if fix then 0 else a) + x i * y j)
        (by intro i j A; cases fix <;> simp)]
    simp only [inner]
    have := loop_invariant (fun k (t : ℕ → ℕ → 𝕜) => t = fun p q => if p < k ∧ q < n then (if fix then 0 else A p q) + x p * y q else A p q) (Nat.zero_le m)
      (fun i A p q => if q < n ∧ p = i then (if fix then 0 else A p q) + x p * y q else A p q) A (by funext p q; simp) ?_
    · rw [this]
    · rintro i _ _ t rfl
      funext p q
      by_cases hq : q < n
      · by_cases hp : p = i
        · subst hp; simp [hq]
        · have : p < i ↔ p < i + 1 := by omega
          simp [hp, hq, this]
      · simp [hq]
  exact ⟨key y, key _, cells_rows m n (fun i j => E i j + x i * y j) A p q⟩

example : ger false 2 2 (fun i => (i : ℝ) + 1) (fun j => (j : ℝ) + 3) (fun _ _ => 7) 1 0 = 13 := by
  rw [(C124_general false 2 2 (fun i => (i : ℝ) + 1) (fun j => (j : ℝ) + 3) (fun _ _ => 0) (fun _ _ => 7) 1 0).1]
  norm_num

/-- C124: the symmetric rank-1 updates add `α x xᵀ` to the symmetric matrix of which a triangle is stored (or store that, or store it with the symmetric
matrix given by a triangle of `E` added); the other triangle is neither read nor written. -/
theorem C124_symmetric_rank1 (fix : Bool) (n : ℕ) (alpha : Option 𝕜) (x : ℕ → 𝕜) (E A : ℕ → ℕ → 𝕜) (t : Tri) :
    SymUpdate n t (if fix then fun _ _ => 0 else symOf t A) (fun p q => alpha.getD 1 * (x p * x q)) A (syr fix n alpha x t A) ∧
    SymUpdate n t (symOf t E) (fun p q => alpha.getD 1 * (x p * x q)) A (syrE n alpha x E t A) := by
  have hs : ∀ a b, scaled alpha a b = alpha.getD 1 * (a * b) := by
    intro a b
    cases alpha <;> simp [scaled, mul_assoc]
  have hU : ∀ p q, alpha.getD 1 * (x q * x p) = alpha.getD 1 * (x p * x q) := fun p q => by rw [mul_comm (x q)]
  constructor
  · refine start_symmetric (symUpdate_of _ _ _ _ hU fun p q => ?_)
    have hf : ∀ i j (A : ℕ → ℕ → 𝕜), bump fix A i j (scaled alpha (x i) (x j)) = set2 A i j ((if fix then 0 else A i j) + alpha.getD 1 * (x i * x j)) := by
      intro i j A
      rw [bump_eq, hs]
    cases t with
    | lower =>
      simp only [syr]
      rw [rowsLower_apply n _ (fun i j a => (if fix then 0 else a) + alpha.getD 1 * (x i * x j)) hf]
      cases fix <;> rfl
    | upper =>
      simp only [syr]
      rw [colsTri_skip n _ _ (fun i j a => (if fix then 0 else a) + alpha.getD 1 * (x i * x j)) hf]
      cases fix <;> rfl
  · refine symUpdate_of _ _ _ _ hU fun p q => ?_
    cases t with
    | lower =>
      cases alpha with
      | none =>
        simp only [syrE]
        rw [rowsLower_apply n _ (fun i j _ => E i j + x i * x j) (fun _ _ _ => rfl)]
        simp
      | some s =>
        simp only [syrE]
        rw [colsTri_skip n _ _ (fun i j _ => E i j + s * x i * x j) (fun _ _ _ => rfl)]
        simp [mul_assoc]
    | upper =>
      simp only [syrE]
      rw [colsTri_skip n _ _ (fun i j _ => E i j + scaled alpha (x i) (x j)) (fun _ _ _ => rfl), hs]

/-- C124: the symmetric rank-2, rank-k and rank-2k updates. -/
theorem C124_symmetric_more (fix : Bool) (n K : ℕ) (alpha : Option 𝕜) (x y : ℕ → 𝕜) (A B E C : ℕ → ℕ → 𝕜) (t : Tri) :
    SymUpdate n t (if fix then fun _ _ => 0 else symOf t C) (fun p q => x p * y q + y p * x q) C (syr2 fix n x y t C) ∧
    SymUpdate n t (symOf t E) (fun p q => x p * y q + y p * x q) C (syr2E n x y E t C) ∧
    SymUpdate n t (if fix then fun _ _ => 0 else symOf t C) (fun p q => alpha.getD 1 * ∑ k ∈ range K, A p k * A q k) C (syrk fix n K alpha A t C) ∧
    SymUpdate n t (symOf t E) (fun p q => alpha.getD 1 * ∑ k ∈ range K, A p k * A q k) C (syrkE n K alpha A E t C) ∧
    SymUpdate n t (if fix then fun _ _ => 0 else symOf t C) (fun p q => ∑ k ∈ range K, (A p k * B q k + B p k * A q k)) C (syr2k fix n K A B t C) ∧
    SymUpdate n t (symOf t E) (fun p q => ∑ k ∈ range K, (A p k * B q k + B p k * A q k)) C (syr2kE n K A B E t C) := by
  have hs : ∀ a b, scaled alpha a b = alpha.getD 1 * (a * b) := by
    intro a b
    cases alpha <;> simp [scaled, mul_assoc]
  have hU2 : ∀ p q, x q * y p + y q * x p = x p * y q + y p * x q := fun p q => by rw [mul_comm (x q), mul_comm (y q), add_comm]
  have hUk : ∀ p q, alpha.getD 1 * ∑ k ∈ range K, A q k * A p k = alpha.getD 1 * ∑ k ∈ range K, A p k * A q k := fun p q => by
    congr 1
    exact Finset.sum_congr rfl fun k _ => mul_comm _ _
  have hU2k : ∀ p q, ∑ k ∈ range K, (A q k * B p k + B q k * A p k) = ∑ k ∈ range K, (A p k * B q k + B p k * A q k) := fun p q =>
    Finset.sum_congr rfl fun k _ => by rw [mul_comm (A q k), mul_comm (B q k), add_comm]
  refine ⟨?_, ?_, ?_, ?_, ?_, ?_⟩
  · refine start_symmetric (symUpdate_of _ _ _ _ hU2 fun p q => ?_)
    unfold syr2
    rw [colsTri_skip n _ _ (fun i j a => if fix then x i * y j + y i * x j else a + (x i * y j + y i * x j)) (fun _ _ _ => rfl)]
    cases fix <;> simp
  · refine symUpdate_of _ _ _ _ hU2 fun p q => ?_
    unfold syr2E
    rw [colsTri_skip n _ _ (fun i j _ => E i j + x i * y j + y i * x j) (fun _ _ _ => rfl)]
    simp [add_assoc]
  · refine start_symmetric (symUpdate_of _ _ _ _ hUk fun p q => ?_)
    unfold syrk
    rw [colsTri_skip n _ _ (fun i j a => (if fix then 0 else a) + alpha.getD 1 * ∑ k ∈ range K, A i k * A j k) (fun i j C => ?_)]
    · cases fix <;> rfl
    · simp only [hs]
      rw [loop_add2', Finset.mul_sum]
      cases fix
      · rfl
      · simp only [if_true, set2_set2, set2_self]
  · refine symUpdate_of _ _ _ _ hUk fun p q => ?_
    unfold syrkE
    rw [colsTri_skip n _ _ (fun i j _ => E i j + alpha.getD 1 * ∑ k ∈ range K, A i k * A j k) (fun i j C => ?_)]
    simp only [hs]
    rw [loop_add2', Finset.mul_sum, set2_set2, set2_self]
  · refine start_symmetric (symUpdate_of _ _ _ _ hU2k fun p q => ?_)
    unfold syr2k
    rw [colsTri_skip n _ _ (fun i j a => (if fix then 0 else a) + ∑ k ∈ range K, (A i k * B j k + B i k * A j k)) (fun i j C => ?_)]
    · cases fix <;> rfl
    · rw [loop_add2']
      cases fix
      · rfl
      · simp only [if_true, set2_set2, set2_self]
  · refine symUpdate_of _ _ _ _ hU2k fun p q => ?_
    unfold syr2kE
    rw [colsTri_skip n _ _ (fun i j _ => E i j + ∑ k ∈ range K, (A i k * B j k + B i k * A j k)) (fun i j C => ?_)]
    rw [loop_add2', set2_set2, set2_self]

/-- C124: the Hermitian rank-1 updates add `α x xᴴ` to the Hermitian matrix of which a triangle is stored, and leave a real diagonal, if `α` is real; if the
library is set to overwrite, a complex `α` counts as its real part. -/
theorem C124_hermitian_rank1 (fix : Bool) (n : ℕ) (alpha : Option 𝕜) (halpha : fix = true ∨ ∀ a ∈ alpha, RCLike.im a = 0) (x : ℕ → 𝕜) (E A : ℕ → ℕ → 𝕜) (t : Tri) :
    HermUpdate n t (if fix then fun _ _ => 0 else hermOf t A) (fun p q => ((RCLike.re (alpha.getD 1) : ℝ) : 𝕜) * (x p * (starRingEnd 𝕜) (x q))) A (her fix n alpha x t A) ∧
    HermUpdate n t (hermOf t E) (fun p q => ((RCLike.re (alpha.getD 1) : ℝ) : 𝕜) * (x p * (starRingEnd 𝕜) (x q))) A (herE fix n alpha x E t A) := by
  have hs : ∀ a b, scaled (fixAlpha fix alpha) a b = ((RCLike.re (alpha.getD 1) : ℝ) : 𝕜) * (a * b) := by
    intro a b
    cases alpha with
    | none => cases fix <;> simp [scaled, fixAlpha]
    | some s =>
      cases fix with
      | true => simp [scaled, fixAlpha, re', mul_assoc]
      | false =>
        have : ((RCLike.re s : ℝ) : 𝕜) = s := RCLike.conj_eq_iff_re.mp (RCLike.conj_eq_iff_im.mpr (halpha.resolve_left (by simp) s rfl))
        simp [scaled, fixAlpha, this, mul_assoc]
  have hU : ∀ p q, ((RCLike.re (alpha.getD 1) : ℝ) : 𝕜) * (x q * (starRingEnd 𝕜) (x p)) =
      (starRingEnd 𝕜) (((RCLike.re (alpha.getD 1) : ℝ) : 𝕜) * (x p * (starRingEnd 𝕜) (x q))) := fun p q => by
    simp only [map_mul, RCLike.conj_ofReal, RCLike.conj_conj]
    rw [mul_comm (x q)]
  constructor
  · refine start_hermitian (hermUpdate_of _ _ _ _ hU fun p q => ?_)
    cases t with
    | lower =>
      simp only [her, hs]
      rw [rowsLower_apply n _ (fun i j a => if fix then ((RCLike.re (alpha.getD 1) : ℝ) : 𝕜) * (x i * (starRingEnd 𝕜) (x j)) else
        (if i = j then re' a else a) + ((RCLike.re (alpha.getD 1) : ℝ) : 𝕜) * (x i * (starRingEnd 𝕜) (x j))) (fun _ _ _ => rfl)]
      cases fix <;> simp [re']
    | upper =>
      simp only [her, hs]
      rw [colsTri_skip n _ _ (fun i j a => (if fix then 0 else if i = j then re' a else a) + ((RCLike.re (alpha.getD 1) : ℝ) : 𝕜) * (x i * (starRingEnd 𝕜) (x j)))
        (fun i j A => ?_)]
      · cases fix <;> simp [re']
      · cases fix with
        | true => simp only [if_true]; rw [add2_set2]
        | false =>
          by_cases h : i = j
          · subst h; simp only [if_true, Bool.false_eq_true, if_false]; rw [add2_set2]
          · simp only [h, if_false, Bool.false_eq_true]; rfl
  · refine hermUpdate_of _ _ _ _ hU fun p q => ?_
    have hadd : ∀ i j (A : ℕ → ℕ → 𝕜) v, add2 (if i = j then set2 A j j (re' (E j j)) else set2 A i j (E i j)) i j v = set2 A i j ((if i = j then re' (E i j) else E i j) + v) := by
      intro i j A v
      by_cases h : i = j
      · subst h; simp only [if_true]; rw [add2_set2]
      · simp only [h, if_false]; rw [add2_set2]
    cases alpha with
    | some s =>
      cases t with
      | lower =>
        simp only [herE, hs, hadd]
        rw [colsTri_skip n _ _ (fun i j _ => (if i = j then re' (E i j) else E i j) + ((RCLike.re ((some s).getD 1) : ℝ) : 𝕜) * (x i * (starRingEnd 𝕜) (x j))) (fun _ _ _ => rfl)]
      | upper =>
        simp only [herE, hs, hadd]
        rw [colsTri_skip n _ _ (fun i j _ => (if i = j then re' (E i j) else E i j) + ((RCLike.re ((some s).getD 1) : ℝ) : 𝕜) * (x i * (starRingEnd 𝕜) (x j))) (fun _ _ _ => rfl)]
    | none =>
      cases t with
      | lower =>
        simp only [herE]
        rw [rowsLower_apply n _ (fun i j _ => if i = j then re' (E i j) + x i * (starRingEnd 𝕜) (x j) else E i j + x i * (starRingEnd 𝕜) (x j)) (fun _ _ _ => rfl)]
        by_cases h : p = q <;> simp [h]
      | upper =>
        simp only [herE]
        rw [colsTri_skip n _ _ (fun i j _ => if i = j then re' (E i j) + x i * (starRingEnd 𝕜) (x j) else E i j + x i * (starRingEnd 𝕜) (x j)) (fun _ _ _ => rfl)]
        by_cases h : p = q <;> simp [h]

example : (false = true ∨ ∀ a ∈ some (2 : ℂ), RCLike.im a = 0) := Or.inr (by simp)

/-- C124: the Hermitian rank-2, rank-k and rank-2k updates; of the first and the last nothing is demanded, the second needs a real factor. -/
theorem C124_hermitian_more (fix : Bool) (n K : ℕ) (alpha : Option 𝕜) (halpha : ∀ a ∈ alpha, RCLike.im a = 0) (x y : ℕ → 𝕜) (A B E C : ℕ → ℕ → 𝕜) (t : Tri) :
    HermUpdate n t (if fix then fun _ _ => 0 else hermOf t C) (fun p q => x p * (starRingEnd 𝕜) (y q) + y p * (starRingEnd 𝕜) (x q)) C (her2 fix n x y t C) ∧
    HermUpdate n t (hermOf t E) (fun p q => x p * (starRingEnd 𝕜) (y q) + y p * (starRingEnd 𝕜) (x q)) C (her2E n x y E t C) ∧
    HermUpdate n t (if fix then fun _ _ => 0 else hermOf t C) (fun p q => alpha.getD 1 * ∑ k ∈ range K, A p k * (starRingEnd 𝕜) (A q k)) C (herk fix n K alpha A t C) ∧
    HermUpdate n t (hermOf t E) (fun p q => alpha.getD 1 * ∑ k ∈ range K, A p k * (starRingEnd 𝕜) (A q k)) C (herkE n K alpha A E t C) ∧
    HermUpdate n t (if fix then fun _ _ => 0 else hermOf t C) (fun p q => ∑ k ∈ range K, (A p k * (starRingEnd 𝕜) (B q k) + B p k * (starRingEnd 𝕜) (A q k))) C (her2k fix n K A B t C) ∧
    HermUpdate n t (hermOf t E) (fun p q => ∑ k ∈ range K, (A p k * (starRingEnd 𝕜) (B q k) + B p k * (starRingEnd 𝕜) (A q k))) C (her2kE n K A B E t C) := by
  have hs : ∀ a b, scaled alpha a b = alpha.getD 1 * (a * b) := by
    intro a b
    cases alpha <;> simp [scaled, mul_assoc]
  have hreal : (starRingEnd 𝕜) (alpha.getD 1) = alpha.getD 1 := by
    cases alpha with
    | none => simp
    | some s => exact RCLike.conj_eq_iff_im.mpr (halpha s rfl)
  have hterm : ∀ a b c d : 𝕜, a * (starRingEnd 𝕜) b + c * (starRingEnd 𝕜) d = (starRingEnd 𝕜) (d * (starRingEnd 𝕜) c + b * (starRingEnd 𝕜) a) := by
    intro a b c d
    simp only [map_add, map_mul, RCLike.conj_conj]
    rw [mul_comm a, mul_comm c, add_comm]
  have hU2 : ∀ p q, x q * (starRingEnd 𝕜) (y p) + y q * (starRingEnd 𝕜) (x p) = (starRingEnd 𝕜) (x p * (starRingEnd 𝕜) (y q) + y p * (starRingEnd 𝕜) (x q)) :=
    fun p q => hterm _ _ _ _
  have hUk : ∀ p q, alpha.getD 1 * ∑ k ∈ range K, A q k * (starRingEnd 𝕜) (A p k) = (starRingEnd 𝕜) (alpha.getD 1 * ∑ k ∈ range K, A p k * (starRingEnd 𝕜) (A q k)) := fun p q => by
    rw [map_mul, hreal, map_sum]
    congr 1
    refine Finset.sum_congr rfl fun k _ => ?_
    rw [map_mul, RCLike.conj_conj, mul_comm]
  have hU2k : ∀ p q, ∑ k ∈ range K, (A q k * (starRingEnd 𝕜) (B p k) + B q k * (starRingEnd 𝕜) (A p k)) =
      (starRingEnd 𝕜) (∑ k ∈ range K, (A p k * (starRingEnd 𝕜) (B q k) + B p k * (starRingEnd 𝕜) (A q k))) := fun p q => by
    rw [map_sum]
    exact Finset.sum_congr rfl fun k _ => hterm _ _ _ _
  have hrd : ∀ j (A : ℕ → ℕ → 𝕜), realDiag j A = set2 A j j (re' (A j j)) := fun _ _ => rfl
  have hsk : ∀ j (A : ℕ → ℕ → 𝕜), skip j A = set2 A j j (id (A j j)) := fun j A => (set2_get A j j).symm
  refine ⟨?_, ?_, ?_, ?_, ?_, ?_⟩
  · refine start_hermitian (hermUpdate_of _ _ _ _ hU2 fun p q => ?_)
    unfold her2
    rw [colsTri_apply n _ _ re' _ (fun i j a => if fix then x i * (starRingEnd 𝕜) (y j) + y i * (starRingEnd 𝕜) (x j) else
      a + (x i * (starRingEnd 𝕜) (y j) + y i * (starRingEnd 𝕜) (x j))) hrd (fun _ _ _ => rfl)]
    cases fix <;> simp [re']
  · refine hermUpdate_of _ _ _ _ hU2 fun p q => ?_
    unfold her2E
    rw [colsTri_skip n _ _ (fun i j _ => if i = j then re' (E i j) + x i * (starRingEnd 𝕜) (y j) + y i * (starRingEnd 𝕜) (x j) else
      E i j + x i * (starRingEnd 𝕜) (y j) + y i * (starRingEnd 𝕜) (x j)) (fun _ _ _ => rfl)]
    by_cases h : p = q <;> simp [h, add_assoc]
  · refine start_hermitian (hermUpdate_of _ _ _ _ hUk fun p q => ?_)
    unfold herk
    simp only [hs]
    cases fix with
    | true =>
      simp only [if_true]
      rw [colsTri_skip n _ _ (fun i j _ => 0 + ∑ k ∈ range K, alpha.getD 1 * (A i k * (starRingEnd 𝕜) (A j k)))
        (fun i j C => by rw [loop_add2', set2_set2, set2_self])]
      simp [re', Finset.mul_sum]
    | false =>
      simp only [Bool.false_eq_true, if_false]
      rw [colsTri_apply n _ _ re' _ (fun i j a => a + ∑ k ∈ range K, alpha.getD 1 * (A i k * (starRingEnd 𝕜) (A j k))) hrd (fun i j C => by rw [loop_add2']), Finset.mul_sum]
  · refine hermUpdate_of _ _ _ _ hUk fun p q => ?_
    unfold herkE
    simp only [hs]
    rw [colsTri_skip n _ _ (fun i j _ => (if i = j then re' (E i j) else E i j) + ∑ k ∈ range K, alpha.getD 1 * (A i k * (starRingEnd 𝕜) (A j k)))
      (fun i j C => by rw [loop_add2', set2_set2, set2_self]), Finset.mul_sum]
  · refine start_hermitian (hermUpdate_of _ _ _ _ hU2k fun p q => ?_)
    unfold her2k
    cases fix with
    | true =>
      simp only [if_true]
      rw [colsTri_skip n _ _ (fun i j _ => 0 + ∑ k ∈ range K, (A i k * (starRingEnd 𝕜) (B j k) + B i k * (starRingEnd 𝕜) (A j k)))
        (fun i j C => by rw [loop_add2', set2_set2, set2_self])]
      simp [re']
    | false =>
      simp only [Bool.false_eq_true, if_false]
      rw [colsTri_apply n _ _ re' _ (fun i j a => a + ∑ k ∈ range K, (A i k * (starRingEnd 𝕜) (B j k) + B i k * (starRingEnd 𝕜) (A j k))) hrd (fun i j C => by rw [loop_add2'])]
  · refine hermUpdate_of _ _ _ _ hU2k fun p q => ?_
    unfold her2kE
    rw [colsTri_skip n _ _ (fun i j _ => (if i = j then re' (E i j) else E i j) + ∑ k ∈ range K, (A i k * (starRingEnd 𝕜) (B j k) + B i k * (starRingEnd 𝕜) (A j k)))
      (fun i j C => by rw [loop_add2', set2_set2, set2_self])]

example : ∀ a ∈ some (2 : ℂ), RCLike.im a = 0 := by simp

/-- C124: the demand is needed: with the factor `i`, which the functions accept, the diagonal that is stored is not real. -/
theorem C124_factor_must_be_real : ¬ (∀ (fix : Bool) (alpha : ℂ) (A : ℕ → ℕ → ℂ), RCLike.im (herk fix 1 1 (some alpha) A .lower (fun _ _ => 0) 0 0) = 0) ∧
    ¬ (∀ (alpha : ℂ) (x : ℕ → ℂ), RCLike.im (her false 1 (some alpha) x .lower (fun _ _ => 0) 0 0) = 0) := by
  refine ⟨fun h => ?_, fun h => ?_⟩
  · have := h true Complex.I (fun _ _ => 1)
    simp [herk, colsTri, colTri, loop, scaled, add2, set2, skip] at this
  · have := h Complex.I (fun _ => 1)
    simp [her, rowsLower, loop, scaled, fixAlpha, set2, re'] at this

end C124

end OpenKalman.Blas
