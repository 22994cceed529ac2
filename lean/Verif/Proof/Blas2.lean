import Verif.Model.Blas2
import Mathlib.Tactic.Ring
import Mathlib.Tactic.Abel

namespace OpenKalman.Blas
open Finset

variable {𝕜 : Type*}

theorem addTo_apply [AddZeroClass 𝕜] (y : ℕ → 𝕜) (i : ℕ) (v : 𝕜) (p : ℕ) : addTo y i v p = y p + if p = i then v else 0 := by
  unfold addTo
  by_cases h : p = i
  · subst h; simp
  · simp [h]

theorem fillWith_apply (n : ℕ) (y z : ℕ → 𝕜) (p : ℕ) : fillWith n y z p = if p < n then y p else z p := by
  unfold fillWith
  have := loop_invariant (fun k (t : ℕ → 𝕜) => ∀ p, t p = if p < k then y p else z p) (Nat.zero_le n)
    (fun i z => Function.update z i (y i)) z (by simp) ?_
  · exact this p
  · intro i _ hi t ht q
    by_cases hq : q = i
    · subst hq; simp
    · rw [Function.update_of_ne hq, ht]
      have : q < i ↔ q < i + 1 := by omega
      simp only [this]

theorem fillZero_apply [Zero 𝕜] (n : ℕ) (y : ℕ → 𝕜) (p : ℕ) : fillZero n y p = if p < n then 0 else y p := fillWith_apply n (fun _ => 0) y p

variable [NonUnitalNonAssocSemiring 𝕜]

/-- A sum, cut at `p`. -/
theorem sum_cut {M : Type*} [AddCommMonoid M] {n p : ℕ} (hp : p < n) (f : ℕ → M) : ∑ j ∈ range n, f j = ∑ j ∈ range p, f j + f p + ∑ j ∈ Ico (p + 1) n, f j := by
  rw [← Finset.sum_range_succ, Finset.range_eq_Ico, Finset.range_eq_Ico, Finset.sum_Ico_consecutive _ (Nat.zero_le _) hp]

theorem sum_pick {M : Type*} [AddCommMonoid M] (lo hi p : ℕ) (f : ℕ → M) : (∑ i ∈ Ico lo hi, if p = i then f i else 0) = if lo ≤ p ∧ p < hi then f p else 0 := by
  rw [Finset.sum_ite_eq]
  simp [Finset.mem_Ico]

theorem sum_below {M : Type*} [AddCommMonoid M] {n p : ℕ} (hp : p ≤ n) (f : ℕ → M) : (∑ j ∈ range n, if j < p then f j else 0) = ∑ j ∈ range p, f j := by
  rw [← Finset.sum_filter]
  congr 1
  ext j
  simp only [mem_filter, mem_range]
  omega

theorem sum_above {M : Type*} [AddCommMonoid M] (n p : ℕ) (f : ℕ → M) : (∑ j ∈ range n, if p < j then f j else 0) = ∑ j ∈ Ico (p + 1) n, f j := by
  rw [← Finset.sum_filter]
  congr 1
  ext j
  simp only [mem_filter, mem_range, mem_Ico]
  omega

/-- The loops over a lower triangle that use every component twice. -/
theorem lower_loops (n : ℕ) (D : ℕ → 𝕜) (U L : ℕ → ℕ → 𝕜) (y : ℕ → 𝕜) (p : ℕ) :
    loop 0 n (fun j y => loop (j + 1) n (fun i y => addTo (addTo y i (U i j)) j (L i j)) (addTo y j (D j))) y p =
      y p + if p < n then ∑ j ∈ range p, U p j + D p + ∑ i ∈ Ico (p + 1) n, L i p else 0 := by
  rw [loop_add (fun j p => (if p = j then D j else 0) + ((∑ i ∈ Ico (j + 1) n, if p = i then U i j else 0) + ∑ i ∈ Ico (j + 1) n, if p = j then L i j else 0))]
  · congr 1
    simp only [sum_pick, Nat.Ico_zero_eq_range, Finset.sum_add_distrib, Finset.sum_ite_eq, mem_range, mem_Ico]
    by_cases hp : p < n
    · have e1 : (∑ j ∈ range n, if j + 1 ≤ p ∧ p < n then U p j else 0) = ∑ j ∈ range p, U p j := by
        rw [← sum_below hp.le]
        refine Finset.sum_congr rfl fun j _ => ?_
        simp only [hp, and_true, Nat.succ_le_iff]
      have e2 : (∑ j ∈ range n, ∑ i ∈ Ico (j + 1) n, if p = j then L i j else 0) = ∑ i ∈ Ico (p + 1) n, L i p := by
        have : ∀ j, (∑ i ∈ Ico (j + 1) n, if p = j then L i j else 0) = if p = j then ∑ i ∈ Ico (j + 1) n, L i j else 0 := by
          intro j; split_ifs <;> simp
        simp only [this, Finset.sum_ite_eq, mem_range, hp, if_true]
      rw [e1, e2]
      simp only [hp, if_true]
      abel
    · have e2 : (∑ j ∈ range n, ∑ i ∈ Ico (j + 1) n, if p = j then L i j else 0) = 0 := by
        refine Finset.sum_eq_zero fun j hj => Finset.sum_eq_zero fun i _ => if_neg ?_
        rw [mem_range] at hj
        omega
      simp [hp, e2]
  · intro j _ _ y p
    rw [loop_add (fun i p => (if p = i then U i j else 0) + if p = j then L i j else 0), addTo_apply, Finset.sum_add_distrib]
    · rw [add_assoc]
    · intro i _ _ y p
      rw [addTo_apply, addTo_apply, add_assoc]

/-- The loops over an upper triangle that use every component twice. -/
theorem upper_loops (n : ℕ) (D : ℕ → 𝕜) (U L : ℕ → ℕ → 𝕜) (y : ℕ → 𝕜) (p : ℕ) :
    loop 0 n (fun j y => addTo (loop 0 j (fun i y => addTo (addTo y i (U i j)) j (L i j)) y) j (D j)) y p =
      y p + if p < n then ∑ i ∈ range p, L i p + D p + ∑ j ∈ Ico (p + 1) n, U p j else 0 := by
  rw [loop_add (fun j p => ((∑ i ∈ Ico 0 j, if p = i then U i j else 0) + ∑ i ∈ Ico 0 j, if p = j then L i j else 0) + (if p = j then D j else 0))]
  · congr 1
    simp only [sum_pick, Nat.Ico_zero_eq_range, Finset.sum_add_distrib, Finset.sum_ite_eq, mem_range, mem_Ico, Nat.zero_le, true_and]
    have e2 : (∑ j ∈ range n, ∑ i ∈ range j, if p = j then L i j else 0) = if p < n then ∑ i ∈ range p, L i p else 0 := by
      have : ∀ j, (∑ i ∈ range j, if p = j then L i j else 0) = if p = j then ∑ i ∈ range j, L i j else 0 := by
        intro j; split_ifs <;> simp
      simp only [this, Finset.sum_ite_eq, mem_range]
    rw [e2, sum_above]
    by_cases hp : p < n
    · simp only [hp, if_true]
      abel
    · simp only [hp, if_false]
      rw [Finset.Ico_eq_empty_of_le (by omega)]
      simp
  · intro j _ _ y p
    rw [addTo_apply, loop_add (fun i p => (if p = i then U i j else 0) + if p = j then L i j else 0), Finset.sum_add_distrib, add_assoc]
    intro i _ _ y p
    rw [addTo_apply, addTo_apply, add_assoc]

theorem gemvAdd_apply (m n : ℕ) (A : ℕ → ℕ → 𝕜) (x y z : ℕ → 𝕜) (p : ℕ) : gemvAdd m n A x y z p = if p < m then y p + mulVec n A x p else z p := by
  unfold gemvAdd
  have := loop_invariant (fun k (t : ℕ → 𝕜) => ∀ p, t p = if p < k then y p + mulVec n A x p else z p) (Nat.zero_le m)
    (fun i z => loop 0 n (fun j z => addTo z i (A i j * x j)) (Function.update z i (y i))) z (by simp) ?_
  · exact this p
  · intro i _ hi t ht q
    rw [loop_add (fun j p => if p = i then A i j * x j else 0) _ (fun j _ _ y p => addTo_apply _ _ _ _), Nat.Ico_zero_eq_range]
    by_cases hq : q = i
    · subst hq
      simp [mulVec]
    · rw [Function.update_of_ne hq, ht]
      have : q < i ↔ q < i + 1 := by omega
      simp [this, hq]

theorem gemv_eq (m n : ℕ) (A : ℕ → ℕ → 𝕜) (x y : ℕ → 𝕜) : gemv m n A x y = gemvAdd m n A x (fun _ => 0) y := rfl

theorem symvLoop_apply (n : ℕ) (A : ℕ → ℕ → 𝕜) (x : ℕ → 𝕜) (t : Tri) (y : ℕ → 𝕜) (p : ℕ) :
    symvLoop n A x t y p = y p + if p < n then mulVec n (symOf t A) x p else 0 := by
  cases t with
  | lower =>
    simp only [symvLoop]
    rw [lower_loops n (fun j => A j j * x j) (fun i j => A i j * x j) (fun i j => A i j * x i)]
    congr 1
    by_cases hp : p < n
    · rw [if_pos hp, if_pos hp, mulVec, sum_cut hp]
      congr 1
      · congr 1
        · refine Finset.sum_congr rfl fun j hj => ?_
          rw [mem_range] at hj
          simp [symOf, InTri, hj.le]
        · simp [symOf, InTri]
      · refine Finset.sum_congr rfl fun j hj => ?_
        rw [mem_Ico] at hj
        have : ¬ j ≤ p := by omega
        simp [symOf, InTri, this]
    · rw [if_neg hp, if_neg hp]
  | upper =>
    simp only [symvLoop]
    rw [upper_loops n (fun j => A j j * x j) (fun i j => A i j * x j) (fun i j => A i j * x i)]
    congr 1
    by_cases hp : p < n
    · rw [if_pos hp, if_pos hp, mulVec, sum_cut hp]
      congr 1
      · congr 1
        · refine Finset.sum_congr rfl fun j hj => ?_
          rw [mem_range] at hj
          have : ¬ p ≤ j := by omega
          simp [symOf, InTri, this]
        · simp [symOf, InTri]
      · refine Finset.sum_congr rfl fun j hj => ?_
        rw [mem_Ico] at hj
        have : p ≤ j := by omega
        simp [symOf, InTri, this]
    · rw [if_neg hp, if_neg hp]

theorem hemvLoop_apply {𝕜 : Type*} [RCLike 𝕜] (n : ℕ) (A : ℕ → ℕ → 𝕜) (x : ℕ → 𝕜) (t : Tri) (y : ℕ → 𝕜) (p : ℕ) :
    hemvLoop n A x t y p = y p + if p < n then mulVec n (hermOf t A) x p else 0 := by
  cases t with
  | lower =>
    simp only [hemvLoop]
    rw [lower_loops n (fun j => ((RCLike.re (A j j) : ℝ) : 𝕜) * x j) (fun i j => A i j * x j) (fun i j => (starRingEnd 𝕜) (A i j) * x i)]
    congr 1
    by_cases hp : p < n
    · rw [if_pos hp, if_pos hp, mulVec, sum_cut hp]
      congr 1
      · congr 1
        · refine Finset.sum_congr rfl fun j hj => ?_
          rw [mem_range] at hj
          simp [hermOf, InTri, hj.le, hj.ne']
        · simp [hermOf]
      · refine Finset.sum_congr rfl fun j hj => ?_
        rw [mem_Ico] at hj
        have h1 : ¬ j ≤ p := by omega
        have h2 : p ≠ j := by omega
        simp [hermOf, InTri, h1, h2]
    · rw [if_neg hp, if_neg hp]
  | upper =>
    simp only [hemvLoop]
    rw [upper_loops n (fun j => ((RCLike.re (A j j) : ℝ) : 𝕜) * x j) (fun i j => A i j * x j) (fun i j => (starRingEnd 𝕜) (A i j) * x i)]
    congr 1
    by_cases hp : p < n
    · rw [if_pos hp, if_pos hp, mulVec, sum_cut hp]
      congr 1
      · congr 1
        · refine Finset.sum_congr rfl fun j hj => ?_
          rw [mem_range] at hj
          have h1 : ¬ p ≤ j := by omega
          simp [hermOf, InTri, h1, hj.ne']
        · simp [hermOf]
      · refine Finset.sum_congr rfl fun j hj => ?_
        rw [mem_Ico] at hj
        have h1 : p ≤ j := by omega
        have h2 : p ≠ j := by omega
        simp [hermOf, InTri, h1, h2]
    · rw [if_neg hp, if_neg hp]

/-- The loops over a triangle that use every component once. -/
theorem once_loops (n : ℕ) (lo hi : ℕ → ℕ) (hhi : ∀ j < n, hi j ≤ n) (D : ℕ → 𝕜) (U : ℕ → ℕ → 𝕜) (y : ℕ → 𝕜) (p : ℕ) :
    loop 0 n (fun j y => addTo (loop (lo j) (hi j) (fun i y => addTo y i (U i j)) y) j (D j)) y p =
      y p + if p < n then (∑ j ∈ range n, if lo j ≤ p ∧ p < hi j then U p j else 0) + D p else 0 := by
  rw [loop_add (fun j p => (∑ i ∈ Ico (lo j) (hi j), if p = i then U i j else 0) + if p = j then D j else 0)]
  · congr 1
    simp only [sum_pick, Nat.Ico_zero_eq_range, Finset.sum_add_distrib, Finset.sum_ite_eq, mem_range, mem_Ico]
    by_cases hp : p < n
    · simp [hp]
    · simp only [hp, if_false, add_zero]
      refine Finset.sum_eq_zero fun j hj => if_neg ?_
      rw [mem_range] at hj
      have := hhi j hj
      omega
  · intro j _ _ y p
    rw [addTo_apply, loop_add (fun i p => if p = i then U i j else 0) _ (fun i _ _ y p => addTo_apply _ _ _ _), add_assoc]

/-- The diagonal of a triangular matrix. -/
def diagOf {𝕜 : Type*} [One 𝕜] (d : Diag) (A : ℕ → ℕ → 𝕜) (i : ℕ) : 𝕜 := match d with | .explicit => A i i | .unit => 1

theorem mulVec_lower {𝕜 : Type*} [NonAssocSemiring 𝕜] {n p : ℕ} (hp : p < n) (A : ℕ → ℕ → 𝕜) (d : Diag) (x : ℕ → 𝕜) :
    mulVec n (triOf .lower d A) x p = ∑ j ∈ range p, A p j * x j + diagOf d A p * x p := by
  rw [mulVec, sum_cut hp]
  have e : ∑ j ∈ Ico (p + 1) n, triOf .lower d A p j * x j = 0 := by
    refine Finset.sum_eq_zero fun j hj => ?_
    rw [mem_Ico] at hj
    have h1 : ¬ j ≤ p := by omega
    have h2 : p ≠ j := by omega
    simp [triOf, InTri, h1, h2]
  rw [e, add_zero]
  congr 1
  · refine Finset.sum_congr rfl fun j hj => ?_
    rw [mem_range] at hj
    simp [triOf, InTri, hj.le, hj.ne']
  · cases d <;> simp [triOf, diagOf]

theorem mulVec_upper {𝕜 : Type*} [NonAssocSemiring 𝕜] {n p : ℕ} (hp : p < n) (A : ℕ → ℕ → 𝕜) (d : Diag) (x : ℕ → 𝕜) :
    mulVec n (triOf .upper d A) x p = diagOf d A p * x p + ∑ j ∈ Ico (p + 1) n, A p j * x j := by
  rw [mulVec, sum_cut hp]
  have e : ∑ j ∈ range p, triOf .upper d A p j * x j = 0 := by
    refine Finset.sum_eq_zero fun j hj => ?_
    rw [mem_range] at hj
    have h1 : ¬ p ≤ j := by omega
    have h2 : p ≠ j := by omega
    simp [triOf, InTri, h1, h2]
  rw [e, zero_add]
  congr 1
  · cases d <;> simp [triOf, diagOf]
  · refine Finset.sum_congr rfl fun j hj => ?_
    rw [mem_Ico] at hj
    have h1 : p ≤ j := by omega
    have h2 : p ≠ j := by omega
    simp [triOf, InTri, h1, h2]

theorem addTo_zero (y : ℕ → 𝕜) (i : ℕ) : addTo y i 0 = y := by
  funext p
  rw [addTo_apply]
  simp

theorem trmvLoop_apply {𝕜 : Type*} [NonAssocSemiring 𝕜] (n : ℕ) (A : ℕ → ℕ → 𝕜) (d : Diag) (x : ℕ → 𝕜) (t : Tri) (y : ℕ → 𝕜) (p : ℕ) :
    trmvLoop n A d x t y p = y p + if p < n then mulVec n (triOf t d A) x p else 0 := by
  have red : ∀ (lo hi : ℕ) (j : ℕ) (y : ℕ → 𝕜), (if d = .explicit then loop lo hi (fun i y => addTo y i (A i j * x j)) y
      else Function.update (loop lo hi (fun i y => addTo y i (A i j * x j)) y) j (loop lo hi (fun i y => addTo y i (A i j * x j)) y j + x j)) =
      addTo (loop lo hi (fun i y => addTo y i (A i j * x j)) y) j (if d = .explicit then 0 else x j) := by
    intro lo hi j y
    split_ifs
    · rw [addTo_zero]
    · rfl
  cases t with
  | lower =>
    simp only [trmvLoop, red]
    rw [once_loops n (fun j => if d = .explicit then j else j + 1) (fun _ => n) (fun _ _ => le_rfl) (fun j => if d = .explicit then 0 else x j) (fun i j => A i j * x j)]
    congr 1
    by_cases hp : p < n
    · rw [if_pos hp, if_pos hp, mulVec_lower hp]
      cases d with
      | explicit =>
        simp only [if_true, hp, and_true, add_zero, diagOf]
        rw [← Finset.sum_range_succ (fun j => A p j * x j), ← sum_below hp]
        refine Finset.sum_congr rfl fun j _ => ?_
        simp only [Nat.lt_succ_iff]
      | unit =>
        simp only [reduceCtorEq, if_false, hp, and_true, diagOf, one_mul]
        rw [← sum_below hp.le]
        simp only [Nat.succ_le_iff]
    · rw [if_neg hp, if_neg hp]
  | upper =>
    simp only [trmvLoop, red]
    rw [once_loops n (fun _ => 0) (fun j => if d = .explicit then j + 1 else j) (fun j hj => by split_ifs <;> omega) (fun j => if d = .explicit then 0 else x j)
      (fun i j => A i j * x j)]
    congr 1
    by_cases hp : p < n
    · rw [if_pos hp, if_pos hp, mulVec_upper hp]
      cases d with
      | explicit =>
        simp only [if_true, Nat.zero_le, true_and, add_zero, diagOf]
        rw [← Finset.sum_eq_sum_Ico_succ_bot hp (fun j => A p j * x j)]
        rw [← Finset.sum_filter]
        congr 1
        ext j
        simp only [mem_filter, mem_range, mem_Ico]
        omega
      | unit =>
        simp only [reduceCtorEq, if_false, Nat.zero_le, true_and, diagOf, one_mul]
        rw [sum_above, add_comm]
    · rw [if_neg hp, if_neg hp]

theorem loop_rev {σ : Type*} (n : ℕ) (body : ℕ → σ → σ) (s : σ) : loop 0 n (fun k s => body (n - (k + 1)) s) s = loopDown n body s := by
  unfold loop loopDown
  rw [Nat.sub_zero, List.range_eq_range', List.reverse_range', List.foldl_map, ← List.range_eq_range']
  congr 1
  funext s k
  rw [show 0 + n - 1 - k = n - (k + 1) by omega]

theorem trmvStep_apply {𝕜 : Type*} [CommSemiring 𝕜] (A : ℕ → ℕ → 𝕜) (d : Diag) (j lo hi : ℕ) (hj : j < lo ∨ hi ≤ j) (y : ℕ → 𝕜) (p : ℕ) :
    trmvStep A d j lo hi y p = if p = j then diagOf d A j * y j else y p + if lo ≤ p ∧ p < hi then A p j * y j else 0 := by
  have e : ∀ q, loop lo hi (fun i y' => addTo y' i (A i j * y j)) y q = y q + if lo ≤ q ∧ q < hi then A q j * y j else 0 := by
    intro q
    rw [loop_add (fun i p => if p = i then A i j * y j else 0) _ (fun i _ _ y p => addTo_apply _ _ _ _), sum_pick]
  have ej : loop lo hi (fun i y' => addTo y' i (A i j * y j)) y j = y j := by
    rw [e, if_neg (by omega), add_zero]
  unfold trmvStep
  by_cases hp : p = j
  · subst hp
    cases d with
    | explicit => simp [ej, diagOf, mul_comm]
    | unit => simp [ej, diagOf]
  · cases d with
    | explicit => simp [hp, e]
    | unit => simp [hp, e]

theorem trmvInPlace_apply {𝕜 : Type*} [CommSemiring 𝕜] (n : ℕ) (A : ℕ → ℕ → 𝕜) (d : Diag) (t : Tri) (y : ℕ → 𝕜) (p : ℕ) :
    trmvInPlace n A d t y p = if p < n then mulVec n (triOf t d A) y p else y p := by
  cases t with
  | lower =>
    simp only [trmvInPlace]
    rw [loop_rev n (fun j y => trmvStep A d j (j + 1) n y)]
    have := loopDown_invariant (fun k (s : ℕ → 𝕜) => ∀ p, s p = if k ≤ p ∧ p < n then ∑ j ∈ Ico k p, A p j * y j + diagOf d A p * y p else y p) (n := n)
      (fun j y => trmvStep A d j (j + 1) n y) y (fun p => by rw [if_neg (by omega)]) ?_
    · rw [this p]
      by_cases hp : p < n
      · rw [if_pos ⟨Nat.zero_le _, hp⟩, if_pos hp, mulVec_lower hp, Nat.Ico_zero_eq_range]
      · rw [if_neg (by omega), if_neg hp]
    · intro k hk s hs p
      rw [trmvStep_apply A d k (k + 1) n (Or.inl (Nat.lt_succ_self k))]
      have hk' : s k = y k := by rw [hs, if_neg (by omega)]
      rw [hk']
      by_cases hp : p = k
      · subst hp
        simp [hk]
      · rw [if_neg hp, hs]
        by_cases h : k + 1 ≤ p ∧ p < n
        · rw [if_pos h, if_pos h, if_pos (by omega), Finset.sum_eq_sum_Ico_succ_bot (by omega : k < p) (fun j => A p j * y j)]
          ring
        · rw [if_neg h, if_neg h, if_neg (by omega), add_zero]
  | upper =>
    simp only [trmvInPlace]
    have := loop_invariant (fun k (s : ℕ → 𝕜) => ∀ p, s p = if p < k then diagOf d A p * y p + ∑ j ∈ Ico (p + 1) k, A p j * y j else y p) (Nat.zero_le n)
      (fun j y => trmvStep A d j 0 j y) y (fun p => by rw [if_neg (by omega)]) ?_
    · rw [this p]
      by_cases hp : p < n
      · rw [if_pos hp, if_pos hp, mulVec_upper hp]
      · rw [if_neg hp, if_neg hp]
    · intro k _ hk s hs p
      rw [trmvStep_apply A d k 0 k (Or.inr le_rfl)]
      have hk' : s k = y k := by rw [hs, if_neg (by omega)]
      rw [hk']
      by_cases hp : p = k
      · subst hp
        simp
      · rw [if_neg hp, hs]
        by_cases h : p < k
        · rw [if_pos h, if_pos (by omega), if_pos (by omega), Finset.sum_Ico_succ_top (by omega : p + 1 ≤ k) (fun j => A p j * y j)]
          ring
        · rw [if_neg h, if_neg (by omega), if_neg (by omega), add_zero]

theorem loop_sub {𝕜 : Type*} [Ring 𝕜] (c : ℕ → 𝕜) (lo hi : ℕ) (t : 𝕜) : loop lo hi (fun j t => t - c j) t = t - ∑ j ∈ Ico lo hi, c j := by
  have := loop_sum (fun j => - c j) lo hi t
  simp only [← sub_eq_add_neg, Finset.sum_neg_distrib] at this
  exact this

theorem trsv_solves {𝕜 : Type*} [CommRing 𝕜] (n : ℕ) (divide : 𝕜 → 𝕜 → 𝕜) (A : ℕ → ℕ → 𝕜) (t : Tri) (d : Diag) (b x : ℕ → 𝕜)
    (hdiv : d = .explicit → ∀ i < n, ∀ s, A i i * divide s (A i i) = s) (p : ℕ) :
    (p < n → mulVec n (triOf t d A) (trsv n divide A t d b x) p = b p) ∧ (n ≤ p → trsv n divide A t d b x p = x p) := by
  have hd : ∀ i < n, ∀ s, diagOf d A i * (if d = .explicit then divide s (A i i) else s) = s := by
    intro i hi s
    cases d with
    | explicit => simpa [diagOf] using hdiv rfl i hi s
    | unit => simp [diagOf]
  cases t with
  | lower =>
    simp only [trsv, trsvLower, loop_sub]
    have := loop_invariant (fun k (s : ℕ → 𝕜) => (∀ p < k, ∑ j ∈ range p, A p j * s j + diagOf d A p * s p = b p) ∧ ∀ p, n ≤ p → s p = x p) (Nat.zero_le n)
      (fun i X => Function.update X i (if d = .explicit then divide (b i - ∑ j ∈ Ico 0 i, A i j * X j) (A i i) else b i - ∑ j ∈ Ico 0 i, A i j * X j)) x
      ⟨fun p hp => absurd hp (Nat.not_lt_zero _), fun _ _ => rfl⟩ ?_
    · exact ⟨fun hp => by rw [mulVec_lower hp]; exact this.1 p hp, this.2 p⟩
    · rintro k - hk s ⟨h1, h2⟩
      refine ⟨fun p hp => ?_, fun p hp => ?_⟩
      · have keep : ∀ j, j ≠ k → Function.update s k (if d = .explicit then divide (b k - ∑ j ∈ Ico 0 k, A k j * s j) (A k k) else b k - ∑ j ∈ Ico 0 k, A k j * s j) j = s j :=
          fun j hj => Function.update_of_ne hj _ _
        rcases Nat.lt_succ_iff_lt_or_eq.mp hp with hp | rfl
        · rw [keep p hp.ne, Finset.sum_congr rfl fun j hj => by rw [keep j (by rw [mem_range] at hj; omega)]]
          exact h1 p hp
        · rw [Finset.sum_congr rfl fun j hj => by rw [keep j (by rw [mem_range] at hj; omega)], Function.update_self, hd p hk, Nat.Ico_zero_eq_range]
          ring
      · rw [Function.update_of_ne (by omega)]
        exact h2 p hp
  | upper =>
    simp only [trsv, trsvUpper, loop_sub]
    have := loopDown_invariant (fun k (s : ℕ → 𝕜) => (∀ p, k ≤ p → p < n → diagOf d A p * s p + ∑ j ∈ Ico (p + 1) n, A p j * s j = b p) ∧ ∀ p, n ≤ p → s p = x p) (n := n)
      (fun i X => Function.update X i (if d = .explicit then divide (b i - ∑ j ∈ Ico (i + 1) n, A i j * X j) (A i i) else b i - ∑ j ∈ Ico (i + 1) n, A i j * X j)) x
      ⟨fun p hp hp' => absurd hp' (by omega), fun _ _ => rfl⟩ ?_
    · exact ⟨fun hp => by rw [mulVec_upper hp]; exact this.1 p (Nat.zero_le _) hp, this.2 p⟩
    · rintro k hk s ⟨h1, h2⟩
      refine ⟨fun p hp hp' => ?_, fun p hp => ?_⟩
      · have keep : ∀ j, j ≠ k → Function.update s k (if d = .explicit then divide (b k - ∑ j ∈ Ico (k + 1) n, A k j * s j) (A k k)
            else b k - ∑ j ∈ Ico (k + 1) n, A k j * s j) j = s j :=
          fun j hj => Function.update_of_ne hj _ _
        rcases hp.lt_or_eq with hp | rfl
        · rw [keep p (by omega), Finset.sum_congr rfl fun j hj => by rw [keep j (by rw [mem_Ico] at hj; omega)]]
          exact h1 p hp hp'
        · rw [Function.update_self, hd k hk]
          have e := Finset.sum_congr (rfl : Ico (k + 1) n = Ico (k + 1) n) fun j hj => congrArg (fun v => A k j * v) (keep j (by rw [mem_Ico] at hj; omega))
          rw [e]
          ring
      · rw [Function.update_of_ne (by omega)]
        exact h2 p hp

/-- A triangular system has one solution at most. -/
theorem tri_unique {𝕜 : Type*} [Field 𝕜] (n : ℕ) (A : ℕ → ℕ → 𝕜) (t : Tri) (d : Diag) (hA : d = .explicit → ∀ i < n, A i i ≠ 0) (x y : ℕ → 𝕜)
    (h : ∀ p < n, mulVec n (triOf t d A) x p = mulVec n (triOf t d A) y p) : ∀ p < n, x p = y p := by
  have hd : ∀ i < n, diagOf d A i ≠ 0 := by
    intro i hi
    cases d with
    | explicit => exact hA rfl i hi
    | unit => exact one_ne_zero
  cases t with
  | lower =>
    intro p
    induction p using Nat.strong_induction_on with
    | _ p ih =>
      intro hp
      have := h p hp
      rw [mulVec_lower hp, mulVec_lower hp, Finset.sum_congr rfl fun j hj => by rw [ih j (mem_range.mp hj) ((mem_range.mp hj).trans hp)]] at this
      exact mul_left_cancel₀ (hd p hp) (add_left_cancel this)
  | upper =>
    intro p hp
    obtain ⟨k, hk⟩ : ∃ k, p + k + 1 = n := ⟨n - p - 1, by omega⟩
    induction k using Nat.strong_induction_on generalizing p with
    | _ k ih =>
      have := h p hp
      rw [mulVec_upper hp, mulVec_upper hp, Finset.sum_congr (g := fun j => A p j * y j) rfl fun j hj => by
        rw [mem_Ico] at hj
        rw [ih (n - j - 1) (by omega) j hj.2 (by omega)]] at this
      exact mul_left_cancel₀ (hd p hp) (add_right_cancel this)

end OpenKalman.Blas
