import Verif.Model.Blas3
import Verif.Spec.Blas3
import Verif.Proof.Blas2
import Verif.Proof.Blas1

namespace OpenKalman.Blas
open Finset

variable {𝕜 : Type*}

theorem set2_apply (C : ℕ → ℕ → 𝕜) (i j : ℕ) (v : 𝕜) (p q : ℕ) : set2 C i j v p q = if p = i ∧ q = j then v else C p q := by
  unfold set2
  by_cases hp : p = i
  · subst hp
    by_cases hq : q = j
    · subst hq; simp
    · simp [hq]
  · simp [hp]

theorem set2_self (C : ℕ → ℕ → 𝕜) (i j : ℕ) (v : 𝕜) : set2 C i j v i j = v := by simp [set2]

theorem set2_set2 (C : ℕ → ℕ → 𝕜) (i j : ℕ) (v w : 𝕜) : set2 (set2 C i j v) i j w = set2 C i j w := by
  funext p q
  simp only [set2_apply]
  split_ifs <;> rfl

theorem add2_set2 [Add 𝕜] (C : ℕ → ℕ → 𝕜) (i j : ℕ) (e v : 𝕜) : add2 (set2 C i j e) i j v = set2 C i j (e + v) := by
  unfold add2
  rw [set2_self, set2_set2]

theorem loop_add2 [AddCommMonoid 𝕜] (lo hi : ℕ) (c : ℕ → 𝕜) (C : ℕ → ℕ → 𝕜) (i j : ℕ) (e : 𝕜) :
    loop lo hi (fun k C => add2 C i j (c k)) (set2 C i j e) = set2 C i j (e + ∑ k ∈ Ico lo hi, c k) := by
  induction hi with
  | zero => rw [loop_of_le (Nat.zero_le _)]; simp
  | succ n ih =>
    rcases Nat.lt_or_ge n lo with h | h
    · rw [loop_of_le (by omega), Finset.Ico_eq_empty_of_le (by omega)]; simp
    · rw [loop_succ h, ih, add2_set2, Finset.sum_Ico_succ_top h, add_assoc]

theorem loop_congr {σ : Type*} (lo hi : ℕ) (f g : ℕ → σ → σ) (s : σ) (h : ∀ i, lo ≤ i → i < hi → ∀ s, f i s = g i s) : loop lo hi f s = loop lo hi g s := by
  induction hi with
  | zero => rw [loop_of_le (Nat.zero_le _), loop_of_le (Nat.zero_le _)]
  | succ n ih =>
    rcases Nat.lt_or_ge n lo with hlt | hge
    · rw [loop_of_le (by omega), loop_of_le (by omega)]
    · rw [loop_succ hge, loop_succ hge, ih (fun i h1 h2 => h i h1 (by omega)), h n hge (by omega)]

/-- Loops that set every component, column by column. -/
theorem cells_cols (m n : ℕ) (v : ℕ → ℕ → 𝕜) (C : ℕ → ℕ → 𝕜) (p q : ℕ) :
    loop 0 n (fun j C => loop 0 m (fun i C => set2 C i j (v i j)) C) C p q = if p < m ∧ q < n then v p q else C p q := by
  have inner : ∀ j (C : ℕ → ℕ → 𝕜), loop 0 m (fun i C => set2 C i j (v i j)) C = fun p q => if p < m ∧ q = j then v p q else C p q := by
    intro j C
    have := loop_invariant (fun k (t : ℕ → ℕ → 𝕜) => t = fun p q => if p < k ∧ q = j then v p q else C p q) (Nat.zero_le m)
      (fun i C => set2 C i j (v i j)) C (by funext p q; simp) ?_
    · exact this
    · rintro i _ _ t rfl
      funext p q
      rw [set2_apply]
      by_cases hq : q = j
      · subst hq
        by_cases hp : p = i
        · subst hp; simp
        · have : p < i ↔ p < i + 1 := by omega
          simp [hp, this]
      · simp [hq]
  simp only [inner]
  have := loop_invariant (fun k (t : ℕ → ℕ → 𝕜) => t = fun p q => if p < m ∧ q < k then v p q else C p q) (Nat.zero_le n)
    (fun j C p q => if p < m ∧ q = j then v p q else C p q) C (by funext p q; simp) ?_
  · rw [this]
  · rintro i _ _ t rfl
    funext p q
    by_cases hp : p < m
    · by_cases hq : q = i
      · subst hq; simp [hp]
      · have : q < i ↔ q < i + 1 := by omega
        simp [hp, hq, this]
    · simp [hp]

/-- Loops that set every component, row by row. -/
theorem cells_rows (m n : ℕ) (v : ℕ → ℕ → 𝕜) (C : ℕ → ℕ → 𝕜) (p q : ℕ) :
    loop 0 m (fun i C => loop 0 n (fun j C => set2 C i j (v i j)) C) C p q = if p < m ∧ q < n then v p q else C p q := by
  have inner : ∀ i (C : ℕ → ℕ → 𝕜), loop 0 n (fun j C => set2 C i j (v i j)) C = fun p q => if q < n ∧ p = i then v p q else C p q := by
    intro i C
    have := loop_invariant (fun k (t : ℕ → ℕ → 𝕜) => t = fun p q => if q < k ∧ p = i then v p q else C p q) (Nat.zero_le n)
      (fun j C => set2 C i j (v i j)) C (by funext p q; simp) ?_
    · exact this
    · rintro j _ _ t rfl
      funext p q
      rw [set2_apply]
      by_cases hp : p = i
      · subst hp
        by_cases hq : q = j
        · subst hq; simp
        · have : q < j ↔ q < j + 1 := by omega
          simp [hq, this]
      · simp [hp]
  simp only [inner]
  have := loop_invariant (fun k (t : ℕ → ℕ → 𝕜) => t = fun p q => if p < k ∧ q < n then v p q else C p q) (Nat.zero_le m)
    (fun i C p q => if q < n ∧ p = i then v p q else C p q) C (by funext p q; simp) ?_
  · rw [this]
  · rintro i _ _ t rfl
    funext p q
    by_cases hq : q < n
    · by_cases hp : p = i
      · subst hp; simp [hq]
      · have : p < i ↔ p < i + 1 := by omega
        simp [hp, hq, this]
    · simp [hq]

/-- What each component starts from. -/
def base [Zero 𝕜] (E : Option (ℕ → ℕ → 𝕜)) (i j : ℕ) : 𝕜 := match E with | none => 0 | some e => e i j

theorem start_eq [Zero 𝕜] (E : Option (ℕ → ℕ → 𝕜)) (C : ℕ → ℕ → 𝕜) (i j : ℕ) : start E C i j = set2 C i j (base E i j) := rfl

/-! ## Transposes -/

def Tri.flip : Tri → Tri
  | .lower => .upper
  | .upper => .lower

theorem inTri_flip (t : Tri) (i j : ℕ) : InTri t.flip j i ↔ InTri t i j := by cases t <;> rfl

theorem triOf_flip [Zero 𝕜] [One 𝕜] (t : Tri) (d : Diag) (A : ℕ → ℕ → 𝕜) (i j : ℕ) : triOf t.flip d (fun a b => A b a) j i = triOf t d A i j := by
  unfold triOf
  by_cases h : i = j
  · subst h; simp
  · have h' : ¬ j = i := fun e => h e.symm
    rw [if_neg h, if_neg h']
    simp only [inTri_flip]

theorem mulMat_triRight [CommSemiring 𝕜] (n : ℕ) (t : Tri) (d : Diag) (A B : ℕ → ℕ → 𝕜) (i j : ℕ) :
    mulMat n B (triOf t d A) i j = mulVec n (triOf t.flip d (fun a b => A b a)) (B i) j := by
  unfold mulMat mulVec
  refine Finset.sum_congr rfl fun k _ => ?_
  rw [triOf_flip, mul_comm]

/-- The sum over the part of a row that is stored. -/
theorem row_lower [NonAssocSemiring 𝕜] {n p : ℕ} (hp : p < n) (A : ℕ → ℕ → 𝕜) (d : Diag) (x : ℕ → 𝕜) :
    (∑ k ∈ Ico 0 (if d = .explicit then p + 1 else p), A p k * x k) + (if d = .explicit then 0 else x p) = mulVec n (triOf .lower d A) x p := by
  rw [mulVec_lower hp]
  cases d with
  | explicit => simp [diagOf, Finset.sum_range_succ]
  | unit => simp [diagOf]

theorem row_upper [NonAssocSemiring 𝕜] {n p : ℕ} (hp : p < n) (A : ℕ → ℕ → 𝕜) (d : Diag) (x : ℕ → 𝕜) :
    (∑ k ∈ Ico (if d = .explicit then p else p + 1) n, A p k * x k) + (if d = .explicit then 0 else x p) = mulVec n (triOf .upper d A) x p := by
  rw [mulVec_upper hp]
  cases d with
  | explicit => simp [diagOf, Finset.sum_eq_sum_Ico_succ_bot hp]
  | unit => simp [diagOf, add_comm]

/-! ## Products -/

theorem gemm_apply [NonUnitalNonAssocSemiring 𝕜] (m n K : ℕ) (A B : ℕ → ℕ → 𝕜) (E : Option (ℕ → ℕ → 𝕜)) (C : ℕ → ℕ → 𝕜) (p q : ℕ) :
    gemm m n K A B E C p q = if p < m ∧ q < n then base E p q + mulMat K A B p q else C p q := by
  unfold gemm
  simp only [start_eq, loop_add2, Nat.Ico_zero_eq_range]
  exact cells_rows m n (fun i j => base E i j + mulMat K A B i j) C p q

theorem trmmLeft_apply [NonAssocSemiring 𝕜] (m n : ℕ) (A : ℕ → ℕ → 𝕜) (t : Tri) (d : Diag) (B : ℕ → ℕ → 𝕜) (E : Option (ℕ → ℕ → 𝕜)) (C : ℕ → ℕ → 𝕜) (p q : ℕ) :
    trmmLeft m n A t d B E C p q = if p < m ∧ q < n then base E p q + mulMat m (triOf t d A) B p q else C p q := by
  rw [← cells_cols m n (fun i j => base E i j + mulMat m (triOf t d A) B i j) C p q]
  unfold trmmLeft
  refine congrFun (congrFun (loop_congr _ _ _ _ _ fun j _ hj C => loop_congr _ _ _ _ _ fun i _ hi C => ?_) p) q
  have e : mulMat m (triOf t d A) B i j = mulVec m (triOf t d A) (fun k => B k j) i := rfl
  have fin : ∀ w : 𝕜, (if d = .explicit then set2 C i j w else add2 (set2 C i j w) i j (B i j)) = set2 C i j (w + if d = .explicit then 0 else B i j) := by
    intro w
    split_ifs
    · rw [add_zero]
    · rw [add2_set2]
  cases t with
  | lower =>
    simp only [start_eq, loop_add2, fin]
    rw [e, ← row_lower hi, add_assoc]
  | upper =>
    simp only [start_eq, loop_add2, fin]
    rw [e, ← row_upper hi, add_assoc]

theorem trmmRight_apply [CommSemiring 𝕜] (m n : ℕ) (A : ℕ → ℕ → 𝕜) (t : Tri) (d : Diag) (B : ℕ → ℕ → 𝕜) (E : Option (ℕ → ℕ → 𝕜)) (C : ℕ → ℕ → 𝕜) (p q : ℕ) :
    trmmRight m n A t d B E C p q = if p < m ∧ q < n then base E p q + mulMat n B (triOf t d A) p q else C p q := by
  rw [← cells_cols m n (fun i j => base E i j + mulMat n B (triOf t d A) i j) C p q]
  unfold trmmRight
  refine congrFun (congrFun (loop_congr _ _ _ _ _ fun j _ hj C => loop_congr _ _ _ _ _ fun i _ hi C => ?_) p) q
  have fin : ∀ w : 𝕜, (if d = .explicit then set2 C i j w else add2 (set2 C i j w) i j (B i j)) = set2 C i j (w + if d = .explicit then 0 else B i j) := by
    intro w
    split_ifs
    · rw [add_zero]
    · rw [add2_set2]
  simp only [mulMat_triRight]
  cases t with
  | lower =>
    simp only [start_eq, loop_add2, fin, Tri.flip]
    rw [← row_upper hj, add_assoc]
    simp only [mul_comm]
  | upper =>
    simp only [start_eq, loop_add2, fin, Tri.flip]
    rw [← row_lower hj, add_assoc]
    simp only [mul_comm]

theorem symmLeft_apply [NonUnitalNonAssocSemiring 𝕜] (m n : ℕ) (A : ℕ → ℕ → 𝕜) (t : Tri) (B : ℕ → ℕ → 𝕜) (E : Option (ℕ → ℕ → 𝕜)) (C : ℕ → ℕ → 𝕜) (p q : ℕ) :
    symmLeft m n A t B E C p q = if p < m ∧ q < n then base E p q + mulMat m (symOf t A) B p q else C p q := by
  rw [← cells_cols m n (fun i j => base E i j + mulMat m (symOf t A) B i j) C p q]
  unfold symmLeft
  refine congrFun (congrFun (loop_congr _ _ _ _ _ fun j _ hj C => loop_congr _ _ _ _ _ fun i _ hi C => ?_) p) q
  cases t with
  | lower =>
    simp only [start_eq, loop_add2, Nat.Ico_zero_eq_range, mulMat]
    congr 2
    refine Finset.sum_congr rfl fun k _ => ?_
    by_cases h1 : i ≤ k
    · by_cases h2 : k ≤ i
      · have : i = k := by omega
        subst this; simp [symOf]
      · simp [symOf, InTri, h1, h2]
    · have h2 : k ≤ i := by omega
      simp [symOf, InTri, h1, h2]
  | upper =>
    simp only [start_eq, loop_add2, Nat.Ico_zero_eq_range, mulMat]
    congr 2
    refine Finset.sum_congr rfl fun k _ => ?_
    by_cases h1 : k ≤ i
    · by_cases h2 : i ≤ k
      · have : i = k := by omega
        subst this; simp [symOf]
      · simp [symOf, InTri, h1, h2]
    · have h2 : i ≤ k := by omega
      simp [symOf, InTri, h1, h2]

theorem symmRight_apply [NonUnitalNonAssocSemiring 𝕜] (m n : ℕ) (A : ℕ → ℕ → 𝕜) (t : Tri) (B : ℕ → ℕ → 𝕜) (E : Option (ℕ → ℕ → 𝕜)) (C : ℕ → ℕ → 𝕜) (p q : ℕ) :
    symmRight m n A t B E C p q = if p < m ∧ q < n then base E p q + mulMat n B (symOf t A) p q else C p q := by
  rw [← cells_cols m n (fun i j => base E i j + mulMat n B (symOf t A) i j) C p q]
  unfold symmRight
  refine congrFun (congrFun (loop_congr _ _ _ _ _ fun j _ hj C => loop_congr _ _ _ _ _ fun i _ hi C => ?_) p) q
  cases t with
  | lower =>
    simp only [start_eq, loop_add2, Nat.Ico_zero_eq_range, mulMat]
    congr 2
  | upper =>
    simp only [start_eq, loop_add2, Nat.Ico_zero_eq_range, mulMat]
    congr 2

theorem hemmLeft_apply [RCLike 𝕜] (m n : ℕ) (A : ℕ → ℕ → 𝕜) (t : Tri) (B : ℕ → ℕ → 𝕜) (E : Option (ℕ → ℕ → 𝕜)) (C : ℕ → ℕ → 𝕜) (p q : ℕ) :
    hemmLeft m n A t B E C p q = if p < m ∧ q < n then base E p q + mulMat m (hermOf t A) B p q else C p q := by
  rw [← cells_cols m n (fun i j => base E i j + mulMat m (hermOf t A) B i j) C p q]
  unfold hemmLeft
  refine congrFun (congrFun (loop_congr _ _ _ _ _ fun j _ hj C => loop_congr _ _ _ _ _ fun i _ hi C => ?_) p) q
  rw [mulMat, sum_cut hi]
  cases t with
  | lower =>
    simp only [start_eq, loop_add2, add2_set2, Nat.Ico_zero_eq_range]
    rw [add_assoc, add_assoc, ← add_assoc (∑ k ∈ range i, A i k * B k j)]
    congr 2
    congr 1
    · congr 1
      · refine Finset.sum_congr rfl fun k hk => ?_
        rw [mem_range] at hk
        simp [hermOf, InTri, hk.le, hk.ne']
      · simp [hermOf]
    · refine Finset.sum_congr rfl fun k hk => ?_
      rw [mem_Ico] at hk
      have h1 : ¬ k ≤ i := by omega
      have h2 : i ≠ k := by omega
      simp [hermOf, InTri, h1, h2]
  | upper =>
    simp only [start_eq, loop_add2, add2_set2, Nat.Ico_zero_eq_range]
    rw [add_assoc, add_assoc, ← add_assoc (∑ k ∈ range i, (starRingEnd 𝕜) (A k i) * B k j)]
    congr 2
    congr 1
    · congr 1
      · refine Finset.sum_congr rfl fun k hk => ?_
        rw [mem_range] at hk
        have h1 : ¬ i ≤ k := by omega
        simp [hermOf, InTri, h1, hk.ne']
      · simp [hermOf]
    · refine Finset.sum_congr rfl fun k hk => ?_
      rw [mem_Ico] at hk
      have h1 : i ≤ k := by omega
      have h2 : i ≠ k := by omega
      simp [hermOf, InTri, h1, h2]

theorem hemmRight_apply [RCLike 𝕜] (m n : ℕ) (A : ℕ → ℕ → 𝕜) (t : Tri) (B : ℕ → ℕ → 𝕜) (E : Option (ℕ → ℕ → 𝕜)) (C : ℕ → ℕ → 𝕜) (p q : ℕ) :
    hemmRight m n A t B E C p q = if p < m ∧ q < n then base E p q + mulMat n B (hermOf t A) p q else C p q := by
  rw [← cells_cols m n (fun i j => base E i j + mulMat n B (hermOf t A) i j) C p q]
  unfold hemmRight
  refine congrFun (congrFun (loop_congr _ _ _ _ _ fun j _ hj C => loop_congr _ _ _ _ _ fun i _ hi C => ?_) p) q
  rw [mulMat, sum_cut hj]
  cases t with
  | lower =>
    simp only [start_eq, loop_add2, add2_set2, Nat.Ico_zero_eq_range]
    rw [add_assoc, add_assoc, ← add_assoc (∑ k ∈ range j, B i k * (starRingEnd 𝕜) (A j k))]
    congr 2
    congr 1
    · congr 1
      · refine Finset.sum_congr rfl fun k hk => ?_
        rw [mem_range] at hk
        have h1 : ¬ j ≤ k := by omega
        simp [hermOf, InTri, h1, hk.ne]
      · simp [hermOf]
    · refine Finset.sum_congr rfl fun k hk => ?_
      rw [mem_Ico] at hk
      have h1 : j ≤ k := by omega
      have h2 : k ≠ j := by omega
      simp [hermOf, InTri, h1, h2]
  | upper =>
    simp only [start_eq, loop_add2, add2_set2, Nat.Ico_zero_eq_range]
    rw [add_assoc, add_assoc, ← add_assoc (∑ k ∈ range j, B i k * A k j)]
    congr 2
    congr 1
    · congr 1
      · refine Finset.sum_congr rfl fun k hk => ?_
        rw [mem_range] at hk
        simp [hermOf, InTri, hk.le, hk.ne]
      · simp [hermOf]
    · refine Finset.sum_congr rfl fun k hk => ?_
      rw [mem_Ico] at hk
      have h1 : ¬ k ≤ j := by omega
      have h2 : k ≠ j := by omega
      simp [hermOf, InTri, h1, h2]

/-! ## In place -/

/-- Column `j` replaced. -/
def put (C : ℕ → ℕ → 𝕜) (j : ℕ) (v : ℕ → 𝕜) : ℕ → ℕ → 𝕜 := fun p q => if q = j then v p else C p q

theorem put_col (C : ℕ → ℕ → 𝕜) (j : ℕ) : put C j (fun p => C p j) = C := by
  funext p q
  unfold put
  split_ifs with h
  · rw [h]
  · rfl

theorem set2_put (C : ℕ → ℕ → 𝕜) (j i : ℕ) (v : ℕ → 𝕜) (w : 𝕜) : set2 (put C j v) i j w = put C j (Function.update v i w) := by
  funext p q
  rw [set2_apply]
  unfold put
  by_cases hq : q = j
  · by_cases hp : p = i
    · subst hp; simp [hq]
    · simp [hq, hp]
  · simp [hq]

theorem put_self (C : ℕ → ℕ → 𝕜) (j : ℕ) (v : ℕ → 𝕜) (p : ℕ) : put C j v p j = v p := by simp [put]

theorem add2_put [Add 𝕜] (C : ℕ → ℕ → 𝕜) (j i : ℕ) (v : ℕ → 𝕜) (w : 𝕜) : add2 (put C j v) i j w = put C j (addTo v i w) := by
  unfold add2
  rw [set2_put, put_self]
  rfl

/-- A loop on the matrix that works on one column is a loop on that column. -/
theorem loop_put (C : ℕ → ℕ → 𝕜) (j lo hi : ℕ) (f : ℕ → (ℕ → ℕ → 𝕜) → ℕ → ℕ → 𝕜) (g : ℕ → (ℕ → 𝕜) → ℕ → 𝕜)
    (h : ∀ i, lo ≤ i → i < hi → ∀ v, f i (put C j v) = put C j (g i v)) (v : ℕ → 𝕜) : loop lo hi f (put C j v) = put C j (loop lo hi g v) := by
  induction hi with
  | zero => rw [loop_of_le (Nat.zero_le _), loop_of_le (Nat.zero_le _)]
  | succ n ih =>
    rcases Nat.lt_or_ge n lo with hlt | hge
    · rw [loop_of_le (by omega), loop_of_le (by omega)]
    · rw [loop_succ hge, loop_succ hge, ih (fun i h1 h2 => h i h1 (by omega)), h n hge (by omega)]

theorem loopDown_put (C : ℕ → ℕ → 𝕜) (j n : ℕ) (f : ℕ → (ℕ → ℕ → 𝕜) → ℕ → ℕ → 𝕜) (g : ℕ → (ℕ → 𝕜) → ℕ → 𝕜)
    (h : ∀ i, i < n → ∀ v, f i (put C j v) = put C j (g i v)) (v : ℕ → 𝕜) : loopDown n f (put C j v) = put C j (loopDown n g v) := by
  induction n generalizing v with
  | zero => rfl
  | succ n ih =>
    rw [loopDown_succ, loopDown_succ, h n (by omega), ih (fun i hi => h i (by omega))]

/-- A loop over columns, each of which changes that column only, by what it holds. -/
theorem loop_cols (n : ℕ) (G : ℕ → (ℕ → 𝕜) → ℕ → 𝕜) (C : ℕ → ℕ → 𝕜) (p q : ℕ) :
    loop 0 n (fun j C => put C j (G j (fun p => C p j))) C p q = if q < n then G q (fun p => C p q) p else C p q := by
  have := loop_invariant (fun k (t : ℕ → ℕ → 𝕜) => t = fun p q => if q < k then G q (fun p => C p q) p else C p q) (Nat.zero_le n)
    (fun j C => put C j (G j (fun p => C p j))) C (by funext p q; simp) ?_
  · rw [this]
  · rintro j _ _ t rfl
    funext p q
    unfold put
    by_cases hq : q = j
    · subst hq; simp
    · have : q < j ↔ q < j + 1 := by omega
      simp [hq, this]

/-- Reading `v(k)` anew each time is the same as reading it once. -/
theorem loop_reread [NonUnitalNonAssocSemiring 𝕜] (A : ℕ → ℕ → 𝕜) (k lo hi : ℕ) (hk : k < lo ∨ hi ≤ k) (v : ℕ → 𝕜) :
    loop lo hi (fun i v' => addTo v' i (A i k * v' k)) v = loop lo hi (fun i v' => addTo v' i (A i k * v k)) v := by
  induction hi with
  | zero => rw [loop_of_le (Nat.zero_le _), loop_of_le (Nat.zero_le _)]
  | succ n ih =>
    rcases Nat.lt_or_ge n lo with hlt | hge
    · rw [loop_of_le (by omega), loop_of_le (by omega)]
    · rw [loop_succ hge, loop_succ hge, ih (by omega)]
      have : loop lo n (fun i v' => addTo v' i (A i k * v k)) v k = v k := by
        rw [loop_add (fun i p => if p = i then A i k * v k else 0) _ (fun i _ _ y p => addTo_apply _ _ _ _), sum_pick, if_neg (by omega), add_zero]
      rw [this]

theorem trmmLeftInPlace_apply [CommSemiring 𝕜] (m n : ℕ) (A : ℕ → ℕ → 𝕜) (t : Tri) (d : Diag) (C : ℕ → ℕ → 𝕜) (p q : ℕ) :
    trmmLeftInPlace m n A t d C p q = if p < m ∧ q < n then mulMat m (triOf t d A) C p q else C p q := by
  have step : ∀ (C : ℕ → ℕ → 𝕜) (j k lo hi : ℕ) (_ : k < lo ∨ hi ≤ k) (v : ℕ → 𝕜),
      (let C := loop lo hi (fun i C => add2 C i j (A i k * C k j)) (put C j v)
       if d = .explicit then set2 C k j (A k k * C k j) else C) = put C j (trmvStep A d k lo hi v) := by
    intro C j k lo hi hk v
    have e : loop lo hi (fun i C => add2 C i j (A i k * C k j)) (put C j v) = put C j (loop lo hi (fun i v' => addTo v' i (A i k * v k)) v) := by
      rw [loop_put C j lo hi _ (fun i v' => addTo v' i (A i k * v' k)), loop_reread A k lo hi hk]
      intro i _ _ v'
      rw [put_self, add2_put]
    simp only [e, trmvStep]
    split_ifs
    · rw [set2_put, put_self, mul_comm]
    · rfl
  have body : ∀ (C : ℕ → ℕ → 𝕜) (j : ℕ), (match t with
      | .upper => loop 0 m (fun k C =>
          let C := loop 0 k (fun i C => add2 C i j (A i k * C k j)) C
          if d = .explicit then set2 C k j (A k k * C k j) else C) C
      | .lower => loopDown m (fun k C =>
          let C := loop (k + 1) m (fun i C => add2 C i j (A i k * C k j)) C
          if d = .explicit then set2 C k j (A k k * C k j) else C) C) = put C j (trmvInPlace m A d t (fun p => C p j)) := by
    intro C j
    conv_lhs => rw [← put_col C j]
    cases t with
    | upper => exact loop_put C j 0 m _ (fun k v => trmvStep A d k 0 k v) (fun k _ _ v => step C j k 0 k (Or.inr le_rfl) v) _
    | lower =>
      simp only [trmvInPlace]
      rw [loop_rev m (fun j y => trmvStep A d j (j + 1) m y)]
      exact loopDown_put C j m _ (fun k v => trmvStep A d k (k + 1) m v) (fun k _ v => step C j k (k + 1) m (Or.inl (Nat.lt_succ_self k)) v) _
  unfold trmmLeftInPlace
  refine Eq.trans (congrFun (congrFun (loop_congr 0 n _ (fun j C => put C j (trmvInPlace m A d t (fun p => C p j))) C fun j _ _ C => body C j) p) q) ?_
  rw [loop_cols n (fun _ v => trmvInPlace m A d t v)]
  by_cases hq : q < n
  · rw [if_pos hq, trmvInPlace_apply]
    by_cases hp : p < m
    · rw [if_pos hp, if_pos ⟨hp, hq⟩]
      rfl
    · rw [if_neg hp, if_neg (by omega)]
  · rw [if_neg hq, if_neg (by omega)]

theorem scaleCol_apply [Mul 𝕜] (m : ℕ) (a : 𝕜) (j : ℕ) (C : ℕ → ℕ → 𝕜) (p q : ℕ) : scaleCol m a j C p q = if p < m ∧ q = j then C p j * a else C p q := by
  unfold scaleCol
  have := loop_invariant (fun k (t : ℕ → ℕ → 𝕜) => t = fun p q => if p < k ∧ q = j then C p j * a else C p q) (Nat.zero_le m)
    (fun i C => set2 C i j (C i j * a)) C (by funext p q; simp) ?_
  · rw [this]
  · rintro i _ _ t rfl
    funext p q
    rw [set2_apply]
    by_cases hq : q = j
    · subst hq
      by_cases hp : p = i
      · subst hp; simp
      · have : p < i ↔ p < i + 1 := by omega
        simp [hp, this]
    · simp [hq]

theorem addCols_apply [NonUnitalNonAssocSemiring 𝕜] (m j lo hi : ℕ) (hj : j < lo ∨ hi ≤ j) (A C : ℕ → ℕ → 𝕜) (p q : ℕ) :
    loop lo hi (fun k C => loop 0 m (fun i C => add2 C i j (C i k * A k j)) C) C p q = if p < m ∧ q = j then C p j + ∑ k ∈ Ico lo hi, C p k * A k j else C p q := by
  have inner : ∀ k, k ≠ j → ∀ D : ℕ → ℕ → 𝕜, loop 0 m (fun i C => add2 C i j (C i k * A k j)) D = fun p q => if p < m ∧ q = j then D p j + D p k * A k j else D p q := by
    intro k hkj D
    have := loop_invariant (fun r (t : ℕ → ℕ → 𝕜) => t = fun p q => if p < r ∧ q = j then D p j + D p k * A k j else D p q) (Nat.zero_le m)
      (fun i C => add2 C i j (C i k * A k j)) D (by funext p q; simp) ?_
    · exact this
    · rintro i _ _ t rfl
      funext p q
      unfold add2
      rw [set2_apply]
      by_cases hq : q = j
      · subst hq
        by_cases hp : p = i
        · subst hp; simp [hkj]
        · have : p < i ↔ p < i + 1 := by omega
          simp [hp, this]
      · simp [hq]
  induction hi generalizing p q with
  | zero => rw [loop_of_le (Nat.zero_le _)]; simp; intro _ h; rw [h]
  | succ n ih =>
    rcases Nat.lt_or_ge n lo with hlt | hge
    · rw [loop_of_le (by omega), Finset.Ico_eq_empty_of_le (by omega)]
      simp
      intro _ h
      rw [h]
    · rw [loop_succ hge, inner n (by omega), Finset.sum_Ico_succ_top hge]
      have ih' := ih (by omega)
      simp only [ih']
      by_cases h : p < m ∧ q = j
      · have hn : ¬ (n = j) := by omega
        simp [h, hn, add_assoc]
      · simp [h]

theorem trmmRightInPlace_apply [CommSemiring 𝕜] (m n : ℕ) (A : ℕ → ℕ → 𝕜) (t : Tri) (d : Diag) (C : ℕ → ℕ → 𝕜) (p q : ℕ) :
    trmmRightInPlace m n A t d C p q = if p < m ∧ q < n then mulMat n C (triOf t d A) p q else C p q := by
  have step : ∀ (C : ℕ → ℕ → 𝕜) (j lo hi : ℕ) (_ : j < lo ∨ hi ≤ j) (p q : ℕ),
      (let C := if d = .explicit then scaleCol m (A j j) j C else C
       loop lo hi (fun k C => loop 0 m (fun i C => add2 C i j (C i k * A k j)) C) C) p q =
      if p < m ∧ q = j then diagOf d A j * C p j + ∑ k ∈ Ico lo hi, A k j * C p k else C p q := by
    intro C j lo hi hj p q
    simp only
    rw [addCols_apply m j lo hi hj]
    have es : ∑ k ∈ Ico lo hi, A k j * C p k = ∑ k ∈ Ico lo hi, (if d = .explicit then scaleCol m (A j j) j C else C) p k * A k j := by
      refine Finset.sum_congr rfl fun k hk => ?_
      rw [mem_Ico] at hk
      have : k ≠ j := by omega
      split_ifs
      · rw [scaleCol_apply, if_neg (by simp [this]), mul_comm]
      · rw [mul_comm]
    rw [es]
    cases d with
    | explicit =>
      simp only [if_true, scaleCol_apply, diagOf]
      by_cases h : p < m ∧ q = j
      · simp [h, mul_comm]
      · simp [h]
    | unit => simp [diagOf]
  have fin : ∀ p q, q < n → mulMat n C (triOf t d A) p q = mulVec n (triOf t.flip d (fun a b => A b a)) (C p) q := fun p q _ => mulMat_triRight n t d A C p q
  cases t with
  | upper =>
    simp only [trmmRightInPlace]
    have := loopDown_invariant (fun k (s : ℕ → ℕ → 𝕜) => ∀ p q, s p q = if p < m ∧ k ≤ q ∧ q < n then ∑ r ∈ range q, A r q * C p r + diagOf d A q * C p q else C p q) (n := n)
      (fun j C =>
        let C := if d = .explicit then scaleCol m (A j j) j C else C
        loop 0 j (fun k C => loop 0 m (fun i C => add2 C i j (C i k * A k j)) C) C) C (fun p q => by rw [if_neg (by omega)]) ?_
    · rw [this p q]
      by_cases h : p < m ∧ q < n
      · rw [if_pos ⟨h.1, Nat.zero_le _, h.2⟩, if_pos h, fin p q h.2, Tri.flip, mulVec_lower h.2]
        cases d <;> rfl
      · rw [if_neg (by omega), if_neg h]
    · intro k hk s hs p q
      rw [step s k 0 k (Or.inr le_rfl), Nat.Ico_zero_eq_range]
      by_cases h : p < m ∧ q = k
      · obtain ⟨hp, rfl⟩ := h
        rw [if_pos ⟨hp, rfl⟩, if_pos ⟨hp, le_rfl, hk⟩, hs p q, if_neg (by omega), add_comm]
        congr 1
        refine Finset.sum_congr rfl fun r hr => ?_
        rw [mem_range] at hr
        rw [hs p r, if_neg (by omega)]
      · rw [if_neg h, hs p q]
        have : (p < m ∧ k + 1 ≤ q ∧ q < n) ↔ (p < m ∧ k ≤ q ∧ q < n) := by
          constructor
          · rintro ⟨a, b, c⟩; exact ⟨a, by omega, c⟩
          · rintro ⟨a, b, c⟩; exact ⟨a, by omega, c⟩
        simp only [this]
  | lower =>
    simp only [trmmRightInPlace]
    have := loop_invariant (fun k (s : ℕ → ℕ → 𝕜) => ∀ p q, s p q = if p < m ∧ q < k then diagOf d A q * C p q + ∑ r ∈ Ico (q + 1) n, A r q * C p r else C p q) (Nat.zero_le n)
      (fun j C =>
        let C := if d = .explicit then scaleCol m (A j j) j C else C
        loop (j + 1) n (fun k C => loop 0 m (fun i C => add2 C i j (C i k * A k j)) C) C) C (fun p q => by rw [if_neg (by omega)]) ?_
    · rw [this p q]
      by_cases h : p < m ∧ q < n
      · rw [if_pos h, if_pos h, fin p q h.2, Tri.flip, mulVec_upper h.2]
        cases d <;> rfl
      · rw [if_neg h, if_neg h]
    · intro k _ hk s hs p q
      rw [step s k (k + 1) n (Or.inl (Nat.lt_succ_self k))]
      by_cases h : p < m ∧ q = k
      · obtain ⟨hp, rfl⟩ := h
        rw [if_pos ⟨hp, rfl⟩, if_pos ⟨hp, Nat.lt_succ_self q⟩, hs p q, if_neg (by omega)]
        congr 1
        refine Finset.sum_congr rfl fun r hr => ?_
        rw [mem_Ico] at hr
        rw [hs p r, if_neg (by omega)]
      · rw [if_neg h, hs p q]
        have : (p < m ∧ q < k + 1) ↔ (p < m ∧ q < k) := by
          constructor
          · rintro ⟨a, b⟩; exact ⟨a, by omega⟩
          · rintro ⟨a, b⟩; exact ⟨a, by omega⟩
        simp only [this]

/-! ## Solutions -/

theorem loop_emb {σ τ : Type*} (emb : τ → σ) (lo hi : ℕ) (f : ℕ → σ → σ) (g : ℕ → τ → τ) (h : ∀ i, lo ≤ i → i < hi → ∀ v, f i (emb v) = emb (g i v)) (v : τ) :
    loop lo hi f (emb v) = emb (loop lo hi g v) := by
  induction hi with
  | zero => rw [loop_of_le (Nat.zero_le _), loop_of_le (Nat.zero_le _)]
  | succ n ih =>
    rcases Nat.lt_or_ge n lo with hlt | hge
    · rw [loop_of_le (by omega), loop_of_le (by omega)]
    · rw [loop_succ hge, loop_succ hge, ih (fun i h1 h2 => h i h1 (by omega)), h n hge (by omega)]

theorem loopDown_emb {σ τ : Type*} (emb : τ → σ) (n : ℕ) (f : ℕ → σ → σ) (g : ℕ → τ → τ) (h : ∀ i, i < n → ∀ v, f i (emb v) = emb (g i v)) (v : τ) :
    loopDown n f (emb v) = emb (loopDown n g v) := by
  induction n generalizing v with
  | zero => rfl
  | succ n ih =>
    rw [loopDown_succ, loopDown_succ, h n (by omega), ih (fun i hi => h i (by omega))]

/-- Column by column, the solver for a matrix is the solver for a vector. -/
theorem trsmLeft_apply [Field 𝕜] (m n : ℕ) (A : ℕ → ℕ → 𝕜) (t : Tri) (d : Diag) (B X : ℕ → ℕ → 𝕜) (p q : ℕ) :
    trsmLeft m n A t d B X p q = if q < n then trsv m (· / ·) A t d (fun p => B p q) (fun p => X p q) p else X p q := by
  cases t with
  | lower =>
    simp only [trsmLeft]
    rw [← loop_cols n (fun k v => trsv m (· / ·) A .lower d (fun p => B p k) v) X p q]
    refine congrFun (congrFun (loop_congr _ _ _ _ _ fun k _ _ X => ?_) p) q
    conv_lhs => rw [← put_col X k]
    refine loop_emb (put X k) 0 m _ (fun i v => Function.update v i (if d = .explicit then (loop 0 i (fun j t => t - A i j * v j) (B i k)) / A i i
      else loop 0 i (fun j t => t - A i j * v j) (B i k))) (fun i _ _ v => ?_) _
    simp only [put_self]
    rw [set2_put]
  | upper =>
    simp only [trsmLeft]
    rw [← loop_cols n (fun k v => trsv m (· / ·) A .upper d (fun p => B p k) v) X p q]
    refine congrFun (congrFun (loop_congr _ _ _ _ _ fun k _ _ X => ?_) p) q
    conv_lhs => rw [← put_col X k]
    refine loopDown_emb (put X k) m _ (fun i v => Function.update v i (if d = .explicit then (loop (i + 1) m (fun j t => t - A i j * v j) (B i k)) / A i i
      else loop (i + 1) m (fun j t => t - A i j * v j) (B i k))) (fun i _ v => ?_) _
    simp only [put_self]
    rw [set2_put]

/-- Row by row, the solver from the right is the solver for a vector with the transpose. -/
theorem trsmRight_apply [Field 𝕜] (m n : ℕ) (A : ℕ → ℕ → 𝕜) (t : Tri) (d : Diag) (B X : ℕ → ℕ → 𝕜) (p q : ℕ) :
    trsmRight m n A t d B X p q = if p < m then trsv n (· / ·) (fun a b => A b a) t.flip d (B p) (X p) q else X p q := by
  have hset : ∀ (X : ℕ → ℕ → 𝕜) i (v : ℕ → 𝕜) j w, set2 (Function.update X i v) i j w = Function.update X i (Function.update v j w) := by
    intro X i v j w
    unfold set2
    simp
  have rows := loop_write m (fun i v => trsv n (· / ·) (fun a b => A b a) t.flip d (B i) v) X p
  have main : trsmRight m n A t d B X p = if p < m then trsv n (· / ·) (fun a b => A b a) t.flip d (B p) (X p) else X p := by
    rw [← rows]
    cases t with
    | upper =>
      simp only [trsmRight]
      refine congrFun (loop_congr _ _ _ _ _ fun i _ _ X => ?_) p
      conv_lhs => rw [← Function.update_eq_self i X]
      refine loop_emb (Function.update X i) 0 n _ (fun j v => Function.update v j (if d = .explicit then (loop 0 j (fun k t => t - A k j * v k) (B i j)) / A j j
        else loop 0 j (fun k t => t - A k j * v k) (B i j))) (fun j _ _ v => ?_) _
      simp only [Function.update_self, mul_comm (v _)]
      rw [hset]
    | lower =>
      simp only [trsmRight]
      refine congrFun (loop_congr _ _ _ _ _ fun i _ _ X => ?_) p
      conv_lhs => rw [← Function.update_eq_self i X]
      refine loopDown_emb (Function.update X i) n _ (fun j v => Function.update v j (if d = .explicit then (loop (j + 1) n (fun k t => t - A k j * v k) (B i j)) / A j j
        else loop (j + 1) n (fun k t => t - A k j * v k) (B i j))) (fun j _ v => ?_) _
      simp only [Function.update_self, mul_comm (v _)]
      rw [hset]
  rw [main]
  split_ifs <;> rfl

end OpenKalman.Blas
