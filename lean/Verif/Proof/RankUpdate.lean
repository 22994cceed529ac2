import Verif.Model.RankUpdate
import Verif.Spec.RankUpdate
import Verif.Proof.Blas3

namespace OpenKalman.Blas
open Finset

variable {𝕜 : Type*}

theorem set2_get (C : ℕ → ℕ → 𝕜) (i j : ℕ) : set2 C i j (C i j) = C := by
  funext p q
  rw [set2_apply]
  split_ifs with h
  · rw [h.1, h.2]
  · rfl

theorem loop_add2' [AddCommMonoid 𝕜] (K : ℕ) (c : ℕ → 𝕜) (C : ℕ → ℕ → 𝕜) (i j : ℕ) :
    loop 0 K (fun k C => add2 C i j (c k)) C = set2 C i j (C i j + ∑ k ∈ range K, c k) := by
  have := loop_add2 0 K c C i j (C i j)
  rw [set2_get] at this
  rw [this, Finset.range_eq_Ico]

/-- Part of a column, each component treated on its own. -/
theorem col_apply (lo hi j : ℕ) (f : ℕ → ℕ → (ℕ → ℕ → 𝕜) → ℕ → ℕ → 𝕜) (g : ℕ → ℕ → 𝕜 → 𝕜) (hf : ∀ i j A, f i j A = set2 A i j (g i j (A i j))) (A : ℕ → ℕ → 𝕜) (p q : ℕ) :
    loop lo hi (fun i A => f i j A) A p q = if lo ≤ p ∧ p < hi ∧ q = j then g p q (A p q) else A p q := by
  rcases Nat.lt_or_ge lo hi with hlt | hle
  · have := loop_invariant (fun k (t : ℕ → ℕ → 𝕜) => t = fun p q => if lo ≤ p ∧ p < k ∧ q = j then g p q (A p q) else A p q) hlt.le
      (fun i A => f i j A) A (by funext p q; rw [if_neg (by omega)]) ?_
    · rw [this]
    · rintro i h1 _ t rfl
      funext p q
      rw [hf, set2_apply]
      by_cases hq : q = j
      · subst hq
        by_cases hp : p = i
        · subst hp
          have : ¬ p < p := by omega
          simp [h1]
        · have : p < i ↔ p < i + 1 := by omega
          simp [hp, this]
      · simp [hq]
  · rw [loop_of_le hle, if_neg (by omega)]

theorem row_apply (hi i : ℕ) (f : ℕ → ℕ → (ℕ → ℕ → 𝕜) → ℕ → ℕ → 𝕜) (g : ℕ → ℕ → 𝕜 → 𝕜) (hf : ∀ i j A, f i j A = set2 A i j (g i j (A i j))) (A : ℕ → ℕ → 𝕜) (p q : ℕ) :
    loop 0 hi (fun j A => f i j A) A p q = if q < hi ∧ p = i then g p q (A p q) else A p q := by
  have := loop_invariant (fun k (t : ℕ → ℕ → 𝕜) => t = fun p q => if q < k ∧ p = i then g p q (A p q) else A p q) (Nat.zero_le hi)
    (fun j A => f i j A) A (by funext p q; rw [if_neg (by omega)]) ?_
  · rw [this]
  · rintro j _ _ t rfl
    funext p q
    rw [hf, set2_apply]
    by_cases hp : p = i
    · subst hp
      by_cases hq : q = j
      · subst hq; simp
      · have : q < j ↔ q < j + 1 := by omega
        simp [hq, this]
    · simp [hp]

theorem rowsLower_apply (n : ℕ) (f : ℕ → ℕ → (ℕ → ℕ → 𝕜) → ℕ → ℕ → 𝕜) (g : ℕ → ℕ → 𝕜 → 𝕜) (hf : ∀ i j A, f i j A = set2 A i j (g i j (A i j))) (A : ℕ → ℕ → 𝕜) (p q : ℕ) :
    rowsLower n f A p q = if p < n ∧ q < n ∧ InTri .lower p q then g p q (A p q) else A p q := by
  unfold rowsLower
  have := loop_invariant (fun k (t : ℕ → ℕ → 𝕜) => t = fun p q => if p < k ∧ q ≤ p then g p q (A p q) else A p q) (Nat.zero_le n)
    (fun i A => loop 0 (i + 1) (fun j A => f i j A) A) A (by funext p q; rw [if_neg (by omega)]) ?_
  · rw [this]
    refine if_congr ?_ rfl rfl
    simp only [InTri]
    omega
  · rintro i _ _ t rfl
    funext p q
    rw [row_apply (i + 1) i f g hf]
    by_cases hp : p = i
    · subst hp
      have h1 : ¬ p < p := by omega
      have h2 : q < p + 1 ↔ q ≤ p := by omega
      simp [h2]
    · have : p < i ↔ p < i + 1 := by omega
      simp [hp, this]

theorem colsTri_apply (n : ℕ) (t : Tri) (before : ℕ → (ℕ → ℕ → 𝕜) → ℕ → ℕ → 𝕜) (b : 𝕜 → 𝕜) (f : ℕ → ℕ → (ℕ → ℕ → 𝕜) → ℕ → ℕ → 𝕜) (g : ℕ → ℕ → 𝕜 → 𝕜)
    (hb : ∀ j A, before j A = set2 A j j (b (A j j))) (hf : ∀ i j A, f i j A = set2 A i j (g i j (A i j))) (A : ℕ → ℕ → 𝕜) (p q : ℕ) :
    colsTri n t before f A p q = if p < n ∧ q < n ∧ InTri t p q then g p q (if p = q then b (A p q) else A p q) else A p q := by
  have hbody : ∀ j < n, ∀ A : ℕ → ℕ → 𝕜, colTri n t before f j A =
      fun p q => if p < n ∧ q = j ∧ InTri t p q then g p q (if p = q then b (A p q) else A p q) else A p q := by
    intro j hj A
    funext p q
    have key : ∀ P : Prop, [Decidable P] → (¬ P → ¬ (p = j ∧ q = j)) → (P → q = j) → (if P then g p q (before j A p q) else before j A p q) =
        if P then g p q (if p = q then b (A p q) else A p q) else A p q := by
      intro P _ hP hQ
      rw [hb, set2_apply]
      by_cases h : P
      · rw [if_pos h, if_pos h]
        have hq := hQ h
        subst hq
        by_cases hp : p = q
        · subst hp; simp
        · simp [hp]
      · rw [if_neg h, if_neg h, if_neg (hP h)]
    cases t with
    | lower =>
      simp only [colTri]
      rw [col_apply j n j f g hf, key _ (by omega) (by omega)]
      refine if_congr ?_ rfl rfl
      simp only [InTri]
      omega
    | upper =>
      simp only [colTri]
      rw [col_apply 0 (j + 1) j f g hf, key _ (by omega) (by omega)]
      refine if_congr ?_ rfl rfl
      simp only [InTri]
      omega
  unfold colsTri
  have := loop_invariant (fun k (s : ℕ → ℕ → 𝕜) => s = fun p q => if p < n ∧ q < k ∧ InTri t p q then g p q (if p = q then b (A p q) else A p q) else A p q) (Nat.zero_le n)
    (colTri n t before f) A (by funext p q; rw [if_neg (by omega)]) ?_
  · rw [this]
  · rintro j _ hj s rfl
    rw [hbody j hj]
    funext p q
    by_cases hq : q = j
    · subst hq; simp
    · have : q < j ↔ q < j + 1 := by omega
      simp [hq, this]

theorem colsTri_skip (n : ℕ) (t : Tri) (f : ℕ → ℕ → (ℕ → ℕ → 𝕜) → ℕ → ℕ → 𝕜) (g : ℕ → ℕ → 𝕜 → 𝕜)
    (hf : ∀ i j A, f i j A = set2 A i j (g i j (A i j))) (A : ℕ → ℕ → 𝕜) (p q : ℕ) :
    colsTri n t skip f A p q = if p < n ∧ q < n ∧ InTri t p q then g p q (A p q) else A p q := by
  rw [colsTri_apply n t skip id f g (fun j A => (set2_get A j j).symm) hf]
  simp

theorem bump_eq [AddZeroClass 𝕜] (fix : Bool) (A : ℕ → ℕ → 𝕜) (i j : ℕ) (v : 𝕜) : bump fix A i j v = set2 A i j ((if fix then 0 else A i j) + v) := by
  cases fix
  · rfl
  · unfold bump
    simp only [if_true]
    rw [add2_set2]

/-! ## From components to matrices -/

theorem symUpdate_of [Add 𝕜] {n : ℕ} {t : Tri} (B0 U A A' : ℕ → ℕ → 𝕜) (hU : ∀ p q, U q p = U p q)
    (h : ∀ p q, A' p q = if p < n ∧ q < n ∧ InTri t p q then B0 p q + U p q else A p q) : SymUpdate n t (symOf t B0) U A A' where
  stored p hp q hq := by
    unfold symOf
    by_cases hi : InTri t p q
    · rw [if_pos hi, if_pos hi, h, if_pos ⟨hp, hq, hi⟩]
    · have hi' : InTri t q p := by
        cases t <;> simp only [InTri] at * <;> omega
      rw [if_neg hi, if_neg hi, h, if_pos ⟨hq, hp, hi'⟩, hU]
  kept p q hn := by rw [h, if_neg hn]

theorem hermUpdate_of [RCLike 𝕜] {n : ℕ} {t : Tri} (B0 U A A' : ℕ → ℕ → 𝕜) (hU : ∀ p q, U q p = (starRingEnd 𝕜) (U p q))
    (h : ∀ p q, A' p q = if p < n ∧ q < n ∧ InTri t p q then (if p = q then re' (B0 p q) else B0 p q) + U p q else A p q) : HermUpdate n t (hermOf t B0) U A A' := by
  have hd : ∀ p < n, A' p p = re' (B0 p p) + U p p := by
    intro p hp
    have hi : InTri t p p := by cases t <;> simp [InTri]
    rw [h, if_pos ⟨hp, hp, hi⟩, if_pos rfl]
  have him : ∀ p, RCLike.im (U p p) = 0 := fun p => RCLike.conj_eq_iff_im.mp (hU p p).symm
  refine ⟨fun p hp q hq => ?_, fun p hp => ?_, fun p q hn => by rw [h, if_neg hn]⟩
  · unfold hermOf
    by_cases hpq : p = q
    · subst hpq
      rw [if_pos rfl, if_pos rfl, hd p hp]
      have : ((RCLike.re (U p p) : ℝ) : 𝕜) = U p p := RCLike.conj_eq_iff_re.mp (hU p p).symm
      simp only [re', map_add, RCLike.ofReal_re, RCLike.ofReal_add, this]
    · rw [if_neg hpq, if_neg hpq]
      by_cases hi : InTri t p q
      · rw [if_pos hi, if_pos hi, h, if_pos ⟨hp, hq, hi⟩, if_neg hpq]
      · have hi' : InTri t q p := by
          cases t <;> simp only [InTri] at * <;> omega
        rw [if_neg hi, if_neg hi, h, if_pos ⟨hq, hp, hi'⟩, if_neg (fun e => hpq e.symm), map_add, ← hU]
  · rw [hd p hp]
    simp [re', him p]

theorem symOf_zero [Zero 𝕜] (t : Tri) : symOf t (fun _ _ => (0 : 𝕜)) = fun _ _ => 0 := by
  funext p q; unfold symOf; split_ifs <;> rfl

theorem hermOf_zero [RCLike 𝕜] (t : Tri) : hermOf t (fun _ _ => (0 : 𝕜)) = fun _ _ => 0 := by
  funext p q; unfold hermOf; split_ifs <;> simp

/-- What the update starts from when it stores into the matrix itself. -/
theorem start_symmetric [RCLike 𝕜] {n : ℕ} {t : Tri} {fix : Bool} {U A A' : ℕ → ℕ → 𝕜} (h : SymUpdate n t (symOf t (if fix then fun _ _ => 0 else A)) U A A') :
    SymUpdate n t (if fix then fun _ _ => 0 else symOf t A) U A A' := by
  cases fix
  · exact h
  · simp only [if_true, symOf_zero] at h ⊢
    exact h

/-- The same for Hermitian matrices. -/
theorem start_hermitian [RCLike 𝕜] {n : ℕ} {t : Tri} {fix : Bool} {U A A' : ℕ → ℕ → 𝕜} (h : HermUpdate n t (hermOf t (if fix then fun _ _ => 0 else A)) U A A') :
    HermUpdate n t (if fix then fun _ _ => 0 else hermOf t A) U A A' := by
  cases fix
  · exact h
  · simp only [if_true, hermOf_zero] at h ⊢
    exact h

end OpenKalman.Blas
