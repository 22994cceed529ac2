import Verif.Model.ConcatStruct
import Verif.Proof.Concat
import Mathlib.Data.List.Forall2

/-! # Lemmas on the diagonal concatenation of structured matrices -/

namespace OpenKalman.Slices

variable {F : Type}

/-- The matrix a structured object stands for: element `(i, j)`. -/
def SMat.val [Zero F] [Star F] : SMat F → ℕ → ℕ → Option F
  | .dense a, i, j => a.get [i, j]
  | .zero _ _, _, _ => some 0
  | .diag v, i, j => if i = j then v.get [i, 0] else some 0
  | .tri true a, i, j => if j ≤ i then a.get [i, j] else some 0
  | .tri false a, i, j => if i ≤ j then a.get [i, j] else some 0
  | .herm true a, i, j => if j ≤ i then a.get [i, j] else (a.get [j, i]).map star
  | .herm false a, i, j => if i ≤ j then a.get [i, j] else (a.get [j, i]).map star

/-- The dense matrix with the same dimensions and elements. -/
def SMat.toTen [Zero F] [Star F] (x : SMat F) : Ten F := ⟨[x.dims.1, x.dims.2], fun ix => x.val (ix.getD 0 0) (ix.getD 1 0), fun _ => 1⟩

/-- Block-diagonal placement commutes with keeping one triangle, for square blocks. -/
theorem blockDiag_tri [Zero F] (keep : ℕ → ℕ → Prop) [∀ i j, Decidable (keep i j)] (hk : ∀ n i j, keep (n + i) (n + j) ↔ keep i j)
    (args : List (Ten F)) (hsq : ∀ b ∈ args, b.rows = b.cols) (vals : List (Ten F))
    (hv : List.Forall₂ (fun (v b : Ten F) => v.rows = b.rows ∧ v.cols = b.cols ∧ ∀ i j, v.get [i, j] = if keep i j then b.get [i, j] else some 0) vals args)
    (i j : ℕ) (hi : i < heights args) :
    blockDiagGet vals i j = if keep i j then blockDiagGet args i j else (if j < widths args then some 0 else blockDiagGet vals i j) := by
  induction hv generalizing i j with
  | nil => simp [heights] at hi
  | @cons v b vs bs h1 h2 ih =>
    obtain ⟨e1, e2, e3⟩ := h1
    have hb := hsq b (by simp)
    simp only [blockDiagGet]
    rw [e1, e2, e3]
    have hh : heights (b :: bs) = b.rows + heights bs := by simp [heights]
    have hw : widths (b :: bs) = b.cols + widths bs := by simp [widths]
    by_cases hi' : i < b.rows
    · rw [if_pos hi', if_pos hi']
      by_cases hj' : j < b.cols
      · rw [if_pos hj', if_pos hj', if_pos (show j < widths (b :: bs) by omega)]
      · rw [if_neg hj', if_neg hj']
        split_ifs <;> rfl
    · rw [if_neg hi', if_neg hi']
      by_cases hj' : j < b.cols
      · rw [if_pos hj', if_pos hj']
        split_ifs <;> rfl
      · rw [if_neg hj', if_neg hj', ih (fun c hc => hsq c (by simp [hc])) _ _ (by omega)]
        have hkk : keep (i - b.rows) (j - b.cols) ↔ keep i j := by
          have := hk b.rows (i - b.rows) (j - b.cols)
          have e1 : b.rows + (i - b.rows) = i := by omega
          have e2 : b.rows + (j - b.cols) = j := by omega
          rw [e1, e2] at this
          exact this.symm
        by_cases hkij : keep i j
        · rw [if_pos (hkk.2 hkij), if_pos hkij]
        · rw [if_neg (fun h => hkij (hkk.1 h)), if_neg hkij]
          by_cases hjw : j < widths (b :: bs)
          · rw [if_pos (by omega), if_pos hjw]
          · rw [if_neg (by omega), if_neg hjw]

theorem heights_square {args : List (Ten F)} (hsq : ∀ b ∈ args, b.rows = b.cols) : heights args = widths args := by
  unfold heights widths
  rw [List.map_congr_left hsq]

/-- The stored triangles of Hermitian operands, placed block-diagonally, are the stored triangle of the result. -/
theorem blockDiag_herm [AddMonoid F] [StarAddMonoid F] (lower : Bool) (args : List (Ten F)) (hsq : ∀ b ∈ args, b.rows = b.cols)
    (i j : ℕ) (hi : i < heights args) (hj : j < heights args) :
    blockDiagGet (args.map fun b => (SMat.herm lower b).toTen) i j =
      if (if lower then j ≤ i else i ≤ j) then blockDiagGet args i j else (blockDiagGet args j i).map star := by
  have hstar : star (0 : F) = 0 := star_zero F
  induction args generalizing i j with
  | nil => simp [heights] at hi
  | cons b bs ih =>
    have hb := hsq b (by simp)
    have hh : heights (b :: bs) = b.rows + heights bs := by simp [heights]
    have hr : (SMat.herm lower b).toTen.rows = b.rows := rfl
    have hc : (SMat.herm lower b).toTen.cols = b.cols := rfl
    have hv : (SMat.herm lower b).toTen.get [i, j] = if (if lower then j ≤ i else i ≤ j) then b.get [i, j] else (b.get [j, i]).map star := by
      cases lower <;> rfl
    simp only [List.map_cons, blockDiagGet]
    rw [hr, hc, hv, ← hb]
    by_cases hi' : i < b.rows <;> by_cases hj' : j < b.rows
    · simp only [hi', hj', if_true]
    · simp only [hi', hj', if_true, if_false, Option.map_some, hstar, ite_self]
    · simp only [hi', hj', if_true, if_false, Option.map_some, hstar, ite_self]
    · simp only [hi', hj', if_false]
      rw [ih (fun c hc => hsq c (by simp [hc])) _ _ (by omega) (by omega)]
      cases lower
      · have : (i - b.rows ≤ j - b.rows) ↔ i ≤ j := by omega
        simp only [this, Bool.false_eq_true, if_false]
      · have : (j - b.rows ≤ i - b.rows) ↔ j ≤ i := by omega
        simp only [this, if_true]

end OpenKalman.Slices
