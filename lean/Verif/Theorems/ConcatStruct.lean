import Verif.Proof.ConcatStruct
import Verif.Theorems.Slices
import Mathlib.Analysis.Complex.Basic

/-! # C40: diagonal concatenation of structured matrices -/

namespace OpenKalman.Slices

variable {F : Type}

/-- Concatenating triangular matrices (all lower or all upper) of any sizes diagonally gives a triangular matrix, whose elements are those of the
block-diagonal matrix of the operands. -/
theorem C40_concatenate_triangular [Zero F] [Star F] (fuel : ℕ) (lower : Bool) (as : List (Ten F)) (h2 : 2 ≤ as.length)
    (hm : ∀ b ∈ as, IsMat b ∧ 0 < b.rows ∧ 0 < b.cols) (hsq : ∀ b ∈ as, b.rows = b.cols) (hf : 2 * (as.length * as.length) < fuel) :
    ∃ m, SMat.concatenate fuel (as.map (SMat.tri lower)) = .ok (SMat.tri lower m) ∧ m.dims = [heights as, heights as] ∧
      ∀ i < heights as, ∀ j < heights as, (SMat.tri lower m).val i j = blockDiagGet (as.map fun b => (SMat.tri lower b).toTen) i j := by
  have hne : as ≠ [] := by intro h; rw [h] at h2; simp at h2
  obtain ⟨m, h1, hd, hg⟩ := C40_concatenate_diagonal_partial fuel as hne hm hf
  have hw := heights_square hsq
  have hnest : (as.map (SMat.tri lower)).map SMat.nested = as := by rw [List.map_map]; exact List.map_id as
  refine ⟨m, ?_, by rw [hd, hw], ?_⟩
  · match as, h2 with
    | a :: b :: l, _ =>
      show SMat.concatenate fuel (SMat.tri lower a :: SMat.tri lower b :: l.map (SMat.tri lower)) = _
      rw [SMat.concatenate]
      · rw [if_neg (by simp [SMat.isZero]), if_neg (by simp [SMat.isDiag])]
        have hall : ∀ x, ((a :: b :: l).map (SMat.tri lower)).all (SMat.isTri x) = (lower == x) := by
          intro x
          cases lower <;> cases x <;> simp [SMat.isTri]
        rw [if_pos]
        · show (do let m ← Slices.concatenate fuel [0, 1] (((a :: b :: l).map (SMat.tri lower)).map SMat.nested)
                   Except.ok (SMat.tri (((a :: b :: l).map (SMat.tri lower)).all (SMat.isTri true)) m)) = _
          rw [hnest, h1, hall]
          cases lower <;> rfl
        · refine ⟨?_, ?_⟩
          · have h1 := hall true
            have h2 := hall false
            simp only [List.map_cons] at h1 h2
            rw [h1, h2]
            cases lower <;> simp
          · simp only [List.all_eq_true, beq_iff_eq]
            intro x hx
            have hx' : x ∈ (a :: b :: l).map (SMat.tri lower) := hx
            obtain ⟨c, hc, rfl⟩ := List.mem_map.1 hx'
            exact hsq c hc
      · simp
  · intro i hi j hj
    cases lower with
    | true =>
      have := blockDiag_tri (fun i j => j ≤ i) (by intro n i j; omega) as hsq (as.map fun b => (SMat.tri true b).toTen) (by
        rw [List.forall₂_map_left_iff]
        exact List.forall₂_same.2 fun b hb => ⟨rfl, rfl, fun i j => rfl⟩) i j hi
      rw [this, if_pos (show j < widths as by omega)]
      show (if j ≤ i then m.get [i, j] else some 0) = _
      rw [hg i hi j (by omega)]
    | false =>
      have := blockDiag_tri (fun i j => i ≤ j) (by intro n i j; omega) as hsq (as.map fun b => (SMat.tri false b).toTen) (by
        rw [List.forall₂_map_left_iff]
        exact List.forall₂_same.2 fun b hb => ⟨rfl, rfl, fun i j => rfl⟩) i j hi
      rw [this, if_pos (show j < widths as by omega)]
      show (if i ≤ j then m.get [i, j] else some 0) = _
      rw [hg i hi j (by omega)]

example : (∀ b ∈ [exM 2 2 0, exM 3 3 50], IsMat b ∧ 0 < b.rows ∧ 0 < b.cols) ∧ ∀ b ∈ [exM 2 2 0, exM 3 3 50], b.rows = b.cols := by
  simp [exM, IsMat, Ten.rows, Ten.cols]

/-- Concatenating Hermitian matrices stored in the same triangle diagonally gives a Hermitian matrix, whose elements are those of the block-diagonal matrix of the
operands.  What is missing: operands stored in different triangles; see `C40_concatenate_hermitian_violated`. -/
theorem C40_concatenate_hermitian_partial [AddMonoid F] [StarAddMonoid F] (fuel : ℕ) (lower : Bool) (as : List (Ten F)) (h2 : 2 ≤ as.length)
    (hm : ∀ b ∈ as, IsMat b ∧ 0 < b.rows ∧ 0 < b.cols) (hsq : ∀ b ∈ as, b.rows = b.cols) (hf : 2 * (as.length * as.length) < fuel) :
    ∃ m, SMat.concatenate fuel (as.map (SMat.herm lower)) = .ok (SMat.herm lower m) ∧ m.dims = [heights as, heights as] ∧
      ∀ i < heights as, ∀ j < heights as, (SMat.herm lower m).val i j = blockDiagGet (as.map fun b => (SMat.herm lower b).toTen) i j := by
  have hne : as ≠ [] := by intro h; rw [h] at h2; simp at h2
  obtain ⟨m, h1, hd, hg⟩ := C40_concatenate_diagonal_partial fuel as hne hm hf
  have hw := heights_square hsq
  refine ⟨m, ?_, by rw [hd, hw], ?_⟩
  · match as, h2 with
    | a :: b :: l, _ =>
      show SMat.concatenate fuel (SMat.herm lower a :: SMat.herm lower b :: l.map (SMat.herm lower)) = _
      rw [SMat.concatenate]
      · rw [if_neg (by simp [SMat.isZero]), if_neg (by simp [SMat.isDiag]), if_neg (by simp [SMat.isTri]), if_pos (by simp [SMat.isHerm])]
        have : (SMat.herm lower a).nested :: (SMat.herm lower b :: l.map (SMat.herm lower)).map
            (fun x => if x.hermLower = (SMat.herm lower a).hermLower then x.nested else SMat.transposeTen x.nested) = a :: b :: l := by
          simp [SMat.nested, SMat.hermLower, Function.comp_def]
        rw [this, h1]
        rfl
      · simp
  · intro i hi j hj
    rw [blockDiag_herm lower as hsq i j hi hj]
    cases lower
    · show (if i ≤ j then m.get [i, j] else (m.get [j, i]).map star) = _
      rw [hg i hi j (by omega), hg j hj i (by omega)]; rfl
    · show (if j ≤ i then m.get [i, j] else (m.get [j, i]).map star) = _
      rw [hg i hi j (by omega), hg j hj i (by omega)]; rfl

/-- A complex Hermitian matrix stored in the upper triangle, concatenated after one stored in the lower triangle, comes out conjugated. -/
theorem C40_concatenate_hermitian_violated :
    ∃ m, SMat.concatenate 100 [SMat.herm true ⟨[1, 1], fun _ => some (1 : ℂ), fun _ => 1⟩,
        SMat.herm false ⟨[2, 2], fun ix => some (if ix = [0, 1] then Complex.I else 1), fun _ => 1⟩] = .ok m ∧
      m.val 1 2 = some (-Complex.I) ∧
      (SMat.herm false ⟨[2, 2], fun ix => some (if ix = [0, 1] then Complex.I else (1 : ℂ)), fun _ => 1⟩).val 0 1 = some Complex.I ∧ (-Complex.I ≠ Complex.I) := by
  refine ⟨_, rfl, ?_, ?_, ?_⟩
  · show Option.map star (some Complex.I) = _
    simp
  · rfl
  · intro h
    have := congrArg Complex.im h
    simp at this
    norm_num at this

/-- Diagonal matrices cannot be concatenated: the code does not compile. -/
theorem C40_concatenate_diagonal_matrices_violated [Zero F] (fuel : ℕ) (v w : Ten F) :
    SMat.concatenate fuel [SMat.diag v, SMat.diag w] = .error .illFormed := by
  rw [SMat.concatenate]
  · rw [if_neg (by simp [SMat.isZero]), if_pos (by simp [SMat.isDiag])]
  · simp

/-- A diagonal matrix between triangular ones is laid down as the column it is stored in: the result has fewer columns than the operands together. -/
theorem C40_concatenate_mixed_violated :
    ∃ m, SMat.concatenate 100 [SMat.tri true (exM 2 2 0), SMat.diag (exM 2 1 50), SMat.tri true (exM 2 2 0)] = .ok m ∧ m.dims = (6, 5) ∧ m.dims ≠ (6, 6) := by
  refine ⟨_, rfl, rfl, by decide⟩

/-- Concatenating zero matrices of any shapes diagonally gives the zero matrix with as many rows, and as many columns, as the operands together. -/
theorem C40_concatenate_zero [Zero F] (fuel : ℕ) (as : List (ℕ × ℕ)) (h2 : 2 ≤ as.length) :
    SMat.concatenate fuel (as.map fun p => (SMat.zero p.1 p.2 : SMat F)) = .ok (SMat.zero (as.map Prod.fst).sum (as.map Prod.snd).sum) := by
  match as, h2 with
  | a :: b :: l, _ =>
    show SMat.concatenate fuel (SMat.zero a.1 a.2 :: SMat.zero b.1 b.2 :: l.map fun p => (SMat.zero p.1 p.2 : SMat F)) = _
    rw [SMat.concatenate]
    · rw [if_pos (by simp [SMat.isZero])]
      simp [SMat.dims, Function.comp_def]
    · simp

example : SMat.concatenate 9 [SMat.zero 2 3, SMat.zero 1 4] = .ok (SMat.zero 3 7 : SMat ℂ) := C40_concatenate_zero 9 [(2, 3), (1, 4)] (by simp)

end OpenKalman.Slices
