import Verif.Proof.CovBlocks
import Verif.Theorems.CovArith

/-!
# C63: concatenating and splitting covariances
-/

set_option linter.unusedSectionVars false

namespace OpenKalman.CovArith
open Matrix
open scoped ComplexOrder MatrixOrder

variable {𝕜 : Type} [RCLike 𝕜] {n m : ℕ} {lib : Lib 𝕜}

/-- C63, concatenation of any number of covariances, or of square roots: where it is well formed, the result stands for the block-diagonal matrix.  Missing: mixing
covariances with square roots (`C63_concatenate_mixed_violated`), complex self-adjoint matrices stored in different triangles (`C63_concatenate_complex_violated`), and
square roots stored as squares in different triangles.  (`up` is the common triangle; it does not matter for real covariances.) -/
theorem C63_concatenate_partial {root up : Bool} (a : Σ n, Cov 𝕜 n) (bs : List (Σ n, Cov 𝕜 n)) (ha : a.2.WF) (hm : MatchingAll root up a) (hb : ∀ b ∈ bs, b.2.WF ∧ MatchingAll root up b)
    {A : Mat 𝕜 a.1} {Bs : List (Σ n, Mat 𝕜 n)} (hA : a.2.Represents A)
    (hB : List.Forall₂ (fun b B => ∃ M : Mat 𝕜 b.1, B = (⟨b.1, M⟩ : Σ n, Mat 𝕜 n) ∧ b.2.Represents M) bs Bs) {c : Σ n, Cov 𝕜 n} (h : Cov.concatAll a bs = some c) :
    c.2.WF ∧ c.2.root = root ∧ ∃ C : Mat 𝕜 c.1, IsBlockDiagAll ⟨a.1, A⟩ Bs ⟨c.1, C⟩ ∧ c.2.Represents C :=
  concatAll_sound bs a ha hm hb A Bs hA hB c h

/-- C63: concatenation is well formed for triangular matrices on the same side and for self-adjoint ones. -/
theorem C63_concatenate_defined (a : Cov 𝕜 n) (b : Cov 𝕜 m) (h : (∃ up, a.form = .tri up ∧ b.form = .tri up) ∨ ∃ up up', a.form = .herm up ∧ b.form = .herm up') :
    (a.concat b).isSome = true := by
  unfold Cov.concat
  split_ifs
  · rfl
  · rcases h with ⟨up, e1, e2⟩ | ⟨up, up', e1, e2⟩
    · simp only [e1, e2]; rfl
    · simp only [e1, e2]; rfl

/-- C63, splitting: each piece of a self-adjoint or diagonal covariance, or of a triangular square root, stands for the diagonal block.  For a covariance in Cholesky form this holds if the
factor has no entries outside the block.  Missing: Cholesky factors in general (`C63_split_cholesky_violated`), one-dimensional pieces of a diagonal square root (`C63_split_root_violated`); square roots stored as squares are in
`C63_split_square_root`. -/
theorem C63_split_partial {c : Cov 𝕜 n} (hc : c.WF) {off k : ℕ} (hs : Splittable c off k) {M : Mat 𝕜 n} (hM : c.Represents M) (h : off + k ≤ n) :
    (c.splitBlock lib off k h).WF ∧ (c.splitBlock lib off k h).root = c.root ∧ ∃ B : Mat 𝕜 k, IsBlockAt M off B ∧ (c.splitBlock lib off k h).Represents B :=
  have r := splitBlock_sound (lib := lib) hc hs hM h
  ⟨r.1, r.2.1, _, blockOf_at M off k h, r.2.2⟩

/-- C63, splitting a square root stored as its square: each piece is the Cholesky factor of the diagonal block of the square. -/
theorem C63_split_square_root (ok : lib.Ok) {c : Cov 𝕜 n} {up : Bool} (hr : c.root = true) (hf : c.form = .herm up) (hp : c.nested.PosDef) {M : Mat 𝕜 n} (hM : c.Represents M)
    {off k : ℕ} (h : off + k ≤ n) : (c.splitBlock lib off k h).WF ∧ (c.splitBlock lib off k h).root = true ∧
      ∃ B : Mat 𝕜 k, IsBlockAt (gram up M) off B ∧ ∀ R, (c.splitBlock lib off k h).Represents R ↔ IsChol up B R :=
  have r := splitBlock_root ok hr hf hp hM h
  ⟨r.1, r.2.1, _, blockOf_at _ off k h, r.2.2⟩

/-- C63: splitting undoes concatenation, for operands of the same kind (any number of them, any sizes including one): the pieces stand for the matrices that the operands stand for. -/
theorem C63_split_concatenate (ok : lib.Ok) (a : Σ n, Cov 𝕜 n) (bs : List (Σ n, Cov 𝕜 n)) (hz : a.2.zero = false) (hk : ∀ b ∈ bs, b.2.root = a.2.root ∧ b.2.form = a.2.form)
    (hw : ∀ b ∈ a :: bs, b.2.WF ∧ b.2.Definite) (hd : a.2.form ≠ .diag) {c : Σ n, Cov 𝕜 n} (h : Cov.concatAll a bs = some c) :
    ∃ rs, c.2.split lib ((a :: bs).map (·.1)) = some rs ∧ List.Forall₂ (fun (b r : Σ n, Cov 𝕜 n) =>
      ∃ d : Cov 𝕜 b.1, r = ⟨b.1, d⟩ ∧ d.WF ∧ d.root = b.2.root ∧ ∀ M, b.2.Represents M → d.Represents M) (a :: bs) rs := by
  obtain ⟨cr, cf, ⟨hle, hblk⟩, hrest⟩ := splitFrom_concatAll (lib := lib) bs a c hz hk h
  refine ⟨(a :: bs).map fun b => ⟨b.1, b.2.splitBlock lib 0 b.1 (by omega)⟩, ?_, ?_⟩
  · have e : c.2.splitBlock lib 0 a.1 hle = a.2.splitBlock lib 0 a.1 (by omega) :=
      splitBlock_congr cr cf _ _ (by rw [blockOf_self]; exact hblk)
    show (if h : 0 + a.1 ≤ c.1 then (c.2.splitFrom lib (0 + a.1) (bs.map (·.1))).map (⟨a.1, c.2.splitBlock lib 0 a.1 h⟩ :: ·) else none) = _
    have e0 : c.2.splitFrom lib (0 + a.1) (bs.map (·.1)) = c.2.splitFrom lib a.1 (bs.map (·.1)) := by rw [Nat.zero_add]
    rw [dif_pos hle, e, e0, hrest]
    rfl
  · rw [List.forall₂_map_right_iff, List.forall₂_same]
    intro b hb
    have hbf : b.2.form ≠ .diag := by
      rcases List.mem_cons.mp hb with rfl | hb
      · exact hd
      · rw [(hk b hb).2]; exact hd
    by_cases hM : ∃ M, b.2.Represents M
    · obtain ⟨M, hM⟩ := hM
      have r := splitBlock_self (lib := lib) ok (hw b hb).1 (hw b hb).2 (fun _ h => absurd h hbf) hM (by omega)
      exact ⟨_, rfl, r.1, r.2.1, fun M' hM' => (splitBlock_self (lib := lib) ok (hw b hb).1 (hw b hb).2 (fun _ h => absurd h hbf) hM' (by omega)).2.2⟩
    · obtain ⟨hw1, hw2⟩ := hw b hb
      exfalso
      apply hM
      obtain ⟨k, ⟨r, f, N, z, i⟩⟩ := b
      cases r with
      | false => cases f <;> exact ⟨_, rfl⟩
      | true =>
        cases f with
        | herm up => exact ⟨_, ok.chol N up (hw2 rfl up rfl)⟩
        | diag => exact ⟨_, rfl⟩
        | cdiag => exact ⟨_, rfl⟩
        | tri up => exact ⟨_, rfl⟩

/-! ### Where the code does otherwise -/

/-- Splitting a covariance stored as a Cholesky factor: the factor `[1 0; 1 1]` stands for `[1 1; 1 2]`, whose second diagonal entry is `2`; the second piece stands for `1`.  In self-adjoint form it stands for `2`. -/
theorem C63_split_cholesky_violated (lib : Lib ℝ) : ∃ c d : Cov ℝ 2, ∃ M : Mat ℝ 2, c.WF ∧ d.WF ∧ c.Represents M ∧ d.Represents M ∧ IsBlockAt M 1 (one1 (2 : ℝ)) ∧
    (c.splitBlock lib 1 1 (by omega)).Represents (one1 1) ∧ ¬ (c.splitBlock lib 1 1 (by omega)).Represents (one1 2) ∧ (d.splitBlock lib 1 1 (by omega)).Represents (one1 2) := by
  let L : Mat ℝ 2 := !![1, 0; 1, 1]
  have hg : gram false L = !![1, 1; 1, 2] := by
    ext i j
    show ∑ x, L i x * star (L j x) = _
    rw [Fin.sum_univ_two]
    fin_cases i <;> fin_cases j <;> norm_num [L]
  have e : Cov.splitBlock lib ⟨false, .tri false, L, false, false⟩ 1 1 (by omega) = ⟨false, .diag, one1 1, false, false⟩ := by
    have : blockOf L 1 1 (by omega) * (blockOf L 1 1 (by omega))ᴴ = one1 1 := by
      ext i j
      obtain rfl := Subsingleton.elim i 0
      obtain rfl := Subsingleton.elim j 0
      simp [Matrix.mul_apply, blockOf, L, one1]
    rw [← this]
    rfl
  refine ⟨⟨false, .tri false, L, false, false⟩, ⟨false, .herm false, !![1, 1; 1, 2], false, false⟩, !![1, 1; 1, 2], ⟨?_, by simp, by simp⟩, ⟨?_, by simp, by simp⟩, hg.symm, rfl,
    ⟨by omega, fun i j => ?_⟩, ?_, ?_, ?_⟩
  · intro i j h
    fin_cases i <;> fin_cases j <;> simp at h
    rfl
  · ext i j; fin_cases i <;> fin_cases j <;> simp
  · obtain rfl := Subsingleton.elim i 0
    obtain rfl := Subsingleton.elim j 0
    simp [one1]
  · rw [e]; rfl
  · rw [e]
    intro h
    have h : one1 (2 : ℝ) = one1 1 := h
    have := one1_inj h
    norm_num at this
  · show one1 2 = blockOf !![1, 1; 1, 2] 1 1 (by omega)
    ext i j
    obtain rfl := Subsingleton.elim i 0
    obtain rfl := Subsingleton.elim j 0
    simp [blockOf, one1]

/-- Splitting a diagonal square root into one-dimensional pieces takes a square root once more: the first piece of `diag(4, 1)` stands for `2`. -/
theorem C63_split_root_violated {lib : Lib ℝ} (ok : lib.Ok) : ∃ c : Cov ℝ 2, c.WF ∧ c.root = true ∧ c.Represents (diagonal ![4, 1]) ∧ IsBlockAt (diagonal ![4, 1]) 0 (one1 (4 : ℝ)) ∧
    (c.splitBlock lib 0 1 (by omega)).Represents (one1 2) ∧ ¬ (c.splitBlock lib 0 1 (by omega)).Represents (one1 4) := by
  let c : Cov ℝ 2 := ⟨true, .diag, diagonal ![4, 1], false, false⟩
  have hb : blockOf (diagonal ![(4 : ℝ), 1]) 0 1 (by omega) = one1 4 := by
    ext i j
    obtain rfl := Subsingleton.elim i 0
    obtain rfl := Subsingleton.elim j 0
    simp [blockOf, one1]
  have hp : (one1 (4 : ℝ)).PosDef := rootHerm_definite rfl false rfl
  have hch : lib.chol false (one1 4) = one1 2 := isChol_unique hp (ok.chol _ _ hp) rootHerm_ok.2
  have e : c.splitBlock lib 0 1 (by omega) = ⟨true, .diag, one1 2, false, false⟩ := by
    rw [← hch, ← hb]
    rfl
  refine ⟨c, ⟨⟨isDiag_diagonal _, isHermitian_diagonal _⟩, by simp [c], by simp [c]⟩, rfl, rfl, ⟨by omega, fun i j => ?_⟩, ?_, ?_⟩
  · rw [← hb]; rfl
  · rw [e]; rfl
  · rw [e]
    intro h
    have h : one1 (4 : ℝ) = one1 2 := h
    have := one1_inj h
    norm_num at this

/-- Concatenating a covariance `4` and a square root `3` (both stored as triangles) wraps both as factors of a covariance: the second block becomes `9`. -/
theorem C63_concatenate_mixed_violated : ∃ a b : Cov ℝ 1, a.WF ∧ b.WF ∧ a.Represents (one1 4) ∧ b.Represents (one1 3) ∧
    ∃ c, a.concat b = some c ∧ c.Represents (catMat (one1 4) (one1 9)) ∧ ¬ c.Represents (catMat (one1 4) (one1 3)) := by
  have e : gram false (catMat (one1 (2 : ℝ)) (one1 3)) = catMat (one1 4) (one1 9) := by
    rw [catMat_gram, one1_gram, one1_gram]; norm_num
  refine ⟨⟨false, .tri false, one1 2, false, false⟩, ⟨true, .tri false, one1 3, false, false⟩, ⟨isTri_one1 _ _, by simp, by simp⟩, ⟨isTri_one1 _ _, by simp, by simp⟩, ?_, rfl,
    ⟨false, .tri false, catMat (one1 2) (one1 3), false, false⟩, rfl, e.symm, ?_⟩
  · show one1 4 = gram false (one1 2)
    rw [one1_gram]; norm_num
  · intro h
    have h : catMat (one1 (4 : ℝ)) (one1 3) = gram false (catMat (one1 2) (one1 3)) := h
    rw [e] at h
    have := congrFun (congrFun h (Fin.natAdd 1 0)) (Fin.natAdd 1 0)
    rw [catMat_rr, catMat_rr] at this
    norm_num [one1] at this

/-- Concatenating complex self-adjoint matrices stored in different triangles conjugates the second. -/
theorem C63_concatenate_complex_violated : ∃ (a : Cov ℂ 1) (b : Cov ℂ 2) (A : Mat ℂ 1) (B : Mat ℂ 2), a.WF ∧ b.WF ∧ a.root = b.root ∧ a.Represents A ∧ b.Represents B ∧
    ∃ c, a.concat b = some c ∧ ¬ c.Represents (catMat A B) := by
  let B : Mat ℂ 2 := !![1, Complex.I; -Complex.I, 1]
  refine ⟨⟨false, .herm false, one1 1, false, false⟩, ⟨false, .herm true, B, false, false⟩, one1 1, B, ⟨one1_herm (by simp), by simp, by simp⟩, ⟨?_, by simp, by simp⟩, rfl, rfl, rfl,
    ⟨false, .herm false, catMat (one1 1) Bᵀ, false, false⟩, rfl, ?_⟩
  · ext i j; fin_cases i <;> fin_cases j <;> simp [B]
  · intro h
    have h : catMat (one1 1) B = catMat (one1 1) Bᵀ := h
    have := congrFun (congrFun h (Fin.natAdd 1 0)) (Fin.natAdd 1 1)
    rw [catMat_rr, catMat_rr] at this
    have := congrArg Complex.im this
    norm_num [B] at this

/-! ### The hypotheses can be met -/

/-- Three lower triangular covariances, one of them one-dimensional. -/
noncomputable def exCat : List (Σ n, Cov ℝ n) := [⟨1, ⟨false, .tri false, one1 2, false, false⟩⟩, ⟨2, exLow⟩]

example : ∃ c, Cov.concatAll ⟨2, exLow⟩ exCat = some c ∧ ∃ rs, c.2.split someLib [2, 1, 2] = some rs ∧ rs.length = 3 := by
  have hc : ∃ c, Cov.concatAll ⟨2, exLow⟩ exCat = some c := ⟨_, rfl⟩
  obtain ⟨c, hc⟩ := hc
  obtain ⟨rs, h1, h2⟩ := C63_split_concatenate someLib_ok ⟨2, exLow⟩ exCat rfl (by intro b hb; simp [exCat] at hb; rcases hb with rfl | rfl <;> exact ⟨rfl, rfl⟩)
    (by
      intro b hb
      simp only [exCat, List.mem_cons, List.not_mem_nil, or_false] at hb
      rcases hb with rfl | rfl | rfl
      · exact ⟨exLow_ok.1, fun h => absurd h (by simp [exLow])⟩
      · exact ⟨⟨isTri_one1 _ _, by simp, by simp⟩, fun h => absurd h (by simp)⟩
      · exact ⟨exLow_ok.1, fun h => absurd h (by simp [exLow])⟩) (by simp [exLow]) hc
  exact ⟨c, hc, rs, h1, h2.length_eq.symm⟩

end OpenKalman.CovArith
