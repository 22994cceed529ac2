import Verif.Spec.CovBlocks
import Verif.Model.CovBlocks
import Verif.Proof.CovArith

/-!
# Lemmas: concatenating and splitting covariances
-/

set_option linter.unusedSectionVars false

namespace OpenKalman.CovArith
open Matrix
open scoped ComplexOrder MatrixOrder

variable {𝕜 : Type} [RCLike 𝕜] {n m : ℕ}

@[simp] theorem catMat_ll (A : Mat 𝕜 n) (B : Mat 𝕜 m) (i j : Fin n) : catMat A B (Fin.castAdd m i) (Fin.castAdd m j) = A i j := by simp [catMat]
@[simp] theorem catMat_rr (A : Mat 𝕜 n) (B : Mat 𝕜 m) (i j : Fin m) : catMat A B (Fin.natAdd n i) (Fin.natAdd n j) = B i j := by simp [catMat]
@[simp] theorem catMat_lr (A : Mat 𝕜 n) (B : Mat 𝕜 m) (i : Fin n) (j : Fin m) : catMat A B (Fin.castAdd m i) (Fin.natAdd n j) = 0 := by simp [catMat]
@[simp] theorem catMat_rl (A : Mat 𝕜 n) (B : Mat 𝕜 m) (i : Fin m) (j : Fin n) : catMat A B (Fin.natAdd n i) (Fin.castAdd m j) = 0 := by simp [catMat]

theorem catMat_block (A : Mat 𝕜 n) (B : Mat 𝕜 m) : IsBlockDiag A B (catMat A B) := ⟨by simp, by simp, by simp, by simp⟩

theorem block_unique {A : Mat 𝕜 n} {B : Mat 𝕜 m} {C : Mat 𝕜 (n + m)} (h : IsBlockDiag A B C) : C = catMat A B := by
  ext i j
  refine Fin.addCases (fun i => ?_) (fun i => ?_) i <;> refine Fin.addCases (fun j => ?_) (fun j => ?_) j
  · rw [h.1, catMat_ll]
  · rw [h.2.2.1, catMat_lr]
  · rw [h.2.2.2, catMat_rl]
  · rw [h.2.1, catMat_rr]

theorem catMat_mul (A A' : Mat 𝕜 n) (B B' : Mat 𝕜 m) : catMat A B * catMat A' B' = catMat (A * A') (B * B') := by
  refine block_unique ⟨fun i j => ?_, fun i j => ?_, fun i j => ?_, fun i j => ?_⟩ <;>
    simp [Matrix.mul_apply, Fin.sum_univ_add]

theorem catMat_star (A : Mat 𝕜 n) (B : Mat 𝕜 m) : (catMat A B)ᴴ = catMat Aᴴ Bᴴ := by
  refine block_unique ⟨fun i j => ?_, fun i j => ?_, fun i j => ?_, fun i j => ?_⟩ <;> simp [conjTranspose_apply]

theorem catMat_zero : catMat (0 : Mat 𝕜 n) (0 : Mat 𝕜 m) = 0 :=
  (block_unique (C := (0 : Mat 𝕜 (n + m))) ⟨fun _ _ => rfl, fun _ _ => rfl, fun _ _ => rfl, fun _ _ => rfl⟩).symm

theorem catMat_gram (up : Bool) (A : Mat 𝕜 n) (B : Mat 𝕜 m) : gram up (catMat A B) = catMat (gram up A) (gram up B) := by
  cases up <;> simp [gram, catMat_star, catMat_mul]

theorem catMat_tri {up : Bool} {A : Mat 𝕜 n} {B : Mat 𝕜 m} (hA : IsTri up A) (hB : IsTri up B) : IsTri up (catMat A B) := by
  intro i j
  refine Fin.addCases (fun i => ?_) (fun i => ?_) i <;> refine Fin.addCases (fun j => ?_) (fun j => ?_) j <;> intro h
  · rw [catMat_ll]; refine hA i j ?_
    cases up <;> (simp only [Bool.false_eq_true, if_false, if_true, Fin.lt_def, Fin.val_castAdd] at h ⊢; omega)
  · simp
  · simp
  · rw [catMat_rr]; refine hB i j ?_
    cases up <;> (simp only [Bool.false_eq_true, if_false, if_true, Fin.lt_def, Fin.val_natAdd] at h ⊢; omega)

theorem catMat_chol {up : Bool} {P K : Mat 𝕜 n} {Q L : Mat 𝕜 m} (hA : IsChol up P K) (hB : IsChol up Q L) : IsChol up (catMat P Q) (catMat K L) := by
  refine ⟨catMat_tri hA.1 hB.1, by rw [catMat_gram, hA.2.1, hB.2.1], fun i => ?_⟩
  refine Fin.addCases (fun i => ?_) (fun i => ?_) i
  · rw [catMat_ll]; exact hA.2.2 i
  · rw [catMat_rr]; exact hB.2.2 i

theorem catMat_herm {A : Mat 𝕜 n} {B : Mat 𝕜 m} (hA : A.IsHermitian) (hB : B.IsHermitian) : (catMat A B).IsHermitian := by
  show _ᴴ = _
  rw [catMat_star, hA.eq, hB.eq]

/-- What the operands of a concatenation have to agree on. -/
def Matching (a : Cov 𝕜 n) (b : Cov 𝕜 m) : Prop :=
  a.root = b.root ∧ ∀ up up', a.form = .herm up → b.form = .herm up' → up = up' ∨ (a.root = false ∧ ∀ x : 𝕜, star x = x)

theorem concat_sound {a : Cov 𝕜 n} {b : Cov 𝕜 m} (ha : a.WF) (hb : b.WF) (hm : Matching a b) {A : Mat 𝕜 n} {B : Mat 𝕜 m} (hA : a.Represents A)
    (hB : b.Represents B) {c : Cov 𝕜 (n + m)} (h : a.concat b = some c) : c.WF ∧ c.root = a.root ∧ c.Represents (catMat A B) := by
  obtain ⟨hr, hu⟩ := hm
  unfold Cov.concat at h
  by_cases hz : (a.zero && b.zero) = true
  · rw [if_pos hz] at h
    injection h with h
    subst h
    rw [Bool.and_eq_true] at hz
    have ea := represents_zero (a := .cov a) ha hz.1 hA
    have eb := represents_zero (a := .cov b) hb hz.2 hB
    refine ⟨⟨⟨isDiag_zero, isHermitian_zero⟩, fun _ => ⟨rfl, rfl⟩, fun h => absurd h (by simp)⟩, rfl, ?_⟩
    subst ea eb
    rw [catMat_zero]
    cases hroot : a.root <;> rfl
  rw [if_neg hz] at h
  obtain ⟨r, f, N, z, i⟩ := a
  obtain ⟨r', f', N', z', i'⟩ := b
  obtain rfl : r = r' := hr
  cases f with
  | diag => cases f' <;> cases (show (none : Option (Cov 𝕜 (n + m))) = some c from h)
  | cdiag => cases f' <;> cases (show (none : Option (Cov 𝕜 (n + m))) = some c from h)
  | tri up =>
    cases f' with
    | diag => cases (show (none : Option (Cov 𝕜 (n + m))) = some c from h)
    | cdiag => cases (show (none : Option (Cov 𝕜 (n + m))) = some c from h)
    | herm up' => cases (show (none : Option (Cov 𝕜 (n + m))) = some c from h)
    | tri up' =>
      have h2 : (if up = up' then some (⟨r, .tri up, catMat N N', false, false⟩ : Cov 𝕜 (n + m)) else none) = some c := h
      by_cases e : up = up'
      swap
      · rw [if_neg e] at h2; cases h2
      rw [if_pos e] at h2
      subst e
      obtain rfl := Option.some.inj h2
      refine ⟨⟨catMat_tri ha.1 hb.1, fun h => absurd h (by simp), fun h => absurd h (by simp)⟩, rfl, ?_⟩
      cases r with
      | true =>
        obtain rfl : A = N := hA
        obtain rfl : B = N' := hB
        rfl
      | false =>
        obtain rfl : A = gram up N := hA
        obtain rfl : B = gram up N' := hB
        exact (catMat_gram _ _ _).symm
  | herm up =>
    cases f' with
    | diag => cases (show (none : Option (Cov 𝕜 (n + m))) = some c from h)
    | cdiag => cases (show (none : Option (Cov 𝕜 (n + m))) = some c from h)
    | tri up' => cases (show (none : Option (Cov 𝕜 (n + m))) = some c from h)
    | herm up' =>
      have h2 : some (⟨r, .herm up, catMat N (if up = up' then N' else N'ᵀ), false, false⟩ : Cov 𝕜 (n + m)) = some c := h
      obtain rfl := Option.some.inj h2
      have hN : N.IsHermitian := ha.1
      have hN' : N'.IsHermitian := hb.1
      rcases hu up up' rfl rfl with rfl | ⟨hr0, hreal⟩
      · rw [if_pos rfl]
        refine ⟨⟨catMat_herm hN hN', fun h => absurd h (by simp), fun h => absurd h (by simp)⟩, rfl, ?_⟩
        cases r with
        | true => exact catMat_chol hA hB
        | false =>
          obtain rfl : A = N := hA
          obtain rfl : B = N' := hB
          rfl
      · obtain rfl : r = false := hr0
        have e : N'ᵀ = N' := by
          have : N'ᴴ = N'ᵀ := by ext i j; exact hreal _
          rw [← this]; exact hN'
        rw [e, ite_self]
        refine ⟨⟨catMat_herm hN hN', fun h => absurd h (by simp), fun h => absurd h (by simp)⟩, rfl, ?_⟩
        obtain rfl : A = N := hA
        obtain rfl : B = N' := hB
        rfl

/-- Operands that all agree with the first (and with each other). -/
def MatchingAll (root : Bool) (up : Bool) (b : Σ n, Cov 𝕜 n) : Prop := b.2.root = root ∧ ∀ up', b.2.form = .herm up' → up' = up ∨ (root = false ∧ ∀ x : 𝕜, star x = x)

theorem concat_form {a : Cov 𝕜 n} {b : Cov 𝕜 m} {c : Cov 𝕜 (n + m)} (h : a.concat b = some c) : c.root = a.root ∧ ∀ up, c.form = .herm up → a.form = .herm up := by
  unfold Cov.concat at h
  split_ifs at h
  · injection h with h; subst h; exact ⟨rfl, fun up h => absurd h (by simp)⟩
  · split at h
    · split_ifs at h; injection h with h; subst h; exact ⟨rfl, fun up h => absurd h (by simp)⟩
    · rename_i up up' e1 e2
      injection h with h; subst h; exact ⟨rfl, fun up h => by rw [e1]; exact h⟩
    · exact absurd h (by simp)

theorem concatAll_sound {root up : Bool} : ∀ (bs : List (Σ n, Cov 𝕜 n)) (a : Σ n, Cov 𝕜 n), a.2.WF → MatchingAll root up a → (∀ b ∈ bs, b.2.WF ∧ MatchingAll root up b) →
    ∀ (A : Mat 𝕜 a.1) (Bs : List (Σ n, Mat 𝕜 n)), a.2.Represents A →
    List.Forall₂ (fun b B => ∃ M : Mat 𝕜 b.1, B = (⟨b.1, M⟩ : Σ n, Mat 𝕜 n) ∧ b.2.Represents M) bs Bs → ∀ c, Cov.concatAll a bs = some c →
    c.2.WF ∧ c.2.root = root ∧ ∃ C : Mat 𝕜 c.1, IsBlockDiagAll ⟨a.1, A⟩ Bs ⟨c.1, C⟩ ∧ c.2.Represents C := by
  intro bs
  induction bs with
  | nil =>
    intro a hw hm _ A Bs hA hB c h
    cases hB
    have h : some a = some c := h
    injection h with h
    subst h
    exact ⟨hw, hm.1, A, rfl, hA⟩
  | cons b bs ih =>
    intro a hw hm hall A Bs hA hB c h
    cases hB with
    | cons hb hB =>
      obtain ⟨B, rfl, hBr⟩ := hb
      obtain ⟨d, hd, h⟩ := Option.bind_eq_some_iff.mp h
      have hbm := hall b (List.mem_cons_self ..)
      have hmatch : Matching a.2 b.2 := by
        refine ⟨hm.1.trans hbm.2.1.symm, fun u u' e e' => ?_⟩
        rcases hm.2 u e with rfl | h1
        · rcases hbm.2.2 u' e' with rfl | h2
          · exact Or.inl rfl
          · exact Or.inr ⟨hm.1.trans h2.1, h2.2⟩
        · exact Or.inr ⟨hm.1.trans h1.1, h1.2⟩
      obtain ⟨dw, dr, dM⟩ := concat_sound hw hbm.1 hmatch hA hBr hd
      obtain ⟨cw, cr, C, hC, hCr⟩ := ih ⟨_, d⟩ dw ⟨dr.trans hm.1, fun u e => hm.2 u ((concat_form hd).2 u e)⟩ (fun x hx => hall x (List.mem_cons_of_mem _ hx)) (catMat A B) _ dM hB c h
      exact ⟨cw, cr, C, ⟨catMat A B, catMat_block A B, hC⟩, hCr⟩

/-! ### Splitting -/

theorem blockOf_at (A : Mat 𝕜 n) (off k : ℕ) (h : off + k ≤ n) : IsBlockAt A off (blockOf A off k h) := ⟨h, fun _ _ => rfl⟩

theorem blockOf_herm {A : Mat 𝕜 n} (hA : A.IsHermitian) {off k : ℕ} (h : off + k ≤ n) : (blockOf A off k h).IsHermitian := hA.submatrix _

theorem blockOf_diag {A : Mat 𝕜 n} (hA : A.IsDiag) {off k : ℕ} (h : off + k ≤ n) : (blockOf A off k h).IsDiag :=
  fun i j hij => hA (by intro e; apply hij; have := congrArg Fin.val e; simp at this; exact Fin.ext this)

theorem blockOf_tri {up : Bool} {A : Mat 𝕜 n} (hA : IsTri up A) {off k : ℕ} (h : off + k ≤ n) : IsTri up (blockOf A off k h) := by
  intro i j hij
  refine hA _ _ ?_
  cases up <;> (simp only [Bool.false_eq_true, if_false, if_true, Fin.lt_def] at hij ⊢; omega)

/-- A sum over rows of which only a block matters. -/
theorem sum_block {off k : ℕ} (h : off + k ≤ n) (f : Fin n → 𝕜) (hf : ∀ j : Fin n, ¬ (off ≤ j.1 ∧ j.1 < off + k) → f j = 0) :
    ∑ j, f j = ∑ j : Fin k, f ⟨off + j, by omega⟩ := by
  refine (Finset.sum_of_injOn (fun j : Fin k => (⟨off + j, by omega⟩ : Fin n)) (fun a _ b _ e => ?_) (fun _ _ => Finset.mem_coe.mpr (Finset.mem_univ _)) (fun j _ hj => ?_) (fun _ _ => rfl)).symm
  · have := congrArg Fin.val e; simp at this; exact Fin.ext this
  · apply hf
    rintro ⟨h1, h2⟩
    apply hj
    exact ⟨⟨j.1 - off, by omega⟩, by simp, Fin.ext (by simp; omega)⟩

theorem blockOf_gram {up : Bool} {A : Mat 𝕜 n} {off k : ℕ} (h : off + k ≤ n) (hiso : Isolated A off k) :
    gram up (blockOf A off k h) = blockOf (gram up A) off k h := by
  ext i j
  cases up
  · show ∑ x, blockOf A off k h i x * star (blockOf A off k h j x) = ∑ x, A ⟨off + i, _⟩ x * star (A ⟨off + j, _⟩ x)
    rw [sum_block h (fun x => A ⟨off + i, by omega⟩ x * star (A ⟨off + j, by omega⟩ x))]
    · rfl
    · intro x hx; rw [(hiso _ x (by simp) hx).1, zero_mul]
  · show ∑ x, star (blockOf A off k h x i) * (blockOf A off k h x j) = ∑ x, star (A x ⟨off + i, _⟩) * A x ⟨off + j, _⟩
    rw [sum_block h (fun x => star (A x ⟨off + i, by omega⟩) * A x ⟨off + j, by omega⟩)]
    · rfl
    · intro x hx; rw [(hiso ⟨off + j, by omega⟩ x (by simp) hx).2, mul_zero]

theorem isDiag_of_one {A : Mat 𝕜 1} : A.IsDiag := fun i j h => absurd (Subsingleton.elim i j) h

theorem gram_one (up : Bool) (A : Mat 𝕜 1) : gram up A = A * Aᴴ := by
  cases up
  · rfl
  · ext i j
    obtain rfl := Subsingleton.elim i 0
    obtain rfl := Subsingleton.elim j 0
    simp [gram, Matrix.mul_apply, mul_comm]

theorem isHermitian_gram' (A : Mat 𝕜 n) : (A * Aᴴ).IsHermitian := isHermitian_mul_conjTranspose_self A

theorem isolated_diag {A : Mat 𝕜 n} (hA : A.IsDiag) (off k : ℕ) : Isolated A off k := by
  intro i j hi hj
  have e : i ≠ j := by rintro rfl; exact hj hi
  exact ⟨hA e, hA e.symm⟩

/-- What has to hold for a block to be cut out of the stored matrix: nothing for a self-adjoint or diagonal matrix that is not a square root, or for a triangular square root; a diagonal square
root must not be cut into one-dimensional pieces; a Cholesky factor must not have entries outside the block. -/
def Splittable (c : Cov 𝕜 n) (off k : ℕ) : Prop :=
  match c.root, c.form with
  | false, .tri _ => Isolated c.nested off k
  | true, .diag => k ≠ 1
  | true, .herm _ => False
  | _, _ => True

theorem choleskyForm_eq (c : Cov 𝕜 n) : c.choleskyForm = !c.form.hermitian := rfl

theorem splitBlock_sound {lib : Lib 𝕜} {c : Cov 𝕜 n} (hc : c.WF) {off k : ℕ} (hs : Splittable c off k) {M : Mat 𝕜 n} (hM : c.Represents M) (h : off + k ≤ n) :
    (c.splitBlock lib off k h).WF ∧ (c.splitBlock lib off k h).root = c.root ∧ (c.splitBlock lib off k h).Represents (blockOf M off k h) := by
  obtain ⟨r, f, N, z, i⟩ := c
  have nz : ∀ (r : Bool) (f : Form) (N : Mat 𝕜 k), ((⟨r, f, N, false, false⟩ : Cov 𝕜 k).zero = true → f = .diag ∧ N = 0) ∧ ((⟨r, f, N, false, false⟩ : Cov 𝕜 k).ident = true → f = .diag ∧ N = 1) :=
    fun _ _ _ => ⟨fun h => absurd h (by simp), fun h => absurd h (by simp)⟩
  have keep : ∀ {c : Cov 𝕜 n}, ¬ (k = 1 ∧ c.root = false ∧ c.choleskyForm = true) → ¬ (k = 1 ∧ c.root = true ∧ c.choleskyForm = false) →
      c.splitBlock lib off k h = ⟨c.root, c.form, blockOf c.nested off k h, false, false⟩ := by
    intro c h1 h2
    unfold Cov.splitBlock
    simp only
    rw [if_neg h1, if_neg h2]
  have sq : ∀ {c : Cov 𝕜 n}, (k = 1 ∧ c.root = false ∧ c.choleskyForm = true) →
      c.splitBlock lib off k h = ⟨false, .diag, blockOf c.nested off k h * (blockOf c.nested off k h)ᴴ, false, false⟩ := by
    intro c h1
    unfold Cov.splitBlock
    simp only
    rw [if_pos h1]
  cases r with
  | false =>
    cases f with
    | herm up =>
      rw [keep (by simp [Cov.choleskyForm, Form.hermitian]) (by simp)]
      obtain rfl : M = N := hM
      exact ⟨⟨blockOf_herm hc.1 h, nz _ _ _⟩, rfl, rfl⟩
    | diag =>
      rw [keep (by simp [Cov.choleskyForm, Form.hermitian]) (by simp)]
      obtain rfl : M = N := hM
      exact ⟨⟨⟨blockOf_diag hc.1.1 h, blockOf_herm hc.1.2 h⟩, nz _ _ _⟩, rfl, rfl⟩
    | cdiag =>
      have hM : M = gram false N := hM
      subst hM
      have hd : N.IsDiag := hc.1
      have e := blockOf_gram (up := false) h (isolated_diag hd off k)
      by_cases hk : k = 1
      · subst hk
        rw [sq ⟨rfl, rfl, rfl⟩]
        exact ⟨⟨⟨isDiag_of_one, isHermitian_gram' _⟩, nz _ _ _⟩, rfl, e.symm⟩
      · rw [keep (fun h => hk h.1) (by simp)]
        exact ⟨⟨blockOf_diag hd h, nz _ _ _⟩, rfl, e.symm⟩
    | tri up =>
      have hM : M = gram up N := hM
      subst hM
      have hi : Isolated N off k := hs
      have e := blockOf_gram (up := up) h hi
      by_cases hk : k = 1
      · subst hk
        rw [sq ⟨rfl, rfl, rfl⟩]
        rw [gram_one] at e
        exact ⟨⟨⟨isDiag_of_one, isHermitian_gram' _⟩, nz _ _ _⟩, rfl, e.symm⟩
      · rw [keep (fun h => hk h.1) (by simp)]
        exact ⟨⟨blockOf_tri hc.1 h, nz _ _ _⟩, rfl, e.symm⟩
  | true =>
    cases f with
    | herm up => exact absurd hs (fun h => h)
    | diag =>
      have hk : k ≠ 1 := hs
      rw [keep (by simp) (fun h => hk h.1)]
      obtain rfl : M = N := hM
      exact ⟨⟨⟨blockOf_diag hc.1.1 h, blockOf_herm hc.1.2 h⟩, nz _ _ _⟩, rfl, rfl⟩
    | cdiag =>
      rw [keep (by simp) (by simp [Cov.choleskyForm, Form.hermitian])]
      obtain rfl : M = N := hM
      exact ⟨⟨blockOf_diag hc.1 h, nz _ _ _⟩, rfl, rfl⟩
    | tri up =>
      rw [keep (by simp) (by simp [Cov.choleskyForm, Form.hermitian])]
      obtain rfl : M = N := hM
      exact ⟨⟨blockOf_tri hc.1 h, nz _ _ _⟩, rfl, rfl⟩

theorem posDef_block {A : Mat 𝕜 n} (hA : A.PosDef) {off k : ℕ} (h : off + k ≤ n) : (blockOf A off k h).PosDef := by
  refine hA.submatrix (fun a b e => ?_)
  have := congrArg Fin.val e
  simp at this
  exact Fin.ext this

/-- The same triangular factor serves for a one-dimensional matrix on either side. -/
theorem isChol_one {up up' : Bool} {P L : Mat 𝕜 1} (h : IsChol up P L) : IsChol up' P L := by
  refine ⟨fun i j hij => ?_, by rw [← h.2.1, gram_one, gram_one], h.2.2⟩
  obtain rfl := Subsingleton.elim i j
  cases up' <;> simp at hij

/-- A square root stored as its square: the piece is the factor of the block of the square. -/
theorem splitBlock_root {lib : Lib 𝕜} (ok : lib.Ok) {c : Cov 𝕜 n} {up : Bool} (hr : c.root = true) (hf : c.form = .herm up) (hp : c.nested.PosDef) {M : Mat 𝕜 n} (hM : c.Represents M)
    {off k : ℕ} (h : off + k ≤ n) : (c.splitBlock lib off k h).WF ∧ (c.splitBlock lib off k h).root = true ∧
      ∀ R, (c.splitBlock lib off k h).Represents R ↔ IsChol up (blockOf (gram up M) off k h) R := by
  obtain ⟨r, f, N, z, i⟩ := c
  obtain rfl : r = true := hr
  obtain rfl : f = .herm up := hf
  have hp : N.PosDef := hp
  have hg : gram up M = N := (show IsChol up N M from hM).2.1
  rw [hg]
  by_cases hk : k = 1
  · subst hk
    have e : Cov.splitBlock lib ⟨true, .herm up, N, z, i⟩ off 1 h = ⟨true, .diag, lib.chol false (blockOf N off 1 h), false, false⟩ := by
      unfold Cov.splitBlock
      simp only
      rw [if_neg (by simp), if_pos (by simp [Cov.choleskyForm, Form.hermitian])]
    have hc := ok.chol (blockOf N off 1 h) false (posDef_block hp h)
    rw [e]
    refine ⟨⟨⟨isDiag_of_one, ?_⟩, fun h => absurd h (by simp), fun h => absurd h (by simp)⟩, rfl, fun R => ⟨fun hR => ?_, fun hR => ?_⟩⟩
    · ext i j
      obtain rfl := Subsingleton.elim i j
      exact (RCLike.conj_eq_iff_im.mpr (RCLike.nonneg_iff.mp (hc.2.2 i)).2)
    · obtain rfl : R = lib.chol false (blockOf N off 1 h) := hR
      exact isChol_one hc
    · exact isChol_unique (posDef_block hp h) hR (isChol_one hc)
  · have e : Cov.splitBlock lib ⟨true, .herm up, N, z, i⟩ off k h = ⟨true, .herm up, blockOf N off k h, false, false⟩ := by
      unfold Cov.splitBlock
      simp only
      rw [if_neg (by simp), if_neg (fun h => hk h.1)]
    rw [e]
    exact ⟨⟨blockOf_herm hp.1 h, fun h => absurd h (by simp), fun h => absurd h (by simp)⟩, rfl, fun R => Iff.rfl⟩

/-! ### Splitting undoes concatenation -/

theorem blockOf_self (A : Mat 𝕜 n) (h : 0 + n ≤ n) : blockOf A 0 n h = A := by ext i j; simp [blockOf]

theorem blockOf_blockOf (A : Mat 𝕜 n) {off k off' k' : ℕ} (h : off + k ≤ n) (h' : off' + k' ≤ k) :
    blockOf (blockOf A off k h) off' k' h' = blockOf A (off + off') k' (by omega) := by
  ext i j; simp [blockOf, Nat.add_assoc]

theorem blockOf_catMat_left (A : Mat 𝕜 n) (B : Mat 𝕜 m) (h : 0 + n ≤ n + m) : blockOf (catMat A B) 0 n h = A := by
  ext i j
  have e : ∀ i : Fin n, (⟨0 + i, by omega⟩ : Fin (n + m)) = Fin.castAdd m i := fun i => Fin.ext (by simp)
  simp only [blockOf, submatrix_apply, e, catMat_ll]

theorem blockOf_catMat_right (A : Mat 𝕜 n) (B : Mat 𝕜 m) (h : n + m ≤ n + m) : blockOf (catMat A B) n m h = B := by
  ext i j
  have e : ∀ i : Fin m, (⟨n + i, by omega⟩ : Fin (n + m)) = Fin.natAdd n i := fun i => Fin.ext (by simp)
  simp only [blockOf, submatrix_apply, e, catMat_rr]

theorem concat_nested {a : Cov 𝕜 n} {b : Cov 𝕜 m} (hz : a.zero = false ∨ b.zero = false) (hf : a.form = b.form) {c : Cov 𝕜 (n + m)} (h : a.concat b = some c) :
    c.root = a.root ∧ c.form = a.form ∧ c.nested = catMat a.nested b.nested ∧ c.zero = false := by
  unfold Cov.concat at h
  rw [if_neg (by rcases hz with h | h <;> simp [h])] at h
  split at h
  · rename_i up up' e1 e2
    obtain rfl : up = up' := by rw [e1, e2] at hf; injection hf
    rw [if_pos rfl] at h
    obtain rfl := Option.some.inj h
    exact ⟨rfl, e1.symm, rfl, rfl⟩
  · rename_i up up' e1 e2
    obtain rfl : up = up' := by rw [e1, e2] at hf; injection hf
    rw [if_pos rfl] at h
    obtain rfl := Option.some.inj h
    exact ⟨rfl, e1.symm, rfl, rfl⟩
  · cases (show (none : Option (Cov 𝕜 (n + m))) = some c from h)

/-- The piece of a covariance that is cut out of a larger one depends on the form and the block only. -/
theorem splitBlock_congr {lib : Lib 𝕜} {c : Cov 𝕜 n} {d : Cov 𝕜 m} (hr : c.root = d.root) (hf : c.form = d.form) {off off' k : ℕ} (h : off + k ≤ n) (h' : off' + k ≤ m)
    (hN : blockOf c.nested off k h = blockOf d.nested off' k h') : c.splitBlock lib off k h = d.splitBlock lib off' k h' := by
  have hcf : c.choleskyForm = d.choleskyForm := by rw [choleskyForm_eq, choleskyForm_eq, hf]
  unfold Cov.splitBlock
  simp only
  rw [hr, hf, hN, hcf]

theorem splitFrom_concatAll {lib : Lib 𝕜} : ∀ (bs : List (Σ n, Cov 𝕜 n)) (a c : Σ n, Cov 𝕜 n), a.2.zero = false → (∀ b ∈ bs, b.2.root = a.2.root ∧ b.2.form = a.2.form) →
    Cov.concatAll a bs = some c → c.2.root = a.2.root ∧ c.2.form = a.2.form ∧ (∃ h : 0 + a.1 ≤ c.1, blockOf c.2.nested 0 a.1 h = a.2.nested) ∧
      c.2.splitFrom lib a.1 (bs.map (·.1)) = some (bs.map fun b => ⟨b.1, b.2.splitBlock lib 0 b.1 (by omega)⟩) := by
  intro bs
  induction bs with
  | nil =>
    intro a c _ _ h
    obtain rfl := Option.some.inj h
    exact ⟨rfl, rfl, ⟨by omega, blockOf_self _ _⟩, rfl⟩
  | cons b bs ih =>
    intro a c hz hall h
    obtain ⟨d, hd, h⟩ := Option.bind_eq_some_iff.mp h
    have hb := hall b (List.mem_cons_self ..)
    obtain ⟨dr, df, dN, dz⟩ := concat_nested (Or.inl hz) hb.2.symm hd
    obtain ⟨cr, cf, ⟨hle, hblk⟩, hrest⟩ := ih ⟨_, d⟩ c dz (fun x hx => by have := hall x (List.mem_cons_of_mem _ hx); rw [dr, df]; exact this) h
    have hle : 0 + (a.1 + b.1) ≤ c.1 := hle
    have hblk : blockOf c.2.nested 0 (a.1 + b.1) hle = d.nested := hblk
    refine ⟨cr.trans dr, cf.trans df, ⟨by omega, ?_⟩, ?_⟩
    · have := congrArg (fun X => blockOf X 0 a.1 (by omega)) hblk
      simp only [dN] at this
      rw [blockOf_blockOf, blockOf_catMat_left] at this
      exact this
    · have h1 : a.1 + b.1 ≤ c.1 := by omega
      have e : c.2.splitBlock lib a.1 b.1 h1 = b.2.splitBlock lib 0 b.1 (by omega) := by
        refine splitBlock_congr (cr.trans (dr.trans hb.1.symm)) (cf.trans (df.trans hb.2.symm)) _ _ ?_
        rw [blockOf_self]
        have := congrArg (fun X => blockOf X a.1 b.1 (le_refl _)) hblk
        simp only [dN] at this
        rw [blockOf_blockOf, blockOf_catMat_right] at this
        rw [← this]
        ext i j; simp [blockOf]
      show (if h : a.1 + b.1 ≤ c.1 then (c.2.splitFrom lib (a.1 + b.1) (bs.map (·.1))).map (⟨b.1, c.2.splitBlock lib a.1 b.1 h⟩ :: ·) else none) = _
      rw [dif_pos h1, e]
      have hrest : c.2.splitFrom lib (a.1 + b.1) (bs.map (·.1)) = _ := hrest
      rw [hrest]
      rfl

theorem isolated_all (A : Mat 𝕜 n) : Isolated A 0 n := fun i j _ hj => absurd ⟨Nat.zero_le _, by simp⟩ hj

/-- Cutting out the whole changes nothing. -/
theorem splitBlock_self {lib : Lib 𝕜} (ok : lib.Ok) {c : Cov 𝕜 n} (hc : c.WF) (dc : c.Definite) (hd : c.root = true → c.form = .diag → n ≠ 1) {M : Mat 𝕜 n} (hM : c.Represents M)
    (h : 0 + n ≤ n) : (c.splitBlock lib 0 n h).WF ∧ (c.splitBlock lib 0 n h).root = c.root ∧ (c.splitBlock lib 0 n h).Represents M := by
  by_cases hh : c.root = true ∧ ∃ up, c.form = .herm up
  · obtain ⟨hr, up, hf⟩ := hh
    obtain ⟨h1, h2, h3⟩ := splitBlock_root ok hr hf (dc hr up hf) hM h
    refine ⟨h1, h2.trans hr.symm, (h3 M).mpr ?_⟩
    rw [blockOf_self]
    obtain ⟨r, f, N, z, i⟩ := c
    obtain rfl : r = true := hr
    obtain rfl : f = .herm up := hf
    have hM : IsChol up N M := hM
    rw [hM.2.1]
    exact hM
  · have hs : Splittable c 0 n := by
      obtain ⟨r, f, N, z, i⟩ := c
      cases r <;> cases f <;> first
        | exact isolated_all N
        | exact hd rfl rfl
        | exact hh ⟨rfl, _, rfl⟩
        | trivial
    have := splitBlock_sound (lib := lib) hc hs hM h
    rw [blockOf_self] at this
    exact this

end OpenKalman.CovArith
