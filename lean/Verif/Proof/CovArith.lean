import Verif.Model.CovArith
import Mathlib.LinearAlgebra.Matrix.Block
import Mathlib.Analysis.InnerProductSpace.GramSchmidtOrtho
import Mathlib.Analysis.InnerProductSpace.PiL2
import Mathlib.Analysis.Matrix.Order

/-! # Lemmas for C47 -/

set_option linter.unusedSectionVars false

namespace OpenKalman.CovArith
open Matrix
open scoped ComplexOrder MatrixOrder

variable {𝕜 : Type} [RCLike 𝕜] {n : ℕ}

theorem isTri_block_up {A : Mat 𝕜 n} : IsTri true A ↔ A.BlockTriangular id := by
  unfold IsTri BlockTriangular
  simp

theorem isTri_block_low {A : Mat 𝕜 n} : IsTri false A ↔ A.BlockTriangular (OrderDual.toDual : Fin n → (Fin n)ᵒᵈ) := by
  unfold IsTri BlockTriangular
  simp

theorem IsTri.conjTranspose {up : Bool} {A : Mat 𝕜 n} (h : IsTri up A) : IsTri (!up) Aᴴ := by
  intro i j hij
  rw [conjTranspose_apply, h j i, star_zero]
  cases up <;> simpa using hij

theorem IsTri.isDiag {A : Mat 𝕜 n} (h : IsTri true A) (h' : IsTri false A) : A.IsDiag := by
  intro i j hij
  rcases lt_or_gt_of_ne hij with h1 | h1
  · exact h' i j (by simpa using h1)
  · exact h i j (by simpa using h1)

theorem isTri_of_isDiag {A : Mat 𝕜 n} (h : A.IsDiag) (up : Bool) : IsTri up A := by
  intro i j hij
  refine h ?_
  cases up <;> simp at hij
  · exact ne_of_lt hij
  · exact ne_of_gt hij

theorem gram_conj (up : Bool) (A : Mat 𝕜 n) : gram up A = gram (!up) Aᴴ := by
  cases up <;> simp [gram]

theorem isChol_conj {up : Bool} {P L : Mat 𝕜 n} (h : IsChol up P L) : IsChol (!up) P Lᴴ := by
  obtain ⟨h1, h2, h3⟩ := h
  refine ⟨h1.conjTranspose, by rw [← gram_conj, h2], fun i => ?_⟩
  rw [conjTranspose_apply]
  exact star_nonneg_iff.mpr (h3 i)

theorem isChol_unique_low {P L K : Mat 𝕜 n} (hP : P.PosDef) (hL : IsChol false P L) (hK : IsChol false P K) : L = K := by
  obtain ⟨tL, gL, dL⟩ := hL
  obtain ⟨tK, gK, dK⟩ := hK
  have gL : L * Lᴴ = P := gL
  have gK : K * Kᴴ = P := gK
  have hdet : P.det ≠ 0 := by
    have := hP.isUnit
    rw [isUnit_iff_isUnit_det] at this
    exact this.ne_zero
  have uK : IsUnit K.det := by
    rw [isUnit_iff_ne_zero]
    intro h
    apply hdet
    rw [← gK, det_mul, h, zero_mul]
  set W := K⁻¹ * L with hW
  have : Invertible K := Matrix.invertibleOfIsUnitDet K uK
  have hKW : K * W = L := by rw [hW, ← Matrix.mul_assoc, mul_nonsing_inv _ uK, Matrix.one_mul]
  have hWW : W * Wᴴ = 1 := by
    rw [hW, conjTranspose_mul]
    calc K⁻¹ * L * (Lᴴ * K⁻¹ᴴ) = K⁻¹ * (L * Lᴴ) * K⁻¹ᴴ := by simp only [Matrix.mul_assoc]
      _ = K⁻¹ * (K * Kᴴ) * K⁻¹ᴴ := by rw [gL, gK]
      _ = (K⁻¹ * K) * (K⁻¹ * K)ᴴ := by rw [conjTranspose_mul]; simp only [Matrix.mul_assoc]
      _ = 1 := by rw [nonsing_inv_mul _ uK, conjTranspose_one, Matrix.one_mul]
  have tW : IsTri false W := by
    rw [isTri_block_low] at *
    exact (blockTriangular_inv_of_blockTriangular tK).mul tL
  have uW : IsUnit W.det := by
    rw [isUnit_iff_ne_zero]
    intro h
    have := congrArg det hWW
    rw [det_mul, h, zero_mul, det_one] at this
    exact zero_ne_one this
  have hinv : W⁻¹ = Wᴴ := inv_eq_right_inv hWW
  have : Invertible W := Matrix.invertibleOfIsUnitDet W uW
  have tWi : IsTri false Wᴴ := by
    rw [← hinv, isTri_block_low]
    rw [isTri_block_low] at tW
    exact blockTriangular_inv_of_blockTriangular tW
  have tW' : IsTri true W := by
    have := tWi.conjTranspose
    rwa [conjTranspose_conjTranspose] at this
  have dW : W.IsDiag := tW'.isDiag tW
  have hLK : ∀ i j, L i j = K i j * W j j := by
    intro i j
    rw [← hKW, mul_apply]
    refine Finset.sum_eq_single j (fun b _ hb => ?_) (fun h => absurd (Finset.mem_univ _) h)
    rw [dW hb, mul_zero]
  have hW1 : ∀ j, W j j * star (W j j) = 1 := by
    intro j
    have h := congrFun (congrFun hWW j) j
    rw [mul_apply, one_apply_eq] at h
    rw [Finset.sum_eq_single j (fun b _ hb => by rw [dW hb.symm, zero_mul]) (fun h => absurd (Finset.mem_univ _) h)] at h
    exact h
  have hKd : ∀ j, K j j ≠ 0 := by
    have := det_of_isLowerTriangular _ (isTri_block_low.mp tK)
    intro j hj
    rw [this, isUnit_iff_ne_zero] at uK
    exact uK (Finset.prod_eq_zero (Finset.mem_univ j) hj)
  have hone : ∀ j, W j j = 1 := by
    intro j
    have h1 := hLK j j
    have hk : 0 < K j j := lt_of_le_of_ne (dK j) (hKd j).symm
    have hw : 0 ≤ W j j := by
      have : W j j = (K j j)⁻¹ * L j j := by rw [h1, inv_mul_cancel_left₀ (hKd j)]
      rw [this]
      exact mul_nonneg (RCLike.inv_pos.mpr hk).le (dL j)
    have hs : star (W j j) = W j j := (IsSelfAdjoint.of_nonneg hw)
    have h2 := hW1 j
    rw [hs] at h2
    rcases mul_self_eq_one_iff.mp h2 with h | h
    · exact h
    · rw [h] at hw
      have := (RCLike.nonneg_iff.mp hw).1
      simp at this
      linarith
  ext i j
  rw [hLK, hone, mul_one]

/-- A positive definite matrix has at most one Cholesky factor. -/
theorem isChol_unique {up : Bool} {P L K : Mat 𝕜 n} (hP : P.PosDef) (hL : IsChol up P L) (hK : IsChol up P K) : L = K := by
  cases up with
  | false => exact isChol_unique_low hP hL hK
  | true =>
    have := isChol_unique_low hP (isChol_conj hL) (isChol_conj hK)
    exact conjTranspose_injective this

theorem exists_tri {P : Mat 𝕜 n} (hP : P.PosSemidef) : ∃ L : Mat 𝕜 n, IsTri false L ∧ L * Lᴴ = P := by
  obtain ⟨C, hC⟩ := CStarAlgebra.nonneg_iff_eq_star_mul_self.mp hP.nonneg
  obtain ⟨B, hB⟩ : ∃ B : Mat 𝕜 n, P = B * Bᴴ := ⟨Cᴴ, by rw [conjTranspose_conjTranspose, hC]; rfl⟩
  let f : Fin n → EuclideanSpace 𝕜 (Fin n) := fun i => WithLp.toLp 2 (B i)
  have hfin : Module.finrank 𝕜 (EuclideanSpace 𝕜 (Fin n)) = Fintype.card (Fin n) := finrank_euclideanSpace
  let e := InnerProductSpace.gramSchmidtOrthonormalBasis hfin f
  let L : Mat 𝕜 n := Matrix.of fun i j => inner 𝕜 (e j) (f i)
  refine ⟨L, ?_, ?_⟩
  · intro i j hij
    exact InnerProductSpace.gramSchmidtOrthonormalBasis_inv_triangular hfin f (by simpa using hij)
  · ext i k
    have h : ∑ j, inner 𝕜 (f k) (e j) * inner 𝕜 (e j) (f i) = inner 𝕜 (f k) (f i) := e.sum_inner_mul_inner (f k) (f i)
    rw [mul_apply]
    have h' : ∀ j, L i j * Lᴴ j k = inner 𝕜 (f k) (e j) * inner 𝕜 (e j) (f i) := by
      intro j
      rw [conjTranspose_apply, mul_comm, RCLike.star_def]
      show (starRingEnd 𝕜) (inner 𝕜 (e j) (f k)) * _ = _
      rw [inner_conj_symm]
      rfl
    rw [Finset.sum_congr rfl fun j _ => h' j, h, hB, mul_apply, PiLp.inner_apply]
    refine Finset.sum_congr rfl fun l _ => ?_
    rfl

/-- Every positive semidefinite matrix has a Cholesky factor. -/
theorem exists_chol_low {P : Mat 𝕜 n} (hP : P.PosSemidef) : ∃ L, IsChol false P L := by
  obtain ⟨L, h1, h2⟩ := exists_tri hP
  let ph : Fin n → 𝕜 := fun j => if L j j = 0 then 1 else star (L j j) / ((‖L j j‖ : ℝ) : 𝕜)
  have hph : ∀ j, ph j * star (ph j) = 1 := by
    intro j
    by_cases h : L j j = 0
    · simp [ph, h]
    · have hn : ((‖L j j‖ : ℝ) : 𝕜) ≠ 0 := by simpa using h
      simp only [ph, if_neg h, star_div₀, RCLike.star_def, RCLike.conj_ofReal]
      rw [div_mul_div_comm, RingHomCompTriple.comp_apply, RingHom.id_apply, RCLike.conj_mul, ← sq, div_self (pow_ne_zero _ hn)]
  refine ⟨L * diagonal ph, ?_, ?_, ?_⟩
  · intro i j hij
    rw [mul_diagonal, h1 i j hij, zero_mul]
  · show L * diagonal ph * (L * diagonal ph)ᴴ = P
    rw [conjTranspose_mul, diagonal_conjTranspose, Matrix.mul_assoc, ← Matrix.mul_assoc (diagonal ph), diagonal_mul_diagonal]
    have : (fun i => ph i * star ph i) = fun _ => 1 := funext fun i => hph i
    rw [this, diagonal_one, Matrix.one_mul, h2]
  · intro j
    rw [mul_diagonal]
    by_cases h : L j j = 0
    · simp [h]
    · have hn : ((‖L j j‖ : ℝ) : 𝕜) ≠ 0 := by simpa using h
      simp only [ph, if_neg h]
      rw [← mul_div_assoc, RCLike.star_def, RCLike.mul_conj, sq, mul_div_assoc, div_self hn, mul_one]
      exact_mod_cast norm_nonneg _

theorem exists_chol {P : Mat 𝕜 n} (hP : P.PosSemidef) (up : Bool) : ∃ L, IsChol up P L := by
  obtain ⟨L, h⟩ := exists_chol_low hP
  cases up with
  | false => exact ⟨L, h⟩
  | true => exact ⟨Lᴴ, isChol_conj h⟩

/-- What the theorems assume of the factorisations (C43); `someLib` below is a library meeting it. -/
structure Lib.Ok (lib : Lib 𝕜) : Prop where
  chol : ∀ {n : ℕ} (P : Mat 𝕜 n), CholAt lib.chol P
  lq : ∀ {k : ℕ} {m : Type} [Fintype m] (A : Matrix (Fin k) m 𝕜), LQSpec A (lib.lq A)
  qr : ∀ {k : ℕ} {m : Type} [Fintype m] (A : Matrix m (Fin k) 𝕜), QRSpec A (lib.qr A)
  update : ∀ {n : ℕ} {up : Bool} {N V N' : Mat 𝕜 n} {α : ℝ}, lib.update up N V α = some N' → UpdateSpec up N V α N'
  updateSome : ∀ {n : ℕ} {up : Bool} {N V : Mat 𝕜 n} {α : ℝ}, (gram up N + (α : 𝕜) • (V * Vᴴ)).PosDef → (lib.update up N V α).isSome = true

theorem gram_posSemidef (up : Bool) (A : Mat 𝕜 n) : (gram up A).PosSemidef := by
  cases up
  · exact posSemidef_self_mul_conjTranspose A
  · exact posSemidef_conjTranspose_mul_self A

theorem gram_isHermitian (up : Bool) (A : Mat 𝕜 n) : (gram up A).IsHermitian := (gram_posSemidef up A).isHermitian

theorem isDiag_mul {A B : Mat 𝕜 n} (ha : A.IsDiag) (hb : B.IsDiag) : (A * B).IsDiag := by
  intro i j hij
  rw [mul_apply]
  refine Finset.sum_eq_zero fun l _ => ?_
  by_cases h : i = l
  · subst h; rw [hb hij, mul_zero]
  · rw [ha h, zero_mul]

theorem isDiag_comm {A B : Mat 𝕜 n} (ha : A.IsDiag) (hb : B.IsDiag) : A * B = B * A := by
  rw [← ha.diagonal_diag, ← hb.diagonal_diag, diagonal_mul_diagonal, diagonal_mul_diagonal]
  congr 1
  funext i
  exact mul_comm _ _

theorem isDiag_gram {A : Mat 𝕜 n} (h : A.IsDiag) (up : Bool) : gram up A = A * Aᴴ := by
  cases up
  · rfl
  · exact isDiag_comm h.conjTranspose h

theorem IsTri.add {up : Bool} {A B : Mat 𝕜 n} (ha : IsTri up A) (hb : IsTri up B) : IsTri up (A + B) := fun i j h => by
  rw [Matrix.add_apply, ha i j h, hb i j h, add_zero]

theorem IsTri.sub {up : Bool} {A B : Mat 𝕜 n} (ha : IsTri up A) (hb : IsTri up B) : IsTri up (A - B) := fun i j h => by
  rw [Matrix.sub_apply, ha i j h, hb i j h, sub_zero]

theorem IsTri.smul {up : Bool} {A : Mat 𝕜 n} (s : 𝕜) (ha : IsTri up A) : IsTri up (s • A) := fun i j h => by
  rw [Matrix.smul_apply, ha i j h, smul_zero]

theorem IsTri.zero {up : Bool} : IsTri up (0 : Mat 𝕜 n) := fun _ _ _ => rfl

theorem IsTri.mul {up : Bool} {A B : Mat 𝕜 n} (ha : IsTri up A) (hb : IsTri up B) : IsTri up (A * B) := by
  cases up
  · rw [isTri_block_low] at *; exact BlockTriangular.mul ha hb
  · rw [isTri_block_up] at *; exact BlockTriangular.mul ha hb

theorem gram_smul (up : Bool) (s : 𝕜) (A : Mat 𝕜 n) : gram up (s • A) = (star s * s) • gram up A := by
  cases up
  · show (s • A) * (s • A)ᴴ = (star s * s) • (A * Aᴴ)
    rw [conjTranspose_smul, Matrix.smul_mul, Matrix.mul_smul, smul_smul, mul_comm]
  · show (s • A)ᴴ * (s • A) = (star s * s) • (Aᴴ * A)
    rw [conjTranspose_smul, Matrix.smul_mul, Matrix.mul_smul, smul_smul]

/-- What the flags of a nestable matrix promise. -/
def Nest.Sound (r : Nest 𝕜 n) : Prop :=
  (r.hermitian = true → r.val.IsHermitian) ∧ (r.lower = true → IsTri false r.val) ∧ (r.upper = true → IsTri true r.val)

theorem wrap_sound {r : Nest 𝕜 n} (h : r.Sound) : (wrap r).WF ∧ (wrap r).Represents r.val ∧ (wrap r).Definite := by
  obtain ⟨h1, h2, h3⟩ := h
  unfold wrap
  by_cases c1 : r.hermitian = true
  · rw [if_pos c1]
    by_cases c2 : (r.lower && r.upper) = true
    · rw [if_pos c2]
      have c3 := (Bool.and_eq_true _ _).mp c2
      refine ⟨⟨⟨(h3 c3.2).isDiag (h2 c3.1), h1 c1⟩, ?_, ?_⟩, rfl, ?_⟩
      · intro h; exact absurd h (by simp)
      · intro h; exact absurd h (by simp)
      · intro h; exact absurd h (by simp)
    · rw [if_neg c2]
      refine ⟨⟨h1 c1, ?_, ?_⟩, rfl, ?_⟩
      · intro h; exact absurd h (by simp)
      · intro h; exact absurd h (by simp)
      · intro h; exact absurd h (by simp)
  · rw [if_neg c1]
    by_cases c2 : (r.lower || r.upper) = true
    · rw [if_pos c2]
      by_cases c3 : (r.lower && r.upper) = true
      · rw [if_pos c3]
        have c4 := (Bool.and_eq_true _ _).mp c3
        refine ⟨⟨(h3 c4.2).isDiag (h2 c4.1), ?_, ?_⟩, rfl, ?_⟩
        · intro h; exact absurd h (by simp)
        · intro h; exact absurd h (by simp)
        · intro _ up h; exact absurd h (by simp)
      · rw [if_neg c3]
        refine ⟨⟨?_, ?_, ?_⟩, rfl, ?_⟩
        · show IsTri r.upper r.val
          cases hu : r.upper with
          | true => exact h3 hu
          | false => rw [hu] at c2; exact h2 (by simpa using c2)
        · intro h; exact absurd h (by simp)
        · intro h; exact absurd h (by simp)
        · intro _ up h; exact absurd h (by simp)
    · rw [if_neg c2]
      exact ⟨fun h => absurd h (by simp), rfl, trivial⟩

theorem cov_nestable {lib : Lib 𝕜} (ok : lib.Ok) {c : Cov 𝕜 n} (hw : c.WF) (hd : c.Definite) {M : Mat 𝕜 n} (hM : c.Represents M) :
    ((Opd.cov c).toNestable lib).Sound ∧ ((Opd.cov c).toNestable lib).val = M := by
  obtain ⟨root, form, N, z, d⟩ := c
  obtain ⟨hw, -, -⟩ := hw
  cases root
  · cases form with
    | herm up => exact ⟨⟨fun _ => hw, fun h => absurd h (by simp [Opd.toNestable, Form.lower]), fun h => absurd h (by simp [Opd.toNestable, Form.upper])⟩, hM.symm⟩
    | diag => exact ⟨⟨fun _ => hw.2, fun _ => isTri_of_isDiag hw.1 _, fun _ => isTri_of_isDiag hw.1 _⟩, hM.symm⟩
    | cdiag =>
      have hd : (N * Nᴴ).IsDiag := isDiag_mul hw (IsDiag.conjTranspose hw)
      exact ⟨⟨fun _ => gram_isHermitian false N, fun _ => isTri_of_isDiag hd _, fun _ => isTri_of_isDiag hd _⟩, hM.symm⟩
    | tri up => exact ⟨⟨fun _ => gram_isHermitian up N, fun h => absurd h (by simp [Opd.toNestable]), fun h => absurd h (by simp [Opd.toNestable])⟩, hM.symm⟩
  · cases form with
    | herm up =>
      have hp : N.PosDef := hd rfl up rfl
      have hc := ok.chol N up hp
      have hu : lib.chol up N = M := isChol_unique hp hc hM
      refine ⟨⟨fun h => absurd h (by simp [Opd.toNestable]), fun h => ?_, fun h => ?_⟩, hu⟩
      · have : up = false := by simpa [Opd.toNestable] using h
        subst this; exact hc.1
      · have : up = true := by simpa [Opd.toNestable] using h
        subst this; exact hc.1
    | diag => exact ⟨⟨fun _ => hw.2, fun _ => isTri_of_isDiag hw.1 _, fun _ => isTri_of_isDiag hw.1 _⟩, hM.symm⟩
    | cdiag => exact ⟨⟨fun h => absurd h (by simp [Opd.toNestable, Form.hermitian]), fun _ => isTri_of_isDiag hw _, fun _ => isTri_of_isDiag hw _⟩, hM.symm⟩
    | tri up =>
      refine ⟨⟨fun h => absurd h (by simp [Opd.toNestable, Form.hermitian]), fun h => ?_, fun h => ?_⟩, hM.symm⟩
      · have : up = false := by simpa [Opd.toNestable, Form.lower] using h
        subst this; exact hw
      · have : up = true := by simpa [Opd.toNestable, Form.upper] using h
        subst this; exact hw

theorem opd_nestable {lib : Lib 𝕜} (ok : lib.Ok) {a : Opd 𝕜 n} (hw : a.WF) (hd : a.Definite) {M : Mat 𝕜 n} (hM : a.Represents M) :
    (a.toNestable lib).Sound ∧ (a.toNestable lib).val = M := by
  cases a with
  | cov c => exact cov_nestable ok hw hd hM
  | mat z N => exact ⟨⟨fun h => absurd h (by simp [Opd.toNestable]), fun h => absurd h (by simp [Opd.toNestable]), fun h => absurd h (by simp [Opd.toNestable])⟩, hM.symm⟩

theorem combine_sound {f : Mat 𝕜 n → Mat 𝕜 n → Mat 𝕜 n} (hh : ∀ A B, A.IsHermitian → B.IsHermitian → (f A B).IsHermitian)
    (ht : ∀ up A B, IsTri up A → IsTri up B → IsTri up (f A B)) {a b : Nest 𝕜 n} (ha : a.Sound) (hb : b.Sound) : (Nest.combine f a b).Sound := by
  refine ⟨fun h => ?_, fun h => ?_, fun h => ?_⟩
  · have := (Bool.and_eq_true _ _).mp h
    exact hh _ _ (ha.1 this.1) (hb.1 this.2)
  · have := (Bool.and_eq_true _ _).mp h
    exact ht _ _ _ (ha.2.1 this.1) (hb.2.1 this.2)
  · have := (Bool.and_eq_true _ _).mp h
    exact ht _ _ _ (ha.2.2 this.1) (hb.2.2 this.2)

theorem product_sound {a b : Nest 𝕜 n} (ha : a.Sound) (hb : b.Sound) : (Nest.product a b).Sound := by
  refine ⟨fun h => ?_, fun h => ?_, fun h => ?_⟩
  · simp only [Nest.product, Bool.and_eq_true] at h
    obtain ⟨⟨⟨h1, h2⟩, h3, h4⟩, h5, h6⟩ := h
    show (a.val * b.val)ᴴ = a.val * b.val
    rw [conjTranspose_mul, (ha.1 h1).eq, (hb.1 h2).eq]
    exact isDiag_comm ((hb.2.2 h6).isDiag (hb.2.1 h5)) ((ha.2.2 h4).isDiag (ha.2.1 h3))
  · have := (Bool.and_eq_true _ _).mp h
    exact (ha.2.1 this.1).mul (hb.2.1 this.2)
  · have := (Bool.and_eq_true _ _).mp h
    exact (ha.2.2 this.1).mul (hb.2.2 this.2)

theorem represents_zero {a : Opd 𝕜 n} (hw : a.WF) (h : a.isZero = true) {M : Mat 𝕜 n} (hM : a.Represents M) : M = 0 := by
  cases a with
  | cov c =>
    obtain ⟨root, form, N, z, d⟩ := c
    obtain ⟨rfl, rfl⟩ := hw.2.1 h
    cases root <;> exact hM
  | mat z N => rw [← hw h]; exact hM

theorem represents_ident {c : Cov 𝕜 n} (hw : c.WF) (h : c.ident = true) {M : Mat 𝕜 n} (hM : c.Represents M) : M = 1 := by
  obtain ⟨root, form, N, z, d⟩ := c
  obtain ⟨rfl, rfl⟩ := hw.2.2 h
  cases root <;> exact hM

theorem choleskySelfAdjoint_some {a : Opd 𝕜 n} {c : Cov 𝕜 n} (h : a.choleskySelfAdjoint = some c) : a = .cov c ∧ c.root = false ∧
    (c.form = .cdiag ∨ ∃ up, c.form = .tri up) := by
  cases a with
  | mat z M => exact absurd h (by simp [Opd.choleskySelfAdjoint])
  | cov c' =>
    have h : (if (c'.choleskyForm && !c'.root) = true then some c' else none) = some c := h
    by_cases hc : (c'.choleskyForm && !c'.root) = true
    · rw [if_pos hc] at h
      obtain rfl := Option.some.inj h
      simp only [Cov.choleskyForm, Bool.and_eq_true, Bool.not_eq_true'] at hc
      refine ⟨rfl, hc.2, ?_⟩
      cases hf : c'.form with
      | herm up => rw [hf] at hc; exact absurd hc.1 (by simp [Form.hermitian])
      | diag => rw [hf] at hc; exact absurd hc.1 (by simp [Form.hermitian])
      | cdiag => exact Or.inl rfl
      | tri up => exact Or.inr ⟨up, rfl⟩
    · rw [if_neg hc] at h; exact absurd h (by simp)

/-- A Cholesky-form covariance stands for `N Nᴴ` if `N` is lower triangular (or diagonal), `Nᴴ N` if `N` is upper triangular (or diagonal). -/
theorem cholesky_gram {c : Cov 𝕜 n} (hw : c.WF) (hr : c.root = false) (hf : c.form = .cdiag ∨ ∃ up, c.form = .tri up) {M : Mat 𝕜 n}
    (hM : c.Represents M) : (c.form.upper = true → IsTri true c.nested ∧ M = c.nestedᴴ * c.nested) ∧
      (c.form.lower = true → IsTri false c.nested ∧ M = c.nested * c.nestedᴴ) := by
  obtain ⟨root, form, N, z, d⟩ := c
  subst hr
  rcases hf with rfl | ⟨up, rfl⟩
  · have hM : M = N * Nᴴ := hM
    exact ⟨fun _ => ⟨isTri_of_isDiag hw.1 _, hM.trans (isDiag_gram hw.1 true).symm⟩, fun _ => ⟨isTri_of_isDiag hw.1 _, hM⟩⟩
  · have hM : M = gram up N := hM
    cases up
    · exact ⟨fun h => absurd h (by simp [Form.upper]), fun _ => ⟨hw.1, hM⟩⟩
    · exact ⟨fun _ => ⟨hw.1, hM⟩, fun h => absurd h (by simp [Form.lower])⟩

theorem cholesky_upper_or_lower {f : Form} (hf : f = .cdiag ∨ ∃ up, f = .tri up) : f.upper = true ∨ f.lower = true := by
  rcases hf with rfl | ⟨up, rfl⟩
  · exact Or.inl rfl
  · cases up <;> simp [Form.upper, Form.lower]

theorem fromRows_gram (A B : Mat 𝕜 n) : (fromRows A B)ᴴ * fromRows A B = Aᴴ * A + Bᴴ * B := by
  rw [conjTranspose_fromRows_eq_fromCols_conjTranspose, fromCols_mul_fromRows]

theorem fromCols_gram (A B : Mat 𝕜 n) : fromCols A B * (fromCols A B)ᴴ = A * Aᴴ + B * Bᴴ := by
  rw [conjTranspose_fromCols_eq_fromRows_conjTranspose, fromCols_mul_fromRows]

theorem addCholesky_sound {lib : Lib 𝕜} (ok : lib.Ok) {c d : Cov 𝕜 n} (hc : c.WF) (hd : d.WF) (rc : c.root = false) (rd : d.root = false)
    (fc : c.form = .cdiag ∨ ∃ up, c.form = .tri up) (fd : d.form = .cdiag ∨ ∃ up, d.form = .tri up) {A B : Mat 𝕜 n}
    (hA : c.Represents A) (hB : d.Represents B) : (addCholesky lib c d).WF ∧ (addCholesky lib c d).Represents (A + B) ∧ (addCholesky lib c d).root = false := by
  have gc := cholesky_gram hc rc fc hA
  have gd := cholesky_gram hd rd fd hB
  have no : ∀ {p : Prop}, (false = true → p) := fun h => absurd h (by simp)
  unfold addCholesky
  by_cases c1 : (c.form.upper && d.form.upper) = true
  · rw [if_pos c1]
    have c1' := (Bool.and_eq_true _ _).mp c1
    have q := ok.qr (fromRows c.nested d.nested)
    refine ⟨⟨q.1, no, no⟩, ?_, rfl⟩
    show A + B = _ᴴ * _
    rw [q.2, fromRows_gram, (gc.1 c1'.1).2, (gd.1 c1'.2).2]
  rw [if_neg c1]
  by_cases c2 : (c.form.upper && d.form.lower) = true
  · rw [if_pos c2]
    have c2' := (Bool.and_eq_true _ _).mp c2
    have q := ok.qr (fromRows c.nested d.nestedᴴ)
    refine ⟨⟨q.1, no, no⟩, ?_, rfl⟩
    show A + B = _ᴴ * _
    rw [q.2, fromRows_gram, (gc.1 c2'.1).2, (gd.2 c2'.2).2, conjTranspose_conjTranspose]
  rw [if_neg c2]
  have uc : c.form.upper = false := by
    rcases cholesky_upper_or_lower fd with h | h
    · rw [h, Bool.and_true] at c1; simpa using c1
    · rw [h, Bool.and_true] at c2; simpa using c2
  have lc : c.form.lower = true := (cholesky_upper_or_lower fc).resolve_left (by rw [uc]; simp)
  by_cases c3 : (c.form.lower && d.form.upper) = true
  · rw [if_pos c3]
    have c3' := (Bool.and_eq_true _ _).mp c3
    have q := ok.lq (fromCols c.nested d.nestedᴴ)
    refine ⟨⟨q.1, no, no⟩, ?_, rfl⟩
    show A + B = _ * _ᴴ
    rw [q.2, fromCols_gram, (gc.2 c3'.1).2, (gd.1 c3'.2).2, conjTranspose_conjTranspose]
  rw [if_neg c3]
  have ld : d.form.lower = true := (cholesky_upper_or_lower fd).resolve_left (by rw [lc, Bool.true_and] at c3; exact c3)
  have q := ok.lq (fromCols c.nested d.nested)
  refine ⟨⟨q.1, no, no⟩, ?_, rfl⟩
  show A + B = _ * _ᴴ
  rw [q.2, fromCols_gram, (gc.2 lc).2, (gd.2 ld).2]

theorem add_sound {lib : Lib 𝕜} (ok : lib.Ok) {a b : Opd 𝕜 n} (ha : a.WF) (hb : b.WF) (da : a.Definite) (db : b.Definite) {A B : Mat 𝕜 n}
    (hA : a.Represents A) (hB : b.Represents B) : (add lib a b).WF ∧ (add lib a b).Represents (A + B) ∧ (add lib a b).Definite := by
  unfold add
  by_cases c1 : a.isZero = true
  · rw [if_pos c1, represents_zero ha c1 hA, zero_add]; exact ⟨hb, hB, db⟩
  rw [if_neg c1]
  by_cases c2 : b.isZero = true
  · rw [if_pos c2, represents_zero hb c2 hB, add_zero]; exact ⟨ha, hA, da⟩
  rw [if_neg c2]
  have gen : ∀ r : Opd 𝕜 n, r = wrap (Nest.combine (· + ·) (a.toNestable lib) (b.toNestable lib)) → r.WF ∧ r.Represents (A + B) ∧ r.Definite := by
    rintro r rfl
    obtain ⟨sa, va⟩ := opd_nestable ok ha da hA
    obtain ⟨sb, vb⟩ := opd_nestable ok hb db hB
    have := wrap_sound (combine_sound (f := (· + ·)) (fun _ _ h h' => h.add h') (fun _ _ _ h h' => h.add h') sa sb)
    rw [show (Nest.combine (· + ·) (a.toNestable lib) (b.toNestable lib)).val = A + B by rw [← va, ← vb]; rfl] at this
    exact this
  cases ec : a.choleskySelfAdjoint with
  | none => exact gen _ (by cases b.choleskySelfAdjoint <;> rfl)
  | some c =>
    cases ed : b.choleskySelfAdjoint with
    | none => exact gen _ rfl
    | some d =>
      obtain ⟨rfl, rc, fc⟩ := choleskySelfAdjoint_some ec
      obtain ⟨rfl, rd, fd⟩ := choleskySelfAdjoint_some ed
      have := addCholesky_sound ok ha hb rc rd fc fd hA hB
      exact ⟨this.1, this.2.1, fun h => absurd (this.2.2.symm.trans h) (by simp)⟩

theorem updateUp_gram {c : Cov 𝕜 n} (hw : c.WF) (hr : c.root = false) (hf : c.form = .cdiag ∨ ∃ up, c.form = .tri up) {M : Mat 𝕜 n}
    (hM : c.Represents M) : gram c.form.updateUp c.nested = M := by
  have g := cholesky_gram hw hr hf hM
  have h := cholesky_upper_or_lower hf
  unfold Form.updateUp
  cases hl : c.form.lower with
  | true => rw [Bool.not_true, Bool.and_false]; exact (g.2 hl).2.symm
  | false =>
    have hu : c.form.upper = true := h.resolve_right (by rw [hl]; simp)
    rw [hu]; exact (g.1 hu).2.symm

theorem sub_sound {lib : Lib 𝕜} (ok : lib.Ok) {a b r : Opd 𝕜 n} (ha : a.WF) (hb : b.WF) (da : a.Definite) (db : b.Definite) {A B : Mat 𝕜 n}
    (hA : a.Represents A) (hB : b.Represents B) (h : sub lib a b = some r) : r.WF ∧ r.Represents (A - B) ∧ r.Definite := by
  unfold sub at h
  by_cases c2 : b.isZero = true
  · rw [if_pos c2] at h
    obtain rfl := Option.some.inj h
    rw [represents_zero hb c2 hB, sub_zero]; exact ⟨ha, hA, da⟩
  rw [if_neg c2] at h
  have gen : ∀ r : Opd 𝕜 n, r = wrap (Nest.combine (· - ·) (a.toNestable lib) (b.toNestable lib)) → r.WF ∧ r.Represents (A - B) ∧ r.Definite := by
    rintro r rfl
    obtain ⟨sa, va⟩ := opd_nestable ok ha da hA
    obtain ⟨sb, vb⟩ := opd_nestable ok hb db hB
    have := wrap_sound (combine_sound (f := (· - ·)) (fun _ _ h h' => h.sub h') (fun _ _ _ h h' => h.sub h') sa sb)
    rw [show (Nest.combine (· - ·) (a.toNestable lib) (b.toNestable lib)).val = A - B by rw [← va, ← vb]; rfl] at this
    exact this
  cases ec : a.choleskySelfAdjoint with
  | none =>
    refine gen _ (Option.some.inj ?_)
    rw [← h, ec]
  | some c =>
    cases ed : b.choleskySelfAdjoint with
    | none => refine gen _ (Option.some.inj ?_); rw [← h, ec, ed]
    | some d =>
      rw [ec, ed] at h
      obtain ⟨rfl, rc, fc⟩ := choleskySelfAdjoint_some ec
      obtain ⟨rfl, rd, fd⟩ := choleskySelfAdjoint_some ed
      have h : (subCholesky lib c d).map Opd.cov = some r := h
      obtain ⟨e, he, rfl⟩ := Option.map_eq_some_iff.mp h
      obtain ⟨N, hN, rfl⟩ := Option.map_eq_some_iff.mp he
      have u := ok.update hN
      have no : ∀ {p : Prop}, (false = true → p) := fun h => absurd h (by simp)
      have gd := cholesky_gram hb rd fd hB
      refine ⟨⟨u.1, no, no⟩, ?_, no⟩
      show A - B = gram _ N
      rw [u.2, updateUp_gram ha rc fc hA]
      have hb' : ∀ V : Mat 𝕜 n, V = (if d.form.upper = true then d.nestedᴴ else d.nested) → V * Vᴴ = B := by
        rintro V rfl
        by_cases hu : d.form.upper = true
        · rw [if_pos hu, conjTranspose_conjTranspose, (gd.1 hu).2]
        · rw [if_neg hu, (gd.2 ((cholesky_upper_or_lower fd).resolve_left hu)).2]
      rw [hb' _ rfl, RCLike.ofReal_neg, RCLike.ofReal_one, neg_one_smul, sub_eq_add_neg]

theorem sub_defined {lib : Lib 𝕜} (ok : lib.Ok) {a b : Opd 𝕜 n} (ha : a.WF) (hb : b.WF) {A B : Mat 𝕜 n}
    (hA : a.Represents A) (hB : b.Represents B) (hp : (A - B).PosDef) : (sub lib a b).isSome = true := by
  unfold sub
  by_cases c2 : b.isZero = true
  · rw [if_pos c2]; rfl
  rw [if_neg c2]
  cases ec : a.choleskySelfAdjoint with
  | none => rfl
  | some c =>
    cases ed : b.choleskySelfAdjoint with
    | none => rfl
    | some d =>
      obtain ⟨rfl, rc, fc⟩ := choleskySelfAdjoint_some ec
      obtain ⟨rfl, rd, fd⟩ := choleskySelfAdjoint_some ed
      have gd := cholesky_gram hb rd fd hB
      have hb' : ∀ V : Mat 𝕜 n, V = (if d.form.upper = true then d.nestedᴴ else d.nested) → V * Vᴴ = B := by
        rintro V rfl
        by_cases hu : d.form.upper = true
        · rw [if_pos hu, conjTranspose_conjTranspose, (gd.1 hu).2]
        · rw [if_neg hu, (gd.2 ((cholesky_upper_or_lower fd).resolve_left hu)).2]
      show ((subCholesky lib c d).map Opd.cov).isSome = true
      rw [Option.isSome_map]
      unfold subCholesky
      rw [Option.isSome_map]
      refine ok.updateSome ?_
      rw [updateUp_gram ha rc fc hA, hb' _ rfl, RCLike.ofReal_neg, RCLike.ofReal_one, neg_one_smul, ← sub_eq_add_neg]
      exact hp

theorem mul_sound {lib : Lib 𝕜} (ok : lib.Ok) {c d : Cov 𝕜 n} (ha : c.WF) (hb : d.WF) (da : c.Definite) (db : d.Definite) {A B : Mat 𝕜 n}
    (hA : c.Represents A) (hB : d.Represents B) : (mul lib c d).WF ∧ (mul lib c d).Represents (A * B) ∧ (mul lib c d).Definite := by
  unfold mul
  by_cases c1 : (c.zero || d.ident) = true
  · rw [if_pos c1]
    have e : A * B = A := by
      rcases (Bool.or_eq_true _ _).mp c1 with h | h
      · rw [represents_zero (a := .cov c) ha h hA, Matrix.zero_mul]
      · rw [represents_ident hb h hB, Matrix.mul_one]
    rw [e]; exact ⟨ha, hA, da⟩
  rw [if_neg c1]
  by_cases c2 : (d.zero || c.ident) = true
  · rw [if_pos c2]
    have e : A * B = B := by
      rcases (Bool.or_eq_true _ _).mp c2 with h | h
      · rw [represents_zero (a := .cov d) hb h hB, Matrix.mul_zero]
      · rw [represents_ident ha h hA, Matrix.one_mul]
    rw [e]; exact ⟨hb, hB, db⟩
  rw [if_neg c2]
  obtain ⟨sa, va⟩ := cov_nestable ok ha da hA
  obtain ⟨sb, vb⟩ := cov_nestable ok hb db hB
  have := wrap_sound (product_sound sa sb)
  rw [show (Nest.product ((Opd.cov c).toNestable lib) ((Opd.cov d).toNestable lib)).val = A * B by rw [← va, ← vb]; rfl] at this
  exact this

theorem mulMat_sound {lib : Lib 𝕜} (ok : lib.Ok) {k : ℕ} {c : Cov 𝕜 n} (ha : c.WF) (da : c.Definite) {A : Mat 𝕜 n} (hA : c.Represents A)
    (X : Matrix (Fin n) (Fin k) 𝕜) : mulMat lib c X = A * X := by
  unfold mulMat
  by_cases c1 : c.zero = true
  · rw [if_pos c1, represents_zero (a := .cov c) ha c1 hA, Matrix.zero_mul]
  by_cases c2 : c.ident = true
  · rw [if_neg c1, if_pos c2, represents_ident ha c2 hA, Matrix.one_mul]
  rw [if_neg c1, if_neg c2, (cov_nestable ok ha da hA).2]

theorem matMul_sound {lib : Lib 𝕜} (ok : lib.Ok) {k : ℕ} {c : Cov 𝕜 n} (ha : c.WF) (da : c.Definite) {A : Mat 𝕜 n} (hA : c.Represents A)
    (X : Matrix (Fin k) (Fin n) 𝕜) : matMul lib X c = X * A := by
  unfold matMul
  by_cases c1 : c.zero = true
  · rw [if_pos c1, represents_zero (a := .cov c) ha c1 hA, Matrix.mul_zero]
  by_cases c2 : c.ident = true
  · rw [if_neg c1, if_pos c2, represents_ident ha c2 hA, Matrix.mul_one]
  rw [if_neg c1, if_neg c2, (cov_nestable ok ha da hA).2]

theorem isHermitian_smul_real {A : Mat 𝕜 n} (h : A.IsHermitian) {s : 𝕜} (hs : star s = s) : (s • A).IsHermitian := by
  show (s • A)ᴴ = s • A
  rw [conjTranspose_smul, hs, h.eq]

theorem WF.of_smul {c : Cov 𝕜 n} (hw : c.WF) {s : 𝕜} (hs : star s = s) (root : Bool) : (⟨root, c.form, s • c.nested, false, false⟩ : Cov 𝕜 n).WF := by
  have no : ∀ {p : Prop}, (false = true → p) := fun h => absurd h (by simp)
  refine ⟨?_, no, no⟩
  obtain ⟨r, form, N, z, d⟩ := c
  have hw := hw.1
  cases form with
  | herm up => exact isHermitian_smul_real hw hs
  | diag => exact ⟨IsDiag.smul s hw.1, isHermitian_smul_real hw.2 hs⟩
  | cdiag => exact IsDiag.smul s hw
  | tri up => exact IsTri.smul s hw

theorem choleskyForm_cases {c : Cov 𝕜 n} : (c.choleskyForm = true ∧ (c.form = .cdiag ∨ ∃ up, c.form = .tri up)) ∨
    (c.choleskyForm = false ∧ (c.form = .diag ∨ ∃ up, c.form = .herm up)) := by
  cases h : c.form with
  | herm up => exact Or.inr ⟨by simp [Cov.choleskyForm, h, Form.hermitian], Or.inr ⟨up, rfl⟩⟩
  | diag => exact Or.inr ⟨by simp [Cov.choleskyForm, h, Form.hermitian], Or.inl rfl⟩
  | cdiag => exact Or.inl ⟨by simp [Cov.choleskyForm, h, Form.hermitian], Or.inl rfl⟩
  | tri up => exact Or.inl ⟨by simp [Cov.choleskyForm, h, Form.hermitian], Or.inr ⟨up, rfl⟩⟩

theorem triangular_wf {c : Cov 𝕜 n} (hw : c.WF) (hf : c.form = .cdiag ∨ ∃ up, c.form = .tri up) : IsTri c.form.updateUp c.nested := by
  obtain ⟨r, form, N, z, d⟩ := c
  rcases hf with rfl | ⟨up, rfl⟩
  · exact isTri_of_isDiag hw.1 _
  · have e : Form.updateUp (.tri up) = up := by cases up <;> rfl
    show IsTri (Form.updateUp (.tri up)) N
    rw [e]; exact hw.1

theorem gram_ofReal_smul (up : Bool) (s : ℝ) (A : Mat 𝕜 n) : gram up ((s : 𝕜) • A) = ((s * s : ℝ) : 𝕜) • gram up A := by
  rw [gram_smul, RCLike.star_def, RCLike.conj_ofReal, RCLike.ofReal_mul]

/-- The factor scaled by the square root of the scalar. -/
theorem smulTri_sound {c : Cov 𝕜 n} (hw : c.WF) (hr : c.root = false) (hf : c.form = .cdiag ∨ ∃ up, c.form = .tri up) {A : Mat 𝕜 n}
    (hA : c.Represents A) (t : ℝ) : (⟨false, c.form.triangular, (t : 𝕜) • c.nested, false, false⟩ : Cov 𝕜 n).WF ∧
      (⟨false, c.form.triangular, (t : 𝕜) • c.nested, false, false⟩ : Cov 𝕜 n).Represents (((t * t : ℝ) : 𝕜) • A) := by
  have no : ∀ {p : Prop}, (false = true → p) := fun h => absurd h (by simp)
  refine ⟨⟨(triangular_wf hw hf).smul _, no, no⟩, ?_⟩
  show _ = gram c.form.updateUp ((t : 𝕜) • c.nested)
  rw [gram_ofReal_smul, updateUp_gram hw hr hf hA]

theorem smul_nonneg_some {lib : Lib 𝕜} (c : Cov 𝕜 n) {s : ℝ} (hs : 0 ≤ s) : (smul lib c s).isSome = true := by
  unfold smul
  by_cases h0 : c.zero = true
  · rw [if_pos h0]; rfl
  rw [if_neg h0]
  by_cases h1 : c.choleskyForm = true
  · rw [if_pos h1]
    by_cases h2 : c.root = true
    · rw [if_pos h2]; rfl
    · rw [if_neg h2]
      by_cases h3 : 0 < s
      · rw [if_pos h3]; rfl
      · rw [if_neg h3, if_neg (not_lt.mpr hs)]; rfl
  · rw [if_neg h1]
    split_ifs <;> rfl

theorem update_zero {lib : Lib 𝕜} (ok : lib.Ok) {up : Bool} {V N' : Mat 𝕜 n} {t : ℝ} (ht : t < 0)
    (h : lib.update up 0 V t = some N') : N' = 0 ∧ V = 0 := by
  have u := ok.update h
  have h2 : gram up N' = (t : 𝕜) • (V * Vᴴ) := by
    rw [u.2]
    have : gram up (0 : Mat 𝕜 n) = 0 := by unfold gram; split_ifs <;> simp
    rw [this, zero_add]
  have hz : V * Vᴴ = 0 := by
    have p1 : (gram up N').PosSemidef := gram_posSemidef _ _
    have p2 : (V * Vᴴ).PosSemidef := posSemidef_self_mul_conjTranspose _
    have e1 := p1.nonneg
    have e2 := p2.nonneg
    rw [h2] at e1
    have e3 : (0 : Mat 𝕜 n) ≤ ((-t : ℝ) : 𝕜) • (V * Vᴴ) :=
      (p2.smul (by exact_mod_cast (neg_pos.mpr ht).le)).nonneg
    rw [RCLike.ofReal_neg, neg_smul] at e3
    have e4 : (t : 𝕜) • (V * Vᴴ) = 0 := le_antisymm (by simpa using neg_nonneg.mp e3) e1
    exact (smul_eq_zero.mp e4).resolve_left (by exact_mod_cast ht.ne)
  have hN : V = 0 := self_mul_conjTranspose_eq_zero.mp hz
  refine ⟨?_, hN⟩
  rw [hz, smul_zero] at h2
  unfold gram at h2
  split_ifs at h2
  · exact conjTranspose_mul_self_eq_zero.mp h2
  · exact self_mul_conjTranspose_eq_zero.mp h2

theorem smul_sound {lib : Lib 𝕜} (ok : lib.Ok) {c r : Cov 𝕜 n} (hw : c.WF) {A : Mat 𝕜 n} (hA : c.Represents A) {s : ℝ}
    (hroot : c.root = true → c.form = .diag) (h : smul lib c s = some r) : r.WF ∧ r.Represents ((s : 𝕜) • A) := by
  have no : ∀ {p : Prop}, (false = true → p) := fun h => absurd h (by simp)
  unfold smul at h
  by_cases h0 : c.zero = true
  · rw [if_pos h0] at h
    obtain rfl := Option.some.inj h
    have hz := represents_zero (a := .cov c) hw h0 hA
    rw [hz, smul_zero, ← hz]; exact ⟨hw, hA⟩
  rw [if_neg h0] at h
  rcases choleskyForm_cases (c := c) with ⟨h1, hf⟩ | ⟨h1, hf⟩
  · rw [if_pos h1] at h
    have hr : c.root = false := by
      cases hr : c.root with
      | false => rfl
      | true => rcases hf with e | ⟨up, e⟩ <;> exact absurd ((hroot hr).symm.trans e) (by simp)
    rw [if_neg (by rw [hr]; simp)] at h
    by_cases h3 : 0 < s
    · rw [if_pos h3] at h
      obtain rfl := Option.some.inj h
      have := smulTri_sound hw hr hf hA (Real.sqrt s)
      rw [Real.mul_self_sqrt h3.le] at this
      exact this
    rw [if_neg h3] at h
    by_cases h4 : s < 0
    · rw [if_pos h4] at h
      obtain ⟨N', hN, rfl⟩ := Option.map_eq_some_iff.mp h
      obtain ⟨rfl, hz⟩ := update_zero ok h4 hN
      refine ⟨⟨IsTri.zero, no, no⟩, ?_⟩
      have hA0 : A = 0 := by
        rw [← updateUp_gram hw hr hf hA, hz]; unfold gram; split_ifs <;> simp
      show (s : 𝕜) • A = gram c.form.updateUp 0
      rw [hA0, smul_zero]; unfold gram; split_ifs <;> simp
    · rw [if_neg h4] at h
      obtain rfl := Option.some.inj h
      have hs : s = 0 := le_antisymm (not_lt.mp h3) (not_lt.mp h4)
      refine ⟨⟨IsTri.zero, no, no⟩, ?_⟩
      show (s : 𝕜) • A = gram c.form.updateUp 0
      rw [hs, RCLike.ofReal_zero, zero_smul]; unfold gram; split_ifs <;> simp
  · rw [if_neg (by rw [h1]; simp)] at h
    have hr : (c.root && !c.form.diagonal) = false := by
      cases hr : c.root with
      | false => rfl
      | true => rw [hroot hr]; rfl
    rw [if_neg (by rw [hr]; simp)] at h
    obtain rfl := Option.some.inj h
    refine ⟨WF.of_smul hw (RCLike.conj_ofReal s) false, ?_⟩
    obtain ⟨root, form, N, z, d⟩ := c
    rcases hf with rfl | ⟨up, rfl⟩
    · have : A = N := by cases root <;> exact hA
      rw [this]; rfl
    · cases root with
      | true => exact absurd (hroot rfl) (by simp)
      | false => have : A = N := hA
                 rw [this]; rfl

theorem sdiv_sound {lib : Lib 𝕜} (ok : lib.Ok) {c r : Cov 𝕜 n} (hw : c.WF) {A : Mat 𝕜 n} (hA : c.Represents A) {s : ℝ}
    (hroot : c.root = true → c.form = .diag) (h : sdiv lib c s = some r) : r.WF ∧ r.Represents (((s⁻¹ : ℝ) : 𝕜) • A) := by
  have no : ∀ {p : Prop}, (false = true → p) := fun h => absurd h (by simp)
  unfold sdiv at h
  rcases choleskyForm_cases (c := c) with ⟨h1, hf⟩ | ⟨h1, hf⟩
  · rw [if_pos h1] at h
    have hr : c.root = false := by
      cases hr : c.root with
      | false => rfl
      | true => rcases hf with e | ⟨up, e⟩ <;> exact absurd ((hroot hr).symm.trans e) (by simp)
    rw [if_neg (by rw [hr]; simp)] at h
    by_cases h3 : 0 < s
    · rw [if_pos h3] at h
      obtain rfl := Option.some.inj h
      have := smulTri_sound hw hr hf hA (Real.sqrt s)⁻¹
      rw [← mul_inv, Real.mul_self_sqrt h3.le] at this
      exact this
    rw [if_neg h3] at h
    by_cases h4 : s < 0
    · rw [if_pos h4] at h
      obtain ⟨N', hN, rfl⟩ := Option.map_eq_some_iff.mp h
      obtain ⟨rfl, hz⟩ := update_zero ok (one_div_neg.mpr h4) hN
      refine ⟨⟨IsTri.zero, no, no⟩, ?_⟩
      have hA0 : A = 0 := by
        rw [← updateUp_gram hw hr hf hA, hz]; unfold gram; split_ifs <;> simp
      show ((s⁻¹ : ℝ) : 𝕜) • A = gram c.form.updateUp 0
      rw [hA0, smul_zero]; unfold gram; split_ifs <;> simp
    · rw [if_neg h4] at h
      exact absurd h (by simp)
  · rw [if_neg (by rw [h1]; simp)] at h
    by_cases h0 : c.zero = true
    · rw [if_pos h0] at h
      obtain rfl := Option.some.inj h
      have hz := represents_zero (a := .cov c) hw h0 hA
      rw [hz, smul_zero, ← hz]; exact ⟨hw, hA⟩
    rw [if_neg h0] at h
    by_cases hs : s = 0
    · rw [if_pos hs] at h; exact absurd h (by simp)
    rw [if_neg hs] at h
    have hr : (c.root && !c.form.diagonal) = false := by
      cases hr : c.root with
      | false => rfl
      | true => rw [hroot hr]; rfl
    rw [if_neg (by rw [hr]; simp)] at h
    obtain rfl := Option.some.inj h
    refine ⟨WF.of_smul hw (RCLike.conj_ofReal _) false, ?_⟩
    obtain ⟨root, form, N, z, d⟩ := c
    rcases hf with rfl | ⟨up, rfl⟩
    · have : A = N := by cases root <;> exact hA
      rw [this]; rfl
    · cases root with
      | true => exact absurd (hroot rfl) (by simp)
      | false => have : A = N := hA
                 rw [this]; rfl

theorem sdiv_pos_some {lib : Lib 𝕜} (c : Cov 𝕜 n) {s : ℝ} (hs : 0 < s) : (sdiv lib c s).isSome = true := by
  unfold sdiv
  have h := hs.ne'
  split_ifs <;> rfl

theorem neg_sound {c r : Cov 𝕜 n} (hw : c.WF) {A : Mat 𝕜 n} (hA : c.Represents A) (h : neg c = some r) : r.WF ∧ r.Represents (-A) := by
  have no : ∀ {p : Prop}, (false = true → p) := fun h => absurd h (by simp)
  unfold neg at h
  by_cases h0 : c.zero = true
  · rw [if_pos h0] at h
    obtain rfl := Option.some.inj h
    have hz := represents_zero (a := .cov c) hw h0 hA
    rw [hz, neg_zero, ← hz]; exact ⟨hw, hA⟩
  rw [if_neg h0] at h
  by_cases h1 : (c.choleskyForm && !c.root) = true
  · rw [if_pos h1] at h; exact absurd h (by simp)
  rw [if_neg h1] at h
  by_cases h2 : (!c.choleskyForm && c.root && !c.form.diagonal) = true
  · rw [if_pos h2] at h; exact absurd h (by simp)
  rw [if_neg h2] at h
  obtain rfl := Option.some.inj h
  constructor
  · have := WF.of_smul hw (s := (-1 : 𝕜)) (by simp) c.root
    rwa [neg_one_smul] at this
  · obtain ⟨root, form, N, z, d⟩ := c
    cases root <;> cases form
    · rename_i up; exact congrArg Neg.neg (show A = N from hA)
    · exact congrArg Neg.neg (show A = N from hA)
    · exact absurd rfl h1
    · exact absurd rfl h1
    · exact absurd rfl h2
    · exact congrArg Neg.neg (show A = N from hA)
    · exact congrArg Neg.neg (show A = N from hA)
    · exact congrArg Neg.neg (show A = N from hA)

/-- `scale` of a self-adjoint covariance multiplies by the square of a real factor. -/
theorem scale_cov {c : Cov 𝕜 n} (hw : c.WF) (hr : c.root = false) {A : Mat 𝕜 n} (hA : c.Represents A) {s : 𝕜} (hs : star s = s) :
    (scale c s).WF ∧ (scale c s).root = false ∧ (scale c s).Represents ((s * s) • A) := by
  have hss : star (s * s) = s * s := by rw [star_mul, hs]
  obtain ⟨root, form, N, z, d⟩ := c
  subst hr
  cases form with
  | herm up =>
    have : A = N := hA
    exact ⟨WF.of_smul hw hss false, rfl, by rw [this]; rfl⟩
  | diag =>
    have : A = N := hA
    exact ⟨WF.of_smul hw hss false, rfl, by rw [this]; rfl⟩
  | cdiag =>
    have hA : A = N * Nᴴ := hA
    refine ⟨WF.of_smul hw hs false, rfl, ?_⟩
    show (s * s) • A = gram false (s • N)
    rw [gram_smul, hs, hA]; rfl
  | tri up =>
    have hA : A = gram up N := hA
    refine ⟨WF.of_smul hw hs false, rfl, ?_⟩
    show (s * s) • A = gram up (s • N)
    rw [gram_smul, hs, hA]

/-- `scale` of a square-root covariance multiplies by the factor (which must be nonnegative if the square root is stored as its square). -/
theorem scale_root {c : Cov 𝕜 n} (hw : c.WF) (hr : c.root = true) {A : Mat 𝕜 n} (hA : c.Represents A) {s : 𝕜} (hs : star s = s)
    (hpos : ∀ up, c.form = .herm up → 0 ≤ s) : (scale c s).WF ∧ (scale c s).root = true ∧ (scale c s).Represents (s • A) := by
  have hss : star (s * s) = s * s := by rw [star_mul, hs]
  obtain ⟨root, form, N, z, d⟩ := c
  subst hr
  cases form with
  | herm up =>
    obtain ⟨h1, h2, h3⟩ := hA
    have hp := hpos up rfl
    refine ⟨WF.of_smul hw hss true, rfl, h1.smul s, ?_, fun i => ?_⟩
    · show gram up (s • A) = (s * s) • N
      rw [gram_smul, h2, hs]
    · rw [Matrix.smul_apply]; exact mul_nonneg hp (h3 i)
  | diag =>
    have : A = N := hA
    exact ⟨WF.of_smul hw hs true, rfl, by rw [this]; rfl⟩
  | cdiag =>
    have : A = N := hA
    exact ⟨WF.of_smul hw hs true, rfl, by rw [this]; rfl⟩
  | tri up =>
    have : A = N := hA
    exact ⟨WF.of_smul hw hs true, rfl, by rw [this]; rfl⟩

theorem inverseScale_eq {c : Cov 𝕜 n} {s : 𝕜} (hs : s ≠ 0) : inverseScale c s = some (scale c s⁻¹) := by
  unfold inverseScale scale
  rw [if_neg hs]
  split_ifs with h
  · rfl
  · rw [mul_inv]

theorem conj_sandwich_herm {k : ℕ} (A : Matrix (Fin k) (Fin n) 𝕜) {P : Mat 𝕜 n} (h : P.IsHermitian) : (A * (P * Aᴴ)).IsHermitian := by
  show (A * (P * Aᴴ))ᴴ = _
  rw [conjTranspose_mul, conjTranspose_mul, conjTranspose_conjTranspose, h.eq, Matrix.mul_assoc]

theorem represents_isHermitian {c : Cov 𝕜 n} (hw : c.WF) (hr : c.root = false) {M : Mat 𝕜 n} (hM : c.Represents M) : M.IsHermitian := by
  obtain ⟨root, form, N, z, d⟩ := c
  subst hr
  have hw := hw.1
  cases form with
  | herm up => rw [show M = N from hM]; exact hw
  | diag => rw [show M = N from hM]; exact hw.2
  | cdiag => rw [show M = N * Nᴴ from hM]; exact gram_isHermitian false N
  | tri up => rw [show M = gram up N from hM]; exact gram_isHermitian up N

theorem scaleMat_cov {lib : Lib 𝕜} (ok : lib.Ok) {k : ℕ} {c : Cov 𝕜 n} (hw : c.WF) (hr : c.root = false) {M : Mat 𝕜 n} (hM : c.Represents M)
    (A : Matrix (Fin k) (Fin n) 𝕜) : (scaleMat lib c A).WF ∧ (scaleMat lib c A).root = false ∧ (scaleMat lib c A).Represents (A * M * Aᴴ) := by
  have no : ∀ {p : Prop}, (false = true → p) := fun h => absurd h (by simp)
  have hH := represents_isHermitian hw hr hM
  have e : A * mulMat lib c Aᴴ = A * (M * Aᴴ) := by
    rw [mulMat_sound ok hw (fun h => absurd (hr.symm.trans h) (by simp)) hM]
  have e2 : A * M * Aᴴ = A * (M * Aᴴ) := Matrix.mul_assoc _ _ _
  have hS : (A * mulMat lib c Aᴴ).IsHermitian := by rw [e]; exact conj_sandwich_herm A hH
  obtain ⟨root, form, N, z, d⟩ := c
  subst hr
  cases form with
  | herm up => exact ⟨⟨hS, no, no⟩, rfl, e2.trans e.symm⟩
  | diag => exact ⟨⟨hS, no, no⟩, rfl, e2.trans e.symm⟩
  | cdiag => exact ⟨⟨hS, no, no⟩, rfl, e2.trans e.symm⟩
  | tri up =>
    cases up with
    | true =>
      have hM : M = Nᴴ * N := hM
      have q := ok.qr (N * Aᴴ)
      refine ⟨⟨q.1, no, no⟩, rfl, ?_⟩
      show A * M * Aᴴ = (lib.qr (N * Aᴴ))ᴴ * lib.qr (N * Aᴴ)
      rw [q.2, conjTranspose_mul, conjTranspose_conjTranspose, hM]
      simp only [Matrix.mul_assoc]
    | false =>
      have hM : M = N * Nᴴ := hM
      have q := ok.lq (A * N)
      refine ⟨⟨q.1, no, no⟩, rfl, ?_⟩
      show A * M * Aᴴ = lib.lq (A * N) * (lib.lq (A * N))ᴴ
      rw [q.2, conjTranspose_mul, hM]
      simp only [Matrix.mul_assoc]

/-- The triangle a form is read in. -/
def Form.up : Form → Bool
  | .herm up => up | .tri up => up | _ => false

theorem scaleMat_root {lib : Lib 𝕜} (ok : lib.Ok) {k : ℕ} {c : Cov 𝕜 n} (hw : c.WF) (hr : c.root = true) {M : Mat 𝕜 n} (hM : c.Represents M)
    (A : Matrix (Fin k) (Fin n) 𝕜) : (scaleMat lib c A).WF ∧ (scaleMat lib c A).root = true ∧ ∀ R, (scaleMat lib c A).Represents R →
      IsTri c.form.up R ∧ gram c.form.up R = A * gram c.form.up M * Aᴴ := by
  have no : ∀ {p : Prop}, (false = true → p) := fun h => absurd h (by simp)
  obtain ⟨root, form, N, z, d⟩ := c
  subst hr
  cases form with
  | herm up =>
    have h2 : gram up M = N := hM.2.1
    refine ⟨⟨conj_sandwich_herm A hw.1, no, no⟩, rfl, fun R hR => ⟨hR.1, ?_⟩⟩
    show gram up R = A * gram up M * Aᴴ
    rw [hR.2.1, h2]; exact (Matrix.mul_assoc _ _ _).symm
  | diag =>
    have hM : M = N := hM
    refine ⟨⟨conj_sandwich_herm A (gram_isHermitian false N), no, no⟩, rfl, fun R hR => ⟨hR.1, ?_⟩⟩
    show gram false R = A * gram false M * Aᴴ
    rw [hR.2.1, hM]; exact (Matrix.mul_assoc _ _ _).symm
  | cdiag =>
    have hM : M = N := hM
    refine ⟨⟨conj_sandwich_herm A (gram_isHermitian false N), no, no⟩, rfl, fun R hR => ⟨hR.1, ?_⟩⟩
    show gram false R = A * gram false M * Aᴴ
    rw [hR.2.1, hM]; exact (Matrix.mul_assoc _ _ _).symm
  | tri up =>
    have hM : M = N := hM
    cases up with
    | true =>
      have q := ok.qr (N * Aᴴ)
      refine ⟨⟨q.1, no, no⟩, rfl, ?_⟩
      rintro R (rfl : R = lib.qr (N * Aᴴ))
      refine ⟨q.1, ?_⟩
      show _ᴴ * _ = A * (Mᴴ * M) * Aᴴ
      rw [q.2, conjTranspose_mul, conjTranspose_conjTranspose, hM]
      simp only [Matrix.mul_assoc]
    | false =>
      have q := ok.lq (A * N)
      refine ⟨⟨q.1, no, no⟩, rfl, ?_⟩
      rintro R (rfl : R = lib.lq (A * N))
      refine ⟨q.1, ?_⟩
      show _ * _ᴴ = A * (M * Mᴴ) * Aᴴ
      rw [q.2, conjTranspose_mul, hM]
      simp only [Matrix.mul_assoc]

/-! ### In-place operators -/

theorem gram_transpose_real (hre : ∀ z : 𝕜, star z = z) (A : Mat 𝕜 n) : Aᵀ = Aᴴ := by
  ext i j
  rw [conjTranspose_apply, transpose_apply, hre]

/-- The argument of an in-place operator: its triangle agrees with the one wanted, or the scalar type is real. -/
def Fits (up : Bool) (c : Cov 𝕜 n) : Prop := ∀ up', (c.form = .herm up' ∨ c.form = .tri up') → up' = up ∨ ∀ z : 𝕜, star z = z

theorem selfAdjointNested_eq {c : Cov 𝕜 n} (hr : c.root = false) {M : Mat 𝕜 n} (hM : c.Represents M) : c.selfAdjointNested = M := by
  obtain ⟨root, form, N, z, d⟩ := c
  subst hr
  cases form <;> exact hM.symm

theorem flip_factor {up up' : Bool} {X : Mat 𝕜 n} (h : up' = up ∨ ∀ z : 𝕜, star z = z) (hX : IsTri up' X) {M : Mat 𝕜 n} (hM : gram up' X = M) :
    ∀ Y : Mat 𝕜 n, Y = (if up = up' then X else Xᵀ) → IsTri up Y ∧ gram up Y = M := by
  rintro Y rfl
  by_cases hu : up = up'
  · subst hu; rw [if_pos rfl]; exact ⟨hX, hM⟩
  · rw [if_neg hu]
    have hre := h.resolve_left (fun e => hu e.symm)
    have e : up = !up' := by cases up <;> cases up' <;> simp_all
    rw [gram_transpose_real hre, e]
    exact ⟨hX.conjTranspose, by rw [← gram_conj]; exact hM⟩

theorem toTri_gram {lib : Lib 𝕜} (ok : lib.Ok) {up : Bool} {c : Cov 𝕜 n} (hw : c.WF) (hr : c.root = false) (hd : c.form ≠ .diag)
    (hp : ∀ u, c.form = .herm u → c.nested.PosDef) (hfit : Fits up c) {M : Mat 𝕜 n} (hM : c.Represents M) :
    IsTri up (c.toTri lib up) ∧ gram up (c.toTri lib up) = M := by
  obtain ⟨root, form, N, z, d⟩ := c
  subst hr
  cases form with
  | herm up' =>
    have hM : M = N := hM
    have hc := ok.chol N up' (hp up' rfl)
    exact flip_factor (hfit up' (Or.inl rfl)) hc.1 (hc.2.1.trans hM.symm) _ rfl
  | diag => exact absurd rfl hd
  | cdiag =>
    have hM : M = N * Nᴴ := hM
    exact ⟨isTri_of_isDiag hw.1 _, (isDiag_gram hw.1 up).trans hM.symm⟩
  | tri up' =>
    have hM : M = gram up' N := hM
    exact flip_factor (hfit up' (Or.inr rfl)) hw.1 hM.symm _ rfl

/-- The pair of forms stands for the covariance `P`: whichever is up to date. -/
def HoldsCov (up : Bool) (P : Mat 𝕜 n) (o : State 𝕜 n) : Prop :=
  (0 ≤ o.sd → IsTri up o.nested ∧ gram up o.nested = P) ∧ (o.sd ≤ 0 → o.chol = P)

/-- The pair of forms stands for the square root `L`. -/
def HoldsRoot (up : Bool) (L : Mat 𝕜 n) (o : State 𝕜 n) : Prop :=
  (0 ≤ o.sd → IsChol up o.nested L) ∧ (o.sd ≤ 0 → o.chol = L)

theorem addCov_sound {lib : Lib 𝕜} (ok : lib.Ok) {up : Bool} {o : State 𝕜 n} {P : Mat 𝕜 n} (ho : HoldsCov up P o) {c : Cov 𝕜 n} (hw : c.WF)
    (hr : c.root = false) (hd : c.form ≠ .diag) (hp : ∀ u, c.form = .herm u → c.nested.PosDef) (hfit : Fits up c) {Q : Mat 𝕜 n} (hQ : c.Represents Q) :
    HoldsCov up (P + Q) (o.addCov lib up c) := by
  have ht := toTri_gram ok hw hr hd hp hfit hQ
  refine ⟨fun h => ?_, fun h => ?_⟩
  · have h : 0 ≤ o.sd := h
    obtain ⟨h1, h2⟩ := ho.1 h
    have e : (o.addCov lib up c).nested =
        if up = true then lib.qr (fromRows o.nested (c.toTri lib up)) else lib.lq (fromCols o.nested (c.toTri lib up)) := if_pos h
    rw [e]
    cases up with
    | true =>
      have q := ok.qr (fromRows o.nested (c.toTri lib true))
      rw [if_pos rfl]
      refine ⟨q.1, ?_⟩
      show _ᴴ * _ = _
      rw [q.2, fromRows_gram]
      exact congrArg₂ (· + ·) h2 ht.2
    | false =>
      have q := ok.lq (fromCols o.nested (c.toTri lib false))
      rw [if_neg (by simp)]
      refine ⟨q.1, ?_⟩
      show _ * _ᴴ = _
      rw [q.2, fromCols_gram]
      exact congrArg₂ (· + ·) h2 ht.2
  · have h : o.sd ≤ 0 := h
    have e : (o.addCov lib up c).chol = o.chol + c.selfAdjointNested := if_pos h
    rw [e, ho.2 h, selfAdjointNested_eq hr hQ]

theorem subCov_sound {lib : Lib 𝕜} (ok : lib.Ok) {up : Bool} {o r : State 𝕜 n} {P : Mat 𝕜 n} (ho : HoldsCov up P o) {c : Cov 𝕜 n} (hw : c.WF)
    (hr : c.root = false) (hd : c.form ≠ .diag) (hp : ∀ u, c.form = .herm u → c.nested.PosDef) (hfit : Fits false c) {Q : Mat 𝕜 n} (hQ : c.Represents Q)
    (h : o.subCov lib up c = some r) : HoldsCov up (P - Q) r := by
  have ht := toTri_gram ok hw hr hd hp hfit hQ
  have hchol : o.sd ≤ 0 → (if o.sd ≤ 0 then o.chol - c.selfAdjointNested else o.chol) = P - Q := by
    intro h
    rw [if_pos h, ho.2 h, selfAdjointNested_eq hr hQ]
  unfold State.subCov at h
  by_cases hs : o.sd ≥ 0
  · rw [if_pos hs] at h
    obtain ⟨N', hN, h⟩ := Option.bind_eq_some_iff.mp h
    obtain rfl := Option.some.inj h
    have u := ok.update hN
    refine ⟨fun _ => ⟨u.1, ?_⟩, hchol⟩
    show gram up N' = _
    have hV : c.toTri lib false * (c.toTri lib false)ᴴ = Q := ht.2
    rw [u.2, (ho.1 hs).2, hV, RCLike.ofReal_neg, RCLike.ofReal_one, neg_one_smul, sub_eq_add_neg]
  · rw [if_neg hs] at h
    obtain rfl := Option.some.inj h
    exact ⟨fun h => absurd h hs, hchol⟩

theorem gram_zero (up : Bool) : gram up (0 : Mat 𝕜 n) = 0 := by unfold gram; split_ifs <;> simp

theorem mulCov_sound {lib : Lib 𝕜} (ok : lib.Ok) {up : Bool} {o r : State 𝕜 n} {P : Mat 𝕜 n} (ho : HoldsCov up P o) {s : ℝ} (h : o.mulCov lib up s = some r) :
    HoldsCov up ((s : 𝕜) • P) r := by
  have hchol : o.sd ≤ 0 → (if o.sd ≤ 0 then (s : 𝕜) • o.chol else o.chol) = (s : 𝕜) • P := by
    intro h
    rw [if_pos h, ho.2 h]
  unfold State.mulCov at h
  by_cases h1 : 0 < s
  · rw [if_pos h1] at h
    obtain rfl := Option.some.inj h
    refine ⟨fun h => ?_, hchol⟩
    have h : o.sd ≥ 0 := h
    show IsTri up (if o.sd ≥ 0 then _ else _) ∧ gram up (if o.sd ≥ 0 then _ else _) = _
    rw [if_pos h, gram_ofReal_smul, (ho.1 h).2, Real.mul_self_sqrt h1.le]
    exact ⟨(ho.1 h).1.smul _, rfl⟩
  rw [if_neg h1] at h
  by_cases h2 : s < 0
  · rw [if_pos h2] at h
    by_cases hs : o.sd ≥ 0
    · rw [if_pos hs] at h
      obtain ⟨N', hN, h⟩ := Option.bind_eq_some_iff.mp h
      obtain rfl := Option.some.inj h
      obtain ⟨rfl, hz⟩ := update_zero ok h2 hN
      have hz : o.nested = 0 := by
        split_ifs at hz
        · rw [← transpose_transpose o.nested, hz, transpose_zero]
        · exact hz
      refine ⟨fun _ => ⟨IsTri.zero, ?_⟩, hchol⟩
      show gram up 0 = _
      rw [← (ho.1 hs).2, hz, gram_zero, smul_zero]
    · rw [if_neg hs] at h
      obtain rfl := Option.some.inj h
      exact ⟨fun h => absurd h hs, hchol⟩
  · rw [if_neg h2] at h
    obtain rfl := Option.some.inj h
    have h0 : s = 0 := le_antisymm (not_lt.mp h1) (not_lt.mp h2)
    rw [h0, RCLike.ofReal_zero, zero_smul]
    by_cases hs : o.sd ≤ 0
    · rw [if_pos hs]; exact ⟨fun _ => ⟨IsTri.zero, gram_zero up⟩, fun _ => rfl⟩
    · rw [if_neg hs]; exact ⟨fun _ => ⟨IsTri.zero, gram_zero up⟩, fun h => absurd h hs⟩

theorem divCov_sound {lib : Lib 𝕜} (ok : lib.Ok) {up : Bool} {o r : State 𝕜 n} {P : Mat 𝕜 n} (ho : HoldsCov up P o) {s : ℝ} (h : o.divCov lib up s = some r) :
    HoldsCov up (((s⁻¹ : ℝ) : 𝕜) • P) r := by
  have hchol : o.sd ≤ 0 → (if o.sd ≤ 0 then ((s⁻¹ : ℝ) : 𝕜) • o.chol else o.chol) = ((s⁻¹ : ℝ) : 𝕜) • P := by
    intro h
    rw [if_pos h, ho.2 h]
  unfold State.divCov at h
  by_cases h1 : 0 < s
  · rw [if_pos h1] at h
    obtain rfl := Option.some.inj h
    refine ⟨fun h => ?_, hchol⟩
    have h : o.sd ≥ 0 := h
    show IsTri up (if o.sd ≥ 0 then _ else _) ∧ gram up (if o.sd ≥ 0 then _ else _) = _
    rw [if_pos h, gram_ofReal_smul, (ho.1 h).2, ← mul_inv, Real.mul_self_sqrt h1.le]
    exact ⟨(ho.1 h).1.smul _, rfl⟩
  rw [if_neg h1] at h
  by_cases h2 : s < 0
  · rw [if_pos h2] at h
    by_cases hs : o.sd ≥ 0
    · rw [if_pos hs] at h
      obtain ⟨N', hN, h⟩ := Option.bind_eq_some_iff.mp h
      obtain rfl := Option.some.inj h
      obtain ⟨rfl, hz⟩ := update_zero ok (one_div_neg.mpr h2) hN
      have hz : o.nested = 0 := by
        split_ifs at hz
        · rw [← transpose_transpose o.nested, hz, transpose_zero]
        · exact hz
      refine ⟨fun _ => ⟨IsTri.zero, ?_⟩, hchol⟩
      show gram up 0 = _
      rw [← (ho.1 hs).2, hz, gram_zero, smul_zero]
    · rw [if_neg hs] at h
      obtain rfl := Option.some.inj h
      exact ⟨fun h => absurd h hs, hchol⟩
  · rw [if_neg h2] at h
    exact absurd h (by simp)

theorem scaleCov_sound {up : Bool} {o : State 𝕜 n} {P : Mat 𝕜 n} (ho : HoldsCov up P o) {s : 𝕜} (hs : star s = s) :
    HoldsCov up ((s * s) • P) (o.scaleCov s) := by
  refine ⟨fun h => ?_, fun h => ?_⟩
  · have h : o.sd ≥ 0 := h
    show IsTri up (if o.sd ≥ 0 then _ else _) ∧ gram up (if o.sd ≥ 0 then _ else _) = _
    rw [if_pos h, gram_smul, (ho.1 h).2, hs]
    exact ⟨(ho.1 h).1.smul _, rfl⟩
  · have h : o.sd ≤ 0 := h
    show (if o.sd ≤ 0 then _ else _) = _
    rw [if_pos h, ho.2 h]

theorem inverseScaleCov_eq (o : State 𝕜 n) (s : 𝕜) : o.inverseScaleCov s = o.scaleCov s⁻¹ := by
  unfold State.inverseScaleCov State.scaleCov
  rw [mul_inv]

theorem toTri_root {lib : Lib 𝕜} (ok : lib.Ok) {up : Bool} {c : Cov 𝕜 n} (hw : c.WF) (hd : c.Definite) (hr : c.root = true)
    (hfit : ∀ up', (c.form = .herm up' ∨ c.form = .tri up') → up' = up) {M : Mat 𝕜 n} (hM : c.Represents M) : c.toTri lib up = M := by
  obtain ⟨root, form, N, z, d⟩ := c
  subst hr
  cases form with
  | herm up' =>
    obtain rfl := hfit up' (Or.inl rfl)
    have hp := hd rfl up' rfl
    exact (if_pos rfl).trans (isChol_unique hp (ok.chol N up' hp) hM)
  | diag => exact hM.symm
  | cdiag => exact hM.symm
  | tri up' =>
    obtain rfl := hfit up' (Or.inr rfl)
    exact (if_pos rfl).trans hM.symm

theorem opRoot_sound {lib : Lib 𝕜} (ok : lib.Ok) {up : Bool} (f : Mat 𝕜 n → Mat 𝕜 n → Mat 𝕜 n) {o : State 𝕜 n} {L : Mat 𝕜 n} (ho : HoldsRoot up L o)
    (hdef : 0 < o.sd → o.nested.PosDef) {c : Cov 𝕜 n} (hw : c.WF) (hd : c.Definite) (hr : c.root = true)
    (hfit : ∀ up', (c.form = .herm up' ∨ c.form = .tri up') → up' = up) {K : Mat 𝕜 n} (hK : c.Represents K) :
    HoldsRoot up (f L K) (o.opRoot lib up f c) ∧ (o.opRoot lib up f c).sd = -1 := by
  have ht := toTri_root ok hw hd hr hfit hK
  have key : (o.opRoot lib up f c).sd = -1 ∧ (o.opRoot lib up f c).chol = f L K := by
    unfold State.opRoot
    by_cases hs : o.sd > 0
    · have e : lib.chol up o.nested = L := isChol_unique (hdef hs) (ok.chol _ up (hdef hs)) (ho.1 hs.le)
      simp only [if_pos hs, e, ht]
      exact ⟨rfl, rfl⟩
    · simp only [if_neg hs, ht, ho.2 (not_lt.mp hs)]
      exact ⟨trivial, trivial⟩
  refine ⟨⟨fun h => ?_, fun _ => key.2⟩, key.1⟩
  rw [key.1] at h
  exact absurd h (by decide)

theorem mulRoot_sound {up : Bool} {o : State 𝕜 n} {L : Mat 𝕜 n} (ho : HoldsRoot up L o) {s : 𝕜} (hs : 0 ≤ s) : HoldsRoot up (s • L) (o.mulRoot s) := by
  have hst : star s = s := IsSelfAdjoint.of_nonneg hs
  refine ⟨fun h => ?_, fun h => ?_⟩
  · have h : o.sd ≥ 0 := h
    obtain ⟨h1, h2, h3⟩ := ho.1 h
    show IsChol up (if o.sd ≥ 0 then _ else _) _
    rw [if_pos h]
    refine ⟨h1.smul s, by rw [gram_smul, h2, hst], fun i => ?_⟩
    rw [Matrix.smul_apply]; exact mul_nonneg hs (h3 i)
  · have h : o.sd ≤ 0 := h
    show (if o.sd ≤ 0 then _ else _) = _
    rw [if_pos h, ho.2 h]

theorem divRoot_eq (o : State 𝕜 n) (s : 𝕜) : o.divRoot s = o.mulRoot s⁻¹ := by
  unfold State.divRoot State.mulRoot
  rw [mul_inv]

open Classical in
/-- A library meeting `Lib.Ok`. -/
noncomputable def someLib : Lib 𝕜 where
  chol up P := if h : P.PosSemidef then (exists_chol h up).choose else 0
  lq {k m} A := if h : ∃ L : Mat 𝕜 k, IsTri false L ∧ ∀ _ : Fintype m, L * Lᴴ = A * Aᴴ then h.choose else 0
  qr {k m} A := if h : ∃ L : Mat 𝕜 k, IsTri true L ∧ ∀ _ : Fintype m, Lᴴ * L = Aᴴ * A then h.choose else 0
  update up N V α := if h : (gram up N + (α : 𝕜) • (V * Vᴴ)).PosSemidef then some (exists_chol h up).choose else none

theorem someLib_ok : (someLib : Lib 𝕜).Ok where
  chol P up h := by
    have e : (someLib : Lib 𝕜).chol up P = (exists_chol h.posSemidef up).choose := dif_pos h.posSemidef
    rw [e]
    exact (exists_chol h.posSemidef up).choose_spec
  lq {k m} inst A := by
    have h : ∃ L : Mat 𝕜 k, IsTri false L ∧ ∀ _ : Fintype m, L * Lᴴ = A * Aᴴ := by
      obtain ⟨L, h1, h2⟩ := exists_tri (posSemidef_self_mul_conjTranspose A)
      refine ⟨L, h1, fun i => ?_⟩
      rw [Subsingleton.elim i inst]; exact h2
    have e : (someLib : Lib 𝕜).lq A = h.choose := dif_pos h
    rw [e]
    exact ⟨h.choose_spec.1, h.choose_spec.2 inst⟩
  qr {k m} inst A := by
    have h : ∃ L : Mat 𝕜 k, IsTri true L ∧ ∀ _ : Fintype m, Lᴴ * L = Aᴴ * A := by
      obtain ⟨L, h1, h2⟩ := exists_tri (posSemidef_conjTranspose_mul_self A)
      refine ⟨Lᴴ, h1.conjTranspose, fun i => ?_⟩
      rw [Subsingleton.elim i inst, conjTranspose_conjTranspose]; exact h2
    have e : (someLib : Lib 𝕜).qr A = h.choose := dif_pos h
    rw [e]
    exact ⟨h.choose_spec.1, h.choose_spec.2 inst⟩
  update {n up N V N' α} h := by
    by_cases hp : (gram up N + (α : 𝕜) • (V * Vᴴ)).PosSemidef
    · have e : (someLib : Lib 𝕜).update up N V α = some (exists_chol hp up).choose := dif_pos hp
      rw [e] at h
      obtain rfl := Option.some.inj h
      have := (exists_chol hp up).choose_spec
      exact ⟨this.1, this.2.1⟩
    · have e : (someLib : Lib 𝕜).update up N V α = none := dif_neg hp
      rw [e] at h; exact absurd h (by simp)
  updateSome {n up N V α} h := by
    have e : (someLib : Lib 𝕜).update up N V α = some (exists_chol h.posSemidef up).choose := dif_pos h.posSemidef
    rw [e]; rfl

end OpenKalman.CovArith
