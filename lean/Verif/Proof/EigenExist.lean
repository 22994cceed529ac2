import Verif.Model.EigenHooks
import Mathlib.Analysis.Matrix.Order
import Mathlib.Analysis.InnerProductSpace.PiL2
import Mathlib.Analysis.InnerProductSpace.Projection.Minimal
import Mathlib.LinearAlgebra.Matrix.Block
import Mathlib.Tactic.LinearCombination
import Mathlib.Tactic.Linarith

/-!
# There is a library that meets the contract of `EigenLib`
-/

namespace OpenKalman.EigenHooks
open Matrix
open scoped ComplexOrder

set_option linter.unusedSectionVars false

variable {𝕜 : Type} [RCLike 𝕜] {m n k : ℕ}

/-! ## Triangular factors -/

/-- The rest of the matrix after elimination of the first column. -/
noncomputable def elim (c : Fin n → 𝕜) : Matrix (Fin n) (Fin (n + 1)) 𝕜 := fun i j => Fin.cases (-(c i)) (fun j => if i = j then 1 else 0) j

theorem elim_conj (A : Matrix (Fin (n + 1)) (Fin (n + 1)) 𝕜) (c : Fin n → 𝕜) (a : 𝕜) (h0 : A 0 0 = a) (hc : ∀ i, A i.succ 0 = a * c i)
    (hr : ∀ i, A 0 i.succ = a * star (c i)) (i j : Fin n) :
    (elim c * A * (elim c)ᴴ) i j = A i.succ j.succ - c i * a * star (c j) := by
  simp only [Matrix.mul_apply, Fin.sum_univ_succ, elim, Fin.cases_zero, Fin.cases_succ, conjTranspose_apply, h0, hc, hr, ite_mul, one_mul, zero_mul,
    Finset.sum_ite_eq, Finset.mem_univ, if_true, RCLike.star_def, apply_ite, map_one, map_zero, mul_one, mul_zero]
  ring

theorem posSemidef_diag (A : Matrix (Fin n) (Fin n) 𝕜) (h : A.PosSemidef) (i : Fin n) : ∃ a : ℝ, 0 ≤ a ∧ A i i = (a : 𝕜) := by
  have h1 := h.diag_nonneg (i := i)
  rw [RCLike.le_iff_re_im] at h1
  refine ⟨RCLike.re (A i i), by simpa using h1.1, ?_⟩
  apply RCLike.ext <;> simp
  simpa using h1.2.symm

theorem posSemidef_zero_col (A : Matrix (Fin n) (Fin n) 𝕜) (h : A.PosSemidef) (i j : Fin n) (hj : A j j = 0) : A i j = 0 := by
  have h1 := (h.dotProduct_mulVec_zero_iff (Pi.single j 1)).mp (by simp [dotProduct, Pi.single_apply, apply_ite, hj])
  have h2 := congrFun h1 i
  simpa [Matrix.mulVec_single_one] using h2

/-- A row and a column in front of a matrix. -/
def bord (a : 𝕜) (r : Fin n → 𝕜) (c : Fin m → 𝕜) (L : Matrix (Fin m) (Fin n) 𝕜) : Matrix (Fin (m + 1)) (Fin (n + 1)) 𝕜 :=
  Matrix.of fun i j => Fin.cases (Fin.cases a r j) (fun i => Fin.cases (c i) (L i) j) i

@[simp] theorem bord_00 (a : 𝕜) (r : Fin n → 𝕜) (c : Fin m → 𝕜) (L : Matrix (Fin m) (Fin n) 𝕜) : bord a r c L 0 0 = a := rfl
@[simp] theorem bord_0s (a : 𝕜) (r : Fin n → 𝕜) (c : Fin m → 𝕜) (L : Matrix (Fin m) (Fin n) 𝕜) (j : Fin n) : bord a r c L 0 j.succ = r j := rfl
@[simp] theorem bord_s0 (a : 𝕜) (r : Fin n → 𝕜) (c : Fin m → 𝕜) (L : Matrix (Fin m) (Fin n) 𝕜) (i : Fin m) : bord a r c L i.succ 0 = c i := rfl
@[simp] theorem bord_ss (a : 𝕜) (r : Fin n → 𝕜) (c : Fin m → 𝕜) (L : Matrix (Fin m) (Fin n) 𝕜) (i : Fin m) (j : Fin n) :
    bord a r c L i.succ j.succ = L i j := rfl

/-- A number in front of a vector. -/
def bordV (a : ℝ) (d : Fin n → ℝ) : Fin (n + 1) → ℝ := fun i => Fin.cases a d i

@[simp] theorem bordV_0 (a : ℝ) (d : Fin n → ℝ) : bordV a d 0 = a := rfl
@[simp] theorem bordV_s (a : ℝ) (d : Fin n → ℝ) (i : Fin n) : bordV a d i.succ = d i := rfl

/-- Every positive semidefinite matrix is `L D L*`. -/
theorem exists_ldl : ∀ {n : ℕ} (A : Matrix (Fin n) (Fin n) 𝕜), A.PosSemidef → ∃ (L : Matrix (Fin n) (Fin n) 𝕜) (d : Fin n → ℝ),
    IsTri .lower L ∧ (∀ i, L i i = 1) ∧ (∀ i, 0 ≤ d i) ∧ A = L * diagonal (fun i => (d i : 𝕜)) * Lᴴ := by
  intro n
  induction n with
  | zero => intro A _; exact ⟨0, fun _ => 0, fun i => i.elim0, fun i => i.elim0, fun i => i.elim0, by ext i; exact i.elim0⟩
  | succ n ih =>
    intro A hA
    obtain ⟨a, ha, h0⟩ := posSemidef_diag A hA 0
    let c : Fin n → 𝕜 := fun i => A i.succ 0 / a
    have hc : ∀ i, A i.succ 0 = a * c i := by
      intro i
      by_cases ha0 : (a : 𝕜) = 0
      · rw [posSemidef_zero_col A hA _ 0 (by rw [h0, ha0]), ha0, zero_mul]
      · simp only [c]; field_simp
    have hr : ∀ i, A 0 i.succ = a * star (c i) := by
      intro i
      have := hA.1.apply 0 i.succ
      rw [← this, hc i]
      simp
    have hS := hA.mul_mul_conjTranspose_same (elim c)
    obtain ⟨L, d, hL, h1, hd, he⟩ := ih _ hS
    refine ⟨bord 1 0 c L, bordV a d, ?_, ?_, ?_, ?_⟩
    · intro i j hij
      induction i using Fin.cases with
      | zero =>
        induction j using Fin.cases with
        | zero => exact absurd (le_refl _) hij
        | succ j => rfl
      | succ i =>
        induction j using Fin.cases with
        | zero => exact absurd (Nat.zero_le _) hij
        | succ j =>
          rw [bord_ss]
          exact hL i j (fun h => hij (by simp only [Tri.Has, Fin.val_succ] at h ⊢; omega))
    · intro i; refine Fin.cases ?_ (fun i => ?_) i <;> simp [h1]
    · intro i; refine Fin.cases ?_ (fun i => ?_) i <;> simp [ha, hd]
    · ext i j
      simp only [Matrix.mul_apply (M := bord 1 0 c L * _), Matrix.mul_diagonal, Fin.sum_univ_succ, conjTranspose_apply]
      induction i using Fin.cases with
      | zero =>
        induction j using Fin.cases with
        | zero => simp [h0]
        | succ j => simp [hr]
      | succ i =>
        induction j using Fin.cases with
        | zero => simp [hc, mul_comm]
        | succ j =>
          have h2 := elim_conj A c a h0 hc hr i j
          rw [he] at h2
          simp only [Matrix.mul_apply (M := L * _), Matrix.mul_diagonal, conjTranspose_apply] at h2
          simp only [bord_ss, bord_s0, bordV_0, bordV_s]
          rw [h2]
          ring

theorem isTri_conjTranspose (F : Matrix (Fin m) (Fin n) 𝕜) (h : IsTri .lower F) : IsTri .upper Fᴴ := by
  intro i j hij
  rw [conjTranspose_apply, h j i hij, star_zero]

/-- Every positive semidefinite matrix has a lower and an upper triangular factor with a real diagonal. -/
theorem exists_factor (t : Tri) (A : Matrix (Fin n) (Fin n) 𝕜) (h : A.PosSemidef) : ∃ F, IsTri t F ∧ RealDiag F ∧ gram t F = A := by
  obtain ⟨L, d, hL, h1, hd, he⟩ := exists_ldl A h
  have hsq : ∀ i, (Real.sqrt (d i) : 𝕜) * (Real.sqrt (d i) : 𝕜) = (d i : 𝕜) := fun i => by
    rw [← RCLike.ofReal_mul, Real.mul_self_sqrt (hd i)]
  let F := L * diagonal fun i => (Real.sqrt (d i) : 𝕜)
  have hF : IsTri .lower F := fun i j hij => by simp [F, Matrix.mul_diagonal, hL i j hij]
  have hg : F * Fᴴ = A := by
    rw [he]
    simp only [F, conjTranspose_mul, diagonal_conjTranspose]
    rw [Matrix.mul_assoc, ← Matrix.mul_assoc (diagonal _), diagonal_mul_diagonal, ← Matrix.mul_assoc]
    congr 2
    ext i j
    simp only [diagonal_apply, Pi.star_apply, RCLike.star_def, RCLike.conj_ofReal, hsq]
  have hr : ∀ i, F i i = (Real.sqrt (d i) : 𝕜) := fun i => by simp [F, Matrix.mul_diagonal, h1]
  cases t with
  | lower =>
    refine ⟨F, hF, fun i j hij => ?_, hg⟩
    obtain rfl : i = j := Fin.ext hij
    rw [hr]; simp
  | upper =>
    refine ⟨Fᴴ, isTri_conjTranspose F hF, fun i j hij => ?_, ?_⟩
    · obtain rfl : i = j := Fin.ext hij
      rw [conjTranspose_apply, hr]; simp
    · simp only [gram, conjTranspose_conjTranspose, hg]

theorem part_eq (t : Tri) (F : Matrix (Fin m) (Fin n) 𝕜) (h : IsTri t F) : part t F = F := by
  ext i j
  simp only [part]
  split
  · rfl
  · rename_i hij; exact (h i j hij).symm

theorem isTri_part (t : Tri) (F : Matrix (Fin m) (Fin n) 𝕜) : IsTri t (part t F) := fun i j h => by simp only [part, if_neg h]

theorem gram_posSemidef (t : Tri) (F : Matrix (Fin n) (Fin n) 𝕜) : (gram t F).PosSemidef := by
  cases t
  · exact posSemidef_self_mul_conjTranspose F
  · exact posSemidef_conjTranspose_mul_self F

theorem outer_posSemidef (v : Fin n → 𝕜) : (vecMulVec v (star v)).PosSemidef := posSemidef_vecMulVec_self_star v

/-! ## Decompositions with pivots -/

/-- What is documented about `LDLT`. -/
structure LDLTSpec (A : Matrix (Fin n) (Fin n) 𝕜) (r : LDLT 𝕜 n) : Prop where
  eq : r.ok = true → A.submatrix r.perm r.perm = r.L * diagonal (fun i => (r.d i : 𝕜)) * r.Lᴴ
  lower : r.ok = true → IsTri .lower r.L ∧ ∀ i, r.L i i = 1
  pos : r.ok = true → (r.pos = true ↔ ∀ i, 0 ≤ r.d i)
  neg : r.ok = true → (r.neg = true ↔ ∀ i, r.d i ≤ 0)
  semidef : A.PosSemidef ∨ (-A).PosSemidef → r.ok = true
  pivot : r.ok = true → ∀ (h : 0 < n) i, |RCLike.re (A i i)| ≤ |r.d ⟨0, h⟩|
  zero : (r.pos = true ∧ r.neg = true) ↔ ∀ i, A i i = 0

theorem exists_max_diag (f : Fin n → ℝ) (h : 0 < n) : ∃ p : Fin n, ∀ i, f i ≤ f p := by
  have : Nonempty (Fin n) := ⟨⟨0, h⟩⟩
  exact Finite.exists_max f

/-- A positive semidefinite matrix has a decomposition with the largest pivot first. -/
theorem exists_pivoted (A : Matrix (Fin n) (Fin n) 𝕜) (h : A.PosSemidef) : ∃ (σ : Equiv.Perm (Fin n)) (L : Matrix (Fin n) (Fin n) 𝕜) (d : Fin n → ℝ),
    IsTri .lower L ∧ (∀ i, L i i = 1) ∧ (∀ i, 0 ≤ d i) ∧ A.submatrix σ σ = L * diagonal (fun i => (d i : 𝕜)) * Lᴴ ∧
    ∀ (h : 0 < n) i, |RCLike.re (A i i)| ≤ |d ⟨0, h⟩| := by
  by_cases hn : 0 < n
  · obtain ⟨p, hp⟩ := exists_max_diag (fun i => |RCLike.re (A i i)|) hn
    let σ : Equiv.Perm (Fin n) := Equiv.swap ⟨0, hn⟩ p
    obtain ⟨L, d, hL, h1, hd, he⟩ := exists_ldl (A.submatrix σ σ) (h.submatrix σ)
    refine ⟨σ, L, d, hL, h1, hd, he, fun h0 i => ?_⟩
    have h2 : A p p = (d ⟨0, hn⟩ : 𝕜) := by
      have h3 := congrFun (congrFun he ⟨0, hn⟩) ⟨0, hn⟩
      rw [submatrix_apply, Matrix.mul_apply, Finset.sum_eq_single ⟨0, hn⟩] at h3
      · simpa [σ, Matrix.mul_diagonal, h1] using h3
      · intro j _ hj
        rw [Matrix.mul_diagonal, hL ⟨0, hn⟩ j (fun h => hj (Fin.ext (by simpa [Tri.Has] using h))), zero_mul, zero_mul]
      · intro h; exact absurd (Finset.mem_univ _) h
    refine (hp i).trans ?_
    rw [h2]; simp
  · obtain ⟨L, d, hL, h1, hd, he⟩ := exists_ldl A h
    exact ⟨1, L, d, hL, h1, hd, by simpa using he, fun h0 => absurd h0 hn⟩

theorem diag_zero_of_pivot (A : Matrix (Fin n) (Fin n) 𝕜) (hA : A.IsHermitian) (d : Fin n → ℝ) (hd : ∀ i, d i = 0)
    (hm : ∀ (h : 0 < n) i, |RCLike.re (A i i)| ≤ |d ⟨0, h⟩|) (i : Fin n) : A i i = 0 := by
  have h1 := hm (Nat.lt_of_le_of_lt (Nat.zero_le _) i.2) i
  rw [hd, abs_zero] at h1
  have h2 := abs_nonpos_iff.mp h1
  have h3 := hA.coe_re_apply_self i
  rw [← h3, h2, RCLike.ofReal_zero]

theorem exists_LDLT (A : Matrix (Fin n) (Fin n) 𝕜) : ∃ r : LDLT 𝕜 n, LDLTSpec A r := by
  classical
  by_cases hz : A = 0
  · subst hz
    refine ⟨⟨1, 1, fun _ => 0, true, true, true⟩, ?_, ?_, ?_, ?_, ?_, ?_, ?_⟩
    · intro _; simp
    · intro _
      refine ⟨fun i j hij => ?_, fun i => by simp⟩
      simp only [Tri.Has] at hij
      exact one_apply_ne (fun h => hij (by rw [h]))
    all_goals simp
  have hne : (∀ i, A i i = 0) → ¬ (A.PosSemidef ∨ (-A).PosSemidef) := by
    rintro h0 (h | h) <;> refine hz ?_ <;> ext i j
    · exact posSemidef_zero_col A h i j (h0 j)
    · have := posSemidef_zero_col _ h i j (by simp [h0])
      simpa using this
  by_cases h0 : ∀ i, A i i = 0
  · refine ⟨⟨1, 0, fun _ => 0, true, true, false⟩, ?_, ?_, ?_, ?_, fun h => absurd h (hne h0), ?_, ⟨fun _ => h0, fun _ => ⟨rfl, rfl⟩⟩⟩ <;> simp
  by_cases hp : A.PosSemidef
  · obtain ⟨σ, L, d, hL, h1, hd, he, hm⟩ := exists_pivoted A hp
    exact ⟨⟨σ, L, d, true, decide (∀ i, d i ≤ 0), true⟩, fun _ => he, fun _ => ⟨hL, h1⟩, fun _ => by simpa using hd, fun _ => by simp, fun _ => rfl,
      fun _ => hm, ⟨fun h => diag_zero_of_pivot A hp.1 d (fun i => le_antisymm (by simpa using of_decide_eq_true h.2 i) (hd i)) hm, fun h => absurd h h0⟩⟩
  by_cases hq : (-A).PosSemidef
  · obtain ⟨σ, L, d, hL, h1, hd, he, hm⟩ := exists_pivoted (-A) hq
    refine ⟨⟨σ, L, fun i => -d i, decide (∀ i, 0 ≤ -d i), true, true⟩, fun _ => ?_, fun _ => ⟨hL, h1⟩, fun _ => by simp, fun _ => by simpa using hd,
      fun _ => rfl, fun _ hn i => ?_, ⟨fun h => ?_, fun h => absurd h h0⟩⟩
    · have h3 : A.submatrix σ σ = -(L * diagonal (fun i => (d i : 𝕜)) * Lᴴ) := by rw [← he]; ext i j; simp
      rw [h3]
      have : (diagonal fun i => ((-d i : ℝ) : 𝕜)) = -diagonal (fun i => (d i : 𝕜)) := by ext i j; simp [diagonal_apply]; split <;> simp
      simp only [this, Matrix.mul_neg, Matrix.neg_mul]
    · have := hm hn i
      simpa using this
    · have h4 := diag_zero_of_pivot (-A) hq.1 d (fun i => le_antisymm (by simpa using of_decide_eq_true h.1 i) (hd i)) hm
      exact fun i => by simpa using h4 i
  · exact ⟨⟨1, 0, fun _ => 0, false, false, false⟩, by simp, by simp, by simp, by simp, fun h => absurd h (by tauto), by simp, ⟨by simp, fun h => absurd h h0⟩⟩

/-! ## QR decompositions -/

theorem exists_frame (a : Fin (m + 1) → 𝕜) : ∃ b : OrthonormalBasis (Fin (m + 1)) 𝕜 (EuclideanSpace 𝕜 (Fin (m + 1))),
    (WithLp.toLp 2 a : EuclideanSpace 𝕜 (Fin (m + 1))) = (‖(WithLp.toLp 2 a : EuclideanSpace 𝕜 (Fin (m + 1)))‖ : 𝕜) • b 0 := by
  set x : EuclideanSpace 𝕜 (Fin (m + 1)) := WithLp.toLp 2 a with hx
  by_cases h : x = 0
  · exact ⟨EuclideanSpace.basisFun _ _, by simp [h]⟩
  · have hn : (‖x‖ : 𝕜) ≠ 0 := by simpa using h
    have ho : Orthonormal 𝕜 (Set.domRestrict {(0 : Fin (m + 1))} fun _ => (‖x‖ : 𝕜)⁻¹ • x) := by
      refine ⟨fun i => ?_, fun i j hij => absurd (Subsingleton.elim i j) hij⟩
      simp only [Set.domRestrict_apply, norm_smul, norm_inv, RCLike.norm_ofReal, abs_norm]
      exact inv_mul_cancel₀ (by simpa using h)
    obtain ⟨b, hb⟩ := ho.exists_orthonormalBasis_extension_of_card_eq (by simp)
    exact ⟨b, by rw [hb 0 rfl, smul_smul, mul_inv_cancel₀ hn, one_smul]⟩

theorem exists_qr : ∀ {n m : ℕ} (A : Matrix (Fin m) (Fin n) 𝕜), ∃ R : Matrix (Fin m) (Fin n) 𝕜, IsTri .upper R ∧ RealDiag R ∧ Rᴴ * R = Aᴴ * A := by
  intro n
  induction n with
  | zero => intro m A; exact ⟨A, fun i j => j.elim0, fun i j => j.elim0, rfl⟩
  | succ n ih =>
    intro m A
    cases m with
    | zero => exact ⟨A, fun i => i.elim0, fun i => i.elim0, rfl⟩
    | succ m =>
      obtain ⟨b, hb⟩ := exists_frame (fun i => A i 0)
      let x : Fin (n + 1) → EuclideanSpace 𝕜 (Fin (m + 1)) := fun j => WithLp.toLp 2 fun i => A i j
      let c : ℝ := ‖x 0‖
      let B : Matrix (Fin (m + 1)) (Fin (n + 1)) 𝕜 := Matrix.of fun i j => inner 𝕜 (b i) (x j)
      have hB : Bᴴ * B = Aᴴ * A := by
        ext j l
        have h1 := b.sum_inner_mul_inner (x j) (x l)
        simp only [Matrix.mul_apply, conjTranspose_apply, B, of_apply, RCLike.star_def, inner_conj_symm]
        rw [h1]
        simp [x, PiLp.inner_apply, mul_comm]
      have hB0 : ∀ i, B i 0 = if i = 0 then (c : 𝕜) else 0 := by
        intro i
        have h1 : x 0 = (c : 𝕜) • b 0 := hb
        simp only [B, of_apply]
        rw [h1, inner_smul_right, orthonormal_iff_ite.mp b.orthonormal]
        split <;> simp_all
      obtain ⟨R, hR, hd, hg⟩ := ih (Matrix.of fun i j => B (Fin.succ i) (Fin.succ j))
      refine ⟨bord c (fun j => B 0 j.succ) 0 R, ?_, ?_, ?_⟩
      · intro i j hij
        induction i using Fin.cases with
        | zero => exact absurd (Nat.zero_le _) hij
        | succ i =>
          induction j using Fin.cases with
          | zero => rfl
          | succ j =>
            rw [bord_ss]
            exact hR i j (fun h => hij (by simp only [Tri.Has, Fin.val_succ] at h ⊢; omega))
      · intro i j hij
        induction i using Fin.cases with
        | zero =>
          obtain rfl : j = 0 := Fin.ext (by simpa using hij.symm)
          simp
        | succ i =>
          induction j using Fin.cases with
          | zero => simp
          | succ j => rw [bord_ss]; exact hd i j (by simpa using hij)
      · rw [← hB]
        have hg' : ∀ j l, ∑ i, star (R i j) * R i l = ∑ i, star (B (Fin.succ i) (Fin.succ j)) * B (Fin.succ i) (Fin.succ l) := by
          intro j l
          have := congrFun (congrFun hg j) l
          simpa [Matrix.mul_apply] using this
        ext j l
        simp only [Matrix.mul_apply, conjTranspose_apply, Fin.sum_univ_succ]
        induction j using Fin.cases with
        | zero =>
          induction l using Fin.cases with
          | zero => simp [hB0]
          | succ l => simp [hB0]
        | succ j =>
          induction l using Fin.cases with
          | zero => simp [hB0]
          | succ l => simp only [bord_0s, bord_ss, hg']

/-! ## Least squares -/

theorem sqNorm_cols (A : Matrix (Fin m) (Fin n) 𝕜) :
    sqNorm A = ∑ j, ‖(WithLp.toLp 2 (fun i => A i j) : EuclideanSpace 𝕜 (Fin m))‖ ^ 2 := by
  simp only [EuclideanSpace.norm_sq_eq, sqNorm]
  exact Finset.sum_comm

theorem exists_ls_col (A : Matrix (Fin m) (Fin n) 𝕜) (b : Fin m → 𝕜) : ∃ x : Fin n → 𝕜, ∀ y : Fin n → 𝕜,
    ‖(WithLp.toLp 2 (A *ᵥ x - b) : EuclideanSpace 𝕜 (Fin m))‖ ≤ ‖(WithLp.toLp 2 (A *ᵥ y - b) : EuclideanSpace 𝕜 (Fin m))‖ := by
  let f := (Matrix.toEuclideanLin A)
  let K := LinearMap.range f
  obtain ⟨v, hv, hm⟩ := K.exists_norm_eq_iInf_of_complete_subspace (K.complete_of_finiteDimensional) (WithLp.toLp 2 b)
  obtain ⟨x, rfl⟩ := hv
  refine ⟨x.ofLp, fun y => ?_⟩
  have h1 : ‖(WithLp.toLp 2 b : EuclideanSpace 𝕜 (Fin m)) - f x‖ ≤ ‖(WithLp.toLp 2 b : EuclideanSpace 𝕜 (Fin m)) - f (WithLp.toLp 2 y)‖ := by
    rw [hm]
    exact ciInf_le (f := fun w : K => ‖(WithLp.toLp 2 b : EuclideanSpace 𝕜 (Fin m)) - w‖) ⟨0, by rintro _ ⟨w, rfl⟩; exact norm_nonneg _⟩ ⟨_, ⟨_, rfl⟩⟩
  rw [norm_sub_rev, norm_sub_rev (WithLp.toLp 2 b)] at h1
  exact h1

theorem exists_ls (A : Matrix (Fin m) (Fin n) 𝕜) (B : Matrix (Fin m) (Fin k) 𝕜) : ∃ X, LeastSquares A B X := by
  choose x hx using fun j => exists_ls_col A (fun i => B i j)
  refine ⟨Matrix.of fun i j => x j i, fun Y => ?_⟩
  rw [sqNorm_cols, sqNorm_cols]
  refine Finset.sum_le_sum fun j _ => ?_
  have h1 := hx j (fun i => Y i j)
  exact pow_le_pow_left₀ (norm_nonneg _) h1 2

theorem sqNorm_nonneg (A : Matrix (Fin m) (Fin n) 𝕜) : 0 ≤ sqNorm A := Finset.sum_nonneg fun _ _ => Finset.sum_nonneg fun _ _ => by positivity

theorem sqNorm_zero : sqNorm (0 : Matrix (Fin m) (Fin n) 𝕜) = 0 := by simp [sqNorm]

theorem sqNorm_eq_zero (A : Matrix (Fin m) (Fin n) 𝕜) (h : sqNorm A = 0) : A = 0 := by
  ext i j
  rw [sqNorm, Finset.sum_eq_zero_iff_of_nonneg (fun _ _ => Finset.sum_nonneg fun _ _ => by positivity)] at h
  have h1 := h i (Finset.mem_univ _)
  rw [Finset.sum_eq_zero_iff_of_nonneg (fun _ _ => by positivity)] at h1
  simpa using h1 j (Finset.mem_univ _)

/-- If the leading block of the triangle is not singular, there is a least-squares solution whose unknowns beyond the number of equations are zero. -/
theorem exists_ls_tail (A R : Matrix (Fin m) (Fin n) 𝕜) (hg : (part .upper R)ᴴ * part .upper R = Aᴴ * A) (hd : ∀ i j, i.1 = j.1 → R i j ≠ 0)
    (B : Matrix (Fin m) (Fin k) 𝕜) : ∃ X, LeastSquares A B X ∧ ∀ i j, m ≤ i.1 → X i j = 0 := by
  by_cases hmn : n ≤ m
  · obtain ⟨X, hX⟩ := exists_ls A B
    exact ⟨X, hX, fun i j h => absurd i.2 (by omega)⟩
  · have hle : m ≤ n := by omega
    let A1 : Matrix (Fin m) (Fin m) 𝕜 := A.submatrix id (Fin.castLE hle)
    let R1 : Matrix (Fin m) (Fin m) 𝕜 := (part .upper R).submatrix id (Fin.castLE hle)
    have h1 : R1ᴴ * R1 = A1ᴴ * A1 := by
      have := congrArg (fun M => M.submatrix (Fin.castLE hle) (Fin.castLE hle)) hg
      simp only [A1, R1]
      ext i j
      have h2 := congrFun (congrFun this i) j
      simpa [Matrix.mul_apply] using h2
    have hR1 : R1.det ≠ 0 := by
      rw [Matrix.det_of_isUpperTriangular]
      · refine Finset.prod_ne_zero_iff.mpr fun i _ => ?_
        simp only [R1, submatrix_apply, id, part, Tri.Has, Fin.val_castLE, le_refl, if_true]
        exact hd _ _ rfl
      · intro i j hij
        simp only [id] at hij
        have : ¬ i.1 ≤ j.1 := by simpa using hij
        simp [R1, part, Tri.Has, this]
    have hA1 : IsUnit A1.det := by
      have h3 := congrArg Matrix.det h1
      rw [det_mul, det_mul, det_conjTranspose, det_conjTranspose] at h3
      refine isUnit_iff_ne_zero.mpr fun h0 => ?_
      rw [h0, mul_zero] at h3
      rcases mul_eq_zero.mp h3 with h4 | h4
      · exact hR1 (star_eq_zero.mp h4)
      · exact hR1 h4
    let X : Matrix (Fin n) (Fin k) 𝕜 := Matrix.of fun i j => if h : i.1 < m then (A1⁻¹ * B) ⟨i.1, h⟩ j else 0
    have hX : A * X = B := by
      have h5 : A1 * (A1⁻¹ * B) = B := by rw [← Matrix.mul_assoc, mul_nonsing_inv _ hA1, Matrix.one_mul]
      ext i j
      rw [← congrFun (congrFun h5 i) j, Matrix.mul_apply, Matrix.mul_apply]
      symm
      refine Finset.sum_of_injOn (Fin.castLE hle) (fun a _ b _ h => Fin.castLE_injective hle h) (fun _ _ => Finset.mem_univ _) ?_ ?_
      · intro l _ hl
        have : ¬ l.1 < m := fun h => hl ⟨⟨l.1, h⟩, Finset.mem_univ _, rfl⟩
        simp [X, this]
      · intro l _
        simp [X, A1]
    refine ⟨X, fun Y => ?_, fun i j h => ?_⟩
    · rw [hX, sub_self, sqNorm_zero]; exact sqNorm_nonneg _
    · have : ¬ i.1 < m := by omega
      simp [X, this]

/-! ## The library -/

open Classical in
/-- A library that meets the contract. -/
noncomputable def someLib : EigenLib 𝕜 where
  llt t A := if h : A.PosDef then some (exists_factor t A h.posSemidef).choose else none
  llt_sq t A M hA h := by
    split at h
    · rename_i hp
      obtain rfl := Option.some.inj h
      obtain ⟨h1, _, h3⟩ := (exists_factor t A hp.posSemidef).choose_spec
      rw [part_eq _ _ h1]; exact h3
    · exact absurd h (by simp)
  llt_diag t A M hA h := by
    split at h
    · rename_i hp
      obtain rfl := Option.some.inj h
      exact (exists_factor t A hp.posSemidef).choose_spec.2.1
    · exact absurd h (by simp)
  llt_iff t A hA := by by_cases h : A.PosDef <;> simp [h]
  ldlt A := (exists_LDLT A).choose
  ldlt_eq A _ := (exists_LDLT A).choose_spec.eq
  ldlt_lower A _ := (exists_LDLT A).choose_spec.lower
  ldlt_pos A _ := (exists_LDLT A).choose_spec.pos
  ldlt_neg A _ := (exists_LDLT A).choose_spec.neg
  ldlt_semidef A := (exists_LDLT A).choose_spec.semidef
  ldlt_pivot A _ h := (exists_LDLT A).choose_spec.pivot h (Nat.succ_pos _)
  ldlt_zero A _ := (exists_LDLT A).choose_spec.zero
  rank1 t M v s :=
    if h : 0 < s then some (exists_factor t (gram t (part t M) + (s : 𝕜) • vecMulVec v (star v))
      ((gram_posSemidef _ _).add ((outer_posSemidef v).smul (RCLike.ofReal_nonneg.mpr h.le)))).choose
    else if h : (gram t (part t M) + (s : 𝕜) • vecMulVec v (star v)).PosDef then some (exists_factor t _ h.posSemidef).choose
    else none
  rank1_sq t M G v s _ h := by
    split at h
    · rename_i hs
      obtain rfl := Option.some.inj h
      obtain ⟨h1, h2, h3⟩ := (exists_factor t (gram t (part t M) + (s : 𝕜) • vecMulVec v (star v))
        ((gram_posSemidef _ _).add ((outer_posSemidef v).smul (RCLike.ofReal_nonneg.mpr hs.le)))).choose_spec
      rw [part_eq _ _ h1]; exact ⟨h3, h2⟩
    · split at h
      · rename_i hp
        obtain rfl := Option.some.inj h
        obtain ⟨h1, h2, h3⟩ := (exists_factor t _ hp.posSemidef).choose_spec
        rw [part_eq _ _ h1]; exact ⟨h3, h2⟩
      · exact absurd h (by simp)
  rank1_up t M v s h := by simp [h]
  rank1_down t M v s _ h := by
    have : ¬ 0 < s := not_lt.mpr h
    by_cases h : (gram t (part t M) + (s : 𝕜) • vecMulVec v (star v)).PosDef <;> simp [this]
  qr A := (exists_qr A).choose
  qr_sq A := by
    obtain ⟨h1, _, h3⟩ := (exists_qr A).choose_spec
    rw [part_eq _ _ h1]; exact h3
  qr_diag A := (exists_qr A).choose_spec.2.1
  qrSolve A B := if h : ∀ i j, i.1 = j.1 → (exists_qr A).choose i j ≠ 0 then
      some (exists_ls_tail A _ (by rw [part_eq _ _ (exists_qr A).choose_spec.1]; exact (exists_qr A).choose_spec.2.2) h B).choose
    else none
  qrSolve_some A B h := ⟨_, by simp only [dif_pos h],
    (exists_ls_tail A _ (by rw [part_eq _ _ (exists_qr A).choose_spec.1]; exact (exists_qr A).choose_spec.2.2) h B).choose_spec.1⟩
  qrSolve_tail A B X hX := by
    split at hX
    · rename_i h
      obtain rfl := Option.some.inj hX
      exact (exists_ls_tail A _ (by rw [part_eq _ _ (exists_qr A).choose_spec.1]; exact (exists_qr A).choose_spec.2.2) h B).choose_spec.2
    · exact absurd hX (by simp)
  rank A := A.rank
  rank_eq _ := rfl
  cpSolve A B := (exists_ls A B).choose
  cpSolve_ls A B := (exists_ls A B).choose_spec
  eps := 1
  eps_pos := one_pos

end OpenKalman.EigenHooks
