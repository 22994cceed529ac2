import Verif.Spec.SigmaPoints
import Verif.Proof.SigmaPoints
import Verif.Theorems.Kalman

/-!
# Sample-points transforms (C56–C58)

Scalars are real or complex; the noise terms are `Fin b`, the input is the first of `b + 1` distributions.
-/

namespace OpenKalman.SigmaPoints
open Matrix Kalman
open scoped ComplexOrder

variable {𝕜 : Type} [RCLike 𝕜]

/-- A library. -/
noncomputable def someSLib : SLib 𝕜 where
  toLib := someLib
  chol A := open Classical in if h : A.PosSemidef then Classical.choose (exists_factor h) else A
  chol_spec A h := by
    simp only [dif_pos h]
    exact Classical.choose_spec (exists_factor h)

/-- From the matrix equations to the moments. -/
theorem matches_of {b count : ℕ} {k : Fin b → ℕ} (wm wc : Fin count → ℝ) (Z : Matrix ((i : Fin b) × Fin (k i)) (Fin count) 𝕜)
    (P : (i : Fin b) → Matrix (Fin (k i)) (Fin (k i)) 𝕜) (h1 : ∑ c, wm c = 1) (h2 : Z *ᵥ scal wm = 0)
    (h3 : Z * diagonal (scal wc) * Zᴴ = blockDiagonal' P) : Matches wm wc Z P := by
  have hs : ∀ (x y : (i : Fin b) × Fin (k i)), ∑ c, (wc c : 𝕜) * (Z x c * star (Z y c)) = blockDiagonal' P x y := by
    intro x y
    rw [← h3, Matrix.mul_apply]
    refine Finset.sum_congr rfl fun c _ => ?_
    rw [Matrix.mul_diagonal, Matrix.conjTranspose_apply]
    simp only [scal]
    ring
  refine ⟨h1, fun i a => ?_, fun i a a' => ?_, fun i j hij a a' => ?_⟩
  · have := congrFun h2 ⟨i, a⟩
    simp only [Matrix.mulVec, dotProduct, Pi.zero_apply, scal] at this
    rw [← this]
    exact Finset.sum_congr rfl fun c _ => mul_comm _ _
  · rw [hs, blockDiagonal'_apply_eq]
  · rw [hs, blockDiagonal'_apply_ne _ _ _ hij]

/-- Conversely. -/
theorem matches_matrix {b count : ℕ} {k : Fin b → ℕ} {wm wc : Fin count → ℝ} {Z : Matrix ((i : Fin b) × Fin (k i)) (Fin count) 𝕜}
    {P : (i : Fin b) → Matrix (Fin (k i)) (Fin (k i)) 𝕜} (h : Matches wm wc Z P) :
    Z *ᵥ scal wm = 0 ∧ Z * diagonal (scal wc) * Zᴴ = blockDiagonal' P := by
  constructor
  · funext ⟨i, a⟩
    rw [Pi.zero_apply, ← h.mean i a]
    show ∑ c, Z ⟨i, a⟩ c * (wm c : 𝕜) = _
    exact Finset.sum_congr rfl fun c _ => mul_comm _ _
  · ext ⟨i, a⟩ ⟨j, a'⟩
    have e : (Z * diagonal (scal (𝕜 := 𝕜) wc) * Zᴴ) ⟨i, a⟩ ⟨j, a'⟩ = ∑ c, (wc c : 𝕜) * (Z ⟨i, a⟩ c * star (Z ⟨j, a'⟩ c)) := by
      rw [Matrix.mul_apply]
      refine Finset.sum_congr rfl fun c _ => ?_
      rw [Matrix.mul_diagonal, Matrix.conjTranspose_apply]
      simp only [scal]
      ring
    rw [e]
    by_cases hij : i = j
    · subst hij
      rw [h.cov, blockDiagonal'_apply_eq]
    · rw [h.indep i j hij, blockDiagonal'_apply_ne _ _ _ hij]

theorem smul_posSemidef {n : ℕ} {P : Matrix (Fin n) (Fin n) 𝕜} (h : P.PosSemidef) (r : ℝ) (hr : 0 ≤ r) : ((r : 𝕜) • P).PosSemidef :=
  h.smul (by exact_mod_cast hr)

/-- C56: for every way of splitting the input into blocks (of positive dimension), the cubature points exist and match the first two moments of the
blocks. -/
theorem C56_points {b : ℕ} (k : Fin (b + 1) → ℕ) (hk : ∀ i, 0 < k i) (lib : SLib 𝕜) (P : (i : Fin (b + 1)) → Matrix (Fin (k i)) (Fin (k i)) 𝕜)
    (hP : ∀ i, (P i).PosSemidef) :
    ∃ Z, cubaturePoints k lib P = some Z ∧
      Matches (cubatureWeights ((∑ i, k i) * 2)).wm (cubatureWeights ((∑ i, k i) * 2)).wc Z P := by
  have hd : 0 < ∑ i, k i := lt_of_lt_of_le (hk 0) (Finset.single_le_sum (f := k) (fun _ _ => Nat.zero_le _) (Finset.mem_univ 0))
  obtain ⟨L, hL, hF⟩ := cubature_frames (∑ i, k i) (List.ofFn k) (by simp) (by simp only [List.mem_ofFn, forall_exists_index]; rintro _ i rfl; exact hk i)
    (List.sum_ofFn)
  refine ⟨pointsOf k ((∑ i, k i) * 2) L fun i => lib.chol (((∑ i, k i : ℕ) : 𝕜) • P i), by simp only [cubaturePoints, hL, Option.map_some], ?_⟩
  set dim := ∑ i, k i with hdim
  have hdR : (dim : ℝ) ≠ 0 := by positivity
  obtain ⟨m1, m2⟩ := points_moments k 0 (dim * 2) (by omega) L hF (fun i => lib.chol ((dim : 𝕜) • P i)) (scal (cubatureWeights (dim * 2)).wm)
    (((1 / (dim * 2 : ℕ) : ℝ)) : 𝕜) (fun c _ => rfl)
  refine matches_of _ _ _ _ ?_ m1 ?_
  · simp only [cubatureWeights, Finset.sum_const, Finset.card_univ, Fintype.card_fin, nsmul_eq_mul]
    push_cast
    field_simp
  · refine m2.trans ?_
    congr 1
    funext i
    rw [lib.chol_spec _ (by simpa using smul_posSemidef (hP i) (dim : ℝ) (Nat.cast_nonneg _)), smul_smul]
    have e : (2 : 𝕜) * (((1 / (dim * 2 : ℕ) : ℝ)) : 𝕜) * (dim : 𝕜) = 1 := by
      have : (2 : ℝ) * (1 / (dim * 2 : ℕ) : ℝ) * (dim : ℝ) = 1 := by
        push_cast
        field_simp
      exact_mod_cast congrArg (fun r : ℝ => (r : 𝕜)) this
    rw [e, one_smul]

/-- C57: the same for the scaled unscented points, for all parameters for which they exist.  The weights for means match the second moments, too. -/
theorem C57_points {b : ℕ} (k : Fin (b + 1) → ℕ) (hk : ∀ i, 0 < k i) (lib : SLib 𝕜) (P : (i : Fin (b + 1)) → Matrix (Fin (k i)) (Fin (k i)) 𝕜)
    (hP : ∀ i, (P i).PosSemidef) (alpha beta kappa : ℝ) (ha : alpha ≠ 0) (hkp : 0 < (∑ i, k i : ℕ) + kappa) :
    ∃ Z, unscentedPoints k lib alpha kappa P = some Z ∧
      Matches (unscentedWeights (∑ i, k i) alpha beta kappa).wm (unscentedWeights (∑ i, k i) alpha beta kappa).wc Z P ∧
      Matches (unscentedWeights (∑ i, k i) alpha beta kappa).wm (unscentedWeights (∑ i, k i) alpha beta kappa).wm Z P := by
  have hd : 0 < ∑ i, k i := lt_of_lt_of_le (hk 0) (Finset.single_le_sum (f := k) (fun _ _ => Nat.zero_le _) (Finset.mem_univ 0))
  obtain ⟨L, hL, hF⟩ := unscented_frames (∑ i, k i) (List.ofFn k) (by simp) (by simp only [List.mem_ofFn, forall_exists_index]; rintro _ i rfl; exact hk i)
    (List.sum_ofFn)
  refine ⟨pointsOf k ((∑ i, k i) * 2 + 1) L fun i => lib.chol (((alpha * alpha * (kappa + (∑ i, k i : ℕ)) : ℝ) : 𝕜) • P i),
    by simp only [unscentedPoints, hL, Option.map_some], ?_⟩
  set dim := ∑ i, k i with hdim
  have hg : 0 ≤ alpha * alpha * (kappa + dim) := mul_nonneg (mul_self_nonneg _) (by linarith)
  have tailW : ∀ w : Fin (dim * 2 + 1) → ℝ, (∀ c : Fin (dim * 2), w c.succ = 0.5 / (dim + kappa) / (alpha * alpha)) →
      ∀ c : Fin (dim * 2 + 1), 1 ≤ (c : ℕ) → scal w c = (((0.5 / (dim + kappa) / (alpha * alpha) : ℝ)) : 𝕜) := by
    intro w hw c hc
    obtain ⟨c', rfl⟩ : ∃ c' : Fin (dim * 2), c = c'.succ := ⟨c.pred (by rintro rfl; simp at hc), by simp⟩
    simp only [scal, hw]
  obtain ⟨m1, m3⟩ := points_moments k 1 (dim * 2 + 1) (by omega) L hF (fun i => lib.chol (((alpha * alpha * (kappa + dim) : ℝ) : 𝕜) • P i))
    (scal (unscentedWeights dim alpha beta kappa).wm) _ (tailW _ (fun c => rfl))
  obtain ⟨-, m2⟩ := points_moments k 1 (dim * 2 + 1) (by omega) L hF (fun i => lib.chol (((alpha * alpha * (kappa + dim) : ℝ) : 𝕜) • P i))
    (scal (unscentedWeights dim alpha beta kappa).wc) _ (tailW _ (fun c => rfl))
  have total : ∑ c, (unscentedWeights dim alpha beta kappa).wm c = 1 := by
    rw [Fin.sum_univ_succ]
    simp only [unscentedWeights, scaledWeights, Fin.cons_zero, Fin.cons_succ, Finset.sum_const, Finset.card_univ, Fintype.card_fin, nsmul_eq_mul]
    have := hkp.ne'
    push_cast
    field_simp
    ring
  have cov : (blockDiagonal' fun i => ((2 : 𝕜) * (((0.5 / (dim + kappa) / (alpha * alpha) : ℝ)) : 𝕜)) •
      (lib.chol (((alpha * alpha * (kappa + dim) : ℝ) : 𝕜) • P i) * (lib.chol (((alpha * alpha * (kappa + dim) : ℝ) : 𝕜) • P i))ᴴ)) = blockDiagonal' P := by
    congr 1
    funext i
    rw [lib.chol_spec _ (smul_posSemidef (hP i) _ hg), smul_smul]
    have e : (2 : 𝕜) * (((0.5 / (dim + kappa) / (alpha * alpha) : ℝ)) : 𝕜) * ((alpha * alpha * (kappa + dim) : ℝ) : 𝕜) = 1 := by
      have : (2 : ℝ) * (0.5 / (dim + kappa) / (alpha * alpha)) * (alpha * alpha * (kappa + dim)) = 1 := by
        have := hkp.ne'
        have h2 : kappa + dim ≠ 0 := by rwa [add_comm]
        field_simp
        ring
      exact_mod_cast congrArg (fun r : ℝ => (r : 𝕜)) this
    rw [e, one_smul]
  exact ⟨matches_of _ _ _ _ total m1 (m2.trans cov), matches_of _ _ _ _ total m1 (m3.trans cov)⟩

/-- The same points, with the default parameters of state and of parameter estimation. -/
example {b : ℕ} (k : Fin (b + 1) → ℕ) (hk : ∀ i, 0 < k i) (P : (i : Fin (b + 1)) → Matrix (Fin (k i)) (Fin (k i)) ℝ) (hP : ∀ i, (P i).PosSemidef) :
    (∃ Z, unscentedPoints k someSLib 0.001 0 P = some Z ∧ Matches (unscentedWeights (∑ i, k i) 0.001 2 0).wm (unscentedWeights (∑ i, k i) 0.001 2 0).wc Z P) ∧
    ∃ Z, unscentedPoints k someSLib 0.001 (3 - (∑ i, k i : ℕ)) P = some Z ∧
      Matches (unscentedWeights (∑ i, k i) 0.001 2 (3 - (∑ i, k i : ℕ))).wm (unscentedWeights (∑ i, k i) 0.001 2 (3 - (∑ i, k i : ℕ))).wc Z P := by
  have hd : 0 < ∑ i, k i := lt_of_lt_of_le (hk 0) (Finset.single_le_sum (f := k) (fun _ _ => Nat.zero_le _) (Finset.mem_univ 0))
  refine ⟨(C57_points k hk someSLib P hP _ _ _ (by norm_num) ?_).imp fun Z h => ⟨h.1, h.2.1⟩,
    (C57_points k hk someSLib P hP _ _ _ (by norm_num) ?_).imp fun Z h => ⟨h.1, h.2.1⟩⟩
  · have : (0 : ℝ) < ((∑ i, k i : ℕ) : ℝ) := by exact_mod_cast hd
    linarith
  · linarith

/-! ## The transform -/

section transform
variable {b : ℕ} (k : Fin (b + 1) → ℕ)

/-- The coefficients of an affine function, side by side. -/
def coeffs {p : ℕ} (A : Matrix (Fin p) (Fin (k 0)) 𝕜) (B : (i : Fin b) → Matrix (Fin p) (Fin (k i.succ)) 𝕜) :
    Matrix (Fin p) ((i : Fin (b + 1)) × Fin (k i)) 𝕜 := fun r ia =>
  (Fin.cases (motive := fun i => Matrix (Fin p) (Fin (k i)) 𝕜) A B ia.1) r ia.2

theorem coeffs_mulVec {p : ℕ} (A : Matrix (Fin p) (Fin (k 0)) 𝕜) (B : (i : Fin b) → Matrix (Fin p) (Fin (k i.succ)) 𝕜)
    (z : ((i : Fin (b + 1)) × Fin (k i)) → 𝕜) :
    coeffs k A B *ᵥ z = A *ᵥ (fun a => z ⟨0, a⟩) + ∑ i : Fin b, B i *ᵥ (fun a => z ⟨i.succ, a⟩) := by
  funext r
  simp only [Matrix.mulVec, dotProduct, Pi.add_apply, Finset.sum_apply]
  rw [← Finset.univ_sigma_univ, Finset.sum_sigma, Fin.sum_univ_succ]
  rfl

theorem coeffs_block {p : ℕ} (A : Matrix (Fin p) (Fin (k 0)) 𝕜) (B : (i : Fin b) → Matrix (Fin p) (Fin (k i.succ)) 𝕜)
    (P : (i : Fin (b + 1)) → Matrix (Fin (k i)) (Fin (k i)) 𝕜) :
    coeffs k A B * blockDiagonal' P = coeffs k (A * P 0) fun i => B i * P i.succ := by
  ext r ⟨j, a⟩
  rw [Matrix.mul_apply, ← Finset.univ_sigma_univ, Finset.sum_sigma, Finset.sum_eq_single j]
  · refine Fin.cases ?_ (fun i => ?_) j a <;>
    · intro a
      rw [Finset.sum_congr rfl fun x _ => by rw [blockDiagonal'_apply_eq]]
      rfl
  · intro i _ hij
    exact Finset.sum_eq_zero fun x _ => by rw [blockDiagonal'_apply_ne _ _ _ hij, mul_zero]
  · simp

theorem coeffs_adjoint {p q : ℕ} (A : Matrix (Fin p) (Fin (k 0)) 𝕜) (B : (i : Fin b) → Matrix (Fin p) (Fin (k i.succ)) 𝕜)
    (A' : Matrix (Fin q) (Fin (k 0)) 𝕜) (B' : (i : Fin b) → Matrix (Fin q) (Fin (k i.succ)) 𝕜) :
    coeffs k A B * (coeffs k A' B')ᴴ = A * A'ᴴ + ∑ i : Fin b, B i * (B' i)ᴴ := by
  ext r s
  rw [Matrix.mul_apply, ← Finset.univ_sigma_univ, Finset.sum_sigma, Fin.sum_univ_succ, Matrix.add_apply, Matrix.sum_apply]
  rfl

/-- The deviations of an affine function of the points. -/
theorem affine_deviations {count p : ℕ} (W : Weights count) (h1 : ∑ c, W.wm c = 1) (mean : (i : Fin (b + 1)) → Fin (k i) → 𝕜)
    (Z : Matrix ((i : Fin (b + 1)) × Fin (k i)) (Fin count) 𝕜) (hZ : Z *ᵥ scal W.wm = 0) (A : Matrix (Fin p) (Fin (k 0)) 𝕜)
    (B : (i : Fin b) → Matrix (Fin p) (Fin (k i.succ)) 𝕜) (c : Fin p → 𝕜) :
    weightedMean W (transformed k (affine A B c) (mean 0) (fun a c => Z ⟨0, a⟩ c) mean Z) = affine A B c (mean 0) mean ∧
    deviations (transformed k (affine A B c) (mean 0) (fun a c => Z ⟨0, a⟩ c) mean Z)
      (weightedMean W (transformed k (affine A B c) (mean 0) (fun a c => Z ⟨0, a⟩ c) mean Z)) = coeffs k A B * Z := by
  have hY : ∀ r cc, transformed k (affine A B c) (mean 0) (fun a c => Z ⟨0, a⟩ c) mean Z r cc = affine A B c (mean 0) mean r + (coeffs k A B * Z) r cc := by
    intro r cc
    have e : (coeffs k A B * Z) r cc = (coeffs k A B *ᵥ (fun ia => Z ia cc)) r := rfl
    rw [e, coeffs_mulVec]
    have e1 : A *ᵥ (fun a => Z ⟨0, a⟩ cc + mean 0 a) = A *ᵥ (fun a => Z ⟨0, a⟩ cc) + A *ᵥ mean 0 := Matrix.mulVec_add A _ _
    have e2 : ∀ i : Fin b, B i *ᵥ (fun a => Z ⟨i.succ, a⟩ cc + mean i.succ a) = B i *ᵥ (fun a => Z ⟨i.succ, a⟩ cc) + B i *ᵥ mean i.succ :=
      fun i => Matrix.mulVec_add (B i) _ _
    show (affine A B c (fun a => Z ⟨0, a⟩ cc + mean 0 a) fun i a => Z ⟨i, a⟩ cc + mean i a) r = _
    simp only [affine, e1, Pi.add_apply]
    rw [Finset.sum_congr rfl fun i _ => e2 i, Finset.sum_add_distrib, Pi.add_apply]
    ring
  have hm : weightedMean W (transformed k (affine A B c) (mean 0) (fun a c => Z ⟨0, a⟩ c) mean Z) = affine A B c (mean 0) mean := by
    funext r
    simp only [weightedMean, Matrix.mulVec, dotProduct]
    rw [Finset.sum_congr rfl fun cc _ => by rw [hY r cc, add_mul], Finset.sum_add_distrib, ← Finset.mul_sum]
    have e1 : ∑ cc, scal (𝕜 := 𝕜) W.wm cc = 1 := by
      simp only [scal]
      rw [← RCLike.ofReal_sum (K := 𝕜), h1]
      simp
    have e2 : ∑ cc, (coeffs k A B * Z) r cc * scal W.wm cc = 0 := by
      have : (coeffs k A B * Z) *ᵥ scal W.wm = 0 := by rw [← Matrix.mulVec_mulVec, hZ, Matrix.mulVec_zero]
      exact congrFun this r
    rw [e1, e2, mul_one, add_zero]
  refine ⟨hm, ?_⟩
  ext r cc
  simp only [deviations]
  rw [hY, hm]
  ring

/-- Affine functions are propagated exactly by points which match the moments. -/
theorem affine_exact {count p : ℕ} (W : Weights count) (mean : (i : Fin (b + 1)) → Fin (k i) → 𝕜)
    (Z : Matrix ((i : Fin (b + 1)) × Fin (k i)) (Fin count) 𝕜) (P : (i : Fin (b + 1)) → Matrix (Fin (k i)) (Fin (k i)) 𝕜) (hP : ∀ i, (P i).PosSemidef)
    (hM : Matches W.wm W.wc Z P) (lib : Lib 𝕜) (A : Matrix (Fin p) (Fin (k 0)) 𝕜) (B : (i : Fin b) → Matrix (Fin p) (Fin (k i.succ)) 𝕜)
    (c : Fin p → 𝕜) :
    transform k lib W mean Z (.last (affine A B c)) =
      (⟨A *ᵥ mean 0 + ∑ i, B i *ᵥ mean i.succ + c, A * P 0 * Aᴴ + ∑ i, B i * P i.succ * (B i)ᴴ⟩, ⟨k 0, P 0 * Aᴴ⟩) := by
  obtain ⟨hZ, hC⟩ := matches_matrix hM
  obtain ⟨hm, hD⟩ := affine_deviations k W hM.total mean Z hZ A B c
  have hrun : transform k lib W mean Z (.last (affine A B c)) =
      (⟨weightedMean W (transformed k (affine A B c) (mean 0) (fun a c => Z ⟨0, a⟩ c) mean Z),
        covarianceOf lib W (deviations (transformed k (affine A B c) (mean 0) (fun a c => Z ⟨0, a⟩ c) mean Z)
          (weightedMean W (transformed k (affine A B c) (mean 0) (fun a c => Z ⟨0, a⟩ c) mean Z)))⟩,
        ⟨k 0, crossOf W (fun a c => Z ⟨0, a⟩ c) (deviations (transformed k (affine A B c) (mean 0) (fun a c => Z ⟨0, a⟩ c) mean Z)
          (weightedMean W (transformed k (affine A B c) (mean 0) (fun a c => Z ⟨0, a⟩ c) mean Z)))⟩) := rfl
  rw [hrun, hD, hm]
  have ecov : coeffs k A B * Z * (diagonal (scal (𝕜 := 𝕜) W.wc) * (coeffs k A B * Z)ᴴ) = A * P 0 * Aᴴ + ∑ i, B i * P i.succ * (B i)ᴴ := by
    rw [Matrix.conjTranspose_mul, ← coeffs_adjoint k (A * P 0) (fun i => B i * P i.succ) A B, ← coeffs_block, ← hC]
    simp only [Matrix.mul_assoc]
  have ecross : crossOf W (fun a c => Z ⟨0, a⟩ c) (coeffs k A B * Z) = P 0 * Aᴴ := by
    have e0 : (fun a c => Z ⟨0, a⟩ c : Matrix (Fin (k 0)) (Fin count) 𝕜) = coeffs k (1 : Matrix (Fin (k 0)) (Fin (k 0)) 𝕜) (fun _ => 0) * Z := by
      ext a cc
      have := congrFun (coeffs_mulVec k (1 : Matrix (Fin (k 0)) (Fin (k 0)) 𝕜) (fun _ => 0) (fun ia => Z ia cc)) a
      rw [show (coeffs k (1 : Matrix (Fin (k 0)) (Fin (k 0)) 𝕜) (fun _ => 0) * Z) a cc = _ from this]
      simp
    have key : coeffs k (1 : Matrix (Fin (k 0)) (Fin (k 0)) 𝕜) (fun _ => 0) * (Z * diagonal (scal W.wc) * Zᴴ) * (coeffs k A B)ᴴ = P 0 * Aᴴ := by
      rw [hC, coeffs_block, coeffs_adjoint]
      simp
    unfold crossOf
    rw [e0, Matrix.conjTranspose_mul, ← key]
    simp only [Matrix.mul_assoc]
  have hH : (A * P 0 * Aᴴ + ∑ i, B i * P i.succ * (B i)ᴴ).IsHermitian := by
    refine Matrix.PosSemidef.isHermitian (Matrix.PosSemidef.add ((hP 0).mul_mul_conjTranspose_same A) ?_)
    exact Matrix.posSemidef_sum _ fun i _ => (hP i.succ).mul_mul_conjTranspose_same (B i)
  rw [ecross]
  unfold covarianceOf
  rw [ecov, lib.herm_spec _ hH]
  rfl

/-- C56: every affine function of an input and noise terms is propagated exactly, including the cross-covariance. -/
theorem C56_affine (hk : ∀ i, 0 < k i) (lib : SLib 𝕜) (mean : (i : Fin (b + 1)) → Fin (k i) → 𝕜)
    (P : (i : Fin (b + 1)) → Matrix (Fin (k i)) (Fin (k i)) 𝕜) (hP : ∀ i, (P i).PosSemidef) {p : ℕ} (A : Matrix (Fin p) (Fin (k 0)) 𝕜)
    (B : (i : Fin b) → Matrix (Fin p) (Fin (k i.succ)) 𝕜) (c : Fin p → 𝕜) :
    ((cubaturePoints k lib P).map fun Z => transform k lib.toLib (cubatureWeights _) mean Z (.last (affine A B c))) =
      some (⟨A *ᵥ mean 0 + ∑ i, B i *ᵥ mean i.succ + c, A * P 0 * Aᴴ + ∑ i, B i * P i.succ * (B i)ᴴ⟩, ⟨k 0, P 0 * Aᴴ⟩) := by
  obtain ⟨Z, hZ, hM⟩ := C56_points k hk lib P hP
  rw [hZ, Option.map_some, affine_exact k _ mean Z P hP hM]

/-- **C57**: the weights are those of the scaled unscented transformation: with `λ = α² (n + κ) - n`, the first mean weight is `λ / (n + λ)`, the first covariance
weight `λ / (n + λ) + 1 - α² + β`, and all others `1 / (2 (n + λ))`; the mean weights add up to one. -/
theorem C57_weights (n : ℕ) (alpha beta kappa : ℝ) (ha : alpha ≠ 0) (hkp : 0 < n + kappa) :
    let lam := alpha ^ 2 * (n + kappa) - n
    let W := unscentedWeights n alpha beta kappa
    W.wm 0 = lam / (n + lam) ∧ W.wc 0 = lam / (n + lam) + (1 - alpha ^ 2 + beta) ∧
      (∀ c : Fin (n * 2), W.wm c.succ = 1 / (2 * (n + lam)) ∧ W.wc c.succ = 1 / (2 * (n + lam))) ∧ ∑ c, W.wm c = 1 := by
  intro lam W
  have hnl : (n : ℝ) + lam = alpha ^ 2 * (n + kappa) := by ring
  have hne : (n : ℝ) + kappa ≠ 0 := hkp.ne'
  have h1 : W.wm 0 = lam / (n + lam) := by
    rw [hnl]
    show (kappa / (n + kappa) - 1) / (alpha * alpha) + 1 = (alpha ^ 2 * (n + kappa) - n) / _
    field_simp
    ring
  have h2 : ∀ c : Fin (n * 2), W.wm c.succ = 1 / (2 * (n + lam)) ∧ W.wc c.succ = 1 / (2 * (n + lam)) := by
    intro c
    have : 0.5 / (n + kappa) / (alpha * alpha) = 1 / (2 * (n + lam)) := by
      rw [hnl]
      field_simp
      norm_num
    exact ⟨this, this⟩
  refine ⟨h1, ?_, h2, ?_⟩
  · rw [← h1]
    show (kappa / (n + kappa) - 1) / (alpha * alpha) + 1 + 1 - alpha * alpha + beta = (kappa / (n + kappa) - 1) / (alpha * alpha) + 1 + _
    ring
  · rw [Fin.sum_univ_succ, h1, Finset.sum_congr rfl fun c _ => (h2 c).1, Finset.sum_const, Finset.card_univ, Fintype.card_fin, nsmul_eq_mul, hnl]
    push_cast
    have : lam = alpha ^ 2 * (n + kappa) - n := rfl
    rw [this]
    field_simp
    ring

/-- Three dimensions with `α = 1/2`, `β = 2`, `κ = 1`. -/
example : (unscentedWeights 3 (1 / 2) 2 1).wm 0 = -2 ∧ (unscentedWeights 3 (1 / 2) 2 1).wc 0 = 3 / 4 := by
  obtain ⟨h1, h2, -⟩ := C57_weights 3 (1 / 2) 2 1 (by norm_num) (by norm_num)
  rw [h1, h2]
  norm_num

/-- C57: the same with unscented points. -/
theorem C57_affine (hk : ∀ i, 0 < k i) (lib : SLib 𝕜) (mean : (i : Fin (b + 1)) → Fin (k i) → 𝕜)
    (P : (i : Fin (b + 1)) → Matrix (Fin (k i)) (Fin (k i)) 𝕜) (hP : ∀ i, (P i).PosSemidef) (alpha beta kappa : ℝ) (ha : alpha ≠ 0)
    (hkp : 0 < (∑ i, k i : ℕ) + kappa) {p : ℕ} (A : Matrix (Fin p) (Fin (k 0)) 𝕜) (B : (i : Fin b) → Matrix (Fin p) (Fin (k i.succ)) 𝕜)
    (c : Fin p → 𝕜) :
    ((unscentedPoints k lib alpha kappa P).map fun Z =>
        transform k lib.toLib (unscentedWeights _ alpha beta kappa) mean Z (.last (affine A B c))) =
      some (⟨A *ᵥ mean 0 + ∑ i, B i *ᵥ mean i.succ + c, A * P 0 * Aᴴ + ∑ i, B i * P i.succ * (B i)ᴴ⟩, ⟨k 0, P 0 * Aᴴ⟩) := by
  obtain ⟨Z, hZ, hM, -⟩ := C57_points k hk lib P hP alpha beta kappa ha hkp
  rw [hZ, Option.map_some, affine_exact k _ mean Z P hP hM]

/-- The composite of consecutive transformations. -/
def SChain.comp : {n p : ℕ} → SChain 𝕜 k n p → (Fin n → 𝕜) → ((i : Fin (b + 1)) → Fin (k i) → 𝕜) → Fin p → 𝕜
  | _, _, .last g, x, ns => g x ns
  | _, _, .cons g rest, x, ns => rest.comp (g x ns) ns

theorem SChain.run_comp {count : ℕ} (lib : Lib 𝕜) (W : Weights count) (nm : (i : Fin (b + 1)) → Fin (k i) → 𝕜)
    (Z : Matrix ((i : Fin (b + 1)) × Fin (k i)) (Fin count) 𝕜) {n p : ℕ} (ch : SChain 𝕜 k n p) :
    ∀ (xm : Fin n → 𝕜) (X : Matrix (Fin n) (Fin count) 𝕜),
      (ch.run k lib W nm Z xm X).1 = ((SChain.last (ch.comp k)).run k lib W nm Z xm X).1 := by
  induction ch with
  | last g => intro xm X; rfl
  | cons g rest ih =>
    intro xm X
    unfold SChain.run
    rw [ih]
    have e : transformed k (rest.comp k) (weightedMean W (transformed k g xm X nm Z))
        (deviations (transformed k g xm X nm Z) (weightedMean W (transformed k g xm X nm Z))) nm Z =
        transformed k ((SChain.cons g rest).comp k) xm X nm Z := by
      ext a c
      simp only [transformed, deviations, sub_add_cancel, SChain.comp]
    unfold SChain.run
    rw [e]

/-- C56 and C57: consecutive transformations, whether affine or not, give the same distribution as their composite. -/
theorem C56_consecutive {count : ℕ} (lib : Lib 𝕜) (W : Weights count) (mean : (i : Fin (b + 1)) → Fin (k i) → 𝕜)
    (Z : Matrix ((i : Fin (b + 1)) × Fin (k i)) (Fin count) 𝕜) {p : ℕ} (ch : SChain 𝕜 k (k 0) p) :
    (transform k lib W mean Z ch).1 = (transform k lib W mean Z (.last (ch.comp k))).1 :=
  SChain.run_comp k lib W mean Z ch _ _

end transform

/-- Scaling the state by `a`, from points with mean zero. -/
theorem scale_stage {b count n : ℕ} (k : Fin (b + 1) → ℕ) (W : Weights count) (nm : (i : Fin (b + 1)) → Fin (k i) → ℝ)
    (Z : Matrix ((i : Fin (b + 1)) × Fin (k i)) (Fin count) ℝ) (X : Matrix (Fin n) (Fin count) ℝ) (hX : X *ᵥ scal W.wm = 0) (a : ℝ) :
    weightedMean W (transformed k (fun x _ => a • x) (fun _ => 0) X nm Z) = 0 ∧
    deviations (transformed k (fun x _ => a • x) (fun _ => 0) X nm Z) (weightedMean W (transformed k (fun x _ => a • x) (fun _ => 0) X nm Z)) = a • X := by
  have e : transformed k (fun x _ => a • x) (fun _ => 0) X nm Z = a • X := by
    ext r c
    simp [transformed]
  have e2 : weightedMean W (a • X) = 0 := by
    unfold weightedMean
    rw [Matrix.smul_mulVec, hX, smul_zero]
  rw [e, e2]
  refine ⟨rfl, ?_⟩
  ext r c
  simp [deviations]

/-- C56, violated: the cross-covariance of consecutive transformations is that between the results of the last two, not between the input and the
result.  Here `x ↦ 2x` is followed by `x ↦ 3x` and the input has variance 1, so the cross-covariance is 6, but 12 is returned. -/
theorem C56_cross_violated (lib : SLib ℝ) :
    ∃ Z, cubaturePoints (fun _ : Fin 1 => 1) lib (fun _ => 1) = some Z ∧
      transform (fun _ : Fin 1 => 1) lib.toLib (cubatureWeights _) (fun _ _ => 0) Z (.last fun x _ => (6 : ℝ) • x) = (⟨fun _ => 0, (36 : ℝ) • 1⟩, ⟨1, (6 : ℝ) • 1⟩) ∧
      transform (fun _ : Fin 1 => 1) lib.toLib (cubatureWeights _) (fun _ _ => 0) Z (.cons (fun x _ => (2 : ℝ) • x) (.last fun x _ => (3 : ℝ) • x)) =
        (⟨fun _ => 0, (36 : ℝ) • 1⟩, ⟨1, (12 : ℝ) • 1⟩) := by
  obtain ⟨Z, hZ, hM⟩ := C56_points (fun _ : Fin 1 => 1) (fun _ => one_pos) lib (fun _ => (1 : Matrix (Fin 1) (Fin 1) ℝ)) (fun _ => Matrix.PosSemidef.one)
  refine ⟨Z, hZ, ?_⟩
  clear hZ
  generalize cubatureWeights ((∑ _i : Fin 1, 1) * 2) = W at hM ⊢
  generalize (∑ _i : Fin 1, 1) * 2 = count at Z W hM ⊢
  let X : Matrix (Fin 1) (Fin count) ℝ := fun a c => Z ⟨0, a⟩ c
  have hX : X *ᵥ scal W.wm = 0 := by
    funext a
    exact congrFun (matches_matrix hM).1 ⟨0, a⟩
  have hXX : X * diagonal (scal (𝕜 := ℝ) W.wc) * Xᴴ = (1 : Matrix (Fin 1) (Fin 1) ℝ) := by
    ext a a'
    have := congrFun (congrFun (matches_matrix hM).2 ⟨0, a⟩) ⟨0, a'⟩
    rw [blockDiagonal'_apply_eq] at this
    exact this
  have scaled : ∀ u v : ℝ, (u • X) * (diagonal (scal (𝕜 := ℝ) W.wc) * (v • X)ᴴ) = (u * v) • (1 : Matrix (Fin 1) (Fin 1) ℝ) := by
    intro u v
    rw [← hXX, Matrix.conjTranspose_smul]
    simp only [star_trivial, Matrix.smul_mul, Matrix.mul_smul, smul_smul, Matrix.mul_assoc, mul_comm u v]
  have hherm : ∀ u : ℝ, lib.herm (u • (1 : Matrix (Fin 1) (Fin 1) ℝ)) = u • 1 := by
    intro u
    refine lib.herm_spec _ ?_
    ext i j
    simp [Matrix.conjTranspose_apply, Matrix.one_apply, eq_comm]
  obtain ⟨m6, d6⟩ := scale_stage (fun _ : Fin 1 => 1) W (fun _ _ => 0) Z X hX 6
  obtain ⟨m2, d2⟩ := scale_stage (fun _ : Fin 1 => 1) W (fun _ _ => 0) Z X hX 2
  obtain ⟨m3, d3⟩ := scale_stage (fun _ : Fin 1 => 1) W (fun _ _ => 0) Z ((2 : ℝ) • X) (by rw [Matrix.smul_mulVec, hX, smul_zero]) 3
  constructor
  · show ((⟨weightedMean W (transformed _ _ _ X _ Z), covarianceOf _ W (deviations (transformed _ _ _ X _ Z) _)⟩,
      ⟨1, crossOf W X (deviations (transformed _ _ _ X _ Z) _)⟩) : Gauss ℝ (Fin 1) × ((q : ℕ) × Matrix (Fin q) (Fin 1) ℝ)) = _
    rw [d6, m6]
    unfold covarianceOf crossOf
    have e := scaled 1 6
    rw [one_smul, one_mul] at e
    rw [scaled, hherm, e]
    norm_num
    rfl
  · show SChain.run _ lib.toLib W _ Z (.last fun x _ => (3 : ℝ) • x) (weightedMean W (transformed _ _ _ X _ Z))
      (deviations (transformed _ _ _ X _ Z) (weightedMean W (transformed _ _ _ X _ Z))) = _
    rw [d2, m2]
    show ((⟨weightedMean W (transformed _ _ _ _ _ Z), covarianceOf _ W (deviations (transformed _ _ _ _ _ Z) _)⟩,
      ⟨1, crossOf W _ (deviations (transformed _ _ _ _ _ Z) _)⟩) : Gauss ℝ (Fin 1) × ((q : ℕ) × Matrix (Fin q) (Fin 1) ℝ)) = _
    have d3' := d3
    have m3' := m3
    rw [smul_smul] at d3'
    erw [d3', m3']
    unfold covarianceOf crossOf
    rw [scaled, scaled, hherm]
    norm_num
    rfl

/-! ## Cholesky form -/

theorem diagonal_sqrt {m p : ℕ} (w : Fin m → ℝ) (hw : ∀ c, 0 ≤ w c) (Y : Matrix (Fin p) (Fin m) 𝕜) :
    (Y * diagonal (scal fun c => Real.sqrt (w c))) * (Y * diagonal (scal fun c => Real.sqrt (w c)))ᴴ = Y * (diagonal (scal w) * Yᴴ) := by
  rw [Matrix.conjTranspose_mul, Matrix.diagonal_conjTranspose, Matrix.mul_assoc, ← Matrix.mul_assoc (diagonal _) (diagonal _), Matrix.diagonal_mul_diagonal]
  congr 3
  funext c
  simp only [scal, Pi.star_apply, RCLike.star_def, RCLike.conj_ofReal]
  rw [← RCLike.ofReal_mul, Real.mul_self_sqrt (hw c)]

/-- C56: the covariance computed in Cholesky form is the same. -/
theorem C56_cholesky (lib : Lib 𝕜) {p count : ℕ} (Y : Matrix (Fin p) (Fin count) 𝕜) :
    cubatureCovarianceChol lib Y * (cubatureCovarianceChol lib Y)ᴴ = covarianceOf lib (cubatureWeights count) Y := by
  have e : ((Real.sqrt (1 / count) : ℝ) : 𝕜) • Y = Y * diagonal (scal fun c => Real.sqrt ((cubatureWeights count).wc c)) := by
    ext a c
    rw [Matrix.mul_diagonal, Matrix.smul_apply, smul_eq_mul, mul_comm]
    rfl
  unfold cubatureCovarianceChol covarianceOf
  rw [lib.lq_spec, e, diagonal_sqrt (cubatureWeights count).wc (fun c => by simp only [cubatureWeights]; positivity), lib.herm_spec]
  rw [← diagonal_sqrt (cubatureWeights count).wc (fun c => by simp only [cubatureWeights]; positivity)]
  exact Matrix.isHermitian_mul_conjTranspose_self _

/-- C57: the covariance computed in Cholesky form is the same, also if the first weight is negative, provided that it is a covariance. -/
theorem C57_cholesky (lib : Lib 𝕜) {p m : ℕ} (W : Weights (m + 1)) (hW : ∀ c : Fin m, 0 ≤ W.wc c.succ) (Y : Matrix (Fin p) (Fin (m + 1)) 𝕜)
    (hP : (Y * (diagonal (scal W.wc) * Yᴴ)).PosSemidef) :
    scaledCovarianceChol lib W Y * (scaledCovarianceChol lib W Y)ᴴ = covarianceOf lib W Y := by
  unfold scaledCovarianceChol covarianceOf
  rw [lib.herm_spec _ hP.isHermitian]
  split_ifs with h0
  · simp only
    set head : Matrix (Fin p) (Fin 1) 𝕜 := fun a _ => Y a 0 with hhead
    set tail : Matrix (Fin p) (Fin m) 𝕜 := fun a c => Y a c.succ with htail
    have e1 : lib.lq (tail * diagonal (scal fun c => Real.sqrt (W.wc c.succ))) * (lib.lq (tail * diagonal (scal fun c => Real.sqrt (W.wc c.succ))))ᴴ =
        tail * (diagonal (scal fun c => W.wc c.succ) * tailᴴ) := by
      rw [lib.lq_spec, diagonal_sqrt (fun c => W.wc c.succ) hW]
    have e2 : (((Real.sqrt (-W.wc 0) : ℝ) : 𝕜) • head) * (((Real.sqrt (-W.wc 0) : ℝ) : 𝕜) • head)ᴴ = (((-W.wc 0 : ℝ)) : 𝕜) • (head * headᴴ) := by
      rw [Matrix.conjTranspose_smul, Matrix.smul_mul, Matrix.mul_smul, smul_smul]
      congr 1
      rw [RCLike.star_def, RCLike.conj_ofReal, ← RCLike.ofReal_mul, Real.mul_self_sqrt (by linarith)]
    have e3 : tail * (diagonal (scal fun c => W.wc c.succ) * tailᴴ) - (((-W.wc 0 : ℝ)) : 𝕜) • (head * headᴴ) = Y * (diagonal (scal W.wc) * Yᴴ) := by
      ext a a'
      have r : (Y * (diagonal (scal (𝕜 := 𝕜) W.wc) * Yᴴ)) a a' = Y a 0 * ((W.wc 0 : 𝕜) * star (Y a' 0)) +
          ∑ c : Fin m, Y a c.succ * ((W.wc c.succ : 𝕜) * star (Y a' c.succ)) := by
        rw [Matrix.mul_apply, Fin.sum_univ_succ]
        simp only [Matrix.diagonal_mul, Matrix.conjTranspose_apply, scal]
      have t : (tail * (diagonal (scal (𝕜 := 𝕜) fun c => W.wc c.succ) * tailᴴ)) a a' =
          ∑ c : Fin m, Y a c.succ * ((W.wc c.succ : 𝕜) * star (Y a' c.succ)) := by
        rw [Matrix.mul_apply]
        simp only [Matrix.diagonal_mul, scal]
        rfl
      have h : (head * headᴴ) a a' = Y a 0 * star (Y a' 0) := by
        rw [Matrix.mul_apply, Fin.sum_univ_one]
        rfl
      rw [Matrix.sub_apply, Matrix.smul_apply, r, t, h, smul_eq_mul, RCLike.ofReal_neg]
      ring
    rw [lib.downdate_spec, e1, e2, e3]
    rw [e1, e2, e3]
    exact hP
  · rw [lib.lq_spec, diagonal_sqrt W.wc]
    intro c
    refine Fin.cases ?_ (fun c => hW c) c
    exact not_lt.mp h0

/-- With the default parameters the first covariance weight is negative, in every dimension: the branch with the rank update is taken. -/
example (dim : ℕ) (hd : 0 < dim) : (unscentedWeights dim 0.001 2 0).wc 0 < 0 ∧ ∀ c : Fin (dim * 2), 0 ≤ (unscentedWeights dim 0.001 2 0).wc c.succ := by
  refine ⟨?_, fun c => ?_⟩
  · simp only [unscentedWeights, scaledWeights, Fin.cons_zero]
    norm_num
  · simp only [unscentedWeights, scaledWeights, Fin.cons_succ]
    positivity

/-! ## Functions that are not affine -/

/-- The weighted mean of a quadratic function of the input, from points which match the moments. -/
theorem quadratic_mean {b count p : ℕ} (k : Fin (b + 1) → ℕ) (W : Weights count) (mean : (i : Fin (b + 1)) → Fin (k i) → ℝ)
    (Z : Matrix ((i : Fin (b + 1)) × Fin (k i)) (Fin count) ℝ) (P : (i : Fin (b + 1)) → Matrix (Fin (k i)) (Fin (k i)) ℝ) (hM : Matches W.wm W.wm Z P)
    (lib : Lib ℝ) (H : Fin p → Matrix (Fin (k 0)) (Fin (k 0)) ℝ) (r : Fin p) :
    (transform k lib W mean Z (.last fun x _ r => x ⬝ᵥ H r *ᵥ x)).1.mean r = mean 0 ⬝ᵥ H r *ᵥ mean 0 + (H r * (P 0)ᵀ).trace := by
  show ∑ c, (fun a => Z ⟨0, a⟩ c + mean 0 a) ⬝ᵥ H r *ᵥ (fun a => Z ⟨0, a⟩ c + mean 0 a) * ((W.wm c : ℝ) : ℝ) = _
  have e : ∀ c, (fun a => Z ⟨0, a⟩ c + mean 0 a) ⬝ᵥ H r *ᵥ (fun a => Z ⟨0, a⟩ c + mean 0 a) * W.wm c =
      (mean 0 ⬝ᵥ H r *ᵥ mean 0) * W.wm c + (∑ a, (H r *ᵥ mean 0) a * (W.wm c * Z ⟨0, a⟩ c)) + (∑ a', (mean 0 ᵥ* H r) a' * (W.wm c * Z ⟨0, a'⟩ c)) +
        ∑ a, ∑ a', H r a a' * (W.wm c * (Z ⟨0, a⟩ c * star (Z ⟨0, a'⟩ c))) := by
    intro c
    have e1 : (fun a => Z ⟨0, a⟩ c + mean 0 a) = (fun a => Z ⟨0, a⟩ c) + mean 0 := rfl
    rw [e1, Matrix.mulVec_add, dotProduct_add, add_dotProduct, add_dotProduct]
    have q1 : (∑ a, (H r *ᵥ mean 0) a * (W.wm c * Z ⟨0, a⟩ c)) = ((fun a => Z ⟨0, a⟩ c) ⬝ᵥ H r *ᵥ mean 0) * W.wm c := by
      rw [dotProduct, Finset.sum_mul]
      exact Finset.sum_congr rfl fun a _ => by ring
    have q2 : (∑ a', (mean 0 ᵥ* H r) a' * (W.wm c * Z ⟨0, a'⟩ c)) = (mean 0 ⬝ᵥ H r *ᵥ fun a => Z ⟨0, a⟩ c) * W.wm c := by
      rw [Matrix.dotProduct_mulVec, dotProduct, Finset.sum_mul]
      exact Finset.sum_congr rfl fun a _ => by ring
    have q3 : (∑ a, ∑ a', H r a a' * (W.wm c * (Z ⟨0, a⟩ c * star (Z ⟨0, a'⟩ c)))) = ((fun a => Z ⟨0, a⟩ c) ⬝ᵥ H r *ᵥ fun a => Z ⟨0, a⟩ c) * W.wm c := by
      simp only [dotProduct, Matrix.mulVec, Finset.mul_sum, Finset.sum_mul, star_trivial]
      exact Finset.sum_congr rfl fun a _ => Finset.sum_congr rfl fun a' _ => by ring
    rw [q1, q2, q3]
    ring
  rw [Finset.sum_congr rfl fun c _ => e c]
  simp only [Finset.sum_add_distrib]
  have s1 : ∑ c, (mean 0 ⬝ᵥ H r *ᵥ mean 0) * W.wm c = mean 0 ⬝ᵥ H r *ᵥ mean 0 := by rw [← Finset.mul_sum, hM.total, mul_one]
  have s2 : ∀ v : Fin (k 0) → ℝ, ∑ c, ∑ a, v a * (W.wm c * Z ⟨0, a⟩ c) = 0 := by
    intro v
    rw [Finset.sum_comm]
    refine Finset.sum_eq_zero fun a _ => ?_
    rw [← Finset.mul_sum]
    have := hM.mean 0 a
    simp only [RCLike.ofReal_real_eq_id, id] at this
    rw [this, mul_zero]
  have s3 : ∑ c, ∑ a, ∑ a', H r a a' * (W.wm c * (Z ⟨0, a⟩ c * star (Z ⟨0, a'⟩ c))) = (H r * (P 0)ᵀ).trace := by
    rw [Finset.sum_comm]
    refine Finset.sum_congr rfl fun a _ => ?_
    rw [Finset.sum_comm]
    rw [Matrix.diag_apply, Matrix.mul_apply]
    refine Finset.sum_congr rfl fun a' _ => ?_
    rw [← Finset.mul_sum]
    have := hM.cov 0 a a'
    simp only [RCLike.ofReal_real_eq_id, id] at this
    rw [this, Matrix.transpose_apply]
  rw [s1, s2, s2, s3]
  ring

/-- C56: the mean of every quadratic function is exact. -/
theorem C56_quadratic {b p : ℕ} (k : Fin (b + 1) → ℕ) (hk : ∀ i, 0 < k i) (lib : SLib ℝ) (mean : (i : Fin (b + 1)) → Fin (k i) → ℝ)
    (P : (i : Fin (b + 1)) → Matrix (Fin (k i)) (Fin (k i)) ℝ) (hP : ∀ i, (P i).PosSemidef) (H : Fin p → Matrix (Fin (k 0)) (Fin (k 0)) ℝ) :
    ((cubaturePoints k lib P).map fun Z => (transform k lib.toLib (cubatureWeights _) mean Z (.last fun x _ r => x ⬝ᵥ H r *ᵥ x)).1.mean) =
      some fun r => mean 0 ⬝ᵥ H r *ᵥ mean 0 + (H r * P 0).trace := by
  obtain ⟨Z, hZ, hM⟩ := C56_points k hk lib P hP
  rw [hZ, Option.map_some]
  congr 1
  funext r
  rw [quadratic_mean k _ mean Z P hM, show (P 0)ᵀ = P 0 from (hP 0).isHermitian]

/-- C57: the same with unscented points. -/
theorem C57_quadratic {b p : ℕ} (k : Fin (b + 1) → ℕ) (hk : ∀ i, 0 < k i) (lib : SLib ℝ) (mean : (i : Fin (b + 1)) → Fin (k i) → ℝ)
    (P : (i : Fin (b + 1)) → Matrix (Fin (k i)) (Fin (k i)) ℝ) (hP : ∀ i, (P i).PosSemidef) (alpha beta kappa : ℝ) (ha : alpha ≠ 0)
    (hkp : 0 < (∑ i, k i : ℕ) + kappa) (H : Fin p → Matrix (Fin (k 0)) (Fin (k 0)) ℝ) :
    ((unscentedPoints k lib alpha kappa P).map fun Z =>
        (transform k lib.toLib (unscentedWeights _ alpha beta kappa) mean Z (.last fun x _ r => x ⬝ᵥ H r *ᵥ x)).1.mean) =
      some fun r => mean 0 ⬝ᵥ H r *ᵥ mean 0 + (H r * P 0).trace := by
  obtain ⟨Z, hZ, -, hM⟩ := C57_points k hk lib P hP alpha beta kappa ha hkp
  rw [hZ, Option.map_some]
  congr 1
  funext r
  rw [quadratic_mean k _ mean Z P hM, show (P 0)ᵀ = P 0 from (hP 0).isHermitian]

/-! ## Spherical simplex points -/

/-- C58, violated: with the default parameters the points are undefined (a division by the integer zero), for every dimension. -/
theorem C58_default_violated (M dim : ℕ) (hd : 0 < dim) : simplexPoints M dim (simplexDefaultW dim) = none := by
  unfold simplexPoints
  rw [if_neg]
  intro h
  have h0 := h ⟨0, hd⟩ 0
  have hW : simplexDefaultW dim = 1 / (dim + 2) := by
    unfold simplexDefaultW
    have h1 : (dim : ℝ) + 1 ≠ 0 := by positivity
    have h2 : (dim : ℝ) + 2 ≠ 0 := by positivity
    have h3 : ((dim + 2 : ℕ) : ℝ) - 1 = dim + 1 := by push_cast; ring
    rw [h3]
    field_simp
    ring
  have hx : Real.sqrt (((0 : ℕ) : ℝ) + 1) * (((0 : ℕ) : ℝ) + 2) * simplexDefaultW dim = 2 / (dim + 2) := by
    rw [hW]
    simp
    field_simp
  have hfl : ⌊(2 : ℝ) / (dim + 2)⌋₊ = 0 := by
    rw [Nat.floor_eq_zero, div_lt_one (by positivity)]
    have : (0 : ℝ) < dim := by exact_mod_cast hd
    linarith
  unfold simplexCoeff at h0
  simp only [hx, hfl] at h0
  split_ifs at h0 <;> simp at h0

/-- C58, violated: whatever the weight, and for every dimension, points which are defined do not match the moments: in the first row either the weighted
mean is not zero or the weighted second moment is not one.  (`w` is any weight for the first point, and `W` that of the others.) -/
theorem C58_violated (M : ℕ) (hM : 2 ≤ M) (dim : ℕ) (hd : 0 < dim) (W : ℝ) (X : Matrix (Fin dim) (Fin (dim + 2)) ℝ) (hX : simplexPoints M dim W = some X)
    (w : Fin (dim + 2) → ℝ) (hw : ∀ i, i ≠ 0 → w i = W) :
    ¬ (∑ i, w i * X ⟨0, hd⟩ i = 0 ∧ ∑ i, w i * (X ⟨0, hd⟩ i * X ⟨0, hd⟩ i) = 1) := by
  unfold simplexPoints at hX
  split_ifs at hX with h
  injection hX with hX
  have hXi : ∀ i : Fin (dim + 2), simplexCoeff M W 0 i = some (X ⟨0, hd⟩ i) := by
    intro i
    rw [← hX]
    have := h ⟨0, hd⟩ i
    obtain ⟨v, hv⟩ := Option.isSome_iff_exists.mp this
    simp only [hv, Option.getD_some]
  have hx : Real.sqrt (((0 : ℕ) : ℝ) + 1) * (((0 : ℕ) : ℝ) + 2) * W = 2 * W := by simp
  have hco : ∀ i : Fin (dim + 2), (if 2 * W ≤ -1 ∨ (M : ℝ) ≤ 2 * W then none else if ⌊2 * W⌋₊ = 0 then none else if (i : ℕ) = 0 then some 0 else
      if (i : ℕ) < 2 then some (((M - 1 / ⌊2 * W⌋₊) % M : ℕ) : ℝ) else if (i : ℕ) = 2 then some (((0 + 1) * (1 / ⌊2 * W⌋₊) % M : ℕ) : ℝ) else some 0) =
      some (X ⟨0, hd⟩ i) := by
    intro i
    rw [← hXi]
    unfold simplexCoeff
    simp only [hx]
  clear hXi h hX
  by_cases h1 : 2 * W ≤ -1 ∨ (M : ℝ) ≤ 2 * W
  · have := hco 0
    rw [if_pos h1] at this
    exact absurd this (by simp)
  by_cases h2 : ⌊2 * W⌋₊ = 0
  · have := hco 0
    rw [if_neg h1, if_pos h2] at this
    exact absurd this (by simp)
  have hWpos : 0 < W := by
    have := Nat.pos_of_ne_zero h2
    rw [Nat.floor_pos] at this
    linarith
  set denom := 1 / ⌊2 * W⌋₊ with hden
  have hrow : ∀ i : Fin (dim + 2), X ⟨0, hd⟩ i = if (i : ℕ) = 0 then 0 else if (i : ℕ) < 2 then (((M - denom) % M : ℕ) : ℝ) else
      if (i : ℕ) = 2 then (((0 + 1) * denom % M : ℕ) : ℝ) else 0 := by
    intro i
    have := hco i
    rw [if_neg h1, if_neg h2] at this
    split_ifs at this ⊢ <;> exact (Option.some.inj this).symm
  rintro ⟨hs, hq⟩
  by_cases hf : ⌊2 * W⌋₊ = 1
  · have hd1 : denom = 1 := by rw [hden, hf]
    have hnn : ∀ i : Fin (dim + 2), 0 ≤ w i * X ⟨0, hd⟩ i := by
      intro i
      by_cases hi : i = 0
      · rw [hrow, hi]
        simp
      · rw [hw i hi, hrow]
        refine mul_nonneg hWpos.le ?_
        split_ifs <;> first | exact Nat.cast_nonneg _ | exact le_refl _
    have h0 := (Finset.sum_eq_zero_iff_of_nonneg (fun i _ => hnn i)).mp hs ⟨1, by omega⟩ (Finset.mem_univ _)
    rw [hw _ (by simp), hrow, if_neg (by simp), if_pos (by simp), hd1, Nat.mod_eq_of_lt (by omega)] at h0
    have : ((M - 1 : ℕ) : ℝ) ≠ 0 := by
      have : M - 1 ≠ 0 := by omega
      exact_mod_cast this
    rcases mul_eq_zero.mp h0 with h0 | h0
    · exact hWpos.ne' h0
    · exact this h0
  · have hd0 : denom = 0 := by
      rw [hden]
      exact Nat.div_eq_of_lt (by omega)
    have : ∀ i : Fin (dim + 2), X ⟨0, hd⟩ i = 0 := by
      intro i
      rw [hrow, hd0]
      split_ifs <;> simp
    rw [Finset.sum_congr rfl fun i _ => by rw [this i, mul_zero, mul_zero], Finset.sum_const_zero] at hq
    exact zero_ne_one hq

/-- The coefficients as published (S. Julier, "The spherical simplex unscented transformation"): the divisor is the square root of the product, and the
quotient is not one of integers. -/
noncomputable def simplexFormula (W : ℝ) (j i : ℕ) : ℝ :=
  let denom := 1 / Real.sqrt ((j + 1) * (j + 2) * W)
  if i = 0 then 0 else if i < j + 2 then -denom else if i = j + 2 then (j + 1) * denom else 0

theorem simplexFormula_sum (W : ℝ) (j m : ℕ) (hm : j + 2 < m) (f : ℝ → ℝ) (hf : f 0 = 0) : ∑ i ∈ Finset.range m, f (simplexFormula W j i) =
    (j + 1) * f (-(1 / Real.sqrt ((j + 1) * (j + 2) * W))) + f ((j + 1) * (1 / Real.sqrt ((j + 1) * (j + 2) * W))) := by
  obtain ⟨r, rfl⟩ : ∃ r, m = (j + 1 + 1 + r) + 1 := ⟨m - j - 3, by omega⟩
  rw [Finset.sum_range_succ', Finset.sum_range_add, Finset.sum_range_succ]
  have e1 : ∀ i ∈ Finset.range (j + 1), f (simplexFormula W j (i + 1)) = f (-(1 / Real.sqrt ((j + 1) * (j + 2) * W))) := by
    intro i hi
    have := Finset.mem_range.mp hi
    simp only [simplexFormula]
    rw [if_neg (by omega), if_pos (by omega)]
  have e2 : f (simplexFormula W j (j + 1 + 1)) = f ((j + 1) * (1 / Real.sqrt ((j + 1) * (j + 2) * W))) := by
    simp only [simplexFormula]
    rw [if_neg (by omega), if_neg (by omega)]
    simp
  have e3 : ∀ i ∈ Finset.range r, f (simplexFormula W j (j + 1 + 1 + i + 1)) = 0 := by
    intro i _
    simp only [simplexFormula]
    rw [if_neg (by omega), if_neg (by omega), if_neg (by omega), hf]
  have e4 : f (simplexFormula W j 0) = 0 := by simp [simplexFormula, hf]
  rw [Finset.sum_congr rfl e1, e2, Finset.sum_eq_zero e3, e4]
  simp

theorem simplexFormula_orth (W : ℝ) (j j' m : ℕ) (hm : j + 2 < m) (h : j < j') :
    ∑ i ∈ Finset.range m, simplexFormula W j i * simplexFormula W j' i = 0 := by
  have e : ∀ i ∈ Finset.range m, simplexFormula W j i * simplexFormula W j' i =
      simplexFormula W j i * (-(1 / Real.sqrt ((j' + 1) * (j' + 2) * W))) := by
    intro i _
    by_cases h0 : i = 0
    · subst h0
      simp [simplexFormula]
    · by_cases h1 : i ≤ j + 2
      · congr 1
        simp only [simplexFormula]
        rw [if_neg h0, if_pos (by omega)]
      · have : simplexFormula W j i = 0 := by
          simp only [simplexFormula]
          rw [if_neg h0, if_neg (by omega), if_neg (by omega)]
        rw [this, zero_mul, zero_mul]
  rw [Finset.sum_congr rfl e, ← Finset.sum_mul, simplexFormula_sum W j m hm (fun x => x) rfl]
  ring

/-- C58: the published formula does match the moments, for every dimension; so the claim can be met, by replacing the expression for `denom`. -/
theorem C58_formula (dim : ℕ) (W : ℝ) (hW : 0 < W) (j j' : ℕ) (hj : j < dim) (hj' : j' < dim) :
    ∑ i ∈ Finset.range (dim + 2), W * simplexFormula W j i = 0 ∧
      ∑ i ∈ Finset.range (dim + 2), W * (simplexFormula W j i * simplexFormula W j' i) = if j = j' then 1 else 0 := by
  constructor
  · rw [← Finset.mul_sum, simplexFormula_sum W j _ (by omega) (fun x => x) rfl]
    ring
  · rw [← Finset.mul_sum]
    split_ifs with h
    · subst h
      rw [simplexFormula_sum W j _ (by omega) (fun x => x * x) (by simp)]
      have hp : (0 : ℝ) < (j + 1) * (j + 2) * W := by positivity
      have hs := Real.mul_self_sqrt hp.le
      have hs0 : Real.sqrt ((j + 1) * (j + 2) * W) ≠ 0 := (Real.sqrt_pos.mpr hp).ne'
      set s := Real.sqrt ((j + 1) * (j + 2) * W)
      have : W * ((j + 1) * (-(1 / s) * -(1 / s)) + (j + 1) * (1 / s) * ((j + 1) * (1 / s))) = ((j + 1) * (j + 2) * W) / (s * s) := by
        field_simp
        ring
      rw [this, hs, div_self hp.ne']
    · rcases lt_or_gt_of_ne h with h | h
      · rw [simplexFormula_orth W j j' _ (by omega) h, mul_zero]
      · rw [Finset.sum_congr rfl fun i _ => mul_comm (simplexFormula W j i) _, simplexFormula_orth W j' j _ (by omega) h, mul_zero]

/-- The points are defined for some weights, for instance in one dimension with weight 1/2. -/
example : ∃ X, simplexPoints (2 ^ 64) 1 (1 / 2) = some X := by
  unfold simplexPoints
  rw [if_pos]
  · exact ⟨_, rfl⟩
  · intro j i
    have hj : (j : ℕ) = 0 := by omega
    unfold simplexCoeff
    rw [hj]
    norm_num
    split_ifs <;> rfl

end OpenKalman.SigmaPoints
