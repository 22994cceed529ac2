import Verif.Spec.Steady
import Verif.Model.Steady
import Verif.Proof.Robust
import Verif.Theorems.KalmanTransforms
import Mathlib.Algebra.Order.Chebyshev

/-!
# Lemmas for C155 and C156
-/

set_option linter.unusedSectionVars false

namespace OpenKalman.Steady
open Matrix Filter Topology OpenKalman.Kalman
open scoped ComplexOrder

variable {𝕜 : Type} [RCLike 𝕜] {n m : Type} [Fintype n] [Fintype m] [DecidableEq n] [DecidableEq m]

/-! ## Positive semidefinite matrices and limits -/

theorem re_diag (B : Matrix n n 𝕜) (i : n) : RCLike.re ((B * Bᴴ) i i) = ∑ k, ‖B i k‖ ^ 2 := by
  rw [Matrix.mul_apply, map_sum]
  refine Finset.sum_congr rfl fun k _ => ?_
  rw [conjTranspose_apply, RCLike.star_def, RCLike.mul_conj]
  norm_cast

theorem entry_le {X : Matrix n n 𝕜} (h : X.PosSemidef) (i j : n) : ‖X i j‖ ≤ RCLike.re X.trace := by
  obtain ⟨B, rfl⟩ := exists_factor h
  have hd : ∀ i, ∑ k, ‖B i k‖ ^ 2 ≤ RCLike.re (B * Bᴴ).trace := by
    intro i
    rw [Matrix.trace, map_sum]
    simp only [diag_apply, re_diag]
    exact Finset.single_le_sum (f := fun i => ∑ k, ‖B i k‖ ^ 2) (fun i _ => Finset.sum_nonneg fun k _ => sq_nonneg _) (Finset.mem_univ i)
  rw [Matrix.mul_apply]
  calc ‖∑ k, B i k * Bᴴ k j‖ ≤ ∑ k, ‖B i k * Bᴴ k j‖ := norm_sum_le _ _
    _ ≤ ∑ k, (‖B i k‖ ^ 2 + ‖B j k‖ ^ 2) / 2 := by
        refine Finset.sum_le_sum fun k _ => ?_
        rw [norm_mul, conjTranspose_apply, norm_star]
        nlinarith [sq_nonneg (‖B i k‖ - ‖B j k‖)]
    _ = (∑ k, ‖B i k‖ ^ 2 + ∑ k, ‖B j k‖ ^ 2) / 2 := by rw [← Finset.sum_div, Finset.sum_add_distrib]
    _ ≤ RCLike.re (B * Bᴴ).trace := by linarith [hd i, hd j]

theorem re_trace_nonneg {X : Matrix n n 𝕜} (h : X.PosSemidef) : 0 ≤ RCLike.re X.trace := (RCLike.nonneg_iff.1 h.trace_nonneg).1

theorem antisymm {X Y : Matrix n n 𝕜} (h : (X - Y).PosSemidef) (h' : (Y - X).PosSemidef) : X = Y := by
  have a := re_trace_nonneg h
  have b := re_trace_nonneg h'
  rw [Matrix.trace_sub, map_sub] at a b
  ext i j
  have c := entry_le h i j
  rw [Matrix.trace_sub, map_sub, Matrix.sub_apply] at c
  exact sub_eq_zero.1 (norm_le_zero_iff.1 (by linarith))

theorem tendsto_entries {X : ℕ → Matrix n m 𝕜} {Y : Matrix n m 𝕜} : Tendsto X atTop (𝓝 Y) ↔ ∀ i j, Tendsto (fun t => X t i j) atTop (𝓝 (Y i j)) := by
  refine ⟨fun h i j => ?_, fun h => ?_⟩
  · exact tendsto_pi_nhds.1 (tendsto_pi_nhds.1 h i) j
  · exact tendsto_pi_nhds.2 fun i => tendsto_pi_nhds.2 fun j => h i j

theorem tendsto_trace {X : ℕ → Matrix n n 𝕜} {Y : Matrix n n 𝕜} (h : Tendsto X atTop (𝓝 Y)) :
    Tendsto (fun t => RCLike.re (X t).trace) atTop (𝓝 (RCLike.re Y.trace)) :=
  (RCLike.continuous_re.tendsto _).comp ((continuous_id.matrix_trace.tendsto _).comp h)

theorem psd_limit {X : ℕ → Matrix n n 𝕜} {Y : Matrix n n 𝕜} (h : Tendsto X atTop (𝓝 Y)) (hX : ∀ t, (X t).PosSemidef) : Y.PosSemidef := by
  have hY : Y.IsHermitian := by
    have h1 : Tendsto (fun t => (X t)ᴴ) atTop (𝓝 Yᴴ) := (continuous_id.matrix_conjTranspose.tendsto _).comp h
    have h2 : (fun t => (X t)ᴴ) = X := funext fun t => (hX t).1
    rw [h2] at h1
    exact tendsto_nhds_unique h1 h
  refine .of_dotProduct_mulVec_nonneg hY fun x => ?_
  have hc : Tendsto (fun t => star x ⬝ᵥ X t *ᵥ x) atTop (𝓝 (star x ⬝ᵥ Y *ᵥ x)) :=
    ((Continuous.dotProduct continuous_const (Continuous.matrix_mulVec continuous_id continuous_const)).tendsto Y).comp h
  rw [RCLike.nonneg_iff]
  refine ⟨?_, hY.im_star_dotProduct_mulVec_self x⟩
  exact ge_of_tendsto' ((RCLike.continuous_re.tendsto _).comp hc) fun t => (RCLike.nonneg_iff.1 ((hX t).dotProduct_mulVec_nonneg x)).1

/-- A bounded increasing sequence of matrices has a limit. -/
theorem monotone_limit {P : ℕ → Matrix n n 𝕜} {B : Matrix n n 𝕜} (h : ∀ t, (P (t + 1) - P t).PosSemidef) (hB : ∀ t, (B - P t).PosSemidef) :
    ∃ X, Tendsto P atTop (𝓝 X) := by
  have hm : ∀ t s, t ≤ s → (P s - P t).PosSemidef := by
    intro t s hs
    induction s, hs using Nat.le_induction with
    | base => rw [sub_self]; exact PosSemidef.zero
    | succ s _ ih => exact le_trans' ih (h s)
  have hmono : Monotone fun t => RCLike.re (P t).trace := by
    intro t s hs
    have := re_trace_nonneg (hm t s hs)
    rw [Matrix.trace_sub, map_sub] at this
    exact sub_nonneg.1 this
  have hbdd : BddAbove (Set.range fun t => RCLike.re (P t).trace) := by
    refine ⟨RCLike.re B.trace, ?_⟩
    rintro _ ⟨t, rfl⟩
    have := re_trace_nonneg (hB t)
    rw [Matrix.trace_sub, map_sub] at this
    exact sub_nonneg.1 this
  have ht := tendsto_atTop_ciSup hmono hbdd
  set T := ⨆ t, RCLike.re (P t).trace
  have hc : ∀ i j, ∃ y, Tendsto (fun t => P t i j) atTop (𝓝 y) := by
    intro i j
    refine cauchySeq_tendsto_of_complete (cauchySeq_of_le_tendsto_0' (fun t => T - RCLike.re (P t).trace) ?_ ?_)
    · intro t s hs
      have a := entry_le (hm t s hs) i j
      rw [Matrix.trace_sub, map_sub, Matrix.sub_apply] at a
      have b := le_ciSup hbdd s
      rw [dist_comm, dist_eq_norm]
      linarith
    · simpa using (tendsto_const_nhds (x := T)).sub ht
  choose y hy using hc
  exact ⟨Matrix.of y, tendsto_entries.2 hy⟩

theorem squeeze {X Y : ℕ → Matrix n n 𝕜} (hX : ∀ t, (X t).PosSemidef) (hY : ∀ t, (Y t - X t).PosSemidef) (h : Tendsto Y atTop (𝓝 0)) : Tendsto X atTop (𝓝 0) := by
  refine tendsto_entries.2 fun i j => ?_
  refine squeeze_zero_norm (a := fun t => RCLike.re (Y t).trace) (fun t => ?_) ?_
  · have a := entry_le (hX t) i j
    have b := re_trace_nonneg (hY t)
    rw [Matrix.trace_sub, map_sub] at b
    linarith
  · simpa using tendsto_trace h

/-- A matrix is at most a multiple of the identity, given by its trace. -/
theorem le_scalar {X : Matrix n n 𝕜} (h : X.PosSemidef) {c : ℝ} (hc : RCLike.re X.trace * Fintype.card n ≤ c) : ((c : 𝕜) • (1 : Matrix n n 𝕜) - X).PosSemidef := by
  have hH : ((c : 𝕜) • (1 : Matrix n n 𝕜) - X).IsHermitian := by
    refine IsHermitian.sub ?_ h.1
    rw [IsHermitian, conjTranspose_smul, conjTranspose_one, RCLike.star_def, RCLike.conj_ofReal]
  refine .of_dotProduct_mulVec_nonneg hH fun x => ?_
  rw [RCLike.nonneg_iff]
  refine ⟨?_, hH.im_star_dotProduct_mulVec_self x⟩
  have e1 : RCLike.re (star x ⬝ᵥ ((c : 𝕜) • (1 : Matrix n n 𝕜)) *ᵥ x) = c * ∑ i, ‖x i‖ ^ 2 := by
    rw [smul_mulVec, one_mulVec, dotProduct_smul, smul_eq_mul, RCLike.re_ofReal_mul, dotProduct, map_sum]
    congr 1
    refine Finset.sum_congr rfl fun i _ => ?_
    rw [Pi.star_apply, RCLike.star_def, RCLike.conj_mul]
    norm_cast
  have e2 : RCLike.re (star x ⬝ᵥ X *ᵥ x) ≤ RCLike.re X.trace * Fintype.card n * ∑ i, ‖x i‖ ^ 2 := by
    refine (RCLike.re_le_norm _).trans ?_
    rw [dotProduct]
    calc ‖∑ i, star x i * (X *ᵥ x) i‖ ≤ ∑ i, ‖x i‖ * ∑ j, RCLike.re X.trace * ‖x j‖ := by
          refine (norm_sum_le _ _).trans (Finset.sum_le_sum fun i _ => ?_)
          rw [norm_mul, Pi.star_apply, norm_star]
          refine mul_le_mul_of_nonneg_left ?_ (norm_nonneg _)
          rw [mulVec, dotProduct]
          refine (norm_sum_le _ _).trans (Finset.sum_le_sum fun j _ => ?_)
          rw [norm_mul]
          exact mul_le_mul_of_nonneg_right (entry_le h i j) (norm_nonneg _)
      _ = RCLike.re X.trace * (∑ i, ‖x i‖) ^ 2 := by
          rw [← Finset.mul_sum, ← Finset.sum_mul]
          ring
      _ ≤ RCLike.re X.trace * (Fintype.card n * ∑ i, ‖x i‖ ^ 2) := by
          refine mul_le_mul_of_nonneg_left ?_ (re_trace_nonneg h)
          exact_mod_cast sq_sum_le_card_mul_sum_sq (s := Finset.univ) (f := fun i => ‖x i‖)
      _ = _ := by ring
  rw [sub_mulVec, dotProduct_sub, map_sub, e1]
  have : RCLike.re X.trace * Fintype.card n * ∑ i, ‖x i‖ ^ 2 ≤ c * ∑ i, ‖x i‖ ^ 2 :=
    mul_le_mul_of_nonneg_right hc (Finset.sum_nonneg fun i _ => sq_nonneg _)
  linarith

theorem smul_psd {X : Matrix n n 𝕜} (h : X.PosSemidef) {c : ℝ} (hc : 0 ≤ c) : ((c : 𝕜) • X).PosSemidef := h.smul (by exact_mod_cast hc)

/-- The identity is at most a multiple of a positive definite matrix. -/
theorem one_le {U : Matrix n n 𝕜} (h : U.PosDef) : ∃ c : ℝ, 0 ≤ c ∧ ((c : 𝕜) • U - 1).PosSemidef := by
  obtain ⟨B, rfl⟩ := exists_factor h.posSemidef
  have hu : IsUnit B.det := by
    have := h.isUnit.map (detMonoidHom (n := n) (R := 𝕜))
    rw [coe_detMonoidHom, det_mul] at this
    exact isUnit_of_mul_isUnit_left this
  have h1 := posSemidef_self_mul_conjTranspose B⁻¹
  refine ⟨RCLike.re (B⁻¹ * (B⁻¹)ᴴ).trace * Fintype.card n, mul_nonneg (re_trace_nonneg h1) (Nat.cast_nonneg _), ?_⟩
  have h2 := (le_scalar h1 le_rfl).mul_mul_conjTranspose_same B
  have h3 : B * (B⁻¹ * (B⁻¹)ᴴ) * Bᴴ = 1 := by
    rw [← Matrix.mul_assoc, mul_nonsing_inv _ hu, Matrix.one_mul, ← conjTranspose_mul, mul_nonsing_inv _ hu, conjTranspose_one]
  rw [Matrix.mul_sub, Matrix.sub_mul, h3, Matrix.mul_smul, Matrix.smul_mul, Matrix.mul_one] at h2
  exact h2

/-- Every matrix is at most a multiple of a positive definite one. -/
theorem le_multiple {U X : Matrix n n 𝕜} (h : U.PosDef) (hX : X.PosSemidef) : ∃ c : ℝ, 1 ≤ c ∧ ((c : 𝕜) • U - X).PosSemidef := by
  obtain ⟨k, hk, h1⟩ := one_le h
  set b := RCLike.re X.trace * Fintype.card n with hb
  have hb0 : 0 ≤ b := mul_nonneg (re_trace_nonneg hX) (Nat.cast_nonneg _)
  refine ⟨b * k + 1, by nlinarith, ?_⟩
  have e : (((b * k + 1 : ℝ) : 𝕜) • U - X) = ((b : ℝ) : 𝕜) • ((k : 𝕜) • U - 1) + (((b : 𝕜) • (1 : Matrix n n 𝕜) - X) + U) := by
    rw [smul_sub, smul_smul, RCLike.ofReal_add, RCLike.ofReal_mul, RCLike.ofReal_one, add_smul, one_smul]
    abel
  rw [e]
  exact (smul_psd h1 hb0).add ((le_scalar hX le_rfl).add h.posSemidef)

theorem conj_mono {X Y : Matrix n n 𝕜} (F : Matrix m n 𝕜) (h : (Y - X).PosSemidef) : (F * Y * Fᴴ - F * X * Fᴴ).PosSemidef := by
  rw [← Matrix.sub_mul, ← Matrix.mul_sub]
  exact h.mul_mul_conjTranspose_same F

theorem posDef_of_le {X Y : Matrix n n 𝕜} (h : X.PosDef) (h' : (Y - X).PosSemidef) : Y.PosDef := by
  have := h.add_posSemidef h'
  rwa [add_sub_cancel] at this

/-- A matrix whose square dies out dies out. -/
theorem square_root_limit {X : ℕ → Matrix n n 𝕜} (h : Tendsto (fun t => X t * (X t)ᴴ) atTop (𝓝 0)) : Tendsto X atTop (𝓝 0) := by
  refine tendsto_entries.2 fun i j => ?_
  have h1 := (RCLike.continuous_re.tendsto _).comp (tendsto_entries.1 h i i)
  have h2 : Tendsto (fun t => ∑ k, ‖X t i k‖ ^ 2) atTop (𝓝 0) := by
    simpa [Function.comp_def, re_diag] using h1
  have h3 : Tendsto (fun t => ‖X t i j‖ ^ 2) atTop (𝓝 0) := by
    refine squeeze_zero (fun t => sq_nonneg _) (fun t => ?_) h2
    exact Finset.single_le_sum (f := fun k => ‖X t i k‖ ^ 2) (fun k _ => sq_nonneg _) (Finset.mem_univ j)
  have h4 : Tendsto (fun t => ‖X t i j‖) atTop (𝓝 0) := by
    have := (Real.continuous_sqrt.tendsto 0).comp h3
    simpa [Function.comp_def, Real.sqrt_sq] using this
  exact tendsto_zero_iff_norm_tendsto_zero.2 h4

/-! ## The Riccati recursion -/

section riccati
variable {A Q : Matrix n n 𝕜} {C : Matrix m n 𝕜} {R : Matrix m m 𝕜}

theorem moved_psd (hQ : Q.PosSemidef) {P : Matrix n n 𝕜} (hP : P.PosSemidef) : (A * P * Aᴴ + Q).PosSemidef := (hP.mul_mul_conjTranspose_same A).add hQ

theorem measured_pd (hQ : Q.PosSemidef) (hR : R.PosDef) {P : Matrix n n 𝕜} (hP : P.PosSemidef) : (C * (A * P * Aᴴ + Q) * Cᴴ + R).PosDef := by
  rw [add_comm]
  exact hR.add_posSemidef ((moved_psd hQ hP).mul_mul_conjTranspose_same C)

theorem measured_unit (hQ : Q.PosSemidef) (hR : R.PosDef) {P : Matrix n n 𝕜} (hP : P.PosSemidef) : IsUnit (C * (A * P * Aᴴ + Q) * Cᴴ + R).det :=
  (measured_pd hQ hR hP).isUnit.map (detMonoidHom (n := m) (R := 𝕜))

theorem withGain_split (G : Matrix n m 𝕜) (P : Matrix n n 𝕜) :
    withGain A Q C R G P = (1 - G * C) * A * P * ((1 - G * C) * A)ᴴ + withGain A Q C R G 0 := by
  unfold withGain
  simp only [Matrix.mul_zero, Matrix.zero_mul, zero_add, conjTranspose_mul, Matrix.mul_add, Matrix.add_mul, Matrix.mul_assoc]
  abel

theorem withGain_psd (hQ : Q.PosSemidef) (hR : R.PosDef) (G : Matrix n m 𝕜) {P : Matrix n n 𝕜} (hP : P.PosSemidef) : (withGain A Q C R G P).PosSemidef :=
  ((moved_psd hQ hP).mul_mul_conjTranspose_same _).add (hR.posSemidef.mul_mul_conjTranspose_same G)

theorem withGain_mono (G : Matrix n m 𝕜) {P P' : Matrix n n 𝕜} (h : (P' - P).PosSemidef) : (withGain A Q C R G P' - withGain A Q C R G P).PosSemidef := by
  rw [withGain_split G P, withGain_split G P', add_sub_add_right_eq_sub]
  exact conj_mono _ h

/-- Any gain exceeds Kalman's by the square of the difference. -/
theorem withGain_sub (hQ : Q.PosSemidef) (hR : R.PosDef) (G : Matrix n m 𝕜) {P : Matrix n n 𝕜} (hP : P.PosSemidef) :
    withGain A Q C R G P - riccati A Q C R P =
      (G - kalmanGain A Q C R P) * (C * (A * P * Aᴴ + Q) * Cᴴ + R) * (G - kalmanGain A Q C R P)ᴴ := by
  have hM := moved_psd (A := A) hQ hP
  have hS := measured_pd (A := A) (C := C) hQ hR hP
  have hu := measured_unit (A := A) (C := C) hQ hR hP
  unfold withGain riccati kalmanGain
  set M := A * P * Aᴴ + Q
  set S := C * M * Cᴴ + R with hSd
  have hK : Sᴴ * (M * Cᴴ * S⁻¹)ᴴ = (M * Cᴴ)ᴴ := by
    rw [conjTranspose_mul (M * Cᴴ), conjTranspose_nonsing_inv, hS.1.eq, ← Matrix.mul_assoc, mul_nonsing_inv _ hu, Matrix.one_mul]
  have h := (gain_facts (P := M) (Pxy := M * Cᴴ) hS.1 hK).2.2.2 G
  rw [hSd, joseph hM.1 C R G, ← hSd, conjTranspose_conjTranspose] at h
  rw [← h]
  congr 2
  rw [conjTranspose_mul (M * Cᴴ), conjTranspose_nonsing_inv, hS.1.eq, conjTranspose_mul, conjTranspose_conjTranspose, hM.1.eq, ← Matrix.mul_assoc (M * Cᴴ)]

theorem riccati_eq (hQ : Q.PosSemidef) (hR : R.PosDef) {P : Matrix n n 𝕜} (hP : P.PosSemidef) :
    riccati A Q C R P = withGain A Q C R (kalmanGain A Q C R P) P := by
  have := withGain_sub (A := A) (C := C) hQ hR (kalmanGain A Q C R P) hP
  rw [sub_self, Matrix.zero_mul, Matrix.zero_mul] at this
  exact (sub_eq_zero.1 this).symm

theorem riccati_le (hQ : Q.PosSemidef) (hR : R.PosDef) (G : Matrix n m 𝕜) {P : Matrix n n 𝕜} (hP : P.PosSemidef) :
    (withGain A Q C R G P - riccati A Q C R P).PosSemidef := by
  rw [withGain_sub hQ hR G hP]
  exact (measured_pd hQ hR hP).posSemidef.mul_mul_conjTranspose_same _

theorem riccati_psd (hQ : Q.PosSemidef) (hR : R.PosDef) {P : Matrix n n 𝕜} (hP : P.PosSemidef) : (riccati A Q C R P).PosSemidef := by
  rw [riccati_eq hQ hR hP]
  exact withGain_psd hQ hR _ hP

theorem riccati_mono (hQ : Q.PosSemidef) (hR : R.PosDef) {P P' : Matrix n n 𝕜} (hP : P.PosSemidef) (h : (P' - P).PosSemidef) :
    (riccati A Q C R P' - riccati A Q C R P).PosSemidef := by
  rw [riccati_eq hQ hR (psd_of_le hP h)]
  exact le_trans' (riccati_le hQ hR _ hP) (withGain_mono _ h)

/-- The covariance after `t` steps. -/
noncomputable def iter (A Q : Matrix n n 𝕜) (C : Matrix m n 𝕜) (R : Matrix m m 𝕜) (P : Matrix n n 𝕜) (t : ℕ) : Matrix n n 𝕜 := (riccati A Q C R)^[t] P

theorem iter_succ (P : Matrix n n 𝕜) (t : ℕ) : iter A Q C R P (t + 1) = riccati A Q C R (iter A Q C R P t) := Function.iterate_succ_apply' _ _ _

theorem iter_psd (hQ : Q.PosSemidef) (hR : R.PosDef) {P : Matrix n n 𝕜} (hP : P.PosSemidef) (t : ℕ) : (iter A Q C R P t).PosSemidef := by
  induction t with
  | zero => exact hP
  | succ t ih => rw [iter_succ]; exact riccati_psd hQ hR ih

theorem iter_mono (hQ : Q.PosSemidef) (hR : R.PosDef) {P P' : Matrix n n 𝕜} (hP : P.PosSemidef) (h : (P' - P).PosSemidef) (t : ℕ) :
    (iter A Q C R P' t - iter A Q C R P t).PosSemidef := by
  induction t with
  | zero => exact h
  | succ t ih => rw [iter_succ, iter_succ]; exact riccati_mono hQ hR (iter_psd hQ hR hP t) ih

theorem iter_bounded (hQ : Q.PosSemidef) (hR : R.PosDef) {P B : Matrix n n 𝕜} {L : Matrix n m 𝕜} (hP : P.PosSemidef) (h : (B - P).PosSemidef)
    (hB : (B - withGain A Q C R L B).PosSemidef) (t : ℕ) : (B - iter A Q C R P t).PosSemidef := by
  induction t with
  | zero => exact h
  | succ t ih =>
    rw [iter_succ]
    exact le_trans' (riccati_le hQ hR L (iter_psd hQ hR hP t)) (le_trans' (withGain_mono L ih) hB)

/-- If errors die out under `F`, every matrix is below one that `F` and some addition do not make greater. -/
theorem exists_bound {F : Matrix n n 𝕜} (hF : DiesOut F) {W P : Matrix n n 𝕜} (hW : W.PosSemidef) (hP : P.PosSemidef) :
    ∃ B : Matrix n n 𝕜, (B - P).PosSemidef ∧ (B - (F * B * Fᴴ + W)).PosSemidef := by
  have hs : Tendsto (fun t => F ^ t * (F ^ t)ᴴ) atTop (𝓝 0) := by
    have h1 : Tendsto (fun t => (F ^ t)ᴴ) atTop (𝓝 (0 : Matrix n n 𝕜)ᴴ) := (continuous_id.matrix_conjTranspose.tendsto _).comp hF
    have h2 : Continuous fun X : Matrix n n 𝕜 × Matrix n n 𝕜 => X.1 * X.2 := continuous_fst.matrix_mul continuous_snd
    have h3 := (h2.tendsto ((0 : Matrix n n 𝕜), (0 : Matrix n n 𝕜)ᴴ)).comp (hF.prodMk_nhds h1)
    simpa [Function.comp_def] using h3
  obtain ⟨N, hN, hN1⟩ : ∃ N, RCLike.re (F ^ N * (F ^ N)ᴴ).trace * Fintype.card n ≤ 1 / 2 ∧ 1 ≤ N := by
    have h1 : Tendsto (fun t => RCLike.re (F ^ t * (F ^ t)ᴴ).trace * Fintype.card n) atTop (𝓝 0) := by
      simpa using (tendsto_trace hs).mul_const (Fintype.card n : ℝ)
    exact (((h1.eventually (gt_mem_nhds (show (0 : ℝ) < 1 / 2 by norm_num))).and (eventually_ge_atTop 1)).exists).imp fun N h => ⟨h.1.le, h.2⟩
  have hN' := le_scalar (posSemidef_self_mul_conjTranspose (F ^ N)) hN
  set S : Matrix n n 𝕜 := ∑ r ∈ Finset.range N, F ^ r * (F ^ r)ᴴ with hSd
  have hS : (S - 1).PosSemidef := by
    obtain ⟨k, rfl⟩ := Nat.exists_eq_add_of_le' hN1
    rw [hSd, Finset.sum_range_succ', pow_zero, conjTranspose_one, Matrix.mul_one, add_sub_cancel_right]
    exact posSemidef_sum _ fun r _ => posSemidef_self_mul_conjTranspose _
  have hstep : F * S * Fᴴ + 1 = S + F ^ N * (F ^ N)ᴴ := by
    have e1 : F * S * Fᴴ = ∑ r ∈ Finset.range N, F ^ (r + 1) * (F ^ (r + 1))ᴴ := by
      rw [hSd, Finset.mul_sum, Finset.sum_mul]
      refine Finset.sum_congr rfl fun r _ => ?_
      rw [pow_succ', conjTranspose_mul]
      simp only [Matrix.mul_assoc]
    rw [e1, hSd, ← Finset.sum_range_succ, Finset.sum_range_succ']
    simp
  obtain ⟨w, hw⟩ : ∃ w, w = RCLike.re W.trace * Fintype.card n + RCLike.re P.trace * Fintype.card n := ⟨_, rfl⟩
  have hw1 : 0 ≤ RCLike.re W.trace * Fintype.card n := mul_nonneg (re_trace_nonneg hW) (Nat.cast_nonneg _)
  have hw2 : 0 ≤ RCLike.re P.trace * Fintype.card n := mul_nonneg (re_trace_nonneg hP) (Nat.cast_nonneg _)
  have hw0 : 0 ≤ w := by rw [hw]; exact add_nonneg hw1 hw2
  have hWw := le_scalar hW (c := w) (by linarith)
  have hPw := le_scalar hP (c := w) (by linarith)
  refine ⟨((2 * w : ℝ) : 𝕜) • S, ?_, ?_⟩
  · have e : ((2 * w : ℝ) : 𝕜) • S - P = ((2 * w : ℝ) : 𝕜) • (S - 1) + (((w : 𝕜) • (1 : Matrix n n 𝕜) - P) + (w : 𝕜) • (1 : Matrix n n 𝕜)) := by
      rw [smul_sub, RCLike.ofReal_mul, RCLike.ofReal_ofNat, two_mul, add_smul, add_smul]
      abel
    rw [e]
    exact (smul_psd hS (by linarith)).add (hPw.add (smul_psd PosSemidef.one hw0))
  · have e : ((2 * w : ℝ) : 𝕜) • S - (F * (((2 * w : ℝ) : 𝕜) • S) * Fᴴ + W) =
        ((2 * w : ℝ) : 𝕜) • (((1 / 2 : ℝ) : 𝕜) • (1 : Matrix n n 𝕜) - F ^ N * (F ^ N)ᴴ) + ((w : 𝕜) • (1 : Matrix n n 𝕜) - W) := by
      have h1 : F * S * Fᴴ = S + F ^ N * (F ^ N)ᴴ - 1 := eq_sub_of_add_eq hstep
      have h2 : ((2 * w : ℝ) : 𝕜) • ((1 / 2 : ℝ) : 𝕜) • (1 : Matrix n n 𝕜) = (w : 𝕜) • 1 := by
        rw [smul_smul, ← RCLike.ofReal_mul]
        congr 2
        ring
      have h3 : ((2 * w : ℝ) : 𝕜) • (1 : Matrix n n 𝕜) = (w : 𝕜) • 1 + (w : 𝕜) • 1 := by
        rw [RCLike.ofReal_mul, RCLike.ofReal_ofNat, two_mul, add_smul]
      rw [Matrix.mul_smul, Matrix.smul_mul, h1, smul_sub, smul_sub, smul_add, h2, h3]
      abel
    rw [e]
    exact (smul_psd hN' (by linarith)).add hWw

/-- A detectable system has a bound for the covariances from any start. -/
theorem detectable_bound (hQ : Q.PosSemidef) (hR : R.PosDef) (hD : Detectable A C) {P : Matrix n n 𝕜} (hP : P.PosSemidef) :
    ∃ B : Matrix n n 𝕜, (B - P).PosSemidef ∧ ∀ P', P'.PosSemidef → (B - P').PosSemidef → ∀ t, (B - iter A Q C R P' t).PosSemidef := by
  obtain ⟨L, hL⟩ := hD
  obtain ⟨B, h1, h2⟩ := exists_bound hL (withGain_psd (A := A) (C := C) hQ hR L PosSemidef.zero) hP
  rw [← withGain_split] at h2
  exact ⟨B, h1, fun P' hP' h t => iter_bounded hQ hR hP' h h2 t⟩

theorem riccati_continuous (hQ : Q.PosSemidef) (hR : R.PosDef) {X : Matrix n n 𝕜} (hX : X.PosSemidef) :
    ContinuousAt (riccati A Q C R) X ∧ ContinuousAt (kalmanGain A Q C R) X := by
  have hM : Continuous fun P : Matrix n n 𝕜 => A * P * Aᴴ + Q :=
    ((continuous_const.matrix_mul continuous_id).matrix_mul continuous_const).add continuous_const
  have hS : Continuous fun P : Matrix n n 𝕜 => C * (A * P * Aᴴ + Q) * Cᴴ + R :=
    ((continuous_const.matrix_mul hM).matrix_mul continuous_const).add continuous_const
  have hi : ContinuousAt (fun P : Matrix n n 𝕜 => (C * (A * P * Aᴴ + Q) * Cᴴ + R)⁻¹) X := by
    refine ContinuousAt.comp (g := fun S : Matrix m m 𝕜 => S⁻¹) (f := fun P : Matrix n n 𝕜 => C * (A * P * Aᴴ + Q) * Cᴴ + R) ?_ hS.continuousAt
    refine continuousAt_matrix_inv _ ?_
    obtain ⟨u, hu⟩ := measured_unit (A := A) (C := C) hQ hR hX
    rw [← hu]
    exact NormedRing.inverse_continuousAt u
  have hmul : ∀ {p q r : Type} [Fintype p] [Fintype q] [Fintype r] (f : Matrix n n 𝕜 → Matrix p q 𝕜) (g : Matrix n n 𝕜 → Matrix q r 𝕜), ContinuousAt f X →
      ContinuousAt g X → ContinuousAt (fun P => f P * g P) X := by
    intro p q r _ _ _ f g hf hg
    have h2 : Continuous fun Y : Matrix p q 𝕜 × Matrix q r 𝕜 => Y.1 * Y.2 := continuous_fst.matrix_mul continuous_snd
    exact ContinuousAt.comp (g := fun Y : Matrix p q 𝕜 × Matrix q r 𝕜 => Y.1 * Y.2) (f := fun P => (f P, g P)) h2.continuousAt (hf.prodMk hg)
  have hK : ContinuousAt (kalmanGain A Q C R) X :=
    hmul (fun P => (A * P * Aᴴ + Q) * Cᴴ) (fun P => (C * (A * P * Aᴴ + Q) * Cᴴ + R)⁻¹) (hM.matrix_mul continuous_const).continuousAt hi
  exact ⟨hM.continuousAt.sub (hmul (kalmanGain A Q C R) (fun P => C * (A * P * Aᴴ + Q)) hK (continuous_const.matrix_mul hM).continuousAt), hK⟩

/-- From zero the covariances increase to the least fixed point. -/
theorem least (hQ : Q.PosSemidef) (hR : R.PosDef) (hD : Detectable A C) :
    ∃ X : Matrix n n 𝕜, X.PosSemidef ∧ riccati A Q C R X = X ∧ Tendsto (iter A Q C R 0) atTop (𝓝 X) ∧ (∀ t, (iter A Q C R 0 (t + 1) - iter A Q C R 0 t).PosSemidef) ∧
      ∀ Y : Matrix n n 𝕜, Y.PosSemidef → riccati A Q C R Y = Y → (Y - X).PosSemidef := by
  obtain ⟨B, hB, hb⟩ := detectable_bound hQ hR hD (P := 0) PosSemidef.zero
  have hinc : ∀ t, (iter A Q C R 0 (t + 1) - iter A Q C R 0 t).PosSemidef := by
    intro t
    induction t with
    | zero =>
      rw [iter_succ, show iter A Q C R 0 0 = 0 from rfl, sub_zero]
      exact riccati_psd hQ hR PosSemidef.zero
    | succ t ih =>
      rw [iter_succ _ (t + 1), iter_succ _ t]
      rw [iter_succ] at ih
      have := riccati_mono (A := A) (C := C) hQ hR (iter_psd hQ hR PosSemidef.zero t) ih
      exact this
  obtain ⟨X, hX⟩ := monotone_limit hinc (hb 0 PosSemidef.zero hB)
  have hXp := psd_limit hX (iter_psd hQ hR PosSemidef.zero)
  refine ⟨X, hXp, ?_, hX, hinc, ?_⟩
  · have h1 := (riccati_continuous (A := A) (C := C) hQ hR hXp).1.tendsto.comp hX
    have h2 := (tendsto_add_atTop_iff_nat 1).2 hX
    refine tendsto_nhds_unique h1 (h2.congr fun t => ?_)
    exact iter_succ _ t
  · intro Y hY hf
    have h1 : ∀ t, iter A Q C R Y t = Y := by
      intro t
      induction t with
      | zero => rfl
      | succ t ih => rw [iter_succ, ih, hf]
    refine psd_limit (tendsto_const_nhds.sub hX) fun t => ?_
    have := iter_mono (A := A) (C := C) hQ hR PosSemidef.zero (by rw [sub_zero]; exact hY) t
    rwa [h1] at this

/-- What one step adds is at least what a start without error leads to. -/
theorem step_adds (hQ : Q.PosSemidef) (hR : R.PosDef) (G : Matrix n m 𝕜) (P : Matrix n n 𝕜) :
    (withGain A Q C R G P - ((1 - G * C) * A * P * ((1 - G * C) * A)ᴴ + riccati A Q C R 0)).PosSemidef := by
  rw [withGain_split, add_sub_add_left_eq_sub]
  exact riccati_le hQ hR G PosSemidef.zero

theorem floor_posDef (hQ : Q.PosDef) (hR : R.PosDef) : (riccati A Q C R 0).PosDef := by
  rw [riccati_eq hQ.posSemidef hR PosSemidef.zero]
  set G := kalmanGain A Q C R 0
  unfold withGain
  rw [Matrix.mul_zero, Matrix.zero_mul, zero_add]
  have h1 := hQ.posSemidef.mul_mul_conjTranspose_same (1 - G * C)
  have h2 := hR.posSemidef.mul_mul_conjTranspose_same G
  refine .of_dotProduct_mulVec_pos (h1.add h2).1 fun x hx => ?_
  rw [add_mulVec, dotProduct_add]
  have q1 : ∀ {p : Type} [Fintype p] (E : Matrix n p 𝕜) (V : Matrix p p 𝕜), star x ⬝ᵥ (E * V * Eᴴ) *ᵥ x = star (Eᴴ *ᵥ x) ⬝ᵥ V *ᵥ (Eᴴ *ᵥ x) := by
    intro p _ E V
    rw [star_mulVec, conjTranspose_conjTranspose, ← mulVec_mulVec, ← mulVec_mulVec, dotProduct_mulVec _ E]
  by_cases hz : Gᴴ *ᵥ x = 0
  · have : (1 - G * C)ᴴ *ᵥ x = x := by
      rw [conjTranspose_sub, conjTranspose_one, conjTranspose_mul, sub_mulVec, one_mulVec, ← mulVec_mulVec, hz, mulVec_zero, sub_zero]
    rw [q1, this]
    exact add_pos_of_pos_of_nonneg (hQ.dotProduct_mulVec_pos hx) (h2.dotProduct_mulVec_nonneg x)
  · rw [q1 G]
    exact add_pos_of_nonneg_of_pos (h1.dotProduct_mulVec_nonneg x) (hR.dotProduct_mulVec_pos hz)

/-- The product of the matrices of the first `t` steps. -/
def prod (F : ℕ → Matrix n n 𝕜) : ℕ → Matrix n n 𝕜
  | 0 => 1
  | t + 1 => F t * prod F t

/-- If every step adds at least `U` to what the matrix of the step makes of the covariance, and the covariances are bounded, the products of the matrices die out. -/
theorem contract {P F : ℕ → Matrix n n 𝕜} {U B : Matrix n n 𝕜} (hU : U.PosDef) (h0 : (P 0).PosDef) (hB : ∀ t, (B - P t).PosSemidef)
    (hs : ∀ t, (P (t + 1) - (F t * P t * (F t)ᴴ + U)).PosSemidef) : Tendsto (prod F) atTop (𝓝 0) := by
  obtain ⟨c, hc, hcU⟩ := le_multiple hU (psd_of_le h0.posSemidef (hB 0))
  obtain ⟨k, hk, hk1⟩ := one_le h0
  have hc0 : (0 : ℝ) < c := by linarith
  obtain ⟨ρ, hρ⟩ : ∃ ρ : ℝ, ρ = 1 - 1 / c := ⟨_, rfl⟩
  have hρ0 : 0 ≤ ρ := by
    rw [hρ, sub_nonneg, div_le_one hc0]
    exact hc
  have hρ1 : ρ < 1 := by
    rw [hρ]
    linarith [one_div_pos.2 hc0]
  have step : ∀ t, ((ρ : 𝕜) • P (t + 1) - F t * P t * (F t)ᴴ).PosSemidef := by
    intro t
    have h1 := smul_psd (le_trans' (hB (t + 1)) hcU) (one_div_pos.2 hc0).le
    have e : (ρ : 𝕜) • P (t + 1) - F t * P t * (F t)ᴴ = (P (t + 1) - (F t * P t * (F t)ᴴ + U)) + ((1 / c : ℝ) : 𝕜) • ((c : 𝕜) • U - P (t + 1)) := by
      have hcc : ((1 / c : ℝ) : 𝕜) * (c : 𝕜) = 1 := by
        rw [← RCLike.ofReal_mul, one_div_mul_cancel hc0.ne', RCLike.ofReal_one]
      rw [hρ, smul_sub, smul_smul, hcc, one_smul, RCLike.ofReal_sub, RCLike.ofReal_one, sub_smul, one_smul]
      abel
    rw [e]
    exact (hs t).add h1
  have hprod : ∀ t, (((ρ ^ t : ℝ) : 𝕜) • P t - prod F t * P 0 * (prod F t)ᴴ).PosSemidef := by
    intro t
    induction t with
    | zero =>
      rw [pow_zero, RCLike.ofReal_one, one_smul, prod, Matrix.one_mul, conjTranspose_one, Matrix.mul_one, sub_self]
      exact PosSemidef.zero
    | succ t ih =>
      have h1 := conj_mono (F t) ih
      have h2 := smul_psd (step t) (pow_nonneg hρ0 t)
      have e : ((ρ ^ (t + 1) : ℝ) : 𝕜) • P (t + 1) - prod F (t + 1) * P 0 * (prod F (t + 1))ᴴ =
          ((ρ ^ t : ℝ) : 𝕜) • ((ρ : 𝕜) • P (t + 1) - F t * P t * (F t)ᴴ) + (F t * (((ρ ^ t : ℝ) : 𝕜) • P t) * (F t)ᴴ - F t * (prod F t * P 0 * (prod F t)ᴴ) * (F t)ᴴ) := by
        rw [smul_sub, smul_smul, ← RCLike.ofReal_mul, ← pow_succ, Matrix.mul_smul, Matrix.smul_mul, prod, conjTranspose_mul]
        simp only [Matrix.mul_assoc]
        abel
      rw [e]
      exact h2.add h1
  refine square_root_limit (squeeze (Y := fun t => ((k * ρ ^ t : ℝ) : 𝕜) • B) (fun t => posSemidef_self_mul_conjTranspose _) (fun t => ?_) ?_)
  · have h1 := conj_mono (prod F t) hk1
    have h2 := smul_psd (hprod t) hk
    have h3 := smul_psd (hB t) (mul_nonneg hk (pow_nonneg hρ0 t))
    have e : ((k * ρ ^ t : ℝ) : 𝕜) • B - prod F t * (prod F t)ᴴ =
        ((k * ρ ^ t : ℝ) : 𝕜) • (B - P t) + ((k : 𝕜) • (((ρ ^ t : ℝ) : 𝕜) • P t - prod F t * P 0 * (prod F t)ᴴ) +
          (prod F t * ((k : 𝕜) • P 0) * (prod F t)ᴴ - prod F t * 1 * (prod F t)ᴴ)) := by
      rw [smul_sub, smul_sub, smul_smul, ← RCLike.ofReal_mul, Matrix.mul_one, Matrix.mul_smul, Matrix.smul_mul]
      abel
    rw [e]
    exact h3.add (h2.add h1)
  · have h1 : Tendsto (fun t : ℕ => ((k * ρ ^ t : ℝ) : 𝕜)) atTop (𝓝 0) := by
      have := (tendsto_pow_atTop_nhds_zero_of_lt_one hρ0 hρ1).const_mul k
      rw [mul_zero] at this
      have := (RCLike.continuous_ofReal (K := 𝕜)).tendsto 0 |>.comp this
      simpa [Function.comp_def] using this
    simpa using h1.smul_const B

theorem prod_const (F : Matrix n n 𝕜) (t : ℕ) : prod (fun _ => F) t = F ^ t := by
  induction t with
  | zero => rw [prod, pow_zero]
  | succ t ih => rw [prod, ih, pow_succ']

/-- Errors die out under the gain that belongs to a fixed point. -/
theorem steady_dies_out (hQ : Q.PosDef) (hR : R.PosDef) {X : Matrix n n 𝕜} (hX : X.PosSemidef) (hf : riccati A Q C R X = X) :
    X.PosDef ∧ DiesOut ((1 - kalmanGain A Q C R X * C) * A) := by
  have h1 : (X - riccati A Q C R 0).PosSemidef := by
    have := riccati_mono (A := A) (C := C) hQ.posSemidef hR PosSemidef.zero (by rw [sub_zero]; exact hX)
    rwa [hf] at this
  have hXd := posDef_of_le (floor_posDef hQ hR) h1
  refine ⟨hXd, ?_⟩
  have h2 := contract (P := fun _ => X) (F := fun _ => (1 - kalmanGain A Q C R X * C) * A) (B := X) (floor_posDef (A := A) (C := C) hQ hR) hXd
    (fun t => by rw [sub_self]; exact PosSemidef.zero) (fun t => by
      have := step_adds (A := A) (C := C) hQ.posSemidef hR (kalmanGain A Q C R X) X
      rwa [← riccati_eq hQ.posSemidef hR hX, hf] at this)
  exact h2.congr fun t => prod_const _ t

/-- From every start the covariances tend to the fixed point. -/
theorem attracts (hQ : Q.PosDef) (hR : R.PosDef) {X : Matrix n n 𝕜} (hX : X.PosSemidef) (hf : riccati A Q C R X = X)
    (h0 : Tendsto (iter A Q C R 0) atTop (𝓝 X)) {P : Matrix n n 𝕜} (hP : P.PosSemidef) : Tendsto (iter A Q C R P) atTop (𝓝 X) := by
  set K := kalmanGain A Q C R X
  set F := (1 - K * C) * A with hFd
  have hF : DiesOut F := (steady_dies_out hQ hR hX hf).2
  have hup : ∀ t, (X + F ^ t * (P - X) * (F ^ t)ᴴ - iter A Q C R P t).PosSemidef := by
    intro t
    induction t with
    | zero =>
      rw [pow_zero, Matrix.one_mul, conjTranspose_one, Matrix.mul_one, add_sub_cancel, show iter A Q C R P 0 = P from rfl, sub_self]
      exact PosSemidef.zero
    | succ t ih =>
      rw [iter_succ]
      have h1 := le_trans' (riccati_le (A := A) (C := C) hQ.posSemidef hR K (iter_psd hQ.posSemidef hR hP t)) (withGain_mono K ih)
      have h2 : withGain A Q C R K (X + F ^ t * (P - X) * (F ^ t)ᴴ) = X + F ^ (t + 1) * (P - X) * (F ^ (t + 1))ᴴ := by
        have h3 : F * X * Fᴴ + withGain A Q C R K 0 = X := by
          rw [hFd, ← withGain_split, ← riccati_eq hQ.posSemidef hR hX, hf]
        have h4 : F * (F ^ t * (P - X) * (F ^ t)ᴴ) * Fᴴ = F ^ (t + 1) * (P - X) * (F ^ (t + 1))ᴴ := by
          rw [pow_succ', conjTranspose_mul F]
          simp only [Matrix.mul_assoc]
        rw [withGain_split, ← hFd, Matrix.mul_add, Matrix.add_mul, add_right_comm, h3, h4]
      rwa [h2] at h1
  have hlim : Tendsto (fun t => X + F ^ t * (P - X) * (F ^ t)ᴴ - iter A Q C R 0 t) atTop (𝓝 0) := by
    have h1 : Continuous fun Y : Matrix n n 𝕜 => X + Y * (P - X) * Yᴴ :=
      continuous_const.add ((continuous_id.matrix_mul continuous_const).matrix_mul continuous_id.matrix_conjTranspose)
    have h2 := ((h1.tendsto 0).comp hF).sub h0
    simpa [Function.comp_def] using h2
  have hd : Tendsto (fun t => iter A Q C R P t - iter A Q C R 0 t) atTop (𝓝 0) := by
    refine squeeze (fun t => iter_mono hQ.posSemidef hR PosSemidef.zero (by rw [sub_zero]; exact hP) t) (fun t => ?_) hlim
    rw [sub_sub_sub_cancel_right]
    exact hup t
  have := hd.add h0
  simpa using this

end riccati

/-! ## The filter -/

section filter
variable (lib : Lib 𝕜) {n m : ℕ} (F : LinTrans 𝕜 n n) (H : LinTrans 𝕜 n m) (q : List (GaussChol 𝕜 (Fin n))) (r : List (GaussChol 𝕜 (Fin m)))

theorem noiseTotal_psd {n p : ℕ} (g : LinTrans 𝕜 n p) (ns : List (GaussChol 𝕜 (Fin p))) : (noiseTotal g (ns.map GaussChol.toGauss)).PosSemidef := by
  rw [noiseTotal_eq]
  exact noiseCov_posSemidef _ (mem_noiseTerms (P := fun d => d.cov.PosSemidef) (toGauss_mem_hermitian ns))

/-- One call of the filter: the gain of Kalman, the covariance of Riccati. -/
theorem cycle_eq (hR : (noiseTotal H (r.map GaussChol.toGauss)).PosDef) {P : Matrix (Fin n) (Fin n) 𝕜} (hP : P.PosSemidef) (z : Fin m → 𝕜) (mu : Fin n → 𝕜) :
    cycle lib F H (q.map GaussChol.toGauss) (r.map GaussChol.toGauss) z ⟨mu, P⟩ =
      ⟨(F.A *ᵥ mu + noiseMean F (q.map GaussChol.toGauss)) +
          kalmanGain F.A (noiseTotal F (q.map GaussChol.toGauss)) H.A (noiseTotal H (r.map GaussChol.toGauss)) P *ᵥ
            (z - (H.A *ᵥ (F.A *ᵥ mu + noiseMean F (q.map GaussChol.toGauss)) + noiseMean H (r.map GaussChol.toGauss))),
        riccati F.A (noiseTotal F (q.map GaussChol.toGauss)) H.A (noiseTotal H (r.map GaussChol.toGauss)) P⟩ := by
  have hQ := noiseTotal_psd F q
  have hn : ∀ d ∈ q.map GaussChol.toGauss, d.cov.IsHermitian := fun d hd => (toGauss_mem_hermitian q d hd).1
  have hn' : ∀ d ∈ r.map GaussChol.toGauss, d.cov.IsHermitian := fun d hd => (toGauss_mem_hermitian r d hd).1
  have hM := moved_psd (A := F.A) hQ hP
  have hS := measured_pd (A := F.A) (C := H.A) hQ hR hP
  have hu := measured_unit (A := F.A) (C := H.A) hQ hR hP
  unfold cycle
  simp only []
  rw [(C53_moments lib F ⟨mu, P⟩ _ hP.1 hn).1, (C53_moments lib H _ _ hM.1 hn').2, (C53_moments lib H _ _ hM.1 hn').1]
  refine (updateStep_eq lib id id _ _ _ z hS.1 hu).trans ?_
  refine Gauss.ext rfl ?_
  show _ = riccati _ _ _ _ P
  unfold riccati
  simp only [conjTranspose_mul, conjTranspose_conjTranspose, hM.1.eq]

end filter

end OpenKalman.Steady
