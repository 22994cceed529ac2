import Verif.Proof.Gaussian
import Mathlib.MeasureTheory.Integral.Pi
import Mathlib.MeasureTheory.Measure.Lebesgue.Basic
import Mathlib.MeasureTheory.Measure.Haar.InnerProductSpace

/-!
# Lemmas: the density of a Gaussian random vector
-/

set_option linter.unusedSectionVars false

namespace OpenKalman.Gaussian
open MeasureTheory ProbabilityTheory Matrix OpenKalman.CovArith

variable {Ω : Type*} [MeasurableSpace Ω] {μ : Measure Ω} [IsProbabilityMeasure μ] {n : ℕ}

theorem pi_std_density : Measure.pi (fun _ : Fin n => gaussianReal 0 1) =
    (volume : Measure (Fin n → ℝ)).withDensity fun x => ENNReal.ofReal (∏ i, gaussianPDFReal 0 1 (x i)) := by
  refine Measure.pi_eq fun s hs => ?_
  rw [withDensity_apply _ (MeasurableSet.univ_pi hs), volume_pi, Measure.restrict_pi_pi, ← ofReal_integral_eq_lintegral_ofReal]
  · rw [integral_fintype_prod_eq_prod, ENNReal.ofReal_prod_of_nonneg]
    · refine Finset.prod_congr rfl fun i _ => ?_
      rw [gaussianReal_apply_eq_integral _ one_ne_zero]
    · intro i _
      exact integral_nonneg fun x => gaussianPDFReal_nonneg _ _ _
  · exact Integrable.fintype_prod fun i => (integrable_gaussianPDFReal 0 1).restrict
  · exact Filter.Eventually.of_forall fun x => Finset.prod_nonneg fun i _ => gaussianPDFReal_nonneg _ _ _

theorem withDensity_map {α β : Type*} [MeasurableSpace α] [MeasurableSpace β] (ν : Measure α) {e : α → β} (he : Measurable e) {g : β → ENNReal} (hg : Measurable g) :
    (ν.withDensity (g ∘ e)).map e = (ν.map e).withDensity g := by
  ext s hs
  rw [Measure.map_apply he hs, withDensity_apply _ (he hs), withDensity_apply _ hs, setLIntegral_map hs hg he]
  rfl

theorem measurable_density (a : Fin n → ℝ) (P : Matrix (Fin n) (Fin n) ℝ) : Measurable (density a P) := by
  have : Continuous (density a P) := by
    unfold density
    fun_prop
  exact this.measurable

theorem density_pos {a : Fin n → ℝ} {P : Matrix (Fin n) (Fin n) ℝ} (hP : P.PosDef) (x : Fin n → ℝ) : 0 < density a P x := by
  have := hP.det_pos
  unfold density
  positivity

theorem density_change (a : Fin n → ℝ) {A : Matrix (Fin n) (Fin n) ℝ} (hA : A.det ≠ 0) (x : Fin n → ℝ) :
    density a (A * Aᵀ) (a + A *ᵥ x) * |A.det| = ∏ i, gaussianPDFReal 0 1 (x i) := by
  have hu : IsUnit A.det := isUnit_iff_ne_zero.mpr hA
  have hu' : IsUnit Aᵀ.det := by rwa [det_transpose]
  have hq : (A *ᵥ x) ⬝ᵥ ((A * Aᵀ)⁻¹ *ᵥ (A *ᵥ x)) = ∑ i, x i ^ 2 := by
    rw [Matrix.mul_inv_rev, mulVec_mulVec, Matrix.mul_assoc, nonsing_inv_mul _ hu, Matrix.mul_one, ← vecMul_transpose, ← dotProduct_mulVec, mulVec_mulVec, mul_nonsing_inv _ hu', one_mulVec]
    simp [dotProduct, sq]
  unfold density
  rw [add_sub_cancel_left, neg_dotProduct, hq, det_mul, det_transpose, Real.sqrt_mul (by positivity), Real.sqrt_mul_self_eq_abs]
  have hd : |A.det| ≠ 0 := abs_ne_zero.mpr hA
  have h1 : ∏ i, gaussianPDFReal 0 1 (x i) = ((Real.sqrt (2 * Real.pi)) ^ n)⁻¹ * Real.exp (-(∑ i, x i ^ 2) / 2) := by
    unfold gaussianPDFReal
    rw [Finset.prod_mul_distrib, ← Real.exp_sum]
    have : (√(2 * Real.pi * ((1 : NNReal) : ℝ)))⁻¹ = (√(2 * Real.pi))⁻¹ := by simp
    simp only [this, Finset.prod_const, Finset.card_univ, Fintype.card_fin, inv_pow]
    simp [Finset.sum_div, neg_div]
  rw [h1, mul_inv]
  have h2 : Real.sqrt ((2 * Real.pi) ^ n) = Real.sqrt (2 * Real.pi) ^ n := by
    rw [Real.sqrt_eq_iff_mul_self_eq (by positivity) (by positivity), ← mul_pow, Real.mul_self_sqrt (by positivity)]
  rw [h2]
  field_simp

theorem exists_factor {P : Matrix (Fin n) (Fin n) ℝ} (hP : P.PosDef) : ∃ A : Matrix (Fin n) (Fin n) ℝ, A * Aᵀ = P := by
  have h : CovArith.gram false ((someLib : Lib ℝ).chol false P) = P := (someLib_ok.chol P false hP).2.1
  refine ⟨(someLib : Lib ℝ).chol false P, ?_⟩
  rw [← conjTranspose_eq_transpose_of_trivial]
  exact h

/-- `density` is the density of a Gaussian random vector. -/
theorem law_density {X : Ω → Vec n} {a : Fin n → ℝ} {P : Matrix (Fin n) (Fin n) ℝ} (h : Law μ X a P) (hP : P.PosDef) :
    μ.map X = volume.withDensity fun x : Vec n => ENNReal.ofReal (density a P x.ofLp) := by
  obtain ⟨A, rfl⟩ := exists_factor hP
  have hA : A.det ≠ 0 := by
    have := hP.det_pos
    rw [det_mul, det_transpose] at this
    exact fun h0 => by simp [h0] at this
  have l0 : Law (stdGaussian (Vec n)) (fun x => x) 0 1 := ⟨aemeasurable_id, PosSemidef.one, by rw [Measure.map_id']; exact multivariateGaussian_zero_one.symm⟩
  have l1 := law_shift (law_act l0 A) a
  have e1 : a + A *ᵥ 0 = a := by simp
  rw [e1, Matrix.mul_one] at l1
  rw [h.map, ← l1.map, ← map_pi_eq_stdGaussian]
  set T : (Fin n → ℝ) → Fin n → ℝ := fun x => a + A *ᵥ x with hT
  have mT : Measurable T := by
    have : Continuous T := by rw [hT]; fun_prop
    exact this.measurable
  have mS : Measurable (WithLp.toLp 2 : (Fin n → ℝ) → Vec n) := by fun_prop
  have m1 : Measurable (fun x : Vec n => WithLp.toLp 2 a + act A x) := (measurable_act A).const_add _
  rw [Measure.map_map m1 mS]
  have e2 : (fun x : Vec n => WithLp.toLp 2 a + act A x) ∘ WithLp.toLp 2 = WithLp.toLp 2 ∘ T := by
    funext x; rfl
  rw [e2, ← Measure.map_map mS mT]
  have md : Measurable fun x => ENNReal.ofReal (density a (A * Aᵀ) x) := (measurable_density a (A * Aᵀ)).ennreal_ofReal
  have e3 : (Measure.pi fun _ : Fin n => gaussianReal 0 1).map T = volume.withDensity fun x => ENNReal.ofReal (density a (A * Aᵀ) x) := by
    have hd : 0 < |A.det| := abs_pos.mpr hA
    have hv : (volume : Measure (Fin n → ℝ)).map T = ENNReal.ofReal |A.det|⁻¹ • volume := by
      have hh : T = (fun x => a + x) ∘ (toLin' A) := by funext x; rfl
      have mL : Measurable (toLin' A : (Fin n → ℝ) → Fin n → ℝ) := (toLin' A).continuous_of_finiteDimensional.measurable
      rw [hh, ← Measure.map_map (by fun_prop) mL, Real.map_matrix_volume_pi_eq_smul_volume_pi hA, Measure.map_smul, map_add_left_eq_self, abs_inv]
    rw [pi_std_density]
    have hc : (fun x : Fin n → ℝ => ENNReal.ofReal (∏ i, gaussianPDFReal 0 1 (x i))) = (fun y => ENNReal.ofReal |A.det| * ENNReal.ofReal (density a (A * Aᵀ) y)) ∘ T := by
      funext x
      rw [← density_change a hA x, mul_comm, ENNReal.ofReal_mul hd.le]
      rfl
    rw [hc, withDensity_map _ mT (md.const_mul _), hv, withDensity_smul_measure]
    have : (fun y => ENNReal.ofReal |A.det| * ENNReal.ofReal (density a (A * Aᵀ) y)) = ENNReal.ofReal |A.det| • fun y => ENNReal.ofReal (density a (A * Aᵀ) y) := rfl
    rw [this, withDensity_smul _ md, smul_smul, ← ENNReal.ofReal_mul (by positivity), inv_mul_cancel₀ hd.ne', ENNReal.ofReal_one, one_smul]
  rw [e3]
  have mO : Measurable (WithLp.ofLp : Vec n → Fin n → ℝ) := by fun_prop
  have e4 : (fun x => ENNReal.ofReal (density a (A * Aᵀ) x)) = (fun x : Vec n => ENNReal.ofReal (density a (A * Aᵀ) x.ofLp)) ∘ (WithLp.toLp 2 : (Fin n → ℝ) → Vec n) := by
    funext x; rfl
  have m2 : Measurable (fun x : Vec n => ENNReal.ofReal (density a (A * Aᵀ) x.ofLp)) := md.comp mO
  rw [e4, withDensity_map _ mS m2, (PiLp.volume_preserving_toLp (Fin n)).map_eq]

/-- `E (x - a)ᵀ P⁻¹ (x - a) = n`. -/
theorem integral_quad {a : Fin n → ℝ} {P : Matrix (Fin n) (Fin n) ℝ} (hP : P.PosDef) :
    Integrable (fun x : Vec n => (x.ofLp - a) ⬝ᵥ (P⁻¹ *ᵥ (x.ofLp - a))) (multivariateGaussian (WithLp.toLp 2 a) P) ∧
      ∫ x : Vec n, (x.ofLp - a) ⬝ᵥ (P⁻¹ *ᵥ (x.ofLp - a)) ∂(multivariateGaussian (WithLp.toLp 2 a) P) = n := by
  set ν := multivariateGaussian (WithLp.toLp 2 a) P with hν
  have hm : ∀ i, ∫ x : Vec n, x.ofLp i ∂ν = a i := by
    intro i
    have := ContinuousLinearMap.integral_comp_comm (EuclideanSpace.proj i : Vec n →L[ℝ] ℝ) (IsGaussian.integrable_fun_id (μ := ν))
    simp only [hν, integral_id_multivariateGaussian] at this
    exact this
  have hl : ∀ i, MemLp (fun x : Vec n => x.ofLp i) 2 ν := by
    intro i
    exact (IsGaussian.memLp_two_id (μ := ν)).continuousLinearMap_comp (EuclideanSpace.proj i : Vec n →L[ℝ] ℝ)
  have hl' : ∀ i, MemLp (fun x : Vec n => x.ofLp i - a i) 2 ν := fun i => (hl i).sub (memLp_const _)
  have hi : ∀ i j, Integrable (fun x : Vec n => (x.ofLp i - a i) * (P⁻¹ i j * (x.ofLp j - a j))) ν := fun i j =>
    ((hl' i).integrable_mul (hl' j)).const_mul (P⁻¹ i j) |>.congr (Filter.Eventually.of_forall fun x => by simp only [Pi.mul_apply]; ring)
  have hc : ∀ i j, ∫ x : Vec n, (x.ofLp i - a i) * (P⁻¹ i j * (x.ofLp j - a j)) ∂ν = P⁻¹ i j * P i j := by
    intro i j
    have := covariance_eval_multivariateGaussian (μ := WithLp.toLp 2 a) hP.posSemidef i j
    rw [covariance, ← hν, hm, hm] at this
    rw [← this, ← integral_const_mul]
    congr 1; funext x; ring
  have e : (fun x : Vec n => (x.ofLp - a) ⬝ᵥ (P⁻¹ *ᵥ (x.ofLp - a))) = fun x => ∑ i, ∑ j, (x.ofLp i - a i) * (P⁻¹ i j * (x.ofLp j - a j)) := by
    funext x
    simp [dotProduct, mulVec, Finset.mul_sum]
  rw [e]
  refine ⟨integrable_finsetSum _ fun i _ => integrable_finsetSum _ fun j _ => hi i j, ?_⟩
  rw [integral_finsetSum _ fun i _ => integrable_finsetSum _ fun j _ => hi i j]
  have : ∀ i, ∫ x : Vec n, ∑ j, (x.ofLp i - a i) * (P⁻¹ i j * (x.ofLp j - a j)) ∂ν = (P⁻¹ * P) i i := by
    intro i
    rw [integral_finsetSum _ fun j _ => hi i j, Matrix.mul_apply]
    refine Finset.sum_congr rfl fun j _ => ?_
    rw [hc]
    congr 1
    have := hP.isHermitian.apply j i
    simpa using this
  simp_rw [this]
  rw [nonsing_inv_mul _ (isUnit_iff_ne_zero.mpr hP.det_pos.ne')]
  simp

theorem covDet_eq {c : Cov ℝ n} (hr : c.root = false) (hf : c.form ≠ .cdiag) {P : Mat ℝ n} (hP : c.Represents P) : covDet c = P.det := by
  obtain ⟨r, f, N, z, i⟩ := c
  obtain rfl : r = false := hr
  cases f with
  | herm up => rw [show P = N from hP]; rfl
  | diag => rw [show P = N from hP]; rfl
  | cdiag => exact absurd rfl hf
  | tri up =>
    have hP : P = CovArith.gram up N := hP
    have e : covDet ⟨false, .tri up, N, z, i⟩ = N.det * N.det := rfl
    rw [e, hP]
    cases up
    · show _ = (N * Nᴴ).det
      rw [det_mul, det_conjTranspose, star_trivial]
    · show _ = (Nᴴ * N).det
      rw [det_mul, det_conjTranspose, star_trivial]

theorem log_density {a : Fin n → ℝ} {P : Matrix (Fin n) (Fin n) ℝ} (hP : P.PosDef) (x : Fin n → ℝ) :
    Real.log (density a P x) = -(1 / 2) * (n * Real.log (2 * Real.pi) + Real.log P.det + (x - a) ⬝ᵥ (P⁻¹ *ᵥ (x - a))) := by
  have hd := hP.det_pos
  unfold density
  rw [Real.log_mul (by positivity) (Real.exp_pos _).ne', Real.log_inv, Real.log_exp, Real.log_sqrt (by positivity), Real.log_mul (by positivity) hd.ne', Real.log_pow, neg_dotProduct]
  ring

end OpenKalman.Gaussian
