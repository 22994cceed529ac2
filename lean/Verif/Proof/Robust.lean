import Verif.Theorems.LinSys

/-!
# Lemmas for filters that are told too much noise, and for two filters side by side
-/

set_option linter.unusedSectionVars false

namespace OpenKalman.Kalman
open Matrix
open scoped ComplexOrder

variable {𝕜 : Type} [RCLike 𝕜] (lib : Lib 𝕜)

/-- The covariance of the error of any gain. -/
theorem joseph {n m : Type} [Fintype n] [DecidableEq n] [Fintype m] [DecidableEq m] {C : Matrix n n 𝕜} (hC : C.IsHermitian) (H : Matrix m n 𝕜) (R : Matrix m m 𝕜)
    (G : Matrix n m 𝕜) : errorCov C (C * Hᴴ) (H * C * Hᴴ + R) G = (1 - G * H) * C * (1 - G * H)ᴴ + G * R * Gᴴ := by
  rw [errorCov_eq]
  simp only [conjTranspose_sub, conjTranspose_one, conjTranspose_mul, conjTranspose_conjTranspose, hC.eq, Matrix.sub_mul, Matrix.mul_sub, Matrix.one_mul, Matrix.mul_one,
    Matrix.mul_add, Matrix.add_mul, Matrix.mul_assoc]
  abel

/-- An update has a gain that depends on neither the mean nor the measurement, and it is the best one. -/
theorem update_gain {n m : ℕ} (H : LinTrans 𝕜 n m) (ns : List (GaussChol 𝕜 (Fin m))) (hR : (noiseTotal H (ns.map GaussChol.toGauss)).PosDef)
    {C : Matrix (Fin n) (Fin n) 𝕜} (hC : C.PosSemidef) :
    ∃ K : Matrix (Fin n) (Fin m) 𝕜,
      (∀ z mu, update lib H (ns.map GaussChol.toGauss) z ⟨mu, C⟩ = ⟨mu + K *ᵥ (z - H.apply mu ((ns.map GaussChol.toGauss).map Gauss.mean)),
        (1 - K * H.A) * C * (1 - K * H.A)ᴴ + K * noiseTotal H (ns.map GaussChol.toGauss) * Kᴴ⟩) ∧
      ∀ G : Matrix (Fin n) (Fin m) 𝕜, (((1 - G * H.A) * C * (1 - G * H.A)ᴴ + G * noiseTotal H (ns.map GaussChol.toGauss) * Gᴴ) -
        ((1 - K * H.A) * C * (1 - K * H.A)ᴴ + K * noiseTotal H (ns.map GaussChol.toGauss) * Kᴴ)).PosSemidef := by
  have hn := toGauss_mem_hermitian ns
  have hu : IsUnit (measCov H (ns.map GaussChol.toGauss) C).det := by
    rw [noiseTotal_eq] at hR
    exact measCov_unit hC H.A hR
  have key : ∀ z mu, (update lib H (ns.map GaussChol.toGauss) z ⟨mu, C⟩).cov =
        (1 - (C * H.Aᴴ * (measCov H (ns.map GaussChol.toGauss) C)⁻¹) * H.A) * C * (1 - (C * H.Aᴴ * (measCov H (ns.map GaussChol.toGauss) C)⁻¹) * H.A)ᴴ +
          (C * H.Aᴴ * (measCov H (ns.map GaussChol.toGauss) C)⁻¹) * noiseTotal H (ns.map GaussChol.toGauss) * (C * H.Aᴴ * (measCov H (ns.map GaussChol.toGauss) C)⁻¹)ᴴ ∧
      ∀ G : Matrix (Fin n) (Fin m) 𝕜, (((1 - G * H.A) * C * (1 - G * H.A)ᴴ + G * noiseTotal H (ns.map GaussChol.toGauss) * Gᴴ) -
        (update lib H (ns.map GaussChol.toGauss) z ⟨mu, C⟩).cov).PosSemidef := by
    intro z mu
    have hj := update_joint lib H (ns.map GaussChol.toGauss) ⟨mu, C⟩ hC hn
    have hyc : (linearTransform lib H ⟨mu, C⟩ (ns.map GaussChol.toGauss)).cov = H.A * C * H.Aᴴ + noiseTotal H (ns.map GaussChol.toGauss) := by
      rw [linearTransform_eq lib H _ _ hC.1 fun d hd => (hn d hd).1, noiseTotal_eq]
    have hunit := update_unit lib H (ns.map GaussChol.toGauss) ⟨mu, C⟩ hC hn hR
    have hK := solve_ok lib (C * H.Aᴴ) hunit
    obtain ⟨o1, o2, -⟩ := C48_optimal lib id id ⟨mu, C⟩ _ _ z hj hK
    rw [← update_step_form lib H _ z ⟨mu, C⟩ hC hn, hyc] at o1 o2
    have hmc : measCov H (ns.map GaussChol.toGauss) C = H.A * C * H.Aᴴ + noiseTotal H (ns.map GaussChol.toGauss) := by rw [measCov, noiseTotal_eq]
    have hH : (H.A * C * H.Aᴴ + noiseTotal H (ns.map GaussChol.toGauss)).IsHermitian := (isHermitian_conj hC.1 H.A).add hR.1
    have hKe : (lib.solve (H.A * C * H.Aᴴ + noiseTotal H (ns.map GaussChol.toGauss))ᴴ (C * H.Aᴴ)ᴴ)ᴴ = C * H.Aᴴ * (measCov H (ns.map GaussChol.toGauss) C)⁻¹ := by
      have hu' := hu
      rw [hmc] at hu'
      have : lib.solve (H.A * C * H.Aᴴ + noiseTotal H (ns.map GaussChol.toGauss))ᴴ (C * H.Aᴴ)ᴴ = (H.A * C * H.Aᴴ + noiseTotal H (ns.map GaussChol.toGauss))⁻¹ * (C * H.Aᴴ)ᴴ := by
        refine solve_unique (A := H.A * C * H.Aᴴ + noiseTotal H (ns.map GaussChol.toGauss)) hu' ?_ ?_ (B := (C * H.Aᴴ)ᴴ)
        · have := solve_ok lib (C * H.Aᴴ) hu'
          rwa [hH.eq] at this ⊢
        · rw [← Matrix.mul_assoc, mul_nonsing_inv _ hu', Matrix.one_mul]
      rw [this, conjTranspose_mul, conjTranspose_conjTranspose, conjTranspose_nonsing_inv, hH.eq, hmc]
    rw [hKe] at o1
    refine ⟨?_, fun G => ?_⟩
    · rw [o1, joseph hC.1]
    · have := o2 G
      rwa [joseph hC.1] at this
  refine ⟨C * H.Aᴴ * (measCov H (ns.map GaussChol.toGauss) C)⁻¹, fun z mu => ?_, fun G => ?_⟩
  · refine Gauss.ext ?_ (key z mu).1
    rw [update_eq lib H _ z ⟨mu, C⟩ hC.1 (fun d hd => (hn d hd).1) hu]
  · rw [← (key 0 0).1]
    exact (key 0 0).2 G

/-- Each call acts on the mean as an affine map and on the covariance with the same matrix; only what it adds is different. -/
theorem op_form {n k : ℕ} (op : Op 𝕜 n k) (hv : op.Valid) {C : Matrix (Fin n) (Fin n) 𝕜} (hC : C.PosSemidef) :
    ∃ (Φ : Matrix (Fin k) (Fin n) 𝕜) (b : Fin k → 𝕜) (N : Matrix (Fin k) (Fin k) 𝕜), N.PosSemidef ∧ ∀ mu, op.run lib ⟨mu, C⟩ = ⟨Φ *ᵥ mu + b, Φ * C * Φᴴ + N⟩ := by
  cases op with
  | predict F ns =>
    have hn := toGauss_mem_hermitian ns
    refine ⟨F.A, F.apply 0 ((ns.map GaussChol.toGauss).map Gauss.mean), noiseCov (noiseTerms F (ns.map GaussChol.toGauss)), noiseCov_posSemidef _ (mem_noiseTerms (P := fun d => d.cov.PosSemidef) hn), fun mu => ?_⟩
    show linearTransform lib F ⟨mu, C⟩ (ns.map GaussChol.toGauss) = _
    rw [linearTransform_eq lib F _ _ hC.1 fun d hd => (hn d hd).1, apply_eq, apply_eq, Matrix.mulVec_zero, zero_add]
  | update m H ns z =>
    obtain ⟨K, h1, -⟩ := update_gain lib H ns hv hC
    refine ⟨1 - K * H.A, K *ᵥ (z - H.apply 0 ((ns.map GaussChol.toGauss).map Gauss.mean)), K * noiseTotal H (ns.map GaussChol.toGauss) * Kᴴ,
      hv.posSemidef.mul_mul_conjTranspose_same _, fun mu => ?_⟩
    show update lib H (ns.map GaussChol.toGauss) z ⟨mu, C⟩ = _
    rw [h1]
    congr 1
    rw [apply_eq, apply_eq, Matrix.sub_mulVec, Matrix.one_mulVec, ← Matrix.mulVec_mulVec, Matrix.mulVec_zero, zero_add, ← sub_sub, Matrix.mulVec_sub, Matrix.mulVec_sub,
      Matrix.mulVec_sub]
    abel

theorem hist_form {n k : ℕ} (h : Hist 𝕜 n k) (hv : h.Valid) : ∀ {C : Matrix (Fin n) (Fin n) 𝕜}, C.PosSemidef →
    ∃ (Φ : Matrix (Fin k) (Fin n) 𝕜) (b : Fin k → 𝕜) (N : Matrix (Fin k) (Fin k) 𝕜), N.PosSemidef ∧ ∀ mu, h.run lib ⟨mu, C⟩ = ⟨Φ *ᵥ mu + b, Φ * C * Φᴴ + N⟩ := by
  induction h with
  | nil => exact fun {C} hC => ⟨1, 0, 0, PosSemidef.zero, fun mu => by simp [Hist.run]⟩
  | cons op h ih =>
    intro C hC
    obtain ⟨Φ, b, N, hN, e⟩ := op_form lib op hv.1 hC
    obtain ⟨Ψ, c, M, hM, e'⟩ := ih hv.2 ((hC.mul_mul_conjTranspose_same Φ).add hN)
    refine ⟨Ψ * Φ, Ψ *ᵥ b + c, Ψ * N * Ψᴴ + M, (hN.mul_mul_conjTranspose_same Ψ).add hM, fun mu => ?_⟩
    show h.run lib (op.run lib ⟨mu, C⟩) = _
    rw [e, e']
    refine Gauss.ext ?_ ?_
    · show Ψ *ᵥ (Φ *ᵥ mu + b) + c = (Ψ * Φ) *ᵥ mu + (Ψ *ᵥ b + c)
      rw [Matrix.mulVec_add, Matrix.mulVec_mulVec, add_assoc]
    · show Ψ * (Φ * C * Φᴴ + N) * Ψᴴ + M = Ψ * Φ * C * (Ψ * Φ)ᴴ + (Ψ * N * Ψᴴ + M)
      simp only [conjTranspose_mul, Matrix.mul_add, Matrix.add_mul, Matrix.mul_assoc, add_assoc]

/-! ## Two histories -/

/-- `op'` is given at least as much noise as `op`; the matrices are the same, the measured values need not be. -/
inductive Op.Below : {n k : ℕ} → Op 𝕜 n k → Op 𝕜 n k → Prop
  | predict {n k : ℕ} (F : LinTrans 𝕜 n k) (ns ns' : List (GaussChol 𝕜 (Fin k))) :
      (noiseTotal F (ns'.map GaussChol.toGauss) - noiseTotal F (ns.map GaussChol.toGauss)).PosSemidef → Op.Below (.predict F ns) (.predict F ns')
  | update {n m : ℕ} (H : LinTrans 𝕜 n m) (ns ns' : List (GaussChol 𝕜 (Fin m))) (z z' : Fin m → 𝕜) :
      (noiseTotal H (ns'.map GaussChol.toGauss) - noiseTotal H (ns.map GaussChol.toGauss)).PosSemidef → Op.Below (.update m H ns z) (.update m H ns' z')

/-- `h'` is given at least as much noise as `h` in each call, and perhaps has fewer measurements. -/
inductive Hist.Below : {n k : ℕ} → Hist 𝕜 n k → Hist 𝕜 n k → Prop
  | nil {n : ℕ} : Hist.Below (.nil : Hist 𝕜 n n) .nil
  | both {n k l : ℕ} {op op' : Op 𝕜 n k} {h h' : Hist 𝕜 k l} : op.Below op' → h.Below h' → Hist.Below (.cons op h) (.cons op' h')
  | extra {n m k : ℕ} (H : LinTrans 𝕜 n m) (ns : List (GaussChol 𝕜 (Fin m))) (z : Fin m → 𝕜) {h h' : Hist 𝕜 n k} : h.Below h' → Hist.Below (.cons (.update m H ns z) h) h'

theorem le_trans' {n : Type} [Fintype n] {A B C : Matrix n n 𝕜} (h1 : (B - A).PosSemidef) (h2 : (C - B).PosSemidef) : (C - A).PosSemidef := by
  have := h2.add h1
  rwa [sub_add_sub_cancel] at this

theorem psd_of_le {n : Type} [Fintype n] {A B : Matrix n n 𝕜} (h1 : A.PosSemidef) (h2 : (B - A).PosSemidef) : B.PosSemidef := by
  have := h2.add h1
  rwa [sub_add_cancel] at this

theorem op_below {n k : ℕ} {op op' : Op 𝕜 n k} (hb : op.Below op') (hv : op.Valid) (hv' : op'.Valid) {x x' : Gauss 𝕜 (Fin n)} (hx : x.cov.PosSemidef)
    (hle : (x'.cov - x.cov).PosSemidef) : ((op'.run lib x').cov - (op.run lib x).cov).PosSemidef := by
  have hx' := psd_of_le hx hle
  obtain ⟨mu, C⟩ := x
  obtain ⟨mu', C'⟩ := x'
  cases hb with
  | predict F ns ns' hN =>
    show ((linearTransform lib F ⟨mu', C'⟩ (ns'.map GaussChol.toGauss)).cov - (linearTransform lib F ⟨mu, C⟩ (ns.map GaussChol.toGauss)).cov).PosSemidef
    rw [linearTransform_eq lib F _ _ hx'.1 fun d hd => (toGauss_mem_hermitian ns' d hd).1, linearTransform_eq lib F _ _ hx.1 fun d hd => (toGauss_mem_hermitian ns d hd).1,
      ← noiseTotal_eq, ← noiseTotal_eq]
    have := (hle.mul_mul_conjTranspose_same F.A).add hN
    convert this using 1
    simp only [Matrix.mul_sub, Matrix.sub_mul]
    abel
  | update H ns ns' z z' hN =>
    obtain ⟨K, h1, h2⟩ := update_gain lib H ns hv hx
    obtain ⟨K', h1', -⟩ := update_gain lib H ns' hv' hx'
    show ((update lib H (ns'.map GaussChol.toGauss) z' ⟨mu', C'⟩).cov - (update lib H (ns.map GaussChol.toGauss) z ⟨mu, C⟩).cov).PosSemidef
    rw [h1, h1']
    refine le_trans' (h2 K') ?_
    have := (hle.mul_mul_conjTranspose_same (1 - K' * H.A)).add (hN.mul_mul_conjTranspose_same K')
    convert this using 1
    simp only [Matrix.mul_sub, Matrix.sub_mul]
    abel

end OpenKalman.Kalman

namespace OpenKalman.LinSys
open MeasureTheory ProbabilityTheory Matrix OpenKalman.Kalman

variable {Ω : Type} [MeasurableSpace Ω] {P : Measure Ω} [IsProbabilityMeasure P] {n k l m : ℕ}

/-- The invariant of a filter whose reported covariance is only a bound. -/
structure Bound (P : Measure Ω) (x m : Ω → Fin n → ℝ) (C : Matrix (Fin n) (Fin n) ℝ) : Prop where
  es : Square P fun ω => x ω - m ω
  mean : meanVec P (fun ω => x ω - m ω) = 0
  cov : (C - covMat P (fun ω => x ω - m ω) (fun ω => x ω - m ω)).PosSemidef

theorem Bound.psd {x m : Ω → Fin n → ℝ} {C : Matrix (Fin n) (Fin n) ℝ} (h : Bound P x m C) : C.PosSemidef := psd_of_le (covMat_posSemidef h.es) h.cov

/-- What the filter is told is at least what there is. -/
theorem told_bound {ns : List (Noise Ω k)} (h : ∀ v ∈ ns, Square P v.value) (hp : ns.Pairwise fun v w => covMat P v.value w.value = 0)
    (hf : ∀ v ∈ ns, (v.factor * v.factorᵀ - covMat P v.value v.value).PosSemidef) (A : Matrix (Fin k) (Fin n) ℝ) :
    (noiseTotal ⟨A, ns.map Noise.gain⟩ ((ns.map (told P)).map GaussChol.toGauss) - covMat P (noiseSum ns) (noiseSum ns)).PosSemidef ∧
    noiseTotal ⟨A, ns.map Noise.gain⟩ ((ns.map (told P)).map GaussChol.toGauss) = (ns.map fun v => v.gain * (v.factor * v.factorᵀ) * v.gainᵀ).sum ∧
    (((ns.map (told P)).map GaussChol.toGauss).zipIdx.map fun v => (ns.map Noise.gain).getD v.2 1 *ᵥ v.1.mean).sum = meanVec P (noiseSum ns) := by
  have e : noiseTotal ⟨A, ns.map Noise.gain⟩ ((ns.map (told P)).map GaussChol.toGauss) = (ns.map fun v => v.gain * (v.factor * v.factorᵀ) * v.gainᵀ).sum := by
    rw [List.map_map]
    unfold noiseTotal
    refine (congrArg List.sum (zipIdx_getD ns _ Noise.gain 1 fun B (d : Gauss ℝ (Fin k)) => B * d.cov * Bᴴ)).trans ?_
    congr 1
  refine ⟨?_, e, ?_⟩
  · rw [e, covMat_noiseSum h hp]
    clear e hp h
    induction ns with
    | nil => simpa using PosSemidef.zero
    | cons v ns ih =>
      have h1 := ((hf v List.mem_cons_self).mul_mul_conjTranspose_same v.gain).add (ih fun w hw => hf w (List.mem_cons_of_mem _ hw))
      convert h1 using 1
      rw [List.map_cons, List.map_cons, List.sum_cons, List.sum_cons, conjTranspose_eq_transpose_of_trivial, Matrix.mul_sub, Matrix.sub_mul]
      abel
  · rw [List.map_map]
    refine (congrArg List.sum (zipIdx_getD ns _ Noise.gain 1 fun B (d : Gauss ℝ (Fin k)) => B *ᵥ d.mean)).trans ?_
    rw [meanVec_noiseSum h]
    rfl

/-- The error after a step: a matrix applied to the error before, and a matrix applied to the centred noise. -/
theorem Bound.step {x m : Ω → Fin n → ℝ} {C : Matrix (Fin n) (Fin n) ℝ} (h : Bound P x m C) {v : Ω → Fin k → ℝ} (hvs : Square P v)
    (hev : covMat P (fun ω => x ω - m ω) v = 0) (Φ : Matrix (Fin l) (Fin n) ℝ) (G : Matrix (Fin l) (Fin k) ℝ) {R : Matrix (Fin k) (Fin k) ℝ}
    (hR : (R - covMat P v v).PosSemidef) {x' m' : Ω → Fin l → ℝ} (he : ∀ ω, x' ω - m' ω = Φ *ᵥ (x ω - m ω) + G *ᵥ (v ω - meanVec P v)) :
    Bound P x' m' (Φ * C * Φᵀ + G * R * Gᵀ) ∧ ∀ {q : ℕ} {w : Ω → Fin q → ℝ}, Square P w → covMat P (fun ω => x ω - m ω) w = 0 → covMat P v w = 0 →
      covMat P (fun ω => x' ω - m' ω) w = 0 := by
  have e : (fun ω => x' ω - m' ω) = fun ω => Φ *ᵥ (x ω - m ω) + G *ᵥ (v ω - meanVec P v) := funext he
  have hes := h.es
  have hc : Square P fun ω => v ω - meanVec P v := hvs.sub (Square.const _)
  have h1 : Square P fun ω => Φ *ᵥ (x ω - m ω) := hes.mulVec Φ
  have h2 : Square P fun ω => G *ᵥ (v ω - meanVec P v) := hc.mulVec G
  have cl : ∀ {l : ℕ} {Y : Ω → Fin l → ℝ}, Square P Y → covMat P (fun ω => v ω - meanVec P v) Y = covMat P v Y := by
    intro l Y hY
    rw [covMat_sub_left hvs (Square.const _) hY, covMat_const_left, sub_zero]
  have cr : ∀ {l : ℕ} {Y : Ω → Fin l → ℝ}, Square P Y → covMat P Y (fun ω => v ω - meanVec P v) = covMat P Y v := by
    intro l Y hY
    rw [covMat_sub_right hvs (Square.const _) hY, covMat_const_right, sub_zero]
  have hve : covMat P v (fun ω => x ω - m ω) = 0 := by rw [covMat_swap, hev, transpose_zero]
  refine ⟨⟨by rw [e]; exact h1.add h2, ?_, ?_⟩, ?_⟩
  · rw [e, meanVec_add h1 h2, meanVec_mulVec hes, h.mean, meanVec_mulVec hc, meanVec_sub hvs (Square.const _), meanVec_const]
    simp
  · have hcov : covMat P (fun ω => x' ω - m' ω) (fun ω => x' ω - m' ω) =
        Φ * covMat P (fun ω => x ω - m ω) (fun ω => x ω - m ω) * Φᵀ + G * covMat P v v * Gᵀ := by
      rw [e, covMat_add_left h1 h2 (h1.add h2), covMat_add_right h1 h2 h1, covMat_add_right h1 h2 h2, covMat_mulVec_left hes h1, covMat_mulVec_right hes hes,
        covMat_mulVec_left hes h2, covMat_mulVec_right hc hes, cr hes, hev, covMat_mulVec_left hc h1, cl h1, covMat_mulVec_right hes hvs, hve,
        covMat_mulVec_left hc h2, covMat_mulVec_right hc hc, cl hc, cr hvs]
      simp [Matrix.mul_assoc]
    rw [hcov]
    have := (h.cov.mul_mul_conjTranspose_same Φ).add (hR.mul_mul_conjTranspose_same G)
    convert this using 1
    rw [conjTranspose_eq_transpose_of_trivial, conjTranspose_eq_transpose_of_trivial]
    simp only [Matrix.mul_sub, Matrix.sub_mul]
    abel
  · intro q w hw hew hvw
    rw [e, covMat_add_left h1 h2 hw, covMat_mulVec_left hes hw, hew, covMat_mulVec_left hc hw, cl hw, hvw]
    simp

theorem filter_bound (lib : Lib ℝ) {n l : ℕ} (s : System Ω n l) : ∀ {x m : Ω → Fin n → ℝ} {C : Matrix (Fin n) (Fin n) ℝ}, Bound P x m C → s.Covered P →
    (∀ w ∈ s.noises, Square P w.2) → (∀ w ∈ s.noises, covMat P (fun ω => x ω - m ω) w.2 = 0) → s.noises.Pairwise (Uncorrelated P) →
    ∃ m' C', (∀ ω, (s.hist P x ω).run lib ⟨m ω, C⟩ = ⟨m' ω, C'⟩ ∧ (s.hist P x ω).Valid) ∧ Bound P (s.final x) m' C' := by
  induction s with
  | done => exact fun {x m C} h _ _ _ _ => ⟨m, C, fun ω => ⟨rfl, trivial⟩, h⟩
  | @move n k l A ns s ih =>
    intro x m C h hs hq hf hp
    obtain ⟨hs1, hs2⟩ := hs
    obtain ⟨hp1, hp2, hp3⟩ := List.pairwise_append.1 hp
    have hin : ∀ v ∈ ns, (⟨k, v.value⟩ : AnyVec Ω) ∈ (System.move A ns s).noises := fun v hv => List.mem_append_left _ (List.mem_map_of_mem hv)
    have hsq : ∀ v ∈ ns, Square P v.value := fun v hv => hq _ (hin v hv)
    have hpw : ns.Pairwise fun v w => covMat P v.value w.value = 0 := List.pairwise_map.1 hp1
    obtain ⟨t1, -, t3⟩ := told_bound hsq hpw hs1 A
    have hev : covMat P (fun ω => x ω - m ω) (noiseSum ns) = 0 := by
      rw [covMat_swap, covMat_noiseSum_left hsq h.es fun v hv => by rw [covMat_swap, hf _ (hin v hv), transpose_zero], transpose_zero]
    obtain ⟨hb, hk⟩ := h.step (square_noiseSum hsq) hev A (1 : Matrix (Fin k) (Fin k) ℝ) t1 (x' := moved A ns x) (m' := fun ω => A *ᵥ m ω + meanVec P (noiseSum ns)) (by
      intro ω
      rw [Matrix.one_mulVec, Matrix.mulVec_sub]
      show A *ᵥ x ω + noiseSum ns ω - _ = _
      abel)
    obtain ⟨m', C', e, hb'⟩ := ih hb hs2 (fun w hw => hq w (List.mem_append_right _ hw)) (fun w hw => hk (hq w (List.mem_append_right _ hw))
      (hf w (List.mem_append_right _ hw)) (covMat_noiseSum_left hsq (hq w (List.mem_append_right _ hw)) fun v hv => hp3 ⟨k, v.value⟩ (List.mem_map_of_mem hv) w hw)) hp2
    refine ⟨m', C', fun ω => ⟨?_, trivial, (e ω).2⟩, hb'⟩
    rw [← (e ω).1]
    show (s.hist P (moved A ns x) ω).run lib (linearTransform lib ⟨A, ns.map Noise.gain⟩ ⟨m ω, C⟩ ((ns.map (told P)).map GaussChol.toGauss)) = _
    rw [linearTransform_eq lib _ _ _ h.psd.1 fun d hd => (toGauss_mem_hermitian _ d hd).1, ← noiseTotal_eq, apply_eq, Matrix.one_mul, transpose_one, Matrix.mul_one]
    congr 2
    · show A *ᵥ m ω + _ = _
      rw [List.zipIdx_map, List.map_map, ← t3]
      congr 1
  | @measure n l k H ns s ih =>
    intro x m C h hs hq hf hp
    obtain ⟨hs1, hR, hs2⟩ := hs
    obtain ⟨hp1, hp2, hp3⟩ := List.pairwise_append.1 hp
    have hin : ∀ v ∈ ns, (⟨k, v.value⟩ : AnyVec Ω) ∈ (System.measure k H ns s).noises := fun v hv => List.mem_append_left _ (List.mem_map_of_mem hv)
    have hsq : ∀ v ∈ ns, Square P v.value := fun v hv => hq _ (hin v hv)
    have hpw : ns.Pairwise fun v w => covMat P v.value w.value = 0 := List.pairwise_map.1 hp1
    obtain ⟨t1, t2, t3⟩ := told_bound hsq hpw hs1 H
    have hev : covMat P (fun ω => x ω - m ω) (noiseSum ns) = 0 := by
      rw [covMat_swap, covMat_noiseSum_left hsq h.es fun v hv => by rw [covMat_swap, hf _ (hin v hv), transpose_zero], transpose_zero]
    rw [← t2] at hR
    obtain ⟨K, u1, -⟩ := update_gain lib ⟨H, ns.map Noise.gain⟩ (ns.map (told P)) hR h.psd
    have happ : ∀ ω, LinTrans.apply (⟨H, ns.map Noise.gain⟩ : LinTrans ℝ n k) (m ω) (((ns.map (told P)).map GaussChol.toGauss).map Gauss.mean) =
        H *ᵥ m ω + meanVec P (noiseSum ns) := by
      intro ω
      rw [apply_eq, ← t3]
      show H *ᵥ m ω + _ = _
      rw [List.zipIdx_map, List.map_map]
      congr 1
    obtain ⟨hb, hk⟩ := h.step (square_noiseSum hsq) hev (1 - K * H) (-K) t1 (x' := x)
      (m' := fun ω => m ω + K *ᵥ (moved H ns x ω - (H *ᵥ m ω + meanVec P (noiseSum ns)))) (by
      intro ω
      show x ω - (m ω + K *ᵥ (H *ᵥ x ω + noiseSum ns ω - _)) = _
      simp only [Matrix.sub_mulVec, Matrix.one_mulVec, ← Matrix.mulVec_mulVec, Matrix.mulVec_sub, Matrix.mulVec_add, Matrix.neg_mulVec]
      abel)
    obtain ⟨m', C', e, hb'⟩ := ih hb hs2 (fun w hw => hq w (List.mem_append_right _ hw)) (fun w hw => hk (hq w (List.mem_append_right _ hw))
      (hf w (List.mem_append_right _ hw)) (covMat_noiseSum_left hsq (hq w (List.mem_append_right _ hw)) fun v hv => hp3 ⟨k, v.value⟩ (List.mem_map_of_mem hv) w hw)) hp2
    refine ⟨m', C', fun ω => ⟨?_, hR, (e ω).2⟩, hb'⟩
    rw [← (e ω).1]
    show (s.hist P x ω).run lib (Kalman.update lib ⟨H, ns.map Noise.gain⟩ ((ns.map (told P)).map GaussChol.toGauss) (moved H ns x ω) ⟨m ω, C⟩) = _
    rw [u1, happ]
    congr 2
    simp [conjTranspose_eq_transpose_of_trivial]

end OpenKalman.LinSys
