import Verif.Proof.Evidence

/-!
# C163: the log-likelihoods of the predicted measurements add up to that of all measurements

`System.readings` (`Spec/Evidence.lean`) are all the numbers measured, as one random vector; `System.calls` (`Proof/Evidence.lean`) are the calls of the filter for given numbers,
and `Hist.evidence` (`Model/Evidence.lean`) adds up the log-likelihood of each measurement under the distribution that the filter predicts for it.
-/

namespace OpenKalman.LinSys
open MeasureTheory ProbabilityTheory Matrix OpenKalman.Kalman OpenKalman.Gaussian

variable {Ω : Type} [MeasurableSpace Ω] {P : Measure Ω} [IsProbabilityMeasure P] {n l : ℕ}

/-- A vector of affine functions of jointly Gaussian variables has the Gaussian law with its moments. -/
theorem law_of_affine {B : Set (Ω → ℝ)} (hG : IsGaussianProcess (fun f : B => f.1) P) (hms : ∀ f ∈ B, Measurable f) {k : ℕ} {X : Ω → Fin k → ℝ}
    (hX : ∀ i, (fun ω => X ω i) ∈ affine B) : Law P (fun ω => (WithLp.toLp 2 (X ω) : Vec k)) (meanVec P X) (covMat P X X) := by
  have hA := gaussian_affine hG
  have hmeas : ∀ g ∈ affine B, Measurable g := fun g hg => affine_measurable hms hg
  have hsq : Square P X := fun i => (hA.hasGaussianLaw_eval ⟨_, hX i⟩).memLp_two
  have hm : Measurable fun ω => (WithLp.toLp 2 (X ω) : Vec k) :=
    (PiLp.continuous_toLp 2 fun _ : Fin k => ℝ).measurable.comp (measurable_pi_lambda _ fun i => hmeas _ (hX i))
  refine (law_iff hm.aemeasurable (covMat_posSemidef hsq)).2 fun t => ?_
  let A : Matrix (Fin 1) (Fin k) ℝ := Matrix.of fun _ j => t.ofLp j
  have hmem : (fun ω => t.ofLp ⬝ᵥ X ω) ∈ affine B := mulVec_mem hX A 0
  have e1 : charFun (P.map fun ω => (WithLp.toLp 2 (X ω) : Vec k)) t = charFun (P.map fun ω => t.ofLp ⬝ᵥ X ω) 1 := by
    rw [charFun_apply, charFun_apply, integral_map hm.aemeasurable (by fun_prop), integral_map (hmeas _ hmem).aemeasurable (by fun_prop)]
    congr 1
    funext ω
    congr 2
    simp [PiLp.inner_apply, dotProduct, mul_comm]
  have v0 := (hA.hasGaussianLaw_eval ⟨_, hmem⟩).map_eq_gaussianReal
  have e2 : ∫ ω, t.ofLp ⬝ᵥ X ω ∂P = t.ofLp ⬝ᵥ meanVec P X := congrFun (meanVec_mulVec hsq A) 0
  have e3 : Var[fun ω => t.ofLp ⬝ᵥ X ω; P] = t.ofLp ⬝ᵥ (covMat P X X *ᵥ t.ofLp) := by
    rw [← covariance_self (hmeas _ hmem).aemeasurable]
    have h1 := covMat_mulVec_left hsq (hsq.mulVec A) A
    rw [covMat_mulVec_right hsq hsq A] at h1
    have h2 := congrFun (congrFun h1 0) 0
    refine h2.trans ?_
    simp only [Matrix.mul_apply, dotProduct, Matrix.mulVec, A, Matrix.of_apply, Matrix.transpose_apply]
  have v1 : P.map (fun ω => t.ofLp ⬝ᵥ X ω) = gaussianReal (t.ofLp ⬝ᵥ meanVec P X) (t.ofLp ⬝ᵥ (covMat P X X *ᵥ t.ofLp)).toNNReal := by
    rw [← e2, ← e3]
    exact v0
  have hn : 0 ≤ t.ofLp ⬝ᵥ (covMat P X X *ᵥ t.ofLp) := by
    rw [← e3]
    exact variance_nonneg _ _
  rw [e1, v1, charFun_gaussianReal]
  congr 1
  rw [Real.coe_toNNReal _ hn]
  simp

theorem readings_mem {B : Set (Ω → ℝ)} {n l : ℕ} (s : System Ω n l) : ∀ {x : Ω → Fin n → ℝ}, (∀ i, (fun ω => x ω i) ∈ affine B) →
    (∀ w ∈ s.noises, ∀ i, (fun ω => w.2 ω i) ∈ affine B) → ∀ i, (fun ω => s.readings x ω i) ∈ affine B := by
  induction s with
  | done => exact fun _ _ i => i.elim0
  | @move n k l A ns s ih =>
    intro x hx hw
    exact ih (moved_mem hx (fun v hv => hw ⟨k, v.value⟩ (List.mem_append_left _ (List.mem_map_of_mem hv))) A) fun w h => hw w (List.mem_append_right _ h)
  | @measure n l k H ns s ih =>
    intro x hx hw i
    refine Fin.addCases (fun i => ?_) (fun i => ?_) i
    · have e : (fun ω => (System.measure k H ns s).readings x ω (Fin.castAdd s.count i)) = fun ω => moved H ns x ω i := funext fun ω => Fin.append_left _ _ i
      rw [e]
      exact moved_mem hx (fun v hv => hw ⟨k, v.value⟩ (List.mem_append_left _ (List.mem_map_of_mem hv))) H i
    · have e : (fun ω => (System.measure k H ns s).readings x ω (Fin.natAdd k i)) = fun ω => s.readings x ω i := funext fun ω => Fin.append_right _ _ i
      rw [e]
      exact ih hx (fun w h => hw w (List.mem_append_right _ h)) i

/-- In Cholesky form the same log-likelihoods are added. -/
theorem evidenceChol_eq (lib : Lib ℝ) {n l : ℕ} (h : Hist ℝ n l) : h.Valid → ∀ p : GaussChol ℝ (Fin n), h.evidenceChol lib p = h.evidence lib p.toGauss := by
  induction h with
  | nil => exact fun _ _ => rfl
  | @cons n k l op h ih =>
    intro hv p
    show op.evidenceChol lib p + h.evidenceChol lib (op.runChol lib p) = op.evidence lib p.toGauss + h.evidence lib (op.run lib p.toGauss)
    have e : (op.runChol lib p).toGauss = op.run lib p.toGauss := C50_square_root lib (.cons op .nil) ⟨hv.1, trivial⟩ p
    rw [ih hv.2, e]
    congr 1
    cases op with
    | predict F ns => rfl
    | update m H ns z =>
      have h1 := linearTransformChol_toGauss lib H p ns
      have hS : ((linearTransformChol lib H p ns).toGauss).cov.PosDef := by
        rw [h1, linearTransform_eq lib H _ _ (toGauss_posSemidef p).1 fun d hd => (toGauss_mem_hermitian ns d hd).1, ← noiseTotal_eq]
        exact PosDef.posSemidef_add ((toGauss_posSemidef p).mul_mul_conjTranspose_same H.A) hv.1
      show (linearTransformChol lib H p ns).store.logLikelihood lib.solveVec [z] = (linearTransform lib H p.toGauss (ns.map GaussChol.toGauss)).store.logLikelihood lib.solveVec [z]
      rw [← h1, logLikelihood_one lib (linearTransformChol lib H p ns).store rfl (by simp [GaussChol.store]) hS rfl,
        logLikelihood_one lib (linearTransformChol lib H p ns).toGauss.store rfl (by simp [Gauss.store]) hS rfl]
      rfl

theorem calls_valid {n l : ℕ} (s : System Ω n l) : s.Sound P → (∀ w ∈ s.noises, Square P w.2) → s.noises.Pairwise (Uncorrelated P) → ∀ z, (s.calls P z).Valid := by
  induction s with
  | done => exact fun _ _ _ _ => trivial
  | @move n k l A ns s ih =>
    intro hs hw hu z
    exact ⟨trivial, ih hs.2 (fun w h => hw w (List.mem_append_right _ h)) (List.pairwise_append.1 hu).2.1 z⟩
  | @measure n l k H ns s ih =>
    intro hs hw hu z
    obtain ⟨hs1, hR, hs2⟩ := hs
    obtain ⟨hp1, hp2, hp3⟩ := List.pairwise_append.1 hu
    refine ⟨?_, ih hs2 (fun w h => hw w (List.mem_append_right _ h)) hp2 _⟩
    have := (told_total (fun v hv => hw ⟨k, v.value⟩ (List.mem_append_left _ (List.mem_map_of_mem hv))) (List.pairwise_map.1 hp1) hs1 H).1
    show (noiseTotal _ _).PosDef
    rw [this]
    exact hR

/-- **C163**: if the initial state and the noises are jointly Gaussian, then all the numbers measured, taken as one random vector, have a positive density; and for any numbers that may be
measured, the logarithm of this density is the sum of the log-likelihoods of the measurements, each under the distribution that the filter predicts for it from the earlier ones.
The same holds in square-root form. -/
theorem C163_evidence (lib : Lib ℝ) (s : System Ω n l) (x : Ω → Fin n → ℝ) (p : GaussChol ℝ (Fin n)) (hG : IsGaussianProcess (fun f : s.sources x => f.1) P)
    (hms : ∀ f ∈ s.sources x, Measurable f) (hu : (s.vectors x).Pairwise (Uncorrelated P)) (hs : s.Sound P) (hm : p.mean = meanVec P x)
    (hc : p.fac * p.facᵀ = covMat P x x) :
    ∃ f : (Fin s.count → ℝ) → ℝ, (∀ z, 0 < f z) ∧
      (P.map (fun ω => (WithLp.toLp 2 (s.readings x ω) : Vec s.count)) = volume.withDensity fun z : Vec s.count => ENNReal.ofReal (f z.ofLp)) ∧
      (∀ z, (s.calls P z).evidence lib p.toGauss = Real.log (f z) ∧ (s.calls P z).evidenceChol lib p = Real.log (f z)) := by
  have hsrc : ∀ w ∈ s.vectors x, ∀ i, (fun ω => w.2 ω i) ∈ s.sources x := fun w hw i => ⟨w, hw, i, rfl⟩
  have hw : ∀ w ∈ s.vectors x, Square P w.2 := fun w hw i => (hG.hasGaussianLaw_eval ⟨_, hsrc w hw i⟩).memLp_two
  have hw' : ∀ w ∈ s.noises, Square P w.2 := fun w h => hw w (List.mem_cons_of_mem _ h)
  have hx : Square P x := hw ⟨n, x⟩ List.mem_cons_self
  have hu' := (List.pairwise_cons.1 hu).2
  have hL := law_of_affine hG hms (readings_mem s (fun i => mem_affine (hsrc ⟨n, x⟩ List.mem_cons_self i)) fun w hw i => mem_affine (hsrc w (List.mem_cons_of_mem _ hw) i))
  have hst := stir_square s hw'
  have hx0 : covMat P s.stir x = 0 := stir_uncorrelated s hx hw' fun w h => by
    rw [covMat_swap, (List.pairwise_cons.1 hu).1 w h, transpose_zero]
  have hx1 : covMat P x s.stir = 0 := by rw [covMat_swap, hx0, transpose_zero]
  obtain ⟨m1, m2⟩ := stir_moments s hw' hu'
  have er : s.readings x = fun ω => s.look *ᵥ x ω + s.stir ω := funext fun ω => readings_eq s x ω
  have e1 : meanVec P (s.readings x) = s.look *ᵥ p.mean + s.stirMean P := by
    rw [er, meanVec_add (hx.mulVec s.look) hst, meanVec_mulVec hx, m1, hm]
  have e2 : covMat P (s.readings x) (s.readings x) = s.look * (p.fac * p.facᵀ) * s.lookᵀ + s.stirCov P := by
    rw [er, covMat_add_left (hx.mulVec s.look) hst ((hx.mulVec s.look).add hst), covMat_add_right (hx.mulVec s.look) hst (hx.mulVec s.look),
      covMat_add_right (hx.mulVec s.look) hst hst, covMat_mulVec_left hx (hx.mulVec s.look), covMat_mulVec_right hx hx, covMat_mulVec_left hx hst, covMat_mulVec_right hx hst, hx0, hx1,
      m2, hc]
    simp [Matrix.mul_assoc]
  rw [e1, e2] at hL
  have hC : (p.fac * p.facᵀ).PosSemidef := by
    rw [hc]
    exact covMat_posSemidef hx
  have hD : (s.look * (p.fac * p.facᵀ) * s.lookᵀ + s.stirCov P).PosDef := by
    have h2 := hC.mul_mul_conjTranspose_same s.look
    rw [conjTranspose_eq_transpose_of_trivial] at h2
    exact PosDef.posSemidef_add h2 (stirCov_posDef s hw' hs)
  have hv : ∀ z, (s.calls P z).evidence lib p.toGauss = Real.log (density (s.look *ᵥ p.mean + s.stirMean P) (s.look * (p.fac * p.facᵀ) * s.lookᵀ + s.stirCov P) z) := by
    intro z
    rw [evidence_density lib s z hC hw' hu' hs]
    rfl
  refine ⟨_, density_pos hD, law_density hL hD, fun z => ⟨hv z, ?_⟩⟩
  rw [evidenceChol_eq lib _ (calls_valid s hs hw' hu' z), hv z]

/-- **C163**: in any case `ω`, the calls meant in `C163_evidence` are those of the filter that runs through the system. -/
theorem C163_calls (s : System Ω n l) (x : Ω → Fin n → ℝ) (ω : Ω) : s.calls P (s.readings x ω) = s.hist P x ω := calls_readings s x ω

/-! ### A case

The system of `Theorems/LinSys.lean`: a standard normal number is doubled, with standard normal noise, and measured with standard normal noise. -/

theorem case_measurable : ∀ f ∈ caseSystem.sources caseStart, Measurable f := by
  rintro f ⟨w, hw, i, rfl⟩
  simp only [caseSystem, System.vectors, System.noises, List.map_cons, List.map_nil, List.append_nil, List.mem_cons, List.mem_append, List.not_mem_nil, or_false] at hw
  rcases hw with rfl | rfl | rfl <;> exact measurable_pi_apply _

example (lib : Lib ℝ) : ∃ f : (Fin 1 → ℝ) → ℝ, (∀ z, 0 < f z) ∧
    (normals.map (fun ω => (WithLp.toLp 2 (caseSystem.readings caseStart ω) : Vec 1)) = volume.withDensity fun z : Vec 1 => ENNReal.ofReal (f z.ofLp)) ∧
    ∀ z : Fin 1 → ℝ, (caseSystem.calls normals z).evidence lib ⟨0, 1 * 1ᴴ⟩ = Real.log (f z) ∧ (caseSystem.calls normals z).evidenceChol lib ⟨0, 1⟩ = Real.log (f z) :=
  C163_evidence lib caseSystem caseStart ⟨0, 1⟩ case_hyp.1 case_measurable case_hyp.2 case_sound (case_mean 0).symm
    (by rw [transpose_one, Matrix.mul_one]; exact (case_cov 0).symm)

theorem case_told (i : Fin 3) : told normals (caseNoise i) = ⟨0, 1⟩ := by
  unfold told
  congr 1
  exact case_mean i

def caseVar (c : ℝ) : Matrix (Fin 1) (Fin 1) ℝ := diagonal fun _ => c

theorem caseVar_posDef {c : ℝ} (h : 0 < c) : (caseVar c).PosDef := PosDef.diagonal fun _ => h

theorem case_transform (lib : Lib ℝ) (a c : ℝ) (i : Fin 3) :
    linearTransform lib ⟨!![a], [caseNoise i].map Noise.gain⟩ ⟨0, caseVar c⟩ (([caseNoise i].map (told normals)).map GaussChol.toGauss) = ⟨0, caseVar (a * a * c + 1)⟩ := by
  have hn : ∀ d ∈ ([caseNoise i].map (told normals)).map GaussChol.toGauss, d.cov.IsHermitian := fun d hd => (toGauss_mem_hermitian _ d hd).1
  rw [linearTransform_eq lib _ _ _ (isHermitian_diagonal _) hn, apply_eq, ← noiseTotal_eq]
  refine Gauss.ext ?_ ?_
  · simp only [List.map_cons, List.map_nil, case_told, GaussChol.toGauss]
    simp
  · ext i j
    rw [Fin.fin_one_eq_zero i, Fin.fin_one_eq_zero j]
    simp only [List.map_cons, List.map_nil, case_told, GaussChol.toGauss, noiseTotal]
    simp [caseVar, caseNoise, Matrix.vecMul, dotProduct]
    ring

/-- The number measured has variance `2² + 1 + 1`. -/
example (lib : Lib ℝ) (z : ℝ) : (caseSystem.calls normals fun _ => z).evidence lib ⟨0, caseVar 1⟩ = -(1 / 2) * (Real.log (2 * Real.pi) + Real.log 6 + z ^ 2 / 6) := by
  show 0 + ((linearTransform lib ⟨!![1], [caseNoise 2].map Noise.gain⟩ (linearTransform lib ⟨!![2], [caseNoise 1].map Noise.gain⟩ ⟨0, caseVar 1⟩
    (([caseNoise 1].map (told normals)).map GaussChol.toGauss)) (([caseNoise 2].map (told normals)).map GaussChol.toGauss)).store.logLikelihood lib.solveVec [fun _ => z] + 0) = _
  rw [case_transform, case_transform, logLikelihood_one lib _ rfl (by simp [Gauss.store]) (S := caseVar 6) (caseVar_posDef (by norm_num)) (by
    show caseVar 6 = caseVar _
    norm_num), log_density (caseVar_posDef (by norm_num))]
  have hi : (caseVar 6)⁻¹ = caseVar (1 / 6) := inv_eq_right_inv (by
    rw [caseVar, caseVar, diagonal_mul_diagonal]
    norm_num)
  rw [hi]
  simp [caseVar, Gauss.store, dotProduct]
  ring

end OpenKalman.LinSys
