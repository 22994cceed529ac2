import Verif.Proof.Innovation

/-!
# C167: the residuals of the filter are white

The residuals are the differences between measurements and the means that the filter predicts for them (`Hist.innovations` of `Model/Innovation.lean`).
-/

namespace OpenKalman.LinSys
open MeasureTheory ProbabilityTheory Matrix OpenKalman.Kalman OpenKalman.Gaussian

variable {Ω : Type} [MeasurableSpace Ω] {P : Measure Ω} [IsProbabilityMeasure P] {n l : ℕ}

/-- **C167**: whatever the laws of the initial state and of the noises are, as long as they are square integrable and not correlated with each other, the residuals of the filter have
expectation zero, the covariances that the filter predicts for the measurements, and no correlation with each other; and they tell as much as the measurements: the affine functions
of the ones are those of the others.  The same residuals are computed in square-root form. -/
theorem C167_white (lib : Lib ℝ) (s : System Ω n l) (x : Ω → Fin n → ℝ) (p : GaussChol ℝ (Fin n)) (hw : ∀ w ∈ s.vectors x, Square P w.2)
    (hu : (s.vectors x).Pairwise (Uncorrelated P)) (hs : s.Sound P) (hm : p.mean = meanVec P x) (hc : p.fac * p.facᵀ = covMat P x x) :
    ∃ W : List (Residual Ω), (∀ ω, (s.hist P x ω).innovations lib p.toGauss = W.map (fun w => ⟨w.size, w.value ω, w.cov⟩) ∧
        (s.hist P x ω).innovationsChol lib p = W.map fun w => ⟨w.size, w.value ω, w.cov⟩) ∧
      White P W ∧ affine (parts W) = affine (s.measured x) := by
  have hx : Square P x := hw ⟨n, x⟩ List.mem_cons_self
  have hw' : ∀ w ∈ s.noises, Square P w.2 := fun w h => hw w (List.mem_cons_of_mem _ h)
  have hu' := (List.pairwise_cons.1 hu).2
  obtain ⟨W, e, hW, -, ha⟩ := innovations_inv lib s (V := ∅) (inv_start hx p hm hc) rfl hs (free_start hw hu) hu'
  rw [Set.empty_union, Set.empty_union] at ha
  refine ⟨W, fun ω => ⟨e ω, ?_⟩, hW, ha⟩
  rw [innovationsChol_eq lib _ (hist_valid s hs hw' hu' ω)]
  exact e ω

/-- **C167** (a consistent filter): the squares of the residuals, each measured by the predicted covariance and added up, are expected to be as many as the numbers measured. -/
theorem C167_squares (lib : Lib ℝ) (s : System Ω n l) (x : Ω → Fin n → ℝ) (p : GaussChol ℝ (Fin n)) (hw : ∀ w ∈ s.vectors x, Square P w.2)
    (hu : (s.vectors x).Pairwise (Uncorrelated P)) (hs : s.Sound P) (hm : p.mean = meanVec P x) (hc : p.fac * p.facᵀ = covMat P x x) :
    Integrable (fun ω => (((s.hist P x ω).innovations lib p.toGauss).map fun v => v.value ⬝ᵥ (v.cov⁻¹ *ᵥ v.value)).sum) P ∧
    ∫ ω, (((s.hist P x ω).innovations lib p.toGauss).map fun v => v.value ⬝ᵥ (v.cov⁻¹ *ᵥ v.value)).sum ∂P = s.count := by
  obtain ⟨W, e, hW, -⟩ := C167_white lib s x p hw hu hs hm hc
  have h1 : (fun ω => (((s.hist P x ω).innovations lib p.toGauss).map fun v => v.value ⬝ᵥ (v.cov⁻¹ *ᵥ v.value)).sum) = totalSquares W := by
    funext ω
    rw [(e ω).1, List.map_map]
    rfl
  have hne : Nonempty Ω := by
    by_contra h
    have := not_nonempty_iff.1 h
    have h2 : P Set.univ = 0 := by rw [Set.univ_eq_empty_iff.2 this, measure_empty]
    rw [measure_univ] at h2
    exact one_ne_zero h2
  have h2 : (W.map Residual.size).sum = s.count := by
    obtain ⟨ω⟩ := hne
    rw [← innovations_size (P := P) lib s x ω p.toGauss, (e ω).1, List.map_map]
    rfl
  have h3 : ∀ L : List (Residual Ω), (∀ w ∈ L, w ∈ W) → Integrable (totalSquares L) P ∧ ∫ ω, totalSquares L ω ∂P = ((L.map Residual.size).sum : ℕ) := by
    intro L
    induction L with
    | nil =>
      intro _
      have : totalSquares ([] : List (Residual Ω)) = fun _ => (0 : ℝ) := rfl
      rw [this]
      simp
    | cons w L ih =>
      intro hL
      have hwW := hL w List.mem_cons_self
      obtain ⟨i1, i2⟩ := integral_squares (hW.square w hwW) (hW.mean w hwW) (hW.cov w hwW) (hW.posDef w hwW)
      obtain ⟨j1, j2⟩ := ih fun v hv => hL v (List.mem_cons_of_mem _ hv)
      have : totalSquares (w :: L) = fun ω => w.value ω ⬝ᵥ (w.cov⁻¹ *ᵥ w.value ω) + totalSquares L ω := by
        funext ω
        simp [totalSquares]
      rw [this]
      refine ⟨i1.add j1, ?_⟩
      rw [integral_add i1 j1, i2, j2]
      simp
  rw [h1, ← h2]
  exact h3 W fun _ h => h

/-- **C167** (Gaussian systems): if the initial state and the noises are jointly Gaussian, then the residuals are independent of each other and each is Gaussian with expectation zero and
the covariance that the filter predicts. -/
theorem C167_independent (lib : Lib ℝ) (s : System Ω n l) (x : Ω → Fin n → ℝ) (p : GaussChol ℝ (Fin n)) (hG : IsGaussianProcess (fun f : s.sources x => f.1) P)
    (hms : ∀ f ∈ s.sources x, Measurable f) (hu : (s.vectors x).Pairwise (Uncorrelated P)) (hs : s.Sound P) (hm : p.mean = meanVec P x)
    (hc : p.fac * p.facᵀ = covMat P x x) :
    ∃ W : List (Residual Ω), (∀ ω, (s.hist P x ω).innovations lib p.toGauss = W.map (fun w => ⟨w.size, w.value ω, w.cov⟩) ∧
        (s.hist P x ω).innovationsChol lib p = W.map fun w => ⟨w.size, w.value ω, w.cov⟩) ∧
      iIndepFun (fun (i : Fin W.length) ω => W[i].value ω) P ∧
      ∀ w ∈ W, Law P (fun ω => (WithLp.toLp 2 (w.value ω) : Vec w.size)) 0 w.cov := by
  have hsrc : ∀ w ∈ s.vectors x, ∀ i, (fun ω => w.2 ω i) ∈ s.sources x := fun w hw i => ⟨w, hw, i, rfl⟩
  have hw : ∀ w ∈ s.vectors x, Square P w.2 := fun w hw i => (hG.hasGaussianLaw_eval ⟨_, hsrc w hw i⟩).memLp_two
  obtain ⟨W, e, hW, ha⟩ := C167_white lib s x p hw hu hs hm hc
  have hA := gaussian_affine hG
  obtain ⟨-, hz⟩ := all_mem (B := s.sources x) s (fun i => mem_affine (hsrc ⟨n, x⟩ List.mem_cons_self i)) fun w hw i => mem_affine (hsrc w (List.mem_cons_of_mem _ hw) i)
  have hWA : ∀ w ∈ W, ∀ i, (fun ω => w.value ω i) ∈ affine (s.sources x) := fun w hw i =>
    affine_le hz (ha ▸ mem_affine ⟨w, hw, i, rfl⟩)
  refine ⟨W, e, ?_, fun w hw => ?_⟩
  · refine IsGaussianProcess.iIndepFun_of_covariance_eq_zero (X := fun (t : Fin W.length) (j : Fin W[t].size) ω => W[t].value ω j) ?_ ?_ ?_
    · exact hA.comp_right fun q : (t : Fin W.length) × Fin W[t].size => (⟨_, hWA W[q.1] (List.getElem_mem _) q.2⟩ : affine (s.sources x))
    · exact fun t j => (affine_measurable hms (hWA W[t] (List.getElem_mem _) j)).aemeasurable
    · intro t u htu i j
      rcases lt_or_gt_of_ne htu with h | h
      · have h1 := List.pairwise_iff_getElem.1 hW.uncorrelated t u t.2 u.2 h
        exact congrFun (congrFun h1 i) j
      · have h1 := List.pairwise_iff_getElem.1 hW.uncorrelated u t u.2 t.2 h
        rw [covariance_comm]
        exact congrFun (congrFun h1 j) i
  · have h1 := law_of_affine hG hms (hWA w hw)
    rw [hW.mean w hw, hW.cov w hw] at h1
    exact h1

/-! ### A case

A standard normal number, measured twice with standard normal noise. -/

def twice : System (Fin 3 → ℝ) 1 1 := .measure 1 !![1] [caseNoise 1] (.measure 1 !![1] [caseNoise 2] .done)

theorem twice_vectors : twice.vectors caseStart = caseSystem.vectors caseStart := rfl

theorem twice_sources : twice.sources caseStart = caseSystem.sources caseStart := rfl

theorem twice_sound : twice.Sound normals := by
  have h : ∀ i, (caseNoise i).factor * (caseNoise i).factorᵀ = covMat normals (caseNoise i).value (caseNoise i).value := by
    intro i
    refine Eq.trans ?_ (case_cov i).symm
    simp [caseNoise]
  have h2 : ∀ i, (covMat normals (noiseSum [caseNoise i]) (noiseSum [caseNoise i])).PosDef := by
    intro i
    have : noiseSum [caseNoise i] = fun ω (_ : Fin 1) => ω i := by
      funext ω a
      simp [noiseSum, caseNoise]
    rw [this, case_cov]
    exact PosDef.one
  exact ⟨by simpa using h 1, h2 1, by simpa using h 2, h2 2, trivial⟩

example (lib : Lib ℝ) : ∃ W : List (Residual (Fin 3 → ℝ)), (∀ ω, (twice.hist normals caseStart ω).innovations lib ⟨0, 1 * 1ᴴ⟩ = W.map (fun w => ⟨w.size, w.value ω, w.cov⟩) ∧
      (twice.hist normals caseStart ω).innovationsChol lib ⟨0, 1⟩ = W.map fun w => ⟨w.size, w.value ω, w.cov⟩) ∧
    iIndepFun (fun (i : Fin W.length) ω => W[i].value ω) normals ∧ ∀ w ∈ W, Law normals (fun ω => (WithLp.toLp 2 (w.value ω) : Vec w.size)) 0 w.cov :=
  C167_independent lib twice caseStart ⟨0, 1⟩ case_hyp.1 case_measurable case_hyp.2 twice_sound (case_mean 0).symm
    (by rw [transpose_one, Matrix.mul_one]; exact (case_cov 0).symm)

/-- Two numbers are measured. -/
example (lib : Lib ℝ) : ∫ ω, (((twice.hist normals caseStart ω).innovations lib ⟨0, 1 * 1ᴴ⟩).map fun v => v.value ⬝ᵥ (v.cov⁻¹ *ᵥ v.value)).sum ∂normals = 2 := by
  have hw : ∀ w ∈ twice.vectors caseStart, Square normals w.2 := fun w hw i =>
    (case_hyp.1.hasGaussianLaw_eval ⟨_, ⟨w, hw, i, rfl⟩⟩).memLp_two
  have := (C167_squares lib twice caseStart ⟨0, 1⟩ hw case_hyp.2 twice_sound (case_mean 0).symm (by rw [transpose_one, Matrix.mul_one]; exact (case_cov 0).symm)).2
  exact this.trans (by norm_num [twice, System.count])

/-- The first of them is the number measured first, with variance 2. -/
example (lib : Lib ℝ) (ω : Fin 3 → ℝ) : ((twice.hist normals caseStart ω).innovations lib ⟨0, caseVar 1⟩).head? = some ⟨1, fun _ => ω 0 + ω 1, caseVar 2⟩ := by
  have hh : ∀ d ∈ ([caseNoise 1].map (told normals)).map GaussChol.toGauss, d.cov.IsHermitian := fun d hd => (toGauss_mem_hermitian _ d hd).1
  show some (Innovation.mk 1 (moved !![1] [caseNoise 1] caseStart ω - (linearTransformCross lib ⟨!![1], [caseNoise 1].map Noise.gain⟩ ⟨0, caseVar 1⟩
    (([caseNoise 1].map (told normals)).map GaussChol.toGauss)).1.mean) (linearTransformCross lib ⟨!![1], [caseNoise 1].map Noise.gain⟩ ⟨0, caseVar 1⟩
    (([caseNoise 1].map (told normals)).map GaussChol.toGauss)).1.cov) = _
  rw [linearTransformCross_eq lib _ _ _ (isHermitian_diagonal _) hh]
  simp only [case_transform]
  congr 2
  · funext i
    simp [moved, noiseSum, caseNoise, caseStart, Matrix.mulVec, dotProduct]
  · norm_num

end OpenKalman.LinSys
