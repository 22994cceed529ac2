import Verif.Proof.Robust

/-!
# C136, C137, C138: filters that are told too much noise, and filters side by side

The filter is that of `Model/Kalman.lean`; `System.hist` of `Proof/LinSys.lean` gives its calls.
-/

set_option linter.unusedSectionVars false

namespace OpenKalman.LinSys
open MeasureTheory ProbabilityTheory Matrix OpenKalman.Kalman

variable {Ω : Type} [MeasurableSpace Ω] {P : Measure Ω} [IsProbabilityMeasure P] {n l : ℕ}

/-! ## C136 -/

theorem bound_start {x : Ω → Fin n → ℝ} (hx : Square P x) (p : GaussChol ℝ (Fin n)) (hm : p.mean = meanVec P x)
    (hc : (p.fac * p.facᵀ - covMat P x x).PosSemidef) : Bound P x (fun _ => p.mean) p.toGauss.cov := by
  refine ⟨hx.sub (Square.const _), ?_, ?_⟩
  · rw [meanVec_sub hx (Square.const _), meanVec_const, hm, sub_self]
  · rw [covMat_sub_left hx (Square.const _) (hx.sub (Square.const _)), covMat_const_left, covMat_sub_right hx (Square.const _) hx, covMat_const_right, sub_zero, sub_zero]
    exact hc

/-- **C136**: if the covariances that the filter is told for the initial state and for the noises are no less than what they are, its estimate is still without bias, and the
covariance it reports, after any moves and measurements, is no less than that of its error.  The same holds in square-root form. -/
theorem C136_bound (lib : Lib ℝ) (s : System Ω n l) (x : Ω → Fin n → ℝ) (p : GaussChol ℝ (Fin n)) (hw : ∀ w ∈ s.vectors x, Square P w.2)
    (hu : (s.vectors x).Pairwise (Uncorrelated P)) (hs : s.Covered P) (hm : p.mean = meanVec P x) (hc : (p.fac * p.facᵀ - covMat P x x).PosSemidef) :
    ∃ (m : Ω → Fin l → ℝ) (C : Matrix (Fin l) (Fin l) ℝ),
      (∀ ω, (s.hist P x ω).run lib p.toGauss = ⟨m ω, C⟩ ∧ ((s.hist P x ω).runChol lib p).toGauss = ⟨m ω, C⟩) ∧
      Square P (fun ω => s.final x ω - m ω) ∧
      meanVec P (fun ω => s.final x ω - m ω) = 0 ∧
      (C - covMat P (fun ω => s.final x ω - m ω) (fun ω => s.final x ω - m ω)).PosSemidef := by
  have hx := hw ⟨n, x⟩ List.mem_cons_self
  obtain ⟨m, C, e, h⟩ := filter_bound lib s (bound_start hx p hm hc) hs (fun w h => hw w (List.mem_cons_of_mem _ h)) (fun w h => by
    rw [covMat_sub_left hx (Square.const _) (hw w (List.mem_cons_of_mem _ h)), covMat_const_left, sub_zero]
    exact (List.pairwise_cons.1 hu).1 w h) (List.pairwise_cons.1 hu).2
  refine ⟨m, C, fun ω => ⟨(e ω).1, ?_⟩, h.es, h.mean, h.cov⟩
  rw [C50_square_root lib _ (e ω).2]
  exact (e ω).1

/-- **C136** (what a user gets): the probability that a component of the error is as large as `t` is at most the reported variance divided by the square of `t`, whatever the laws of
the initial state and the noises are. -/
theorem C136_chebyshev (lib : Lib ℝ) (s : System Ω n l) (x : Ω → Fin n → ℝ) (p : GaussChol ℝ (Fin n)) (hw : ∀ w ∈ s.vectors x, Square P w.2)
    (hu : (s.vectors x).Pairwise (Uncorrelated P)) (hs : s.Covered P) (hm : p.mean = meanVec P x) (hc : (p.fac * p.facᵀ - covMat P x x).PosSemidef) (i : Fin l) {t v : ℝ}
    (ht : 0 < t) (hv : ∀ ω, ((s.hist P x ω).run lib p.toGauss).cov i i = v) :
    P {ω | t ≤ |s.final x ω i - ((s.hist P x ω).run lib p.toGauss).mean i|} ≤ ENNReal.ofReal (v / t ^ 2) := by
  obtain ⟨m, C, e, h1, h2, h3⟩ := C136_bound lib s x p hw hu hs hm hc
  have e1 : {ω | t ≤ |s.final x ω i - ((s.hist P x ω).run lib p.toGauss).mean i|} = {ω | t ≤ |(fun ω => (s.final x ω - m ω) i) ω - P[fun ω => (s.final x ω - m ω) i]|} := by
    ext ω
    have : P[fun ω => (s.final x ω - m ω) i] = 0 := congrFun h2 i
    rw [Set.mem_ofPred_eq, Set.mem_ofPred_eq, this, sub_zero, (e ω).1]
    rfl
  obtain ⟨ω⟩ : Nonempty Ω := nonempty_of_isProbabilityMeasure P
  have hC : C i i = v := by rw [← hv ω, (e ω).1]
  have hd : (0 : ℝ) ≤ (C - covMat P (fun ω => s.final x ω - m ω) (fun ω => s.final x ω - m ω)) i i := h3.diag_nonneg
  have hvar : Var[fun ω => (s.final x ω - m ω) i; P] ≤ v := by
    rw [← covariance_self (h1 i).aestronglyMeasurable.aemeasurable, ← hC]
    exact sub_nonneg.1 hd
  rw [e1]
  refine (meas_ge_le_variance_div_sq (h1 i) ht).trans (ENNReal.ofReal_le_ofReal ?_)
  exact div_le_div_of_nonneg_right hvar (sq_nonneg t)

/-! ### A case

The system of C131, but the filter is told standard deviations of 2, 3 and 4 where they are 1. -/

def loudNoise (i : Fin 3) (f : ℝ) : Noise (Fin 3 → ℝ) 1 := ⟨1, fun ω _ => ω i, !![f]⟩

def loudSystem : System (Fin 3 → ℝ) 1 1 := .move !![2] [loudNoise 1 3] (.measure 1 !![1] [loudNoise 2 4] .done)

theorem case_square (i : Fin 3) : MemLp (fun ω : Fin 3 → ℝ => ω i) 2 normals := by
  have h : HasGaussianLaw (fun ω : Fin 3 → ℝ => ω i) normals := by
    constructor
    rw [case_law]
    infer_instance
  exact h.memLp_two

theorem loud_le {f : ℝ} (hf : 1 ≤ f) (i : Fin 3) : ((!![f] : Matrix (Fin 1) (Fin 1) ℝ) * (!![f] : Matrix (Fin 1) (Fin 1) ℝ)ᵀ -
    covMat normals (fun ω (_ : Fin 1) => ω i) (fun ω (_ : Fin 1) => ω i)).PosSemidef := by
  rw [case_cov]
  have : (!![f] : Matrix (Fin 1) (Fin 1) ℝ) * (!![f] : Matrix (Fin 1) (Fin 1) ℝ)ᵀ - 1 = diagonal fun _ => f * f - 1 := by
    ext a b
    rw [Subsingleton.elim a 0, Subsingleton.elim b 0]
    simp [Matrix.vecMul, dotProduct]
  rw [this]
  refine PosSemidef.diagonal fun _ => ?_
  show (0 : ℝ) ≤ f * f - 1
  nlinarith

theorem loud_covered : loudSystem.Covered normals := by
  refine ⟨?_, ?_, ?_, trivial⟩
  · intro v hv
    rw [List.mem_singleton] at hv
    subst hv
    exact loud_le (by norm_num) 1
  · intro v hv
    rw [List.mem_singleton] at hv
    subst hv
    exact loud_le (by norm_num) 2
  · have : ([loudNoise 2 4].map fun (v : Noise (Fin 3 → ℝ) 1) => v.gain * (v.factor * v.factorᵀ) * v.gainᵀ).sum = diagonal fun _ => (16 : ℝ) := by
      ext a b
      rw [Subsingleton.elim a 0, Subsingleton.elim b 0]
      simp [loudNoise, Matrix.vecMul, dotProduct]
      norm_num
    rw [this]
    exact PosDef.diagonal fun _ => by norm_num

/-- The hypotheses of `C136_bound` and `C136_chebyshev` hold for it. -/
example (lib : Lib ℝ) : ∃ (m : (Fin 3 → ℝ) → Fin 1 → ℝ) (C : Matrix (Fin 1) (Fin 1) ℝ),
    (∀ ω, (loudSystem.hist normals caseStart ω).run lib (GaussChol.toGauss ⟨0, !![2]⟩) = ⟨m ω, C⟩) ∧
    (C - covMat normals (fun ω => loudSystem.final caseStart ω - m ω) (fun ω => loudSystem.final caseStart ω - m ω)).PosSemidef := by
  obtain ⟨m, C, e, -, -, h⟩ := C136_bound (P := normals) lib loudSystem caseStart ⟨0, !![2]⟩ (by
    intro w hw
    have h : w ∈ caseSystem.vectors caseStart := hw
    simp only [caseSystem, System.vectors, System.noises, List.map_cons, List.map_nil, List.append_nil, List.mem_cons, List.mem_append, List.not_mem_nil, or_false] at h
    rcases h with rfl | rfl | rfl
    · exact fun _ => case_square 0
    · exact fun _ => case_square 1
    · exact fun _ => case_square 2) case_hyp.2 loud_covered (case_mean 0).symm (loud_le (by norm_num) 0)
  exact ⟨m, C, fun ω => (e ω).1, h⟩

end OpenKalman.LinSys

namespace OpenKalman.Kalman
open Matrix
open scoped ComplexOrder

variable {𝕜 : Type} [RCLike 𝕜] (lib : Lib 𝕜)

/-! ## C137 -/

/-- **C137**: of two filters run through the same steps, the one that starts with no more covariance and is told no more noise in any step, and perhaps makes further measurements
in between, never reports more covariance.  What is measured does not matter. -/
theorem C137_monotone {n k : ℕ} {h h' : Hist 𝕜 n k} (hb : h.Below h') : h.Valid → h'.Valid → ∀ {x x' : Gauss 𝕜 (Fin n)}, x.cov.PosSemidef → (x'.cov - x.cov).PosSemidef →
    ((h'.run lib x').cov - (h.run lib x).cov).PosSemidef := by
  induction hb with
  | nil => exact fun _ _ {x x'} _ hle => hle
  | @both n k l op op' h h' ho hh ih =>
    intro hv hv' x x' hx hle
    refine ih hv.2 hv'.2 ?_ (op_below lib ho hv.1 hv'.1 hx hle)
    exact (C49_history lib (.cons op .nil) ⟨hv.1, trivial⟩ x hx).2
  | @extra n m k H ns z h h' hh ih =>
    intro hv hv' x x' hx hle
    obtain ⟨h1, h2⟩ := C49_update lib H (ns.map GaussChol.toGauss) z x hx (toGauss_mem_hermitian ns) hv.1
    exact ih hv.2 hv' h1 (le_trans' h2 hle)

/-- **C137** (the same in square-root form). -/
theorem C137_square_root {n k : ℕ} {h h' : Hist 𝕜 n k} (hb : h.Below h') (hv : h.Valid) (hv' : h'.Valid) (x x' : GaussChol 𝕜 (Fin n))
    (hle : (x'.fac * x'.facᴴ - x.fac * x.facᴴ).PosSemidef) :
    ((h'.runChol lib x').fac * (h'.runChol lib x').facᴴ - (h.runChol lib x).fac * (h.runChol lib x).facᴴ).PosSemidef := by
  have h1 := congrArg Gauss.cov (C50_square_root lib h hv x)
  have h2 := congrArg Gauss.cov (C50_square_root lib h' hv' x')
  show (((h'.runChol lib x').toGauss).cov - ((h.runChol lib x).toGauss).cov).PosSemidef
  rw [h1, h2]
  exact C137_monotone lib hb hv hv' (toGauss_posSemidef x) hle

/-- The history of C49 and the same with twice the standard deviation in the move and without the measurement. -/
noncomputable def sampleHist' : Hist ℝ 1 2 := .cons (.predict ⟨!![1; 2], []⟩ [⟨0, 2⟩]) .nil

theorem sampleHist_below : sampleHist.Below sampleHist' := by
  refine Hist.Below.both (Op.Below.predict _ _ _ ?_) (Hist.Below.extra _ _ _ Hist.Below.nil)
  have : noiseTotal (⟨!![1; 2], []⟩ : LinTrans ℝ 1 2) ([(⟨0, 2⟩ : GaussChol ℝ (Fin 2))].map GaussChol.toGauss) -
      noiseTotal (⟨!![1; 2], []⟩ : LinTrans ℝ 1 2) ([(⟨0, 1⟩ : GaussChol ℝ (Fin 2))].map GaussChol.toGauss) = diagonal fun _ => (3 : ℝ) := by
    have e : (2 : Matrix (Fin 2) (Fin 2) ℝ) = diagonal fun _ => (2 : ℝ) := by
      ext a b
      fin_cases a <;> fin_cases b <;> simp [Matrix.ofNat_apply]
    simp only [noiseTotal, e]
    ext a b
    fin_cases a <;> fin_cases b <;> simp [GaussChol.toGauss] <;> norm_num
  rw [this]
  exact PosSemidef.diagonal fun _ => by norm_num

example : ((sampleHist'.run someLib ⟨fun _ => 7, 1⟩).cov - (sampleHist.run someLib ⟨0, 1⟩).cov).PosSemidef :=
  C137_monotone someLib sampleHist_below sampleHist_valid ⟨trivial, trivial⟩ PosSemidef.one (by simpa using PosSemidef.zero)

/-! ## C138 -/

/-- **C138** (affine): the mean in the end is an affine function of the mean in the beginning, with a matrix for which the covariance in the end is no less than what that matrix
makes of the covariance in the beginning; the covariance does not depend on the mean. -/
theorem C138_affine {n k : ℕ} (h : Hist 𝕜 n k) (hv : h.Valid) {C : Matrix (Fin n) (Fin n) 𝕜} (hC : C.PosSemidef) :
    ∃ (Φ : Matrix (Fin k) (Fin n) 𝕜) (b : Fin k → 𝕜) (C' : Matrix (Fin k) (Fin k) 𝕜), (C' - Φ * C * Φᴴ).PosSemidef ∧
      ∀ mu, h.run lib ⟨mu, C⟩ = ⟨Φ *ᵥ mu + b, C'⟩ := by
  obtain ⟨Φ, b, N, hN, e⟩ := hist_form lib h hv hC
  refine ⟨Φ, b, Φ * C * Φᴴ + N, ?_, e⟩
  rwa [add_sub_cancel_left]

/-- **C138** (a wrong start): two filters that differ only in the mean they start with report the same covariance, and as a fraction of the covariance reported the difference of
their means never grows: a multiple of the covariance that covers it in the beginning covers it after all moves and measurements. -/
theorem C138_difference {n k : ℕ} (h : Hist 𝕜 n k) (hv : h.Valid) (a b : Fin n → 𝕜) {C : Matrix (Fin n) (Fin n) 𝕜} (hC : C.PosSemidef) {c : ℝ} (hc : 0 ≤ c)
    (hd : ((c : 𝕜) • C - vecMulVec (a - b) (star (a - b))).PosSemidef) :
    (h.run lib ⟨a, C⟩).cov = (h.run lib ⟨b, C⟩).cov ∧
    ((c : 𝕜) • (h.run lib ⟨a, C⟩).cov -
      vecMulVec ((h.run lib ⟨a, C⟩).mean - (h.run lib ⟨b, C⟩).mean) (star ((h.run lib ⟨a, C⟩).mean - (h.run lib ⟨b, C⟩).mean))).PosSemidef := by
  obtain ⟨Φ, v, N, hN, e⟩ := hist_form lib h hv hC
  rw [e, e]
  refine ⟨rfl, ?_⟩
  have h1 : Φ *ᵥ a + v - (Φ *ᵥ b + v) = Φ *ᵥ (a - b) := by rw [add_sub_add_right_eq_sub, Matrix.mulVec_sub]
  show ((c : 𝕜) • (Φ * C * Φᴴ + N) - vecMulVec (Φ *ᵥ a + v - (Φ *ᵥ b + v)) (star (Φ *ᵥ a + v - (Φ *ᵥ b + v)))).PosSemidef
  rw [h1]
  have h2 : vecMulVec (Φ *ᵥ (a - b)) (star (Φ *ᵥ (a - b))) = Φ * vecMulVec (a - b) (star (a - b)) * Φᴴ := by
    rw [Matrix.mul_vecMulVec, Matrix.vecMulVec_mul, Matrix.star_mulVec]
  have h3 : (c : 𝕜) • (Φ * C * Φᴴ + N) - Φ * vecMulVec (a - b) (star (a - b)) * Φᴴ = Φ * ((c : 𝕜) • C - vecMulVec (a - b) (star (a - b))) * Φᴴ + (c : 𝕜) • N := by
    simp only [smul_add, Matrix.mul_sub, Matrix.sub_mul, Matrix.mul_smul, Matrix.smul_mul]
    abel
  rw [h2, h3]
  refine (hd.mul_mul_conjTranspose_same Φ).add (hN.smul ?_)
  exact_mod_cast hc

/-- Starting 3 standard deviations off: still at most 3 standard deviations off in the end. -/
example : ((9 : ℝ) • (sampleHist.run someLib ⟨fun _ => 3, 1⟩).cov -
    vecMulVec ((sampleHist.run someLib ⟨fun _ => 3, 1⟩).mean - (sampleHist.run someLib ⟨0, 1⟩).mean)
      (star ((sampleHist.run someLib ⟨fun _ => 3, 1⟩).mean - (sampleHist.run someLib ⟨0, 1⟩).mean))).PosSemidef := by
  refine (C138_difference someLib sampleHist sampleHist_valid (fun _ => 3) 0 PosSemidef.one (c := 9) (by norm_num) ?_).2
  have : (((9 : ℝ) : ℝ) • (1 : Matrix (Fin 1) (Fin 1) ℝ) - vecMulVec ((fun _ => 3) - 0) (star ((fun _ => 3) - 0))) = 0 := by
    ext a b
    rw [Subsingleton.elim a 0, Subsingleton.elim b 0]
    simp [vecMulVec_apply]
    norm_num
  rw [show ((9 : ℝ) : ℝ) = RCLike.ofReal 9 from rfl] at this
  exact this ▸ PosSemidef.zero

end OpenKalman.Kalman
