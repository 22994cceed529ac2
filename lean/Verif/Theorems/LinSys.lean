import Verif.Proof.LinSys
import Mathlib.Probability.Distributions.Gaussian.IsGaussianProcess.Independence
import Mathlib.Probability.ConditionalExpectation
import Mathlib.MeasureTheory.Constructions.Pi

/-!
# C131, C132: the Kalman filter as an estimator

The filter is that of `Model/Kalman.lean`, run through all moves and measurements of a system (`System.hist` of `Proof/LinSys.lean`: one `predict` for each move, one `update`
for each measurement).
-/

set_option linter.unusedSectionVars false

namespace OpenKalman.LinSys
open MeasureTheory ProbabilityTheory Matrix OpenKalman.Kalman

variable {Ω : Type} [MeasurableSpace Ω] {P : Measure Ω} [IsProbabilityMeasure P] {n l : ℕ}

/-! ## C131 -/

theorem inv_start {x : Ω → Fin n → ℝ} (hx : Square P x) (p : GaussChol ℝ (Fin n)) (hm : p.mean = meanVec P x) (hc : p.fac * p.facᵀ = covMat P x x) :
    Inv P ∅ x (fun _ => p.mean) p.toGauss.cov := by
  refine ⟨hx, fun f hf => hf.elim, fun i => const_mem _ _, ?_, ?_, fun f hf => hf.elim⟩
  · rw [meanVec_sub hx (Square.const _), meanVec_const, hm, sub_self]
  · rw [covMat_sub_left hx (Square.const _) (hx.sub (Square.const _)), covMat_const_left, covMat_sub_right hx (Square.const _) hx, covMat_const_right, sub_zero,
      sub_zero, ← hc]
    rfl

theorem free_start {x : Ω → Fin n → ℝ} {s : System Ω n l} (hw : ∀ w ∈ s.vectors x, Square P w.2) (hu : (s.vectors x).Pairwise (Uncorrelated P)) :
    ∀ w ∈ s.noises, Free P ∅ x w.2 := by
  intro w hw'
  refine ⟨hw w (List.mem_cons_of_mem _ hw'), ?_, fun f hf => hf.elim⟩
  rw [covMat_swap, (List.pairwise_cons.1 hu).1 w hw', transpose_zero]

/-- The histories are valid. -/
theorem hist_valid {n l : ℕ} (s : System Ω n l) : ∀ {x : Ω → Fin n → ℝ}, s.Sound P → (∀ w ∈ s.noises, Square P w.2) → s.noises.Pairwise (Uncorrelated P) → ∀ ω,
    (s.hist P x ω).Valid := by
  induction s with
  | done => exact fun _ _ _ _ => trivial
  | @move n k l A ns s ih =>
    intro x hs hw hu ω
    exact ⟨trivial, ih hs.2 (fun w h => hw w (List.mem_append_right _ h)) (List.pairwise_append.1 hu).2.1 ω⟩
  | @measure n l k H ns s ih =>
    intro x hs hw hu ω
    obtain ⟨hs1, hR, hs2⟩ := hs
    obtain ⟨hp1, hp2, hp3⟩ := List.pairwise_append.1 hu
    refine ⟨?_, ih hs2 (fun w h => hw w (List.mem_append_right _ h)) hp2 ω⟩
    have := (told_total (fun v hv => hw ⟨k, v.value⟩ (List.mem_append_left _ (List.mem_map_of_mem hv))) (List.pairwise_map.1 hp1) hs1 H).1
    show (noiseTotal _ _).PosDef
    rw [this]
    exact hR

/-- **C131** (the error): whatever the laws of the initial state and of the noises are, as long as they are square integrable and not correlated with each other, the estimate of the
filter after any moves and measurements is an affine function of all the numbers measured; its error has expectation zero, the covariance that the filter reports, which does not
depend on the measurements, and no correlation with anything measured.  The same holds in square-root form. -/
theorem C131_error (lib : Lib ℝ) (s : System Ω n l) (x : Ω → Fin n → ℝ) (p : GaussChol ℝ (Fin n)) (hw : ∀ w ∈ s.vectors x, Square P w.2)
    (hu : (s.vectors x).Pairwise (Uncorrelated P)) (hs : s.Sound P) (hm : p.mean = meanVec P x) (hc : p.fac * p.facᵀ = covMat P x x) :
    ∃ (m : Ω → Fin l → ℝ) (C : Matrix (Fin l) (Fin l) ℝ),
      (∀ ω, (s.hist P x ω).run lib p.toGauss = ⟨m ω, C⟩ ∧ ((s.hist P x ω).runChol lib p).toGauss = ⟨m ω, C⟩) ∧
      (∀ i, (fun ω => m ω i) ∈ affine (s.measured x)) ∧
      meanVec P (fun ω => s.final x ω - m ω) = 0 ∧
      covMat P (fun ω => s.final x ω - m ω) (fun ω => s.final x ω - m ω) = C ∧
      ∀ f ∈ s.measured x, ∀ i, cov[fun ω => (s.final x ω - m ω) i, f; P] = 0 := by
  obtain ⟨m, C, e, h⟩ := filter_inv lib s (inv_start (hw ⟨n, x⟩ List.mem_cons_self) p hm hc) hs (free_start hw hu) (List.pairwise_cons.1 hu).2
  rw [Set.empty_union] at h
  refine ⟨m, C, fun ω => ⟨e ω, ?_⟩, h.known, h.mean, h.cov, h.orth⟩
  rw [C50_square_root lib _ (hist_valid s hs (fun w h' => hw w (List.mem_cons_of_mem _ h')) (List.pairwise_cons.1 hu).2 ω)]
  exact e ω

/-- **C131** (the best): no affine function of the measurements has a smaller error, and only the estimate itself has the same. -/
theorem C131_best (lib : Lib ℝ) (s : System Ω n l) (x : Ω → Fin n → ℝ) (p : GaussChol ℝ (Fin n)) (hw : ∀ w ∈ s.vectors x, Square P w.2)
    (hu : (s.vectors x).Pairwise (Uncorrelated P)) (hs : s.Sound P) (hm : p.mean = meanVec P x) (hc : p.fac * p.facᵀ = covMat P x x)
    (g : Ω → Fin l → ℝ) (hg : ∀ i, (fun ω => g ω i) ∈ affine (s.measured x)) :
    (∀ ω, (squares P (fun ω => s.final x ω - g ω) - ((s.hist P x ω).run lib p.toGauss).cov).PosSemidef) ∧
    ((∀ ω, squares P (fun ω => s.final x ω - g ω) = ((s.hist P x ω).run lib p.toGauss).cov) → ∀ᵐ ω ∂P, g ω = ((s.hist P x ω).run lib p.toGauss).mean) := by
  obtain ⟨m, C, e, h⟩ := filter_inv lib s (inv_start (hw ⟨n, x⟩ List.mem_cons_self) p hm hc) hs (free_start hw hu) (List.pairwise_cons.1 hu).2
  rw [Set.empty_union] at h
  have e' : ∀ ω, (s.hist P x ω).run lib p.toGauss = ⟨m ω, C⟩ := e
  have hgs : Square P g := fun i => affine_square h.zs (hg i)
  have hd : ∀ i, (fun ω => (m ω - g ω) i) ∈ affine (s.measured x) := fun i => (affine _).sub_mem (h.known i) (hg i)
  have hds : Square P fun ω => m ω - g ω := h.ms.sub hgs
  have hE := h.es
  have hmean : ∀ i, ∫ ω, (s.final x ω - m ω) i ∂P = 0 := fun i => congrFun h.mean i
  -- the error is that of the filter and the difference of the estimates
  have key : squares P (fun ω => s.final x ω - g ω) = C + squares P (fun ω => m ω - g ω) := by
    ext i j
    have hprod : ∀ {X Y : Ω → ℝ}, MemLp X 2 P → MemLp Y 2 P → Integrable (fun ω => X ω * Y ω) P := fun hX hY => hX.integrable_mul hY
    have hcij : ∫ ω, (s.final x ω - m ω) i * (s.final x ω - m ω) j ∂P = C i j := by
      have := congrFun (congrFun h.cov i) j
      rw [← this]
      show _ = cov[_, _; P]
      rw [covariance_eq_sub (hE i) (hE j), hmean i, zero_mul, sub_zero]
      rfl
    have hx0 : ∀ i j, ∫ ω, (s.final x ω - m ω) i * (m ω - g ω) j ∂P = 0 := by
      intro i j
      have := congrFun (congrFun (h.orth' hd) i) j
      have h2 := covariance_eq_sub (hE i) (hds j)
      rw [hmean i, zero_mul, sub_zero] at h2
      exact h2.symm.trans this
    show ∫ ω, (s.final x ω - g ω) i * (s.final x ω - g ω) j ∂P = C i j + ∫ ω, (m ω - g ω) i * (m ω - g ω) j ∂P
    have expand : (fun ω => (s.final x ω - g ω) i * (s.final x ω - g ω) j) = fun ω => (s.final x ω - m ω) i * (s.final x ω - m ω) j +
        ((s.final x ω - m ω) i * (m ω - g ω) j + ((s.final x ω - m ω) j * (m ω - g ω) i + (m ω - g ω) i * (m ω - g ω) j)) := by
      funext ω
      simp only [Pi.sub_apply]
      ring
    have i1 : Integrable (fun ω => (s.final x ω - m ω) i * (s.final x ω - m ω) j) P := hprod (hE i) (hE j)
    have i2 : Integrable (fun ω => (s.final x ω - m ω) i * (m ω - g ω) j) P := hprod (hE i) (hds j)
    have i3 : Integrable (fun ω => (s.final x ω - m ω) j * (m ω - g ω) i) P := hprod (hE j) (hds i)
    have i4 : Integrable (fun ω => (m ω - g ω) i * (m ω - g ω) j) P := hprod (hds i) (hds j)
    have i5 : Integrable (fun ω => (s.final x ω - m ω) j * (m ω - g ω) i + (m ω - g ω) i * (m ω - g ω) j) P := i3.add i4
    have i6 : Integrable (fun ω => (s.final x ω - m ω) i * (m ω - g ω) j + ((s.final x ω - m ω) j * (m ω - g ω) i + (m ω - g ω) i * (m ω - g ω) j)) P := i2.add i5
    rw [expand, integral_add i1 i6, integral_add i2 i5, integral_add i3 i4, hcij, hx0 i j, hx0 j i]
    ring
  have hsq : squares P (fun ω => m ω - g ω) = covMat P (fun ω => m ω - g ω) (fun ω => m ω - g ω) + vecMulVec (meanVec P fun ω => m ω - g ω) (meanVec P fun ω => m ω - g ω) := by
    ext i j
    show ∫ ω, (m ω - g ω) i * (m ω - g ω) j ∂P = cov[_, _; P] + _
    rw [covariance_eq_sub (hds i) (hds j)]
    show _ = (∫ ω, (m ω - g ω) i * (m ω - g ω) j ∂P - _) + _
    simp only [vecMulVec_apply, meanVec]
    ring
  refine ⟨fun ω => ?_, fun heq => ?_⟩
  · rw [e' ω, key]
    show (C + _ - C).PosSemidef
    rw [add_sub_cancel_left, hsq]
    refine (covMat_posSemidef hds).add ?_
    have := posSemidef_vecMulVec_self_star (meanVec P fun ω => m ω - g ω)
    rwa [star_trivial] at this
  · have hzero : squares P (fun ω => m ω - g ω) = 0 := by
      obtain ⟨ω⟩ : Nonempty Ω := nonempty_of_isProbabilityMeasure P
      have := heq ω
      rw [e' ω, key] at this
      exact left_eq_add.1 this.symm
    have hae : ∀ i, ∀ᵐ ω ∂P, (m ω - g ω) i = 0 := by
      intro i
      have h1 : ∫ ω, (m ω - g ω) i * (m ω - g ω) i ∂P = 0 := congrFun (congrFun hzero i) i
      have h2 := (integral_eq_zero_iff_of_nonneg (fun ω => mul_self_nonneg ((m ω - g ω) i)) ((hds i).integrable_mul (hds i))).1 h1
      filter_upwards [h2] with ω hω
      exact mul_self_eq_zero.1 hω
    filter_upwards [ae_all_iff.2 hae] with ω hω
    rw [e' ω]
    funext i
    have := hω i
    simp only [Pi.sub_apply] at this
    show g ω i = m ω i
    linarith

/-! ## C132 -/

/-- With jointly Gaussian variables, constants are jointly Gaussian too. -/
theorem gaussian_option {B : Set (Ω → ℝ)} (h : IsGaussianProcess (fun f : B => f.1) P) :
    IsGaussianProcess (fun o : Option B => o.elim (fun _ => (1 : ℝ)) fun f => f.1) P := by
  classical
  constructor
  intro I
  have hJ := h.hasGaussianLaw I.eraseNone
  have h1 : HasGaussianLaw (fun _ : Ω => (1 : ℝ)) P := by
    constructor
    rw [Measure.map_const, measure_univ, one_smul]
    infer_instance
  have h2 := (indepFun_const_left (μ := P) (1 : ℝ) (fun ω => I.eraseNone.restrict fun f : B => f.1 ω)).hasGaussianLaw h1 hJ
  let L : ℝ × (I.eraseNone → ℝ) →L[ℝ] (I → ℝ) := ContinuousLinearMap.pi fun o =>
    match o with
    | ⟨none, _⟩ => ContinuousLinearMap.fst ℝ ℝ (I.eraseNone → ℝ)
    | ⟨some f, hf⟩ => (ContinuousLinearMap.proj (R := ℝ) (φ := fun _ : I.eraseNone => ℝ) ⟨f, Finset.mem_eraseNone.2 hf⟩).comp (ContinuousLinearMap.snd ℝ ℝ (I.eraseNone → ℝ))
  have h3 := h2.map L
  have e : (fun ω => I.restrict fun o : Option B => (o.elim (fun _ => (1 : ℝ)) fun f => f.1 : Ω → ℝ) ω) = L ∘ fun ω => (1, I.eraseNone.restrict fun f : B => f.1 ω) := by
    funext ω o
    obtain ⟨o, ho⟩ := o
    cases o with
    | none => rfl
    | some f => rfl
  rw [← e] at h3
  exact h3

/-- So are affine functions of them. -/
theorem gaussian_affine {B : Set (Ω → ℝ)} (h : IsGaussianProcess (fun f : B => f.1) P) : IsGaussianProcess (fun f : affine B => f.1) P := by
  classical
  refine (gaussian_option h).of_isGaussianProcess fun g => ?_
  have hr : ({fun _ => 1} ∪ B : Set (Ω → ℝ)) = Set.range fun o : Option B => o.elim (fun _ => (1 : ℝ)) fun f => f.1 := by
    ext f
    constructor
    · rintro (rfl | hf)
      · exact ⟨none, rfl⟩
      · exact ⟨some ⟨f, hf⟩, rfl⟩
    · rintro ⟨o, rfl⟩
      cases o with
      | none => exact Or.inl rfl
      | some f => exact Or.inr f.2
  have hg : g.1 ∈ Submodule.span ℝ (Set.range fun o : Option B => o.elim (fun _ => (1 : ℝ)) fun f => f.1) := by
    rw [← hr]
    exact g.2
  obtain ⟨c, hc⟩ := Finsupp.mem_span_range_iff_exists_finsupp.1 hg
  refine ⟨c.support, ∑ i : c.support, c i • ContinuousLinearMap.proj (R := ℝ) (φ := fun _ : c.support => ℝ) i, fun ω => ?_⟩
  rw [← hc, Finsupp.sum, Finset.sum_apply, ← Finset.sum_attach]
  simp [ContinuousLinearMap.sum_apply, Finset.restrict]

theorem affine_le {Z B : Set (Ω → ℝ)} (h : ∀ f ∈ Z, f ∈ affine B) : affine Z ≤ affine B := by
  refine Submodule.span_le.2 ?_
  rintro f (rfl | hf)
  · exact one_mem B
  · exact h f hf

theorem moved_mem {B : Set (Ω → ℝ)} {k : ℕ} {x : Ω → Fin n → ℝ} (hx : ∀ i, (fun ω => x ω i) ∈ affine B) {ns : List (Noise Ω k)}
    (h : ∀ v ∈ ns, ∀ i, (fun ω => v.value ω i) ∈ affine B) (A : Matrix (Fin k) (Fin n) ℝ) (i : Fin k) : (fun ω => moved A ns x ω i) ∈ affine B := by
  have hs : ∀ i, (fun ω => noiseSum ns ω i) ∈ affine B := by
    induction ns with
    | nil => exact fun i => (affine B).zero_mem
    | cons v ns ih => exact fun i => (affine B).add_mem (mulVec_mem (h v List.mem_cons_self) v.gain i) (ih (fun w hw => h w (List.mem_cons_of_mem _ hw)) i)
  exact (affine B).add_mem (mulVec_mem hx A i) (hs i)

/-- All that is measured, and the state in the end, are affine functions of the initial state and the noises. -/
theorem all_mem {B : Set (Ω → ℝ)} {n l : ℕ} (s : System Ω n l) : ∀ {x : Ω → Fin n → ℝ}, (∀ i, (fun ω => x ω i) ∈ affine B) →
    (∀ w ∈ s.noises, ∀ i, (fun ω => w.2 ω i) ∈ affine B) → (∀ i, (fun ω => s.final x ω i) ∈ affine B) ∧ ∀ f ∈ s.measured x, f ∈ affine B := by
  induction s with
  | done => exact fun hx _ => ⟨hx, fun f hf => hf.elim⟩
  | @move n k l A ns s ih =>
    intro x hx hw
    exact ih (moved_mem hx (fun v hv => hw ⟨k, v.value⟩ (List.mem_append_left _ (List.mem_map_of_mem hv))) A) fun w h => hw w (List.mem_append_right _ h)
  | @measure n l k H ns s ih =>
    intro x hx hw
    obtain ⟨h1, h2⟩ := ih hx fun w h => hw w (List.mem_append_right _ h)
    refine ⟨h1, ?_⟩
    rintro f (⟨j, rfl⟩ | hf)
    · exact moved_mem hx (fun v hv => hw ⟨k, v.value⟩ (List.mem_append_left _ (List.mem_map_of_mem hv))) H j
    · exact h2 f hf

theorem affine_measurable {B : Set (Ω → ℝ)} {mB : MeasurableSpace Ω} (h : ∀ f ∈ B, Measurable[mB] f) {g : Ω → ℝ} (hg : g ∈ affine B) : Measurable[mB] g := by
  induction hg using Submodule.span_induction with
  | mem f hf =>
    rcases hf with rfl | hf
    · exact measurable_const
    · exact h f hf
  | zero => exact measurable_const
  | add f g _ _ hf hg => exact hf.add hg
  | smul c f _ hf => exact hf.const_mul c

/-- What is known from the measurements. -/
def knowledge (Z : Set (Ω → ℝ)) : MeasurableSpace Ω := MeasurableSpace.comap (fun ω (f : Z) => f.1 ω) inferInstance

/-- **C132**: if the initial state and the noises are jointly Gaussian, then after any moves and measurements the state has, given all the measurements, the normal distribution with
the mean and covariance that the filter reports: the error does not depend on the measurements, is normal with this covariance, and the mean is the conditional expectation of
the state. -/
theorem C132_conditional (lib : Lib ℝ) (s : System Ω n l) (x : Ω → Fin n → ℝ) (p : GaussChol ℝ (Fin n)) (hG : IsGaussianProcess (fun f : s.sources x => f.1) P)
    (hms : ∀ f ∈ s.sources x, Measurable f) (hu : (s.vectors x).Pairwise (Uncorrelated P)) (hs : s.Sound P) (hm : p.mean = meanVec P x)
    (hc : p.fac * p.facᵀ = covMat P x x) :
    ∃ (m : Ω → Fin l → ℝ) (C : Matrix (Fin l) (Fin l) ℝ),
      (∀ ω, (s.hist P x ω).run lib p.toGauss = ⟨m ω, C⟩ ∧ ((s.hist P x ω).runChol lib p).toGauss = ⟨m ω, C⟩) ∧
      IndepFun (fun ω i => (s.final x ω - m ω) i) (fun ω (f : s.measured x) => f.1 ω) P ∧
      (∀ a, P.map (fun ω => a ⬝ᵥ (s.final x ω - m ω)) = gaussianReal 0 (a ⬝ᵥ C *ᵥ a).toNNReal) ∧
      ∀ i, P[fun ω => s.final x ω i | knowledge (s.measured x)] =ᵐ[P] fun ω => m ω i := by
  have hsrc : ∀ w ∈ s.vectors x, ∀ i, (fun ω => w.2 ω i) ∈ s.sources x := fun w hw i => ⟨w, hw, i, rfl⟩
  have hw : ∀ w ∈ s.vectors x, Square P w.2 := fun w hw i => (hG.hasGaussianLaw_eval ⟨_, hsrc w hw i⟩).memLp_two
  obtain ⟨m, C, e, hk, h0, hC, ho⟩ := C131_error lib s x p hw hu hs hm hc
  have hA := gaussian_affine hG
  obtain ⟨hf, hz⟩ := all_mem (B := s.sources x) s (fun i => mem_affine (hsrc ⟨n, x⟩ List.mem_cons_self i)) fun w hw i => mem_affine (hsrc w (List.mem_cons_of_mem _ hw) i)
  have hmA : ∀ i, (fun ω => m ω i) ∈ affine (s.sources x) := fun i => affine_le hz (hk i)
  have heA : ∀ i, (fun ω => (s.final x ω - m ω) i) ∈ affine (s.sources x) := fun i => (affine _).sub_mem (hf i) (hmA i)
  have hmeas : ∀ g ∈ affine (s.sources x), Measurable g := fun g hg => affine_measurable hms hg
  have hsqA : ∀ g ∈ affine (s.sources x), MemLp g 2 P := fun g hg => (hA.hasGaussianLaw_eval ⟨g, hg⟩).memLp_two
  have hind : IndepFun (fun ω i => (s.final x ω - m ω) i) (fun ω (f : s.measured x) => f.1 ω) P := by
    refine IsGaussianProcess.indepFun_of_covariance_eq_zero (X := fun i ω => (s.final x ω - m ω) i) (Y := fun (f : s.measured x) ω => f.1 ω) ?_ ?_ ?_ ?_
    · have := hA.comp_right (Sum.elim (fun i => (⟨_, heA i⟩ : affine (s.sources x))) fun f : s.measured x => ⟨f.1, hz f.1 f.2⟩)
      have e : (Sum.elim (fun i ω => (s.final x ω - m ω) i) fun (f : s.measured x) ω => f.1 ω) =
          (fun f : affine (s.sources x) => f.1) ∘ Sum.elim (fun i => (⟨_, heA i⟩ : affine (s.sources x))) fun f : s.measured x => ⟨f.1, hz f.1 f.2⟩ := by
        funext j
        cases j <;> rfl
      rw [e]
      exact this
    · exact fun i => (hmeas _ (heA i)).aemeasurable
    · exact fun f => (hmeas _ (hz f.1 f.2)).aemeasurable
    · exact fun i f => ho f.1 f.2 i
  have hle : knowledge (s.measured x) ≤ ‹MeasurableSpace Ω› := by
    rw [knowledge, ← measurable_iff_comap_le]
    exact measurable_pi_lambda _ fun f => hmeas _ (hz f.1 f.2)
  refine ⟨m, C, e, hind, fun a => ?_, fun i => ?_⟩
  · have hE : Square P fun ω => s.final x ω - m ω := fun i => hsqA _ (heA i)
    let A : Matrix (Fin 1) (Fin l) ℝ := Matrix.of fun _ j => a j
    have ha : (fun ω => a ⬝ᵥ (s.final x ω - m ω)) = fun ω => (A *ᵥ (s.final x ω - m ω)) 0 := rfl
    have hmem : (fun ω => a ⬝ᵥ (s.final x ω - m ω)) ∈ affine (s.sources x) := by
      rw [ha]
      exact mulVec_mem heA A 0
    rw [(hA.hasGaussianLaw_eval ⟨_, hmem⟩).map_eq_gaussianReal]
    congr 1
    · have := congrFun (meanVec_mulVec hE A) 0
      rw [h0, Matrix.mulVec_zero] at this
      exact this
    · congr 1
      show Var[fun ω => a ⬝ᵥ (s.final x ω - m ω); P] = _
      rw [← covariance_self (hmeas _ hmem).aemeasurable]
      have h1 := covMat_mulVec_left hE (hE.mulVec A) A
      rw [covMat_mulVec_right hE hE A, hC] at h1
      have h2 := congrFun (congrFun h1 0) 0
      refine h2.trans ?_
      simp only [Matrix.mul_apply, dotProduct, Matrix.mulVec, A, Matrix.of_apply, Matrix.transpose_apply]
  · have hmk : Measurable[knowledge (s.measured x)] fun ω => m ω i := by
      refine affine_measurable (mB := knowledge (s.measured x)) (fun f hf => ?_) (hk i)
      have h1 : Measurable[knowledge (s.measured x)] fun ω (f : s.measured x) => f.1 ω := comap_measurable _
      exact (measurable_pi_apply (⟨f, hf⟩ : s.measured x)).comp h1
    have hsum : (fun ω => s.final x ω i) = (fun ω => m ω i) + fun ω => (s.final x ω - m ω) i := by
      funext ω
      simp
    have im : Integrable (fun ω => m ω i) P := (hsqA _ (hmA i)).integrable one_le_two
    have ie : Integrable (fun ω => (s.final x ω - m ω) i) P := (hsqA _ (heA i)).integrable one_le_two
    have h1 := condExp_add im ie (knowledge (s.measured x))
    rw [← hsum] at h1
    have h2 : P[fun ω => m ω i | knowledge (s.measured x)] = fun ω => m ω i := condExp_of_stronglyMeasurable hle hmk.stronglyMeasurable im
    have hmi : Measurable fun ω i => (s.final x ω - m ω) i := measurable_pi_lambda _ fun i => hmeas _ (heA i)
    have h3 : P[fun ω => (s.final x ω - m ω) i | knowledge (s.measured x)] =ᵐ[P] fun _ => P[fun ω => (s.final x ω - m ω) i] := by
      refine condExp_indep_eq (m₁ := MeasurableSpace.comap (fun ω i => (s.final x ω - m ω) i) inferInstance) hmi.comap_le hle ?_ hind
      have h4 : Measurable[MeasurableSpace.comap (fun ω i => (s.final x ω - m ω) i) inferInstance] fun ω i => (s.final x ω - m ω) i := comap_measurable _
      exact ((measurable_pi_apply i).comp h4).stronglyMeasurable
    have h5 : P[fun ω => (s.final x ω - m ω) i] = 0 := congrFun h0 i
    filter_upwards [h1, h3] with ω a1 a3
    rw [a1, Pi.add_apply, h2, a3, h5, add_zero]

/-- The hypotheses of `C132_conditional` hold if the initial state and the noises are independent and each of them is Gaussian. -/
theorem C132_independent (s : System Ω n l) (x : Ω → Fin n → ℝ) (hi : iIndepFun (fun (i : Fin (s.vectors x).length) ω => ((s.vectors x).get i).2 ω) P)
    (hg : ∀ w ∈ s.vectors x, HasGaussianLaw w.2 P) :
    IsGaussianProcess (fun f : s.sources x => f.1) P ∧ (s.vectors x).Pairwise (Uncorrelated P) := by
  have hL := iIndepFun.hasGaussianLaw (fun i => hg _ (List.get_mem (s.vectors x) i)) hi
  constructor
  · constructor
    intro I
    have hex : ∀ f : I, ∃ (i : Fin (s.vectors x).length) (j : Fin ((s.vectors x).get i).1), f.1.1 = fun ω => ((s.vectors x).get i).2 ω j := by
      rintro ⟨⟨f, w, hw, j, rfl⟩, hf⟩
      obtain ⟨i, rfl⟩ := List.get_of_mem hw
      exact ⟨i, j, rfl⟩
    choose i j hij using hex
    have := hL.map (ContinuousLinearMap.pi fun f : I => (ContinuousLinearMap.proj (R := ℝ) (φ := fun _ => ℝ) (j f)).comp
      (ContinuousLinearMap.proj (R := ℝ) (φ := fun i => Fin ((s.vectors x).get i).1 → ℝ) (i f)))
    have e : (fun ω => I.restrict fun f : s.sources x => f.1 ω) = fun ω (f : I) => ((s.vectors x).get (i f)).2 ω (j f) := by
      funext ω f
      exact congrFun (hij f) ω
    rw [e]
    exact this
  · rw [List.pairwise_iff_get]
    intro a b hab
    ext i j
    have h1 := hi.indepFun (Fin.ne_of_lt hab)
    have h2 : IndepFun (fun ω => ((s.vectors x).get a).2 ω i) (fun ω => ((s.vectors x).get b).2 ω j) P := h1.comp (measurable_pi_apply i) (measurable_pi_apply j)
    have hs : ∀ w ∈ s.vectors x, Square P w.2 := fun w hw i => ((hg w hw).map (ContinuousLinearMap.proj (R := ℝ) (φ := fun _ => ℝ) i)).memLp_two
    exact h2.covariance_eq_zero (hs _ (List.get_mem _ a) i) (hs _ (List.get_mem _ b) j)

/-! ### A case

Three independent standard normal numbers: the initial state, the noise of a move that doubles the state, and the noise of a measurement. -/

noncomputable def normals : Measure (Fin 3 → ℝ) := Measure.pi fun _ => gaussianReal 0 1

instance : IsProbabilityMeasure normals := by
  unfold normals
  infer_instance

def caseNoise (i : Fin 3) : Noise (Fin 3 → ℝ) 1 := ⟨1, fun ω _ => ω i, 1⟩

def caseSystem : System (Fin 3 → ℝ) 1 1 := .move !![2] [caseNoise 1] (.measure 1 !![1] [caseNoise 2] .done)

def caseStart : (Fin 3 → ℝ) → Fin 1 → ℝ := fun ω _ => ω 0

theorem case_law (i : Fin 3) : normals.map (fun ω => ω i) = gaussianReal 0 1 := (measurePreserving_eval (fun _ : Fin 3 => gaussianReal 0 1) i).map_eq

theorem case_gaussian (i : Fin 3) : HasGaussianLaw (fun (ω : Fin 3 → ℝ) (_ : Fin 1) => ω i) normals := by
  have h : HasGaussianLaw (fun ω : Fin 3 → ℝ => ω i) normals := by
    constructor
    rw [case_law]
    infer_instance
  exact h.map (ContinuousLinearMap.pi fun _ : Fin 1 => ContinuousLinearMap.id ℝ ℝ)

theorem case_cov (i : Fin 3) : covMat normals (fun ω (_ : Fin 1) => ω i) (fun ω (_ : Fin 1) => ω i) = 1 := by
  ext a b
  rw [Subsingleton.elim a b, one_apply_eq]
  show cov[fun ω : Fin 3 → ℝ => ω i, fun ω => ω i; normals] = 1
  rw [covariance_self (measurable_pi_apply i).aemeasurable]
  have h := variance_map (μ := normals) (Y := fun ω : Fin 3 → ℝ => ω i) (X := id) aemeasurable_id (measurable_pi_apply i).aemeasurable
  rw [case_law, variance_id_gaussianReal] at h
  exact h.symm

theorem case_mean (i : Fin 3) : meanVec normals (fun ω (_ : Fin 1) => ω i) = 0 := by
  funext a
  show ∫ ω : Fin 3 → ℝ, ω i ∂normals = 0
  have h := integral_map (μ := normals) (φ := fun ω : Fin 3 → ℝ => ω i) (measurable_pi_apply i).aemeasurable (f := id) aestronglyMeasurable_id
  rw [case_law] at h
  refine h.symm.trans ?_
  exact integral_id_gaussianReal

theorem case_sound : caseSystem.Sound normals := by
  have h : ∀ i, (caseNoise i).factor * (caseNoise i).factorᵀ = covMat normals (caseNoise i).value (caseNoise i).value := by
    intro i
    refine Eq.trans ?_ (case_cov i).symm
    simp [caseNoise]
  refine ⟨by simpa using h 1, by simpa using h 2, ?_, trivial⟩
  have : noiseSum [caseNoise 2] = fun ω (_ : Fin 1) => ω 2 := by
    funext ω a
    simp [noiseSum, caseNoise]
  rw [this, case_cov]
  exact PosDef.one

theorem case_hyp : IsGaussianProcess (fun f : caseSystem.sources caseStart => f.1) normals ∧ (caseSystem.vectors caseStart).Pairwise (Uncorrelated normals) := by
  refine C132_independent caseSystem caseStart ?_ ?_
  · have h := iIndepFun_pi (μ := fun _ : Fin 3 => gaussianReal 0 1) (X := fun _ (t : ℝ) (_ : Fin 1) => t) fun i => (measurable_pi_lambda _ fun _ => measurable_id).aemeasurable
    have h' : iIndepFun (fun (i : Fin (caseSystem.vectors caseStart).length) (ω : Fin 3 → ℝ) (_ : Fin 1) => ω i) normals := h
    have h2 := h'.comp (fun (i : Fin (caseSystem.vectors caseStart).length) (v : Fin 1 → ℝ) (_ : Fin ((caseSystem.vectors caseStart).get i).1) => v 0) fun i =>
      measurable_pi_lambda _ fun _ => measurable_pi_apply 0
    have e : (fun (i : Fin (caseSystem.vectors caseStart).length) ω => ((caseSystem.vectors caseStart).get i).2 ω) =
        fun i (ω : Fin 3 → ℝ) (_ : Fin ((caseSystem.vectors caseStart).get i).1) => ω i := by
      funext i
      match i with
      | ⟨0, _⟩ => rfl
      | ⟨1, _⟩ => rfl
      | ⟨2, _⟩ => rfl
    rw [e]
    exact h2
  · intro w hw
    simp only [caseSystem, System.vectors, System.noises, List.map_cons, List.map_nil, List.append_nil, List.mem_cons, List.mem_append, List.not_mem_nil, or_false] at hw
    rcases hw with rfl | rfl | rfl
    · exact case_gaussian 0
    · exact case_gaussian 1
    · exact case_gaussian 2

/-- The hypotheses of `C131_error`, `C131_best` and `C132_conditional` hold, so their conclusions do. -/
example (lib : Lib ℝ) : ∃ (m : (Fin 3 → ℝ) → Fin 1 → ℝ) (C : Matrix (Fin 1) (Fin 1) ℝ),
    (∀ ω, (caseSystem.hist normals caseStart ω).run lib (GaussChol.toGauss ⟨0, 1⟩) = ⟨m ω, C⟩) ∧
    normals[fun ω => 2 * ω 0 + ω 1 | knowledge {fun ω => 2 * ω 0 + ω 1 + ω 2}] =ᵐ[normals] fun ω => m ω 0 := by
  obtain ⟨m, C, e, -, -, h⟩ := C132_conditional (P := normals) lib caseSystem caseStart ⟨0, 1⟩ case_hyp.1 (by
    rintro f ⟨w, hw, i, rfl⟩
    simp only [caseSystem, System.vectors, System.noises, List.map_cons, List.map_nil, List.append_nil, List.mem_cons, List.mem_append, List.not_mem_nil, or_false] at hw
    rcases hw with rfl | rfl | rfl <;> exact measurable_pi_apply _) case_hyp.2 case_sound (case_mean 0).symm (by
    refine Eq.trans ?_ (case_cov 0).symm
    simp)
  refine ⟨m, C, fun ω => (e ω).1, ?_⟩
  have h0 := h 0
  have e1 : (fun ω => caseSystem.final caseStart ω 0) = fun ω => 2 * ω 0 + ω 1 := by
    funext ω
    simp [caseSystem, System.final, moved, noiseSum, caseNoise, caseStart, Matrix.mulVec, dotProduct]
  have e2 : caseSystem.measured caseStart = {fun ω => 2 * ω 0 + ω 1 + ω 2} := by
    ext f
    simp [caseSystem, System.measured, moved, noiseSum, caseNoise, caseStart, Matrix.mulVec, dotProduct]
  rw [e1, e2] at h0
  exact h0

end OpenKalman.LinSys
