import Verif.Proof.GaussianDensity
import Verif.Theorems.CovBlocks

/-!
# C60: arithmetic of Gaussian distributions, C61: log-likelihood and entropy, C68: sampling

`d.Describes wrap μ X` (Spec/Gaussian.lean): the random vector `X` is Gaussian with the covariance that `d` stands for, and the mean of `d` is the wrapped mean of `X`.
The operands describe their vectors exactly (`wrap = id`); the result is wrapped by `Mean`, whatever that does.
-/

set_option linter.unusedSectionVars false

namespace OpenKalman.Gaussian
open MeasureTheory ProbabilityTheory Matrix OpenKalman.CovArith

variable {Ω : Type*} [MeasurableSpace Ω] {μ : Measure Ω} [IsProbabilityMeasure μ] {n k m : ℕ} {lib : Lib ℝ} {wrap : (Fin n → ℝ) → Fin n → ℝ}

/-- C60, `+`: the sum of two distributions exists, is consistent, and describes the sum of independent vectors that they describe. -/
theorem C60_sum (ok : lib.Ok) {d e : Dist n} (hd : d.Valid) (he : e.Valid) {X Y : Ω → Vec n} (hX : d.Describes id μ X) (hY : e.Describes id μ Y) (hi : X ⟂ᵢ[μ] Y) :
    ∃ r, d.add lib wrap e = some r ∧ r.Valid ∧ r.Describes wrap μ fun ω => X ω + Y ω := by
  obtain ⟨a, P, lX, ea, hP⟩ := hX
  obtain ⟨b, Q, lY, eb, hQ⟩ := hY
  obtain ⟨r, hr, hr1, hr2⟩ := add_kind lib hd.2 he.2
  have hs := add_sound ok (a := .cov d.cov) (b := .cov e.cov) hd.1 he.1 (definite_of_not_root hd.2.1) (definite_of_not_root he.2.1) hP hQ
  rw [hr] at hs
  refine ⟨⟨wrap (d.mean + e.mean), r⟩, ?_, ⟨hs.1, hr1, hr2⟩, a + b, P + Q, law_add lX lY hi, ?_, hs.2.1⟩
  · unfold Dist.add
    rw [hr, make_cov hr1]
  · show wrap (d.mean + e.mean) = _
    rw [ea, eb]; rfl

/-- C60, a matrix times a distribution describes the linear image. -/
theorem C60_matrix (ok : lib.Ok) {wrap : (Fin k → ℝ) → Fin k → ℝ} {d : Dist n} (hd : d.Valid) {X : Ω → Vec n} (hX : d.Describes id μ X) (A : Matrix (Fin k) (Fin n) ℝ) :
    ∃ r, d.matMul lib wrap A = some r ∧ r.Valid ∧ r.Describes wrap μ fun ω => act A (X ω) := by
  obtain ⟨a, P, lX, ea, hP⟩ := hX
  have hs := scaleMat_cov ok hd.1 hd.2.1 hP A
  refine ⟨⟨wrap (A *ᵥ d.mean), scaleMat lib d.cov A⟩, make_cov hs.2.1, ⟨hs.1, hs.2.1, scaleMat_kind A⟩, A *ᵥ a, A * P * Aᵀ, law_act lX A, ?_, ?_⟩
  · show wrap (A *ᵥ d.mean) = _
    rw [ea]; rfl
  · have := hs.2.2
    rwa [conjTranspose_eq_transpose_of_trivial] at this

/-- C60, a distribution times a scalar (of either sign, or zero), and divided by a nonzero scalar. -/
theorem C60_scalar {d : Dist n} (hd : d.Valid) {X : Ω → Vec n} (hX : d.Describes id μ X) (s : ℝ) :
    (∃ r, d.smul wrap s = some r ∧ r.Valid ∧ r.Describes wrap μ fun ω => s • X ω) ∧
      (s ≠ 0 → ∃ r, d.sdiv wrap s = some r ∧ r.Valid ∧ r.Describes wrap μ fun ω => s⁻¹ • X ω) := by
  have key : ∀ (s : ℝ) (v : Fin n → ℝ), (∀ i, v i = s * d.mean i) → ∃ r, make wrap v (.cov (scale d.cov s)) = some r ∧ r.Valid ∧ r.Describes wrap μ fun ω => s • X ω := by
    intro s v hv
    obtain ⟨a, P, lX, ea, hP⟩ := hX
    have hs := scale_cov hd.1 hd.2.1 hP (show star s = s from rfl)
    have hl := law_act lX (s • (1 : Matrix (Fin n) (Fin n) ℝ))
    refine ⟨⟨wrap v, scale d.cov s⟩, make_cov hs.2.1, ⟨hs.1, hs.2.1, scale_kind hd.2.2 s⟩, s • a, (s * s) • P, ?_, ?_, hs.2.2⟩
    · simp_rw [smul_eq_act s]
      have e1 : (s • (1 : Matrix (Fin n) (Fin n) ℝ)) *ᵥ a = s • a := by rw [smul_mulVec, one_mulVec]
      have e2 : (s • (1 : Matrix (Fin n) (Fin n) ℝ)) * P * (s • (1 : Matrix (Fin n) (Fin n) ℝ))ᵀ = (s * s) • P := by
        simp [smul_smul]
      rwa [e1, e2] at hl
    · show wrap v = _
      congr 1
      funext i
      rw [hv, ea]; rfl
  refine ⟨key s _ fun i => rfl, fun h => ?_⟩
  unfold Dist.sdiv
  rw [inverseScale_eq h]
  exact key s⁻¹ _ fun i => by rw [div_eq_mul_inv, mul_comm]

/-- C60, concatenation, where it is well formed (`C63_concatenate_defined`), describes the joined vector of independent vectors. -/
theorem C60_concatenate {wrap : (Fin (n + m) → ℝ) → Fin (n + m) → ℝ} {d : Dist n} {e : Dist m} (hd : d.Valid) (he : e.Valid) {X : Ω → Vec n} {Y : Ω → Vec m} (hX : d.Describes id μ X)
    (hY : e.Describes id μ Y) (hi : X ⟂ᵢ[μ] Y) :
    ((d.cov.concat e.cov).isSome = true → (d.concat wrap e).isSome = true) ∧
      ∀ r, d.concat wrap e = some r → r.Valid ∧ r.Describes wrap μ fun ω => join (X ω) (Y ω) := by
  obtain ⟨a, P, lX, ea, hP⟩ := hX
  obtain ⟨b, Q, lY, eb, hQ⟩ := hY
  have key : ∀ c, d.cov.concat e.cov = some c → d.concat wrap e = some ⟨wrap (Fin.append d.mean e.mean), c⟩ ∧ c.WF ∧ c.root = false ∧ c.Represents (catMat P Q) := by
    intro c hc
    have hs := concat_sound hd.1 he.1 ⟨hd.2.1.trans he.2.1.symm, fun _ _ _ _ => .inr ⟨hd.2.1, fun _ => rfl⟩⟩ hP hQ hc
    refine ⟨?_, hs.1, hs.2.1.trans hd.2.1, hs.2.2⟩
    unfold Dist.concat
    rw [hc]
    exact make_cov (hs.2.1.trans hd.2.1)
  refine ⟨fun h => ?_, fun r hr => ?_⟩
  · obtain ⟨c, hc⟩ := Option.isSome_iff_exists.mp h
    rw [(key c hc).1]; rfl
  · obtain ⟨c, hc, -⟩ := Option.bind_eq_some_iff.mp hr
    obtain ⟨e1, h1, h2, h3⟩ := key c hc
    obtain rfl := Option.some.inj (e1.symm.trans hr)
    refine ⟨⟨h1, h2, concat_kind hc⟩, Fin.append a b, catMat P Q, ?_, ?_, h3⟩
    · have := law_add (law_act lX (inl n m)) (law_act lY (inr n m)) (act_indep hi _ _)
      rw [← append_eq, ← catMat_eq] at this
      simp_rw [← join_eq] at this
      exact this
    · show wrap (Fin.append d.mean e.mean) = _
      rw [ea, eb]; rfl

/-- C60, a part of a split distribution describes the part of the vector.  Missing: Cholesky-form covariances whose factor is not block diagonal (`Splittable`; `C60_split_violated`). -/
theorem C60_split_partial {wrap : (Fin k → ℝ) → Fin k → ℝ} {d : Dist n} (hd : d.Valid) {X : Ω → Vec n} (hX : d.Describes id μ X) (off : ℕ) (h : off + k ≤ n) (hs : Splittable d.cov off k) :
    ∃ r, d.splitPart lib wrap off h = some r ∧ r.Valid ∧ r.Describes wrap μ fun ω => part off k h (X ω) := by
  obtain ⟨a, P, lX, ea, hP⟩ := hX
  have hb := splitBlock_sound (lib := lib) hd.1 hs hP h
  refine ⟨⟨wrap fun i => d.mean ⟨off + i, by omega⟩, d.cov.splitBlock lib off k h⟩, make_cov (hb.2.1.trans hd.2.1), ⟨hb.1, hb.2.1.trans hd.2.1, splitBlock_kind hd.2.2 off k h⟩,
    fun i => a ⟨off + i, by omega⟩, blockOf P off k h, ?_, ?_, hb.2.2⟩
  · have := law_act lX (proj n off k h)
    simp_rw [← part_eq] at this
    have e : proj n off k h *ᵥ a = fun i : Fin k => a ⟨off + i, by omega⟩ := by
      have := part_eq off k h (WithLp.toLp 2 a)
      exact (congrArg WithLp.ofLp this).symm
    rwa [e, ← blockOf_eq] at this
  · show wrap (fun i : Fin k => d.mean ⟨off + i, by omega⟩) = _
    rw [ea]; rfl

/-- C60, `-`: what the code's difference of distributions is.  It undoes `+`: if it exists, and describes a vector `Z`, then the minuend describes `Z + Y` for any independent `Y` that the
subtrahend describes.  Missing: it does not describe the difference of independent vectors (`C60_difference_violated`). -/
theorem C60_difference_partial (ok : lib.Ok) {d e r : Dist n} (hd : d.Valid) (he : e.Valid) {P : Mat ℝ n} (hP : d.cov.Represents P) {Y Z : Ω → Vec n} (hY : e.Describes id μ Y) (h : d.sub lib id e = some r)
    (hZ : r.Describes id μ Z) (hi : Z ⟂ᵢ[μ] Y) : r.Valid ∧ d.Describes id μ fun ω => Z ω + Y ω := by
  obtain ⟨b, Q, lY, eb, hQ⟩ := hY
  obtain ⟨c, R, lZ, ec, hR⟩ := hZ
  obtain ⟨o, ho, hm⟩ := Option.bind_eq_some_iff.mp h
  obtain ⟨s, rfl, hs1, hs2⟩ := sub_kind lib hd.2 he.2 ho
  have hs := sub_sound ok (a := .cov d.cov) (b := .cov e.cov) hd.1 he.1 (definite_of_not_root hd.2.1) (definite_of_not_root he.2.1) hP hQ ho
  rw [make_cov hs1] at hm
  obtain rfl := Option.some.inj hm
  have e1 : R = P - Q := represents_unique hs1 hR hs.2.1
  have e2 : c = d.mean - e.mean := Eq.symm ec
  refine ⟨⟨hs.1, hs1, hs2⟩, c + b, R + Q, law_add lZ lY hi, ?_, ?_⟩
  · show d.mean = c + b
    rw [e2, show b = e.mean from eb.symm, sub_add_cancel]
  · rw [e1, sub_add_cancel]; exact hP

/-- C60 fails for `-`: the difference of distributions never describes the difference of independent vectors, unless the subtrahend is certain (has no covariance). -/
theorem C60_difference_violated (ok : lib.Ok) {d e r : Dist n} (hd : d.Valid) (he : e.Valid) {X Y : Ω → Vec n} (hX : d.Describes id μ X) (hY : e.Describes id μ Y) (hi : X ⟂ᵢ[μ] Y)
    (hne : ¬ e.cov.Represents 0) (h : d.sub lib wrap e = some r) : ¬ r.Describes wrap μ fun ω => X ω - Y ω := by
  obtain ⟨a, P, lX, ea, hP⟩ := hX
  obtain ⟨b, Q, lY, eb, hQ⟩ := hY
  rintro ⟨c, R, lZ, ec, hR⟩
  obtain ⟨o, ho, hm⟩ := Option.bind_eq_some_iff.mp h
  obtain ⟨s, rfl, hs1, hs2⟩ := sub_kind lib hd.2 he.2 ho
  have hs := sub_sound ok (a := .cov d.cov) (b := .cov e.cov) hd.1 he.1 (definite_of_not_root hd.2.1) (definite_of_not_root he.2.1) hP hQ ho
  rw [make_cov hs1] at hm
  obtain rfl := Option.some.inj hm
  have e1 : R = P - Q := represents_unique hs1 hR hs.2.1
  have l1 := law_act lX (1 : Matrix (Fin n) (Fin n) ℝ)
  have l2 := law_act lY ((-1 : ℝ) • (1 : Matrix (Fin n) (Fin n) ℝ))
  have l3 := law_add l1 l2 (act_indep hi _ _)
  have ez : (fun ω => act (1 : Matrix (Fin n) (Fin n) ℝ) (X ω) + act ((-1 : ℝ) • (1 : Matrix (Fin n) (Fin n) ℝ)) (Y ω)) = fun ω => X ω - Y ω := by
    funext ω
    rw [← smul_eq_act]
    simp [act, sub_eq_add_neg]
  rw [ez] at l3
  have e2 := (law_unique lZ l3).2
  rw [e1] at e2
  simp only [Matrix.one_mul, transpose_one, Matrix.mul_one, neg_smul, one_smul, transpose_neg, Matrix.neg_mul, Matrix.mul_neg, neg_neg] at e2
  apply hne
  have : Q = 0 := by
    have h2 : P - Q + (Q - P) = P + Q + (Q - P) := by rw [e2]
    have h3 : (2 : ℝ) • Q = 0 := by
      rw [two_smul]
      have : P + Q + (Q - P) = Q + Q := by abel
      rw [← this, ← h2]; abel
    exact (smul_eq_zero.mp h3).resolve_left (by norm_num)
  rwa [this] at hQ

/-- C60, in-place `+=`, `*=` and `/=` for a covariance in Cholesky form, in every synchronisation state.  Missing in `+=`: a diagonal covariance on the right (`C47_in_place_diagonal_violated`). -/
theorem C60_in_place_partial (ok : lib.Ok) {up : Bool} {o : DistState n} {a : Fin n → ℝ} {P : Mat ℝ n} {X : Ω → Vec n} (lX : Law μ X a P) (hm : o.mean = a) (ho : HoldsCov up P o.sigma) :
    (∀ (e : Dist n) (Y : Ω → Vec n), e.Valid → e.cov.form ≠ .diag → (∀ u, e.cov.form = .herm u → e.cov.nested.PosDef) → Fits up e.cov → e.Describes id μ Y → X ⟂ᵢ[μ] Y →
      ∃ b Q, Law μ (fun ω => X ω + Y ω) b Q ∧ (o.addAssign lib wrap up e).mean = wrap b ∧ HoldsCov up Q (o.addAssign lib wrap up e).sigma) ∧
    (∀ s : ℝ, ∃ b Q, Law μ (fun ω => s • X ω) b Q ∧ (o.mulAssign wrap s).mean = wrap b ∧ HoldsCov up Q (o.mulAssign wrap s).sigma) ∧
    (∀ s : ℝ, s ≠ 0 → ∃ b Q, Law μ (fun ω => s⁻¹ • X ω) b Q ∧ (o.divAssign wrap s).mean = wrap b ∧ HoldsCov up Q (o.divAssign wrap s).sigma) := by
  have hl : ∀ s : ℝ, Law μ (fun ω => s • X ω) (s • a) ((s * s) • P) := by
    intro s
    have hl := law_act lX (s • (1 : Matrix (Fin n) (Fin n) ℝ))
    simp_rw [smul_eq_act s]
    have e1 : (s • (1 : Matrix (Fin n) (Fin n) ℝ)) *ᵥ a = s • a := by rw [smul_mulVec, one_mulVec]
    have e2 : (s • (1 : Matrix (Fin n) (Fin n) ℝ)) * P * (s • (1 : Matrix (Fin n) (Fin n) ℝ))ᵀ = (s * s) • P := by
      simp [smul_smul]
    rwa [e1, e2] at hl
  refine ⟨?_, fun s => ⟨_, _, hl s, ?_, ?_⟩, fun s hs => ⟨_, _, hl s⁻¹, ?_, ?_⟩⟩
  · rintro e Y he hd hp hf ⟨b, Q, lY, eb, hQ⟩ hi
    refine ⟨_, _, law_add lX lY hi, ?_, (C47_in_place_add_partial ok ho he.1 he.2.1 hd hp hQ).1 hf⟩
    show wrap (o.mean + e.mean) = _
    rw [hm, eb]; rfl
  · show wrap (s • o.mean) = _
    rw [hm]
  · exact ((C47_in_place_scalar ok ho).2.2 s rfl).1
  · show wrap (fun i => o.mean i / s) = _
    congr 1; funext i
    rw [hm, div_eq_mul_inv, mul_comm]; rfl
  · have := ((C47_in_place_scalar ok ho).2.2 s rfl).2
    rwa [mul_inv] at this

/-- C68: for standard normal components, `operator()` gives a vector that the distribution describes.  A self-adjoint covariance has to be definite (the Cholesky decomposition of a semidefinite
matrix is not specified). -/
theorem C68_sample (ok : lib.Ok) {d : Dist n} (hd : d.Valid) {P : Mat ℝ n} (hP : d.cov.Represents P) (hp : (∃ up, d.cov.form = .herm up) → P.PosDef) (hs : P.PosSemidef)
    {N : Ω → Vec n} (hN : Law μ N 0 1) : d.Describes id μ fun ω => WithLp.toLp 2 (d.sample lib (N ω).ofLp) := by
  have hg := squareRoot_sound ok hd.1 hd.2.1 hd.2.2 hP hp hs
  refine ⟨d.mean, P, ?_, rfl, hP⟩
  by_cases h : (squareRoot lib d.cov).2 = true
  · have hl := law_shift (law_act hN (squareRoot lib d.cov).1ᵀ) d.mean
    have e : ∀ ω, WithLp.toLp 2 (d.sample lib (N ω).ofLp) = WithLp.toLp 2 d.mean + act (squareRoot lib d.cov).1ᵀ (N ω) := by
      intro ω
      unfold Dist.sample
      simp only [if_pos h]
      rfl
    simp_rw [e]
    rw [h] at hg
    have hg : (squareRoot lib d.cov).1ᴴ * (squareRoot lib d.cov).1 = P := hg
    rw [conjTranspose_eq_transpose_of_trivial] at hg
    simpa [hg] using hl
  · have hl := law_shift (law_act hN (squareRoot lib d.cov).1) d.mean
    have e : ∀ ω, WithLp.toLp 2 (d.sample lib (N ω).ofLp) = WithLp.toLp 2 d.mean + act (squareRoot lib d.cov).1 (N ω) := by
      intro ω
      unfold Dist.sample
      simp only [if_neg h]
      rfl
    simp_rw [e]
    rw [Bool.not_eq_true] at h
    rw [h] at hg
    have hg : (squareRoot lib d.cov).1 * (squareRoot lib d.cov).1ᴴ = P := hg
    rw [conjTranspose_eq_transpose_of_trivial] at hg
    simpa [hg] using hl

/-- C61: the log-likelihood of any number of observations is the sum of the logarithms of the density of the distribution (for a positive definite covariance, and for any `solve` that
solves positive definite systems). -/
theorem C61_log_likelihood {d : Dist n} (hd : d.Valid) {P : Mat ℝ n} (hP : P.PosDef) {X : Ω → Vec n} (hX : Law μ X d.mean P) (hr : d.cov.Represents P)
    (solve : Mat ℝ n → (Fin n → ℝ) → Fin n → ℝ) (hs : ∀ A b, A.PosDef → A *ᵥ solve A b = b) :
    ∃ f : (Fin n → ℝ) → ℝ, (∀ x, 0 < f x) ∧ (μ.map X = volume.withDensity fun x : Vec n => ENNReal.ofReal (f x.ofLp)) ∧
      ∀ zs, d.logLikelihood solve zs = (zs.map fun z => Real.log (f z)).sum := by
  refine ⟨density d.mean P, density_pos hP, law_density hX hP, fun zs => ?_⟩
  have hq : ∀ b, solve P b = P⁻¹ *ᵥ b := by
    intro b
    have := congrArg (fun v => P⁻¹ *ᵥ v) (hs P b hP)
    simp only [mulVec_mulVec] at this
    rwa [nonsing_inv_mul _ (isUnit_iff_ne_zero.mpr hP.det_pos.ne'), one_mulVec] at this
  unfold Dist.logLikelihood
  rw [covDet_eq hd.2.1 hd.2.2 hr, selfAdjointNested_eq hd.2.1 hr]
  induction zs with
  | nil => simp
  | cons z zs ih =>
    rw [List.map_cons, List.sum_cons, List.map_cons, List.sum_cons, ← ih, log_density hP, List.length_cons, hq]
    push_cast
    ring

/-- C61: the entropy is half the binary logarithm of `(2πe)ⁿ det P`, and that is the differential entropy, in bits, of the random vector: the mean of minus the binary logarithm of its density. -/
theorem C61_entropy {d : Dist n} (hd : d.Valid) {P : Mat ℝ n} (hP : P.PosDef) {X : Ω → Vec n} (hX : Law μ X d.mean P) (hr : d.cov.Represents P) :
    d.entropy = 1 / 2 * Real.logb 2 ((2 * Real.pi * Real.exp 1) ^ n * P.det) ∧
      ∃ f : (Fin n → ℝ) → ℝ, (∀ x, 0 < f x) ∧ (μ.map X = volume.withDensity fun x : Vec n => ENNReal.ofReal (f x.ofLp)) ∧
        Integrable (fun ω => Real.logb 2 (f (X ω).ofLp)) μ ∧ d.entropy = ∫ ω, -Real.logb 2 (f (X ω).ofLp) ∂μ := by
  have hp := hP.det_pos
  have h1 : d.entropy = 1 / 2 * Real.logb 2 ((2 * Real.pi * Real.exp 1) ^ n * P.det) := by
    unfold Dist.entropy
    rw [covDet_eq hd.2.1 hd.2.2 hr, Real.logb_mul (by positivity) hp.ne', Real.logb_pow, Real.logb_mul (by positivity) (by positivity), Real.logb_mul (by positivity) (by positivity),
      Real.logb_self_eq_one (by norm_num)]
  obtain ⟨hi, he⟩ := integral_quad (a := d.mean) hP
  rw [← hX.map] at hi he
  have mq : Measurable fun x : Vec n => (x.ofLp - d.mean) ⬝ᵥ (P⁻¹ *ᵥ (x.ofLp - d.mean)) := by
    have : Continuous fun x : Vec n => (x.ofLp - d.mean) ⬝ᵥ (P⁻¹ *ᵥ (x.ofLp - d.mean)) := by fun_prop
    exact this.measurable
  rw [integral_map hX.meas mq.aestronglyMeasurable] at he
  rw [integrable_map_measure mq.aestronglyMeasurable hX.meas] at hi
  have hi : Integrable (fun ω => ((X ω).ofLp - d.mean) ⬝ᵥ (P⁻¹ *ᵥ ((X ω).ofLp - d.mean))) μ := hi
  have e : ∀ ω, Real.logb 2 (density d.mean P (X ω).ofLp) = -(1 / 2) * (n * Real.log (2 * Real.pi) + Real.log P.det) / Real.log 2 +
      -(1 / 2) / Real.log 2 * (((X ω).ofLp - d.mean) ⬝ᵥ (P⁻¹ *ᵥ ((X ω).ofLp - d.mean))) := by
    intro ω
    rw [Real.logb, log_density hP]
    ring
  refine ⟨h1, density d.mean P, density_pos hP, law_density hX hP, ?_, ?_⟩
  · simp_rw [e]
    exact (integrable_const _).add (hi.const_mul _)
  · simp_rw [e]
    rw [integral_neg, integral_add (integrable_const _) (hi.const_mul _), integral_const_mul, he, integral_const, h1, Real.logb, Real.log_mul (by positivity) hp.ne', Real.log_pow,
      Real.log_mul (by positivity) (by positivity), Real.log_exp]
    simp
    ring

/-! ### Where the code fails -/

/-- A vector with a given law exists. -/
theorem law_id (a : Fin n → ℝ) {P : Mat ℝ n} (hP : P.PosSemidef) : Law (multivariateGaussian (WithLp.toLp 2 a) P) (fun x => x) a P :=
  ⟨aemeasurable_id, hP, Measure.map_id⟩

/-- Independent vectors with given laws exist. -/
theorem law_pair (a : Fin n → ℝ) {P : Mat ℝ n} (hP : P.PosSemidef) (b : Fin m → ℝ) {Q : Mat ℝ m} (hQ : Q.PosSemidef) :
    let μ := (multivariateGaussian (WithLp.toLp 2 a) P).prod (multivariateGaussian (WithLp.toLp 2 b) Q)
    Law μ Prod.fst a P ∧ Law μ Prod.snd b Q ∧ Prod.fst ⟂ᵢ[μ] Prod.snd := by
  refine ⟨⟨measurable_fst.aemeasurable, hP, ?_⟩, ⟨measurable_snd.aemeasurable, hQ, ?_⟩, ?_⟩
  · rw [Measure.map_fst_prod]; simp
  · rw [Measure.map_snd_prod]; simp
  · exact indepFun_prod₀ aemeasurable_id aemeasurable_id

/-- A covariance in Cholesky form whose factor is not diagonal. -/
noncomputable def exChol : Cov ℝ 2 := ⟨false, .tri false, !![1, 0; 1, 1], false, false⟩

theorem exChol_valid (a : Fin 2 → ℝ) : (⟨a, exChol⟩ : Dist 2).Valid := by
  refine ⟨⟨?_, by simp [exChol], by simp [exChol]⟩, rfl, by simp [exChol]⟩
  intro i j h
  fin_cases i <;> fin_cases j <;> simp at h
  rfl

/-- C60 fails for splitting a covariance in Cholesky form: the second part of a vector with variances 1 and 2 is given the variance 1. -/
theorem C60_split_violated : ∃ (d : Dist 2) (μ : Measure (Vec 2)) (X : Vec 2 → Vec 2) (r : Dist 1), IsProbabilityMeasure μ ∧ d.Valid ∧ d.Describes id μ X ∧ d.splitPart lib id 1 (k := 1) (by decide) = some r ∧
    ¬ r.Describes id μ fun ω => part 1 1 (by decide) (X ω) := by
  have hP := gram_posSemidef false exChol.nested
  have hl := law_id 0 hP
  refine ⟨⟨0, exChol⟩, multivariateGaussian (WithLp.toLp 2 0) (gram false exChol.nested), fun x => x, ⟨0, ⟨false, .diag, one1 1, false, false⟩⟩, inferInstance, exChol_valid 0,
    ⟨0, _, hl, rfl, rfl⟩, ?_, ?_⟩
  · unfold Dist.splitPart
    rw [make_cov (by rfl)]
    congr 2
    have e : exChol.splitBlock lib 1 1 (by decide) = ⟨false, .diag, blockOf exChol.nested 1 1 (by decide) * (blockOf exChol.nested 1 1 (by decide))ᴴ, false, false⟩ := by
      unfold Cov.splitBlock
      exact if_pos ⟨rfl, rfl, rfl⟩
    rw [e]
    congr 1
    ext i j
    fin_cases i; fin_cases j
    simp [blockOf, exChol, one1, Matrix.mul_apply]
  · rintro ⟨b, R, lZ, -, hR⟩
    have l2 := law_act hl (proj 2 1 1 (by decide))
    simp_rw [← part_eq] at l2
    have e := (law_unique lZ l2).2
    rw [← blockOf_eq, show R = one1 1 from hR] at e
    have := congrFun (congrFun e 0) 0
    simp [one1, blockOf, CovArith.gram, exChol, vecMul, dotProduct, Fin.sum_univ_two] at this

/-! ### The hypotheses can be met -/

example : ∃ r : Dist 2, (⟨![1, 2], exChol⟩ : Dist 2).add someLib id ⟨![3, 4], exLow⟩ = some r ∧ r.Valid := by
  have he : (⟨![3, 4], exLow⟩ : Dist 2).Valid := ⟨exLow_ok.1, rfl, by simp [exLow]⟩
  have hp := law_pair ![1, 2] (gram_posSemidef false exChol.nested) ![3, 4] (gram_posSemidef false exLow.nested)
  obtain ⟨r, h1, h2, -⟩ := C60_sum someLib_ok (wrap := id) (exChol_valid ![1, 2]) he ⟨_, _, hp.1, rfl, rfl⟩ ⟨_, _, hp.2.1, rfl, rfl⟩ hp.2.2
  exact ⟨r, h1, h2⟩

/-- `C60_difference_violated` applies: the difference of two distributions with variances 3 and 1 exists (variance 2), and is not the distribution of the difference. -/
example : ∃ (d e r : Dist 1) (μ : Measure (Vec 1 × Vec 1)), IsProbabilityMeasure μ ∧ d.Describes id μ Prod.fst ∧ e.Describes id μ Prod.snd ∧ Prod.fst ⟂ᵢ[μ] Prod.snd ∧ d.sub someLib id e = some r ∧
    ¬ r.Describes id μ fun ω => ω.1 - ω.2 := by
  have hp : ∀ x : ℝ, 0 ≤ x → (one1 x : Mat ℝ 1).PosSemidef := fun x hx => by
    have : (one1 x : Mat ℝ 1) = diagonal fun _ => x := by ext i j; fin_cases i; fin_cases j; simp [one1]
    rw [this]; exact PosSemidef.diagonal fun _ => hx
  have hl := law_pair 0 (hp 3 (by norm_num)) 0 (hp 1 (by norm_num))
  let c : ℝ → Cov ℝ 1 := fun x => ⟨false, .diag, one1 x, false, false⟩
  have hv : ∀ x, (⟨0, c x⟩ : Dist 1).Valid := fun x => ⟨⟨⟨one1_diag _, one1_herm rfl⟩, by simp [c], by simp [c]⟩, rfl, by simp [c]⟩
  obtain ⟨o, ho⟩ : ∃ o, CovArith.sub someLib (.cov (c 3)) (.cov (c 1)) = some o := ⟨_, rfl⟩
  obtain ⟨s, rfl, hs1, -⟩ := sub_kind someLib (hv 3).2 (hv 1).2 ho
  have hr : (⟨0, c 3⟩ : Dist 1).sub someLib id ⟨0, c 1⟩ = some ⟨id (0 - 0), s⟩ := by
    unfold Dist.sub
    rw [ho]
    exact make_cov hs1
  refine ⟨⟨0, c 3⟩, ⟨0, c 1⟩, _, _, inferInstance, ⟨_, _, hl.1, rfl, rfl⟩, ⟨_, _, hl.2.1, rfl, rfl⟩, hl.2.2, hr,
    C60_difference_violated someLib_ok (hv 3) (hv 1) ⟨_, _, hl.1, rfl, rfl⟩ ⟨_, _, hl.2.1, rfl, rfl⟩ hl.2.2 ?_ hr⟩
  intro h0
  have h0 : (0 : Mat ℝ 1) = one1 1 := h0
  have := congrFun (congrFun h0 0) 0
  simp [one1] at this

example : ∃ N : Vec 2 → Vec 2, (⟨![1, 2], exChol⟩ : Dist 2).Describes id (multivariateGaussian (WithLp.toLp 2 0) 1) fun ω => WithLp.toLp 2 ((⟨![1, 2], exChol⟩ : Dist 2).sample someLib (N ω).ofLp) :=
  ⟨fun x => x, C68_sample someLib_ok (exChol_valid ![1, 2]) rfl (fun ⟨_, h⟩ => absurd h (by simp [exChol])) (gram_posSemidef false exChol.nested) (law_id 0 PosSemidef.one)⟩

/-- One standard normal component: the log-likelihood of one observation `z` is `-(log 2π + z²) / 2`. -/
example (z : ℝ) : (⟨0, ⟨false, .diag, one1 1, false, false⟩⟩ : Dist 1).logLikelihood (fun _ b => b) [fun _ => z] = -(1 / 2) * (Real.log (2 * Real.pi) + z ^ 2) := by
  simp [Dist.logLikelihood, covDet, Form.hermitian, one1, dotProduct]
  ring

example : ∃ d : Dist 2, d.Valid ∧ ∃ P : Mat ℝ 2, P.PosDef ∧ d.cov.Represents P ∧ d.entropy = 1 / 2 * Real.logb 2 ((2 * Real.pi * Real.exp 1) ^ 2 * P.det) := by
  have hP : (CovArith.gram false exChol.nested).PosDef := by
    have h := PosDef.mul_conjTranspose_self exChol.nested (vecMul_injective_of_isUnit ((isUnit_iff_isUnit_det _).mpr (by simp [exChol])))
    exact h
  exact ⟨⟨![1, 2], exChol⟩, exChol_valid _, _, hP, rfl, (C61_entropy (exChol_valid ![1, 2]) hP (law_id ![1, 2] hP.posSemidef) rfl).1⟩

/-- C60, a distribution made from a square root: it is consistent, and its covariance is the square of the root, in whatever form (self-adjoint, triangular or
diagonal) the root is stored. -/
theorem C60_of_root (wrap : (Fin n → ℝ) → Fin n → ℝ) (a : Fin n → ℝ) {c : Cov ℝ n} (hc : c.WF) (hr : c.root = true) (hf : c.form ≠ .cdiag)
    {S : Matrix (Fin n) (Fin n) ℝ} (hS : c.Represents S) :
    ∃ r, make wrap a (.cov c) = some r ∧ r.Valid ∧ r.mean = wrap a ∧
      ∀ up, c.form = .herm up ∨ c.form = .tri up ∨ c.form = .diag → r.cov.Represents (if up then Sᵀ * S else S * Sᵀ) := by
  refine ⟨⟨wrap a, squareCov c⟩, ?_, ?_, rfl, ?_⟩
  · show some (⟨wrap a, if c.root = true then squareCov c else c⟩ : Dist n) = _
    rw [if_pos hr]
  · obtain ⟨root, form, N, z, d⟩ := c
    obtain ⟨h1, h2, h3⟩ := hc
    cases form with
    | herm up => exact ⟨⟨h1, by simp [squareCov], by simp [squareCov]⟩, rfl, by simp [squareCov]⟩
    | tri up => exact ⟨⟨h1, by simp [squareCov], by simp [squareCov]⟩, rfl, by simp [squareCov]⟩
    | cdiag => exact absurd rfl hf
    | diag =>
      refine ⟨⟨⟨?_, isHermitian_mul_conjTranspose_self N⟩, by simp [squareCov], by simp [squareCov]⟩, rfl, by simp [squareCov]⟩
      obtain ⟨hd, hh⟩ := h1
      rw [show (squareCov ⟨root, .diag, N, z, d⟩).nested = N * Nᴴ from rfl, hh.eq]
      obtain ⟨v, rfl⟩ : ∃ v, N = diagonal v := ⟨N.diag, (hd.diagonal_diag).symm⟩
      rw [diagonal_mul_diagonal]
      exact isDiag_diagonal _
  · obtain ⟨root, form, N, z, d⟩ := c
    obtain ⟨h1, h2, h3⟩ := hc
    obtain rfl : root = true := hr
    intro up h
    cases form with
    | cdiag => exact absurd rfl hf
    | herm u =>
      obtain rfl : u = up := by simpa using h
      obtain ⟨_, hg, _⟩ := hS
      show _ = N
      have hg : CovArith.gram u S = N := hg
      rw [← hg]
      cases u <;> simp [CovArith.gram, conjTranspose_eq_transpose_of_trivial]
    | tri u =>
      obtain rfl : u = up := by simpa using h
      have : S = N := hS
      show _ = CovArith.gram u N
      rw [this]
      cases u <;> simp [CovArith.gram, conjTranspose_eq_transpose_of_trivial]
    | diag =>
      have hSN : S = N := hS
      show _ = N * Nᴴ
      have := h1.2.eq
      rw [conjTranspose_eq_transpose_of_trivial] at this
      rw [hSN, conjTranspose_eq_transpose_of_trivial, this]
      cases up <;> rfl

/-- A diagonal root with 2 and 3 on the diagonal. -/
example : (⟨true, .diag, diagonal ![2, 3], false, false⟩ : Cov ℝ 2).WF ∧
    (⟨true, .diag, diagonal ![2, 3], false, false⟩ : Cov ℝ 2).Represents (diagonal ![2, 3]) :=
  ⟨⟨⟨isDiag_diagonal _, by simp [IsHermitian, conjTranspose_eq_transpose_of_trivial]⟩, by simp, by simp⟩, rfl⟩

end OpenKalman.Gaussian
