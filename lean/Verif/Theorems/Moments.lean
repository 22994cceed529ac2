import Verif.Proof.SecondOrder

/-!
# C133, C135: sample-point transforms of polynomials

The transform is that of `Model/SigmaPoints.lean`; the first distribution is the input and the others are noise terms.
-/

set_option linter.unusedSectionVars false

namespace OpenKalman.Moments
open MeasureTheory ProbabilityTheory Matrix OpenKalman.SigmaPoints

variable {Ω : Type} [MeasurableSpace Ω] {P : Measure Ω} [IsProbabilityMeasure P] {b q : ℕ} (k : Fin (b + 1) → ℕ)

/-- A transformation of an input and noise terms, all of which are components of one vector. -/
def joint (g : (Fin (k 0) → ℝ) → ((i : Fin (b + 1)) → Fin (k i) → ℝ) → Fin q → ℝ) (r : Fin q) (v : ((i : Fin (b + 1)) × Fin (k i)) → ℝ) : ℝ :=
  g (fun a => v ⟨0, a⟩) (fun i a => v ⟨i, a⟩) r

/-- The means and the cross-covariance that the transform gives. -/
theorem transform_parts {count : ℕ} (lib : Kalman.Lib ℝ) (W : Weights count) (mean : (i : Fin (b + 1)) → Fin (k i) → ℝ)
    (Z : Matrix ((i : Fin (b + 1)) × Fin (k i)) (Fin count) ℝ) (g : (Fin (k 0) → ℝ) → ((i : Fin (b + 1)) → Fin (k i) → ℝ) → Fin q → ℝ) :
    (transform k lib W mean Z (.last g)).1.mean = (fun r => ∑ c, W.wm c * joint k g r fun s => Z s c + mean s.1 s.2) ∧
    (transform k lib W mean Z (.last g)).2 = ⟨k 0, Matrix.of fun a r => ∑ c, W.wc c * (Z ⟨0, a⟩ c *
      (joint k g r (fun s => Z s c + mean s.1 s.2) - (transform k lib W mean Z (.last g)).1.mean r))⟩ := by
  constructor
  · funext r
    show ∑ c, _ * scal W.wm c = _
    exact Finset.sum_congr rfl fun c _ => mul_comm _ _
  · show (⟨k 0, _⟩ : (q' : ℕ) × Matrix (Fin q') (Fin q) ℝ) = _
    congr 1
    ext a r
    refine (Matrix.mul_apply ..).trans (Finset.sum_congr rfl fun c _ => ?_)
    rw [Matrix.diagonal_mul]
    show Z ⟨0, a⟩ c * (W.wc c * (joint k g r (fun s => Z s c + mean s.1 s.2) - (transform k lib W mean Z (.last g)).1.mean r)) = _
    ring

/-- Points with the same moments as a random vector. -/
theorem transform_exact {count : ℕ} (lib : Kalman.Lib ℝ) (W : Weights count) (mean : (i : Fin (b + 1)) → Fin (k i) → ℝ)
    (Q : (i : Fin (b + 1)) → Matrix (Fin (k i)) (Fin (k i)) ℝ) (Z : Matrix ((i : Fin (b + 1)) × Fin (k i)) (Fin count) ℝ)
    (hM : Matches W.wm W.wm Z Q) (hM' : Matches W.wm W.wc Z Q) (h1 : ∀ x, ∑ c, W.wc c * Z x c = 0)
    (h3 : ∀ x y z, ∑ c, W.wm c * (Z x c * Z y c * Z z c) = 0) (h3' : ∀ x y z, ∑ c, W.wc c * (Z x c * Z y c * Z z c) = 0)
    (X : Ω → ((i : Fin (b + 1)) × Fin (k i)) → ℝ) (hX : Balanced P X (fun s => mean s.1 s.2) (blockDiagonal' Q))
    (g : (Fin (k 0) → ℝ) → ((i : Fin (b + 1)) → Fin (k i) → ℝ) → Fin q → ℝ) :
    ((∀ r, PolyFun 3 (joint k g r)) → (transform k lib W mean Z (.last g)).1.mean = fun r => ∫ ω, joint k g r (X ω) ∂P) ∧
    ((∀ r, PolyFun 2 (joint k g r)) → (transform k lib W mean Z (.last g)).2 = ⟨k 0, Matrix.of fun a r => cov[fun ω => X ω ⟨0, a⟩, fun ω => joint k g r (X ω); P]⟩) := by
  obtain ⟨t1, t2⟩ := transform_parts k lib W mean Z g
  have sec : ∀ (w : Fin count → ℝ), Matches W.wm w Z Q → ∀ x y, ∑ c, w c * (Z x c * Z y c) = blockDiagonal' Q x y := by
    intro w h x y
    have := congrFun (congrFun (matches_matrix h).2 x) y
    rw [← this, Matrix.mul_apply]
    refine Finset.sum_congr rfl fun c _ => ?_
    rw [Matrix.mul_diagonal, Matrix.conjTranspose_apply, star_trivial]
    simp only [scal, RCLike.ofReal_real_eq_id, id_eq]
    ring
  have fst : ∀ x, ∑ c, W.wm c * Z x c = 0 := fun x => hM.mean x.1 x.2
  have back : ∀ ω, (fun s : (i : Fin (b + 1)) × Fin (k i) => (X ω s - mean s.1 s.2) + mean s.1 s.2) = X ω := fun ω => funext fun s => by ring
  have hmean : ∀ r, PolyFun 3 (joint k g r) → Integrable (fun ω => joint k g r (X ω)) P ∧ ∫ ω, joint k g r (X ω) ∂P = ∑ c, W.wm c * joint k g r fun s => Z s c + mean s.1 s.2 := by
    intro r hr
    have := hX.expect W.wm Z hM.total fst (sec _ hM) h3 (hr.around fun s => mean s.1 s.2)
    simp only [back] at this
    exact this
  refine ⟨fun hg => ?_, fun hg => ?_⟩
  · rw [t1]
    exact funext fun r => (hmean r (hg r)).2.symm
  · rw [t2]
    congr 1
    ext a r
    have hg3 : PolyFun 3 (joint k g r) := by
      obtain ⟨p, hp, e⟩ := hg r
      exact ⟨p, hp.trans (by norm_num), e⟩
    have hc := hX.expect_coord W.wc Z h1 (sec _ hM') h3' ⟨0, a⟩ ((hg r).around fun s => mean s.1 s.2)
    simp only [back] at hc
    rw [Matrix.of_apply, Matrix.of_apply]
    have e1 : ∑ c, W.wc c * (Z ⟨0, a⟩ c * (joint k g r (fun s => Z s c + mean s.1 s.2) - (transform k lib W mean Z (.last g)).1.mean r)) =
        (∑ c, W.wc c * (Z ⟨0, a⟩ c * joint k g r (fun s => Z s c + mean s.1 s.2))) - (∑ c, W.wc c * Z ⟨0, a⟩ c) * (transform k lib W mean Z (.last g)).1.mean r := by
      rw [Finset.sum_mul, ← Finset.sum_sub_distrib]
      exact Finset.sum_congr rfl fun c _ => by ring
    rw [e1, h1, zero_mul, sub_zero, ← hc.2]
    show _ = ∫ ω, _ ∂P
    rw [hX.mean]
    have e2 : (fun ω => (X ω ⟨0, a⟩ - mean 0 a) * (joint k g r (X ω) - ∫ ω, joint k g r (X ω) ∂P)) =
        fun ω => (X ω ⟨0, a⟩ - mean 0 a) * joint k g r (X ω) - (X ω ⟨0, a⟩ - mean 0 a) * ∫ ω, joint k g r (X ω) ∂P := by
      funext ω
      ring
    show _ = ∫ ω, (X ω ⟨0, a⟩ - mean 0 a) * (joint k g r (X ω) - ∫ ω, joint k g r (X ω) ∂P) ∂P
    rw [e2, integral_sub hc.1 ((hX.int1 ⟨0, a⟩).mul_const _), integral_mul_const, hX.first ⟨0, a⟩, zero_mul, sub_zero]

/-- **C133** (cubature points): if every component of the transformation is a polynomial of degree at most 3 in the input and the noise terms, the mean reported by the
transform is the expectation of the transformed vector; if the degrees are at most 2, the cross-covariance is that of the input and the transformed vector.  This holds for every
law with vanishing third central moments and, in particular, for normal laws (`C133_normal`). -/
theorem C133_cubature (hk : ∀ i, 0 < k i) (lib : SLib ℝ) (mean : (i : Fin (b + 1)) → Fin (k i) → ℝ) (Q : (i : Fin (b + 1)) → Matrix (Fin (k i)) (Fin (k i)) ℝ)
    (hQ : ∀ i, (Q i).PosSemidef) (X : Ω → ((i : Fin (b + 1)) × Fin (k i)) → ℝ) (hX : Balanced P X (fun s => mean s.1 s.2) (blockDiagonal' Q))
    (g : (Fin (k 0) → ℝ) → ((i : Fin (b + 1)) → Fin (k i) → ℝ) → Fin q → ℝ) :
    ∃ Z, cubaturePoints k lib Q = some Z ∧
      ((∀ r, PolyFun 3 (joint k g r)) → (transform k lib.toLib (cubatureWeights _) mean Z (.last g)).1.mean = fun r => ∫ ω, joint k g r (X ω) ∂P) ∧
      ((∀ r, PolyFun 2 (joint k g r)) → (transform k lib.toLib (cubatureWeights _) mean Z (.last g)).2 =
        ⟨k 0, Matrix.of fun a r => cov[fun ω => X ω ⟨0, a⟩, fun ω => joint k g r (X ω); P]⟩) := by
  obtain ⟨Z, hZ, hM⟩ := C56_points k hk lib Q hQ
  refine ⟨Z, hZ, transform_exact k lib.toLib _ mean Q Z hM hM (fun x => hM.mean x.1 x.2) ?_ ?_ X hX g⟩
  · exact fun x y z => cubature_third k hk lib Q Z hZ x y z
  · exact fun x y z => cubature_third k hk lib Q Z hZ x y z

/-- **C133** (unscented points): the same for all parameters of the unscented transform. -/
theorem C133_unscented (hk : ∀ i, 0 < k i) (lib : SLib ℝ) (mean : (i : Fin (b + 1)) → Fin (k i) → ℝ) (Q : (i : Fin (b + 1)) → Matrix (Fin (k i)) (Fin (k i)) ℝ)
    (hQ : ∀ i, (Q i).PosSemidef) (alpha beta kappa : ℝ) (ha : alpha ≠ 0) (hkp : 0 < (∑ i, k i : ℕ) + kappa)
    (X : Ω → ((i : Fin (b + 1)) × Fin (k i)) → ℝ) (hX : Balanced P X (fun s => mean s.1 s.2) (blockDiagonal' Q))
    (g : (Fin (k 0) → ℝ) → ((i : Fin (b + 1)) → Fin (k i) → ℝ) → Fin q → ℝ) :
    ∃ Z, unscentedPoints k lib alpha kappa Q = some Z ∧
      ((∀ r, PolyFun 3 (joint k g r)) → (transform k lib.toLib (unscentedWeights _ alpha beta kappa) mean Z (.last g)).1.mean = fun r => ∫ ω, joint k g r (X ω) ∂P) ∧
      ((∀ r, PolyFun 2 (joint k g r)) → (transform k lib.toLib (unscentedWeights _ alpha beta kappa) mean Z (.last g)).2 =
        ⟨k 0, Matrix.of fun a r => cov[fun ω => X ω ⟨0, a⟩, fun ω => joint k g r (X ω); P]⟩) := by
  obtain ⟨Z, hZ, hM, hM'⟩ := C57_points k hk lib Q hQ alpha beta kappa ha hkp
  have hu := unscented_moments k hk lib alpha beta kappa Q Z hZ
  exact ⟨Z, hZ, transform_exact k lib.toLib _ mean Q Z hM' hM (fun x => (hu x x x).2.2) (fun x y z => (hu x y z).1) (fun x y z => (hu x y z).2.1) X hX g⟩

/-- **C133** (normal laws): every Gaussian vector has the moments that C133 and C134 ask for. -/
theorem C133_normal {σ : Type} [Fintype σ] (X : Ω → σ → ℝ) (m : σ → ℝ) (C : Matrix σ σ ℝ) (h : HasGaussianLaw X P) (hm : ∀ s, ∫ ω, X ω s ∂P = m s)
    (hc : ∀ s t, cov[fun ω => X ω s, fun ω => X ω t; P] = C s t) : Normal4 P X m C := normal4_of_gaussian h hm hc

/-! ## C135: the covariance, for a scalar input -/

/-- One input of one dimension. -/
abbrev scalar : Fin 1 → ℕ := fun _ => 1

/-- Quadratic functions of one number. -/
def curve (c l s : Fin q → ℝ) (x : Fin (scalar 0) → ℝ) (_ : (i : Fin 1) → Fin (scalar i) → ℝ) (r : Fin q) : ℝ := c r + l r * x 0 + s r * x 0 ^ 2

/-- Points of variables of one dimension: at each point, a variable is zero or has the same square as at the others, and at most one is not zero. -/
theorem single_points {b : ℕ} (lib : SLib ℝ) (alpha kappa : ℝ) (v : Fin (b + 1) → ℝ) (hv : ∀ i, 0 ≤ v i) (hkp : 0 < (b + 1 : ℕ) + kappa)
    (Z : Matrix ((i : Fin (b + 1)) × Fin ((fun _ => 1 : Fin (b + 1) → ℕ) i)) (Fin ((∑ i, (fun _ => 1 : Fin (b + 1) → ℕ) i) * 2 + 1)) ℝ)
    (hZ : unscentedPoints (fun _ => 1) lib alpha kappa (fun i => Matrix.of fun _ _ => v i) = some Z) (c : Fin ((∑ i, (fun _ => 1 : Fin (b + 1) → ℕ) i) * 2 + 1)) :
    (∀ i, Z ⟨i, 0⟩ c ^ 4 = alpha ^ 2 * ((b + 1 : ℕ) + kappa) * v i * Z ⟨i, 0⟩ c ^ 2) ∧ ∀ i j, i ≠ j → Z ⟨i, 0⟩ c = 0 ∨ Z ⟨j, 0⟩ c = 0 := by
  obtain ⟨L, hL, hF⟩ := unscented_frames (∑ i, (fun _ => 1 : Fin (b + 1) → ℕ) i) (List.ofFn (fun _ => 1 : Fin (b + 1) → ℕ)) (by simp) (by simp) (List.sum_ofFn)
  simp only [unscentedPoints, hL, Option.map_some, Option.some.injEq] at hZ
  subst hZ
  simp only [RCLike.ofReal_real_eq_id, id_eq]
  have hN : ((∑ i, (fun _ => 1 : Fin (b + 1) → ℕ) i : ℕ) : ℝ) = (b + 1 : ℕ) := by simp
  set delta : Fin (b + 1) → Matrix (Fin 1) (Fin 1) ℝ := fun i => lib.chol ((alpha * alpha * (kappa + (∑ i, (fun _ => 1 : Fin (b + 1) → ℕ) i : ℕ)) : ℝ) • Matrix.of fun _ _ => v i) with hdelta
  have hpt : ∀ i, pointsOf (fun _ => 1) ((∑ i, (fun _ => 1 : Fin (b + 1) → ℕ) i) * 2 + 1) L delta ⟨i, 0⟩ c = bump (1 + 2 * start (fun _ => 1) i) (delta i) 0 c := by
    intro i
    exact hF i 1 (by rw [List.getElem?_ofFn]; simp; omega) (delta i) 0 c
  have hd : ∀ i, delta i 0 0 ^ 2 = alpha ^ 2 * ((b + 1 : ℕ) + kappa) * v i := by
    intro i
    have h := lib.chol_spec ((alpha * alpha * (kappa + (∑ i, (fun _ => 1 : Fin (b + 1) → ℕ) i : ℕ)) : ℝ) • (Matrix.of fun _ _ => v i : Matrix (Fin 1) (Fin 1) ℝ)) (by
      have : ((alpha * alpha * (kappa + (∑ i, (fun _ => 1 : Fin (b + 1) → ℕ) i : ℕ)) : ℝ) • (Matrix.of fun _ _ => v i : Matrix (Fin 1) (Fin 1) ℝ)) =
          diagonal fun _ => alpha * alpha * (kappa + (∑ i, (fun _ => 1 : Fin (b + 1) → ℕ) i : ℕ)) * v i := by
        ext i j
        rw [Subsingleton.elim i j, diagonal_apply_eq]
        rfl
      rw [this]
      refine Matrix.PosSemidef.diagonal fun _ => ?_
      rw [hN]
      exact mul_nonneg (mul_nonneg (mul_self_nonneg _) (by linarith)) (hv i))
    have h := congrFun (congrFun h 0) 0
    rw [Matrix.mul_apply, Fin.sum_univ_one, Matrix.conjTranspose_apply, star_trivial, Matrix.smul_apply, Matrix.of_apply, smul_eq_mul] at h
    rw [pow_two]
    refine Eq.trans h ?_
    rw [hN]
    ring
  have h2 : ∀ i (n : ℕ), bump (1 + 2 * start (fun _ => 1) i) (delta i) 0 n = 0 ∨ bump (1 + 2 * start (fun _ => 1) i) (delta i) 0 n ^ 2 = delta i 0 0 ^ 2 := by
    intro i n
    unfold bump
    split_ifs with h h'
    · right
      congr 2
      exact Subsingleton.elim _ _
    · right
      rw [neg_pow_two]
      congr 2
      exact Subsingleton.elim _ _
    · exact Or.inl rfl
  constructor
  · intro i
    rw [hpt]
    rcases h2 i c with h | h
    · rw [h]
      ring
    · rw [← hd, ← h]
      ring
  · intro i j hij
    rw [hpt, hpt]
    rcases lt_or_gt_of_ne hij with h | h
    · exact bump_disjoint _ _ (by have := start_lt (fun _ => 1) h; omega) _ _ _ _ _
    · exact (bump_disjoint _ _ (by have := start_lt (fun _ => 1) h; omega) _ _ _ _ _).symm

/-- **C135** (scalar input): for a normal number with variance `v`, the unscented transform reports the covariance of quadratic functions up to the product of their
second-order coefficients and `(β + α² κ - 2) v²`. -/
theorem C135_scalar (lib : SLib ℝ) (mean v : ℝ) (hv : 0 ≤ v) (alpha beta kappa : ℝ) (ha : alpha ≠ 0) (hkp : 0 < 1 + kappa) (X : Ω → ℝ)
    (hX : Normal4 P (fun ω (_ : Unit) => X ω) (fun _ => mean) (Matrix.of fun _ _ => v)) (c l s : Fin q → ℝ) :
    ∃ Z, unscentedPoints scalar lib alpha kappa (fun _ => Matrix.of fun _ _ => v) = some Z ∧
      ∀ r r', (transform scalar lib.toLib (unscentedWeights _ alpha beta kappa) (fun _ _ => mean) Z (.last (curve c l s))).1.cov r r' =
        cov[fun ω => c r + l r * X ω + s r * X ω ^ 2, fun ω => c r' + l r' * X ω + s r' * X ω ^ 2; P] + s r * s r' * v ^ 2 * (beta + alpha ^ 2 * kappa - 2) := by
  have hN : (∑ i, scalar i : ℕ) = 1 := by simp
  have hN' : ((∑ i, scalar i : ℕ) : ℝ) = 1 := by simp
  have hQ : ∀ i : Fin 1, (Matrix.of fun _ _ => v : Matrix (Fin (scalar i)) (Fin (scalar i)) ℝ).PosSemidef := by
    intro i
    have : (Matrix.of fun _ _ => v : Matrix (Fin (scalar i)) (Fin (scalar i)) ℝ) = diagonal fun _ => v := by
      ext i j
      rw [Subsingleton.elim i j, diagonal_apply_eq]
      rfl
    rw [this]
    exact Matrix.PosSemidef.diagonal fun _ => hv
  obtain ⟨Z, hZ, hM, hM'⟩ := C57_points scalar (by simp) lib (fun _ => Matrix.of fun _ _ => v) hQ alpha beta kappa ha (by rw [hN']; exact hkp)
  refine ⟨Z, hZ, fun r r' => ?_⟩
  set W := unscentedWeights (∑ i, scalar i) alpha beta kappa with hW
  set z : Fin ((∑ i, scalar i) * 2 + 1) → ℝ := fun c => Z ⟨0, 0⟩ c with hz
  obtain ⟨w1, w2, w3, w4⟩ := C57_weights (∑ i, scalar i) alpha beta kappa ha (by rw [hN']; exact hkp)
  have u := unscented_moments scalar (by simp) lib alpha beta kappa _ Z hZ ⟨0, 0⟩ ⟨0, 0⟩ ⟨0, 0⟩
  -- moments of the points
  have m1 : ∑ c, W.wm c * z c = 0 := hM.mean 0 0
  have m2 : ∑ c, W.wm c * z c ^ 2 = v := by
    have := hM'.cov 0 0 0
    simp only [star_trivial, ← pow_two, Matrix.of_apply] at this
    exact this
  have m0 : ∑ c, W.wm c = 1 := hM.total
  have c1 : ∑ c, W.wc c * z c = 0 := u.2.2
  have c2 : ∑ c, W.wc c * z c ^ 2 = v := by
    have := hM.cov 0 0 0
    simp only [star_trivial, ← pow_two, Matrix.of_apply] at this
    exact this
  have c3 : ∑ c, W.wc c * z c ^ 3 = 0 := by
    rw [← u.2.1]
    exact Finset.sum_congr rfl fun c _ => by simp only [hz]; ring
  have c4 : ∑ c, W.wc c * z c ^ 4 = alpha ^ 2 * (1 + kappa) * v ^ 2 := by
    have : ∀ c, W.wc c * z c ^ 4 = alpha ^ 2 * (1 + kappa) * v * (W.wc c * z c ^ 2) := by
      intro c
      have := (single_points (b := 0) lib alpha kappa (fun _ => v) (fun _ => hv) (by simpa using hkp) Z hZ c).1 0
      simp only [zero_add, Nat.cast_one] at this
      simp only [hz, this]
      ring
    rw [Finset.sum_congr rfl fun c _ => this c, ← Finset.mul_sum, c2]
    ring
  have c0 : ∑ c, W.wc c = 2 - alpha ^ 2 + beta := by
    rw [Fin.sum_univ_succ] at w4 ⊢
    have e : ∑ c : Fin ((∑ i, scalar i) * 2), W.wc c.succ = ∑ c : Fin ((∑ i, scalar i) * 2), W.wm c.succ := Finset.sum_congr rfl fun c _ => by rw [(w3 c).1, (w3 c).2]
    rw [w1] at w4
    rw [e, w2]
    linarith
  -- the covariance that is reported
  obtain ⟨t1, -⟩ := transform_parts scalar lib.toLib W (fun _ _ => mean) Z (curve c l s)
  have hmean : ∀ r, (transform scalar lib.toLib W (fun _ _ => mean) Z (.last (curve c l s))).1.mean r = c r + l r * mean + s r * (mean ^ 2 + v) := by
    intro r
    rw [t1]
    show ∑ i, W.wm i * joint scalar (curve c l s) r (fun t => Z t i + mean) = _
    have : ∀ i, W.wm i * joint scalar (curve c l s) r (fun t => Z t i + mean) = (c r + l r * mean + s r * mean ^ 2) * W.wm i + (l r + 2 * s r * mean) * (W.wm i * z i) + s r * (W.wm i * z i ^ 2) := by
      intro i
      simp only [joint, curve, hz]
      ring
    rw [Finset.sum_congr rfl fun i _ => this i]
    simp only [Finset.sum_add_distrib, ← Finset.mul_sum]
    rw [m0, m1, m2]
    ring
  have hcov : (transform scalar lib.toLib W (fun _ _ => mean) Z (.last (curve c l s))).1.cov r r' =
      (l r + 2 * s r * mean) * (l r' + 2 * s r' * mean) * v + s r * s r' * v ^ 2 * (beta + alpha ^ 2 * kappa) := by
    set D : Matrix (Fin q) (Fin ((∑ i, scalar i) * 2 + 1)) ℝ := fun r i => joint scalar (curve c l s) r (fun t => Z t i + mean) -
      (transform scalar lib.toLib W (fun _ _ => mean) Z (.last (curve c l s))).1.mean r with hD
    have e1 : (transform scalar lib.toLib W (fun _ _ => mean) Z (.last (curve c l s))).1.cov = lib.herm (D * (diagonal (scal W.wc) * Dᴴ)) := rfl
    have hh : (D * (diagonal (scal W.wc) * Dᴴ)).IsHermitian := by
      rw [← Matrix.mul_assoc]
      refine Matrix.isHermitian_mul_mul_conjTranspose D ?_
      rw [Matrix.IsHermitian, diagonal_conjTranspose]
      congr 1
    rw [e1, lib.herm_spec _ hh, Matrix.mul_apply]
    have hdev : ∀ r i, D r i = (l r + 2 * s r * mean) * z i + s r * (z i ^ 2 - v) := by
      intro r i
      rw [hD]
      simp only [hmean, joint, curve, hz]
      ring
    have : ∀ i, D r i * (diagonal (scal W.wc : _ → ℝ) * Dᴴ) i r' = (l r + 2 * s r * mean) * (l r' + 2 * s r' * mean) * (W.wc i * z i ^ 2) +
        ((l r + 2 * s r * mean) * s r' + s r * (l r' + 2 * s r' * mean)) * (W.wc i * z i ^ 3) -
        ((l r + 2 * s r * mean) * s r' + s r * (l r' + 2 * s r' * mean)) * v * (W.wc i * z i) +
        s r * s r' * (W.wc i * z i ^ 4) - 2 * s r * s r' * v * (W.wc i * z i ^ 2) + s r * s r' * v ^ 2 * W.wc i := by
      intro i
      rw [Matrix.diagonal_mul, Matrix.conjTranspose_apply, star_trivial, hdev, hdev]
      simp only [scal, RCLike.ofReal_real_eq_id, id_eq]
      ring
    rw [Finset.sum_congr rfl fun i _ => this i]
    simp only [Finset.sum_add_distrib, Finset.sum_sub_distrib, ← Finset.mul_sum]
    rw [c0, c1, c2, c3, c4]
    ring
  rw [hcov]
  -- the true covariance
  have hq : ∀ r (x : Unit → ℝ), c r + l r * x () + s r * x () ^ 2 =
      Kalman.quadratic (fun _ => mean) (c r + l r * mean + s r * mean ^ 2) (fun _ => l r + 2 * s r * mean) (Matrix.of fun _ _ => 2 * s r) x := by
    intro r x
    simp [Kalman.quadratic, dotProduct, mulVec]
    ring
  have h := (SecondOrder.quadratic_moments hX (fun r => c r + l r * mean + s r * mean ^ 2) (fun r _ => l r + 2 * s r * mean) (fun r => Matrix.of fun _ _ => 2 * s r)
    (fun r => Matrix.IsHermitian.ext fun _ _ => rfl)).2.1 r r'
  simp only [← hq] at h
  rw [h]
  simp only [Kalman.secondOrderCov, Matrix.mul_apply, Matrix.trace, Matrix.diag, Matrix.transpose_apply, Matrix.of_apply, Finset.univ_unique, Finset.sum_singleton]
  norm_num
  ring

/-- **C135** (default parameters): with `β = 2` and `κ = 0`, the reported covariance of quadratic functions of a normal number is exact.  Missing: more than one dimension
(`C135_pair_violated`). -/
theorem C135_default_partial (lib : SLib ℝ) (mean v : ℝ) (hv : 0 ≤ v) (alpha : ℝ) (ha : alpha ≠ 0) (X : Ω → ℝ)
    (hX : Normal4 P (fun ω (_ : Unit) => X ω) (fun _ => mean) (Matrix.of fun _ _ => v)) (c l s : Fin q → ℝ) :
    ∃ Z, unscentedPoints scalar lib alpha 0 (fun _ => Matrix.of fun _ _ => v) = some Z ∧
      ∀ r r', (transform scalar lib.toLib (unscentedWeights _ alpha 2 0) (fun _ _ => mean) Z (.last (curve c l s))).1.cov r r' =
        cov[fun ω => c r + l r * X ω + s r * X ω ^ 2, fun ω => c r' + l r' * X ω + s r' * X ω ^ 2; P] := by
  obtain ⟨Z, hZ, h⟩ := C135_scalar lib mean v hv alpha 2 0 ha (by norm_num) X hX c l s
  refine ⟨Z, hZ, fun r r' => ?_⟩
  rw [h]
  ring

/-- An input and a noise term of one dimension each. -/
abbrev pair : Fin 2 → ℕ := fun _ => 1

/-- The sum of the squares of the input and the noise. -/
def radius (x : Fin (pair 0) → ℝ) (n : (i : Fin 2) → Fin (pair i) → ℝ) (_ : Fin 1) : ℝ := x 0 ^ 2 + n 1 0 ^ 2

/-- C135 fails for more than one dimension, also with the default parameters: for independent standard normal input and noise, the reported variance of the sum of their squares
is 8, for every `α`; it is 4. -/
theorem C135_pair_violated (lib : SLib ℝ) (alpha : ℝ) (ha : alpha ≠ 0) :
    (∃ Z, unscentedPoints pair lib alpha 0 (fun _ => Matrix.of fun _ _ => 1) = some Z ∧
      (transform pair lib.toLib (unscentedWeights _ alpha 2 0) (fun _ _ => 0) Z (.last radius)).1.cov 0 0 = 8) ∧
    cov[fun ω => joint pair radius 0 ω, fun ω => joint pair radius 0 ω; Measure.pi fun _ : (i : Fin 2) × Fin (pair i) => gaussianReal 0 1] = 4 := by
  have hN' : ((∑ i, pair i : ℕ) : ℝ) = 2 := by simp
  constructor
  · have hQ : ∀ i : Fin 2, (Matrix.of fun _ _ => 1 : Matrix (Fin (pair i)) (Fin (pair i)) ℝ).PosSemidef := by
      intro i
      have : (Matrix.of fun _ _ => 1 : Matrix (Fin (pair i)) (Fin (pair i)) ℝ) = 1 := by
        ext i j
        rw [Subsingleton.elim i j, one_apply_eq]
        rfl
      rw [this]
      exact Matrix.PosSemidef.one
    obtain ⟨Z, hZ, hM, hM'⟩ := C57_points pair (by simp) lib (fun _ => Matrix.of fun _ _ => 1) hQ alpha 2 0 ha (by rw [hN']; norm_num)
    refine ⟨Z, hZ, ?_⟩
    have hs := single_points (b := 1) lib alpha 0 (fun _ => 1) (fun _ => zero_le_one) (by norm_num) Z hZ
    set W := unscentedWeights (∑ i, pair i) alpha 2 0 with hW
    obtain ⟨w1, w2, w3, w4⟩ := C57_weights (∑ i, pair i) alpha 2 0 ha (by rw [hN']; norm_num)
    have m2 : ∀ i, ∑ c, W.wm c * Z ⟨i, 0⟩ c ^ 2 = 1 := by
      intro i
      have := hM'.cov i 0 0
      simp only [star_trivial, ← pow_two, Matrix.of_apply] at this
      exact this
    have c2 : ∀ i, ∑ c, W.wc c * Z ⟨i, 0⟩ c ^ 2 = 1 := by
      intro i
      have := hM.cov i 0 0
      simp only [star_trivial, ← pow_two, Matrix.of_apply] at this
      exact this
    have c0 : ∑ c, W.wc c = 4 - alpha ^ 2 := by
      rw [Fin.sum_univ_succ] at w4 ⊢
      have e : ∑ c : Fin ((∑ i, pair i) * 2), W.wc c.succ = ∑ c : Fin ((∑ i, pair i) * 2), W.wm c.succ := Finset.sum_congr rfl fun c _ => by rw [(w3 c).1, (w3 c).2]
      rw [w1] at w4
      rw [e, w2]
      linarith
    obtain ⟨t1, -⟩ := transform_parts pair lib.toLib W (fun _ _ => 0) Z radius
    have hmean : (transform pair lib.toLib W (fun _ _ => 0) Z (.last radius)).1.mean 0 = 2 := by
      rw [t1]
      show ∑ i, W.wm i * joint pair radius 0 (fun t => Z t i + 0) = _
      have : ∀ i, W.wm i * joint pair radius 0 (fun t => Z t i + 0) = W.wm i * Z ⟨0, 0⟩ i ^ 2 + W.wm i * Z ⟨1, 0⟩ i ^ 2 := by
        intro i
        simp only [joint, radius]
        ring
      rw [Finset.sum_congr rfl fun i _ => this i, Finset.sum_add_distrib, m2, m2]
      norm_num
    set D : Matrix (Fin 1) (Fin ((∑ i, pair i) * 2 + 1)) ℝ := fun r i => joint pair radius r (fun t => Z t i + 0) -
      (transform pair lib.toLib W (fun _ _ => 0) Z (.last radius)).1.mean r with hD
    have e1 : (transform pair lib.toLib W (fun _ _ => 0) Z (.last radius)).1.cov = lib.herm (D * (diagonal (scal W.wc) * Dᴴ)) := rfl
    have hh : (D * (diagonal (scal W.wc) * Dᴴ)).IsHermitian := Matrix.IsHermitian.ext fun i j => by rw [Subsingleton.elim i j, star_trivial]
    rw [e1, lib.herm_spec _ hh, Matrix.mul_apply]
    have : ∀ i, D 0 i * (diagonal (scal W.wc : _ → ℝ) * Dᴴ) i 0 = (2 * alpha ^ 2 - 4) * (W.wc i * Z ⟨0, 0⟩ i ^ 2) + (2 * alpha ^ 2 - 4) * (W.wc i * Z ⟨1, 0⟩ i ^ 2) + 4 * W.wc i := by
      intro i
      have hd : D 0 i = Z ⟨0, 0⟩ i ^ 2 + Z ⟨1, 0⟩ i ^ 2 - 2 := by
        rw [hD]
        simp only [hmean, joint, radius]
        ring
      have h4 := (hs i).1
      have hx := (hs i).2 0 1 (by decide)
      have h40 := h4 0
      have h41 := h4 1
      norm_num at h40 h41
      rw [Matrix.diagonal_mul, Matrix.conjTranspose_apply, star_trivial, hd]
      simp only [scal, RCLike.ofReal_real_eq_id, id_eq]
      have e : (Z ⟨0, 0⟩ i ^ 2 + Z ⟨1, 0⟩ i ^ 2 - 2) ^ 2 = Z ⟨0, 0⟩ i ^ 4 + Z ⟨1, 0⟩ i ^ 4 + 2 * (Z ⟨0, 0⟩ i * Z ⟨1, 0⟩ i) ^ 2 - 4 * Z ⟨0, 0⟩ i ^ 2 - 4 * Z ⟨1, 0⟩ i ^ 2 + 4 := by ring
      have e0 : Z ⟨0, 0⟩ i * Z ⟨1, 0⟩ i = 0 := mul_eq_zero.2 hx
      rw [e0, h40, h41] at e
      calc _ = W.wc i * (Z ⟨0, 0⟩ i ^ 2 + Z ⟨1, 0⟩ i ^ 2 - 2) ^ 2 := by ring
        _ = _ := by rw [e]; ring
    rw [Finset.sum_congr rfl fun i _ => this i]
    simp only [Finset.sum_add_distrib, ← Finset.mul_sum]
    rw [c0, c2, c2]
    ring
  · have h := (SecondOrder.quadratic_moments (standard_normal ((i : Fin 2) × Fin (pair i))) (q := 1) (fun _ => 0) (fun _ _ => 0) (fun _ => (2 : ℝ) • 1) (fun _ => by
      rw [Matrix.IsHermitian, conjTranspose_smul, conjTranspose_one, star_trivial])).2.1 0 0
    have hq : ∀ x : ((i : Fin 2) × Fin (pair i)) → ℝ, Kalman.quadratic 0 0 (fun _ => 0) ((2 : ℝ) • (1 : Matrix ((i : Fin 2) × Fin (pair i)) _ ℝ)) x = joint pair radius 0 x := by
      intro x
      simp [Kalman.quadratic, dotProduct, Matrix.smul_mulVec, joint, radius, Fintype.sum_sigma, Fin.sum_univ_two]
      ring
    simp only [hq] at h
    rw [h]
    have : ((2 : ℝ) • (1 : Matrix ((i : Fin 2) × Fin (pair i)) ((i : Fin 2) × Fin (pair i)) ℝ)) * ((2 : ℝ) • (1 : Matrix ((i : Fin 2) × Fin (pair i)) ((i : Fin 2) × Fin (pair i)) ℝ)) =
        (4 : ℝ) • (1 : Matrix ((i : Fin 2) × Fin (pair i)) ((i : Fin 2) × Fin (pair i)) ℝ) := by
      rw [Matrix.smul_mul, Matrix.mul_smul, Matrix.mul_one, smul_smul]
      norm_num
    have z : (Matrix.of fun (_ : Fin 1) (_ : (i : Fin 2) × Fin (pair i)) => (0 : ℝ)) = 0 := rfl
    rw [z]
    simp only [Kalman.secondOrderCov, Matrix.one_mul, Matrix.mul_one, this, Matrix.trace_smul, Matrix.trace_one]
    simp
    norm_num

/-! ## The hypotheses can be met -/

/-- A polynomial of degree 3 of a standard normal input and standard normal noise: `x² n + x`. -/
def cubic (x : Fin (pair 0) → ℝ) (n : (i : Fin 2) → Fin (pair i) → ℝ) (_ : Fin 1) : ℝ := x 0 ^ 2 * n 1 0 + x 0

theorem pair_law : Normal4 (Measure.pi fun _ : (i : Fin 2) × Fin (pair i) => gaussianReal 0 1) (fun ω => ω) (fun _ => 0) (blockDiagonal' fun i => (1 : Matrix (Fin (pair i)) (Fin (pair i)) ℝ)) := by
  have h := standard_normal ((i : Fin 2) × Fin (pair i))
  have e : (blockDiagonal' fun i => (1 : Matrix (Fin (pair i)) (Fin (pair i)) ℝ)) = (1 : Matrix ((i : Fin 2) × Fin (pair i)) _ ℝ) := blockDiagonal'_one
  rw [e]
  exact h

example (lib : SLib ℝ) : ∃ Z, cubaturePoints pair lib (fun _ => 1) = some Z ∧
    (transform pair lib.toLib (cubatureWeights _) (fun _ _ => 0) Z (.last cubic)).1.mean = fun r => ∫ ω, joint pair cubic r ω ∂(Measure.pi fun _ : (i : Fin 2) × Fin (pair i) => gaussianReal 0 1) := by
  obtain ⟨Z, hZ, h, -⟩ := C133_cubature pair (by simp) lib (fun _ _ => 0) (fun _ => 1) (fun _ => Matrix.PosSemidef.one) _ pair_law.toBalanced cubic
  refine ⟨Z, hZ, h fun r => ⟨MvPolynomial.X ⟨0, 0⟩ ^ 2 * MvPolynomial.X ⟨1, 0⟩ + MvPolynomial.X ⟨0, 0⟩, ?_, ?_⟩⟩
  · refine (MvPolynomial.totalDegree_add _ _).trans (max_le ((MvPolynomial.totalDegree_mul _ _).trans ?_) ?_)
    · refine (Nat.add_le_add (MvPolynomial.totalDegree_pow _ _) le_rfl).trans ?_
      simp [MvPolynomial.totalDegree_X]
    · simp [MvPolynomial.totalDegree_X]
  · intro x
    simp [joint, cubic]

end OpenKalman.Moments
