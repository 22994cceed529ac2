import Verif.Theorems.SigmaFilter
import Verif.Theorems.Frames
import Verif.Proof.CovArith

/-!
# C162: filters on sample points in other coordinates

The filter is that of `Model/SigmaFilter.lean`, the coordinates those of `Spec/Frames.lean`.
-/

set_option linter.unusedSectionVars false

namespace OpenKalman.SigmaFrames
open Matrix OpenKalman.Kalman SigmaPoints SigmaFilter Frames
open scoped ComplexOrder

variable {𝕜 : Type} [RCLike 𝕜] {b p n : ℕ}

/-! ## Points -/

theorem elem_mul {k : ℕ} (T delta : Matrix (Fin k) (Fin k) 𝕜) (a : Fin k) (c : ℕ) (L : List Piece) : elem (T * delta) a c L = ∑ s, T a s * elem delta s c L := by
  induction L generalizing c with
  | nil => simp [elem]
  | cons q L ih =>
    unfold elem
    split
    · cases q with
      | zero w => simp [Piece.elem]
      | plus =>
        unfold Piece.elem
        split <;> simp [Matrix.mul_apply]
      | minus =>
        unfold Piece.elem
        split <;> simp [Matrix.mul_apply]
    · exact ih _

/-- The linear parts of several maps, on points of several distributions. -/
def onPoints {count : ℕ} {k : Fin b → ℕ} (T : (i : Fin b) → Matrix (Fin (k i)) (Fin (k i)) 𝕜) (Z : Matrix ((i : Fin b) × Fin (k i)) (Fin count) 𝕜) :
    Matrix ((i : Fin b) × Fin (k i)) (Fin count) 𝕜 := Matrix.of fun ia c => ∑ s, T ia.1 ia.2 s * Z ⟨ia.1, s⟩ c

theorem points_mul (r : Rule) (k : Fin b → ℕ) (T delta : (i : Fin b) → Matrix (Fin (k i)) (Fin (k i)) 𝕜) :
    r.points k (fun i => T i * delta i) = (r.points k delta).map (onPoints T) := by
  unfold Rule.points
  rw [Option.map_map]
  congr 1
  funext L
  ext ia c
  exact elem_mul _ _ _ _ _

/-! ## The transform -/

section transform
variable {k : Fin (b + 1) → ℕ} (f : (i : Fin (b + 1)) → Affine 𝕜 (k i) (k i)) (g : Affine 𝕜 p p) {F F' : ((i : Fin (b + 1)) → Fin (k i) → 𝕜) → Fin p → 𝕜}

theorem outputs_recoded {count : ℕ} (hF : ∀ z, F' (fun i => (f i).point (z i)) = g.point (F z)) (mean : (i : Fin (b + 1)) → Fin (k i) → 𝕜)
    (Z : Matrix ((i : Fin (b + 1)) × Fin (k i)) (Fin count) 𝕜) :
    outputs F' (fun i => (f i).point (mean i)) (onPoints (fun i => (f i).T) Z) = g.T * outputs F mean Z + Matrix.of fun a _ => g.c a := by
  ext a c
  have h : (fun (i : Fin (b + 1)) (s : Fin (k i)) => onPoints (fun i => (f i).T) Z ⟨i, s⟩ c + (f i).point (mean i) s) = fun i => (f i).point (fun s => Z ⟨i, s⟩ c + mean i s) := by
    funext i s
    simp only [onPoints, Matrix.of_apply, Affine.point, Pi.add_apply, mulVec, dotProduct, mul_add, Finset.sum_add_distrib]
    ring
  show F' (fun i s => onPoints (fun i => (f i).T) Z ⟨i, s⟩ c + (f i).point (mean i) s) a = _
  rw [h, hF]
  rfl

theorem mean_recoded {count : ℕ} (W : Weights count) (hW : ∑ c, W.wm c = 1) (Y : Matrix (Fin p) (Fin count) 𝕜) :
    weightedMean W (g.T * Y + Matrix.of fun a _ => g.c a) = g.point (weightedMean W Y) := by
  unfold weightedMean Affine.point
  rw [add_mulVec, mulVec_mulVec]
  congr 1
  funext a
  show ∑ c, g.c a * scal W.wm c = g.c a
  have : ∑ c, (W.wm c : 𝕜) = 1 := by rw [← RCLike.ofReal_sum, hW, RCLike.ofReal_one]
  rw [← Finset.mul_sum]
  show g.c a * ∑ c, (W.wm c : 𝕜) = _
  rw [this, mul_one]

theorem deviations_recoded {count : ℕ} (Y : Matrix (Fin p) (Fin count) 𝕜) (m : Fin p → 𝕜) :
    deviations (g.T * Y + Matrix.of fun a _ => g.c a) (g.point m) = g.T * deviations Y m := by
  ext a c
  simp only [deviations, Affine.point, Matrix.add_apply, Matrix.of_apply, Pi.add_apply, mulVec, dotProduct, Matrix.mul_apply, mul_sub, Finset.sum_sub_distrib]
  ring

theorem statePoints_recoded {count : ℕ} (Z : Matrix ((i : Fin (b + 1)) × Fin (k i)) (Fin count) 𝕜) :
    statePoints (onPoints (fun i => (f i).T) Z) = (f 0).T * statePoints Z := by
  ext a c
  rfl

theorem transform_recoded (lib : Kalman.Lib 𝕜) (r : Rule) (hk : ∀ i, 0 < k i) (hr : Admissible r (∑ i, k i)) (hF : ∀ z, F' (fun i => (f i).point (z i)) = g.point (F z))
    (mean : (i : Fin (b + 1)) → Fin (k i) → 𝕜) (delta : (i : Fin (b + 1)) → Matrix (Fin (k i)) (Fin (k i)) 𝕜) :
    covTransform lib r k (fun i => (f i).point (mean i)) (fun i => (f i).T * delta i) F' =
      (covTransform lib r k mean delta F).map fun y => (g.dist y.1, (f 0).T * y.2 * g.Tᴴ) := by
  obtain ⟨Z, h1, -⟩ := points_ok r k hk hr delta
  have h2 : r.points k (fun i => (f i).T * delta i) = some (onPoints (fun i => (f i).T) Z) := by rw [points_mul, h1]; rfl
  have hW := (good_rule (𝕜 := 𝕜) r _ (sum_k_pos k hk) hr).total
  rw [transform_eq lib r k _ _ F' h2, transform_eq lib r k _ _ F h1, Option.map_some, outputs_recoded f g hF, mean_recoded g _ hW, deviations_recoded, statePoints_recoded]
  refine congrArg some (Prod.ext (Gauss.ext rfl ?_) ?_)
  · show gramOf _ (g.T * _) = g.T * gramOf _ _ * g.Tᴴ
    unfold gramOf
    rw [conjTranspose_mul]
    simp only [Matrix.mul_assoc]
  · show crossOf _ ((f 0).T * _) (g.T * _) = (f 0).T * crossOf _ _ _ * g.Tᴴ
    unfold crossOf
    rw [conjTranspose_mul]
    simp only [Matrix.mul_assoc]

end transform

/-- An update in other coordinates. -/
theorem step_recoded (lib : Kalman.Lib 𝕜) {m : ℕ} (f : Affine 𝕜 n n) (g : Affine 𝕜 m m) (inv : g.Invertible) (x : Gauss 𝕜 (Fin n)) (y : Gauss 𝕜 (Fin m))
    (hy : y.cov.PosDef) (C : Matrix (Fin n) (Fin m) 𝕜) (z : Fin m → 𝕜) :
    updateStep lib id id (f.dist x) (g.dist y) (f.T * C * g.Tᴴ) (g.point z) = f.dist (updateStep lib id id x y C z) := by
  have hu := unit_of_posDef hy
  have hgu : IsUnit g.Tᴴ.det := by rw [det_conjTranspose]; exact inv.star
  have hsu : IsUnit (g.spread y.cov).det := by
    unfold Affine.spread
    rw [det_mul, det_mul]
    exact (inv.mul hu).mul hgu
  have hk : f.T * C * g.Tᴴ * (g.spread y.cov)⁻¹ * g.T = f.T * (C * y.cov⁻¹) := by
    unfold Affine.spread
    rw [Matrix.mul_inv_rev, Matrix.mul_inv_rev]
    calc f.T * C * g.Tᴴ * (g.Tᴴ⁻¹ * (y.cov⁻¹ * g.T⁻¹)) * g.T = f.T * C * (g.Tᴴ * g.Tᴴ⁻¹) * y.cov⁻¹ * (g.T⁻¹ * g.T) := by simp only [Matrix.mul_assoc]
      _ = _ := by rw [mul_nonsing_inv _ hgu, nonsing_inv_mul _ inv]; simp only [Matrix.mul_assoc, Matrix.mul_one]
  have e1 := updateStep_eq lib id id (f.dist x) (g.dist y) (f.T * C * g.Tᴴ) (g.point z) (spread_psd g hy.posSemidef).1 hsu
  have e2 := updateStep_eq lib id id x y C z hy.1 hu
  rw [e2]
  refine e1.trans ?_
  refine Gauss.ext ?_ ?_
  · show f.point x.mean + (f.T * C * g.Tᴴ * (g.spread y.cov)⁻¹) *ᵥ (g.point z - g.point y.mean) = f.point (x.mean + (C * y.cov⁻¹) *ᵥ (z - y.mean))
    have hd : g.point z - g.point y.mean = g.T *ᵥ (z - y.mean) := by
      rw [Affine.point, Affine.point, mulVec_sub]
      abel
    rw [hd, mulVec_mulVec, hk, ← mulVec_mulVec]
    simp only [Affine.point, mulVec_add]
    abel
  · show f.T * x.cov * f.Tᴴ - f.T * C * g.Tᴴ * (g.spread y.cov)⁻¹ * (f.T * C * g.Tᴴ)ᴴ = f.T * (x.cov - C * y.cov⁻¹ * Cᴴ) * f.Tᴴ
    have : f.T * C * g.Tᴴ * (g.spread y.cov)⁻¹ * (f.T * C * g.Tᴴ)ᴴ = (f.T * C * g.Tᴴ * (g.spread y.cov)⁻¹ * g.T) * (Cᴴ * f.Tᴴ) := by
      simp only [conjTranspose_mul, conjTranspose_conjTranspose, Matrix.mul_assoc]
    rw [this, hk]
    simp only [Matrix.mul_sub, Matrix.sub_mul, Matrix.mul_assoc]

/-! ## Histories -/

/-- Two histories say the same, the second in other coordinates: of the states and of each noise term, all of the kind `ok`, and of the measurements, where they must be invertible. -/
inductive SRecoded (ok : ∀ n, Affine 𝕜 n n → Prop) : {n l : ℕ} → Affine 𝕜 n n → Affine 𝕜 l l → SHist 𝕜 n l → SHist 𝕜 n l → Prop
  | nil {n : ℕ} {f : Affine 𝕜 n n} : SRecoded ok f f .nil .nil
  | predict {b p l : ℕ} {k : Fin (b + 1) → ℕ} (f : (i : Fin (b + 1)) → Affine 𝕜 (k i) (k i)) (g : Affine 𝕜 p p) {h : Affine 𝕜 l l}
      {ns ns' : (i : Fin b) → GaussChol 𝕜 (Fin (k i.succ))} {F F' : ((i : Fin (b + 1)) → Fin (k i) → 𝕜) → Fin p → 𝕜} {rest rest' : SHist 𝕜 p l} (fits : ∀ i, ok (k i) (f i))
      (noises : ∀ i, (ns' i).toGauss = (f i.succ).dist (ns i).toGauss) (same : ∀ z, F' (fun i => (f i).point (z i)) = g.point (F z)) (r : SRecoded ok g h rest rest') :
      SRecoded ok (f 0) h (.cons (.predict k ns F) rest) (.cons (.predict k ns' F') rest')
  | update {b p l : ℕ} {k : Fin (b + 1) → ℕ} (f : (i : Fin (b + 1)) → Affine 𝕜 (k i) (k i)) (g : Affine 𝕜 p p) {h : Affine 𝕜 l l}
      {ns ns' : (i : Fin b) → GaussChol 𝕜 (Fin (k i.succ))} {F F' : ((i : Fin (b + 1)) → Fin (k i) → 𝕜) → Fin p → 𝕜} {z z' : Fin p → 𝕜} {rest rest' : SHist 𝕜 (k 0) l}
      (fits : ∀ i, ok (k i) (f i)) (inv : g.Invertible) (noises : ∀ i, (ns' i).toGauss = (f i.succ).dist (ns i).toGauss)
      (same : ∀ z, F' (fun i => (f i).point (z i)) = g.point (F z)) (reads : z' = g.point z) (r : SRecoded ok (f 0) h rest rest') :
      SRecoded ok (f 0) h (.cons (.update k ns F z) rest) (.cons (.update k ns' F' z') rest')

/-- What a history may do, whichever square roots are used, if no covariance of a measurement is singular. -/
def ReachesRegular (lib : Kalman.Lib 𝕜) (r : Rule) : {n l : ℕ} → SHist 𝕜 n l → Gauss 𝕜 (Fin n) → Gauss 𝕜 (Fin l) → Prop
  | _, _, .nil, x, y => y = x
  | _, _, .cons (.predict k ns g) h, x, y => ∃ delta : (i : Fin _) → Matrix (Fin (k i)) (Fin (k i)) 𝕜,
      (∀ i, delta i * (delta i)ᴴ = (r.gamma (∑ i, k i) : 𝕜) • (dists x ns i).cov) ∧
      ∃ q, covTransform lib r k (fun i => (dists x ns i).mean) delta g = some q ∧ ReachesRegular lib r h q.1 y
  | _, _, .cons (.update k ns g z) h, x, y => ∃ delta : (i : Fin _) → Matrix (Fin (k i)) (Fin (k i)) 𝕜,
      (∀ i, delta i * (delta i)ᴴ = (r.gamma (∑ i, k i) : 𝕜) • (dists x ns i).cov) ∧
      ∃ q, covTransform lib r k (fun i => (dists x ns i).mean) delta g = some q ∧ q.1.cov.PosDef ∧ ReachesRegular lib r h (updateStep lib id id x q.1 q.2 z) y

theorem dists_recoded {k : Fin (b + 1) → ℕ} (f : (i : Fin (b + 1)) → Affine 𝕜 (k i) (k i)) (x : Gauss 𝕜 (Fin (k 0))) {ns ns' : (i : Fin b) → GaussChol 𝕜 (Fin (k i.succ))}
    (h : ∀ i, (ns' i).toGauss = (f i.succ).dist (ns i).toGauss) (i : Fin (b + 1)) : dists ((f 0).dist x) ns' i = (f i).dist (dists x ns i) := by
  refine Fin.cases rfl (fun i => ?_) i
  exact h i

theorem means_recoded {k : Fin (b + 1) → ℕ} (f : (i : Fin (b + 1)) → Affine 𝕜 (k i) (k i)) (x : Gauss 𝕜 (Fin (k 0))) {ns ns' : (i : Fin b) → GaussChol 𝕜 (Fin (k i.succ))}
    (h : ∀ i, (ns' i).toGauss = (f i.succ).dist (ns i).toGauss) : (fun i => (dists ((f 0).dist x) ns' i).mean) = fun i => (f i).point (dists x ns i).mean := by
  funext i
  rw [dists_recoded f x h]
  rfl

theorem roots_recoded {k : Fin (b + 1) → ℕ} (f : (i : Fin (b + 1)) → Affine 𝕜 (k i) (k i)) (x : Gauss 𝕜 (Fin (k 0))) {ns ns' : (i : Fin b) → GaussChol 𝕜 (Fin (k i.succ))}
    (h : ∀ i, (ns' i).toGauss = (f i.succ).dist (ns i).toGauss) (c : 𝕜) {delta : (i : Fin (b + 1)) → Matrix (Fin (k i)) (Fin (k i)) 𝕜}
    (hd : ∀ i, delta i * (delta i)ᴴ = c • (dists x ns i).cov) (i : Fin (b + 1)) :
    (f i).T * delta i * ((f i).T * delta i)ᴴ = c • (dists ((f 0).dist x) ns' i).cov := by
  rw [dists_recoded f x h, conjTranspose_mul]
  show _ = c • ((f i).T * (dists x ns i).cov * (f i).Tᴴ)
  rw [← Matrix.smul_mul, ← Matrix.mul_smul, ← hd i]
  simp only [Matrix.mul_assoc]

/-- **C162** (any square roots): whatever a filter on sample points can report with some choice of square roots, it can report in other coordinates, if it is told the same in these. -/
theorem C162_reaches (lib : Kalman.Lib 𝕜) (r : Rule) {ok : ∀ n, Affine 𝕜 n n → Prop} {n l : ℕ} {f : Affine 𝕜 n n} {g : Affine 𝕜 l l} {h h' : SHist 𝕜 n l}
    (rc : SRecoded ok f g h h') (ha : AllAdmissible r h) (x : Gauss 𝕜 (Fin n)) (y : Gauss 𝕜 (Fin l)) (hy : ReachesRegular lib r h x y) :
    ReachesRegular lib r h' (f.dist x) (g.dist y) := by
  induction rc with
  | nil => exact congrArg _ hy
  | @predict b p l k f g j ns ns' F F' rest rest' fits noises same rc ih =>
    obtain ⟨delta, hd, q, hq, hy⟩ := hy
    refine ⟨fun i => (f i).T * delta i, roots_recoded f x noises _ hd, (g.dist q.1, (f 0).T * q.2 * g.Tᴴ), ?_, ih ha.2 q.1 y hy⟩
    rw [means_recoded f x noises, transform_recoded f g lib r ha.1.1 ha.1.2 same, hq]
    rfl
  | @update b p l k f g j ns ns' F F' z z' rest rest' fits inv noises same reads rc ih =>
    obtain ⟨delta, hd, q, hq, hp, hy⟩ := hy
    refine ⟨fun i => (f i).T * delta i, roots_recoded f x noises _ hd, (g.dist q.1, (f 0).T * q.2 * g.Tᴴ), ?_, ?_, ?_⟩
    · rw [means_recoded f x noises, transform_recoded f g lib r ha.1.1 ha.1.2 same, hq]
      rfl
    · exact hp.mul_mul_conjTranspose_same (B := g.T) (Matrix.vecMul_injective_of_isUnit ((isUnit_iff_isUnit_det _).2 inv))
    · rw [reads, step_recoded lib (f 0) g inv x q.1 hp q.2 z]
      exact ih ha.2 _ y hy

/-! ## The square roots that are used -/

/-- The square root of a positive definite matrix is its lower Cholesky factor. -/
def LowerRoots (lib : SLib 𝕜) : Prop := ∀ {k : ℕ} (A : Matrix (Fin k) (Fin k) 𝕜), A.PosDef → CovArith.IsChol false A (lib.chol A)

/-- Each new coordinate is a positive multiple of the old one, plus a combination of the coordinates before it. -/
def LowerPositive (n : ℕ) (f : Affine 𝕜 n n) : Prop := (∀ i j, i < j → f.T i j = 0) ∧ ∀ i, 0 < f.T i i

theorem lower_unit {f : Affine 𝕜 n n} (h : LowerPositive n f) : IsUnit f.T.det := by
  rw [det_of_lowerTriangular f.T (fun i j hij => h.1 i j hij), isUnit_iff_ne_zero]
  exact Finset.prod_ne_zero_iff.2 fun i _ => (h.2 i).ne'

theorem chol_recoded (lib : SLib 𝕜) (hl : LowerRoots lib) {f : Affine 𝕜 n n} (hf : LowerPositive n f) {c : ℝ} (hc : 0 < c) {P : Matrix (Fin n) (Fin n) 𝕜} (hP : P.PosDef) :
    lib.chol ((c : 𝕜) • f.spread P) = f.T * lib.chol ((c : 𝕜) • P) := by
  have hc' : (0 : 𝕜) < (c : 𝕜) := RCLike.ofReal_pos.mpr hc
  have h1 : ((c : 𝕜) • P).PosDef := hP.smul hc'
  have hs : (f.spread P).PosDef := hP.mul_mul_conjTranspose_same (B := f.T) (Matrix.vecMul_injective_of_isUnit ((isUnit_iff_isUnit_det _).2 (lower_unit hf)))
  have h2 : ((c : 𝕜) • f.spread P).PosDef := hs.smul hc'
  obtain ⟨t, gr, d⟩ := hl _ h1
  have gr' : lib.chol ((c : 𝕜) • P) * (lib.chol ((c : 𝕜) • P))ᴴ = (c : 𝕜) • P := gr
  have t' : ∀ i j, i < j → lib.chol ((c : 𝕜) • P) i j = 0 := fun i j hij => t i j (by simpa using hij)
  refine CovArith.isChol_unique_low h2 (hl _ h2) ⟨fun i j hij => ?_, ?_, fun i => ?_⟩
  · have hij : i < j := by simpa using hij
    rw [Matrix.mul_apply]
    refine Finset.sum_eq_zero fun s _ => ?_
    rcases lt_or_ge s j with h | h
    · rw [t' s j h, mul_zero]
    · rw [hf.1 i s (lt_of_lt_of_le hij h), zero_mul]
  · show f.T * lib.chol ((c : 𝕜) • P) * (f.T * lib.chol ((c : 𝕜) • P))ᴴ = _
    rw [conjTranspose_mul, Affine.spread]
    calc f.T * lib.chol ((c : 𝕜) • P) * ((lib.chol ((c : 𝕜) • P))ᴴ * f.Tᴴ) = f.T * (lib.chol ((c : 𝕜) • P) * (lib.chol ((c : 𝕜) • P))ᴴ) * f.Tᴴ := by simp only [Matrix.mul_assoc]
      _ = _ := by rw [gr', Matrix.mul_smul, Matrix.smul_mul]
  · rw [Matrix.mul_apply, Finset.sum_eq_single i]
    · exact mul_nonneg (hf.2 i).le (d i)
    · intro s _ hs
      rcases lt_or_gt_of_ne hs with h | h
      · rw [t' s i h, mul_zero]
      · rw [hf.1 i s h, zero_mul]
    · intro h
      exact absurd (Finset.mem_univ i) h

/-- No covariance that a filter meets is singular. -/
def RunsRegular (lib : SLib 𝕜) (r : Rule) : {n l : ℕ} → SHist 𝕜 n l → Gauss 𝕜 (Fin n) → Prop
  | _, _, .nil, _ => True
  | _, _, .cons (.predict k ns g) h, x => (∀ i, (dists x ns i).cov.PosDef) ∧ ∀ y, (SOp.predict k ns g).run lib r x = some y → RunsRegular lib r h y
  | _, _, .cons (.update k ns g z) h, x => (∀ i, (dists x ns i).cov.PosDef) ∧
      (∀ q, covTransform lib.toLib r k (fun i => (dists x ns i).mean) (rootsOf lib r (dists x ns)) g = some q → q.1.cov.PosDef) ∧
      ∀ y, (SOp.update k ns g z).run lib r x = some y → RunsRegular lib r h y

theorem rootsOf_recoded (lib : SLib 𝕜) (hl : LowerRoots lib) (r : Rule) {k : Fin (b + 1) → ℕ} (hk : ∀ i, 0 < k i) (hr : Admissible r (∑ i, k i))
    (f : (i : Fin (b + 1)) → Affine 𝕜 (k i) (k i)) (fits : ∀ i, LowerPositive (k i) (f i)) (x : Gauss 𝕜 (Fin (k 0))) {ns ns' : (i : Fin b) → GaussChol 𝕜 (Fin (k i.succ))}
    (h : ∀ i, (ns' i).toGauss = (f i.succ).dist (ns i).toGauss) (hp : ∀ i, (dists x ns i).cov.PosDef) :
    rootsOf lib r (dists ((f 0).dist x) ns') = fun i => (f i).T * rootsOf lib r (dists x ns) i := by
  funext i
  unfold rootsOf
  rw [dists_recoded f x h i]
  exact chol_recoded lib hl (fits i) (gamma_pos r _ (sum_k_pos k hk) hr) (hp i)

/-- **C162** (as coded): if the square roots are lower Cholesky factors, and each new coordinate is a positive multiple of an old one plus a combination of the coordinates before it, the
filter on sample points reports the same in the other coordinates. -/
theorem C162_lower_partial (lib : SLib 𝕜) (hl : LowerRoots lib) (r : Rule) {n l : ℕ} {f : Affine 𝕜 n n} {g : Affine 𝕜 l l} {h h' : SHist 𝕜 n l}
    (rc : SRecoded LowerPositive f g h h') (ha : AllAdmissible r h) (x : Gauss 𝕜 (Fin n)) (hx : RunsRegular lib r h x) :
    h'.run lib r (f.dist x) = (h.run lib r x).map g.dist := by
  induction rc with
  | nil => rfl
  | @predict b p l k f g j ns ns' F F' rest rest' fits noises same rc ih =>
    have e : (SOp.predict k ns' F').run lib r ((f 0).dist x) = ((SOp.predict k ns F).run lib r x).map g.dist := by
      simp only [SOp.run]
      rw [means_recoded f x noises, rootsOf_recoded lib hl r ha.1.1 ha.1.2 f fits x noises hx.1, transform_recoded f g lib.toLib r ha.1.1 ha.1.2 same, Option.map_map, Option.map_map]
      rfl
    show ((SOp.predict k ns' F').run lib r ((f 0).dist x)).bind (rest'.run lib r) = (((SOp.predict k ns F).run lib r x).bind (rest.run lib r)).map j.dist
    rw [e]
    cases hy : (SOp.predict k ns F).run lib r x with
    | none => rfl
    | some y => exact ih ha.2 y (hx.2 y hy)
  | @update b p l k f g j ns ns' F F' z z' rest rest' fits inv noises same reads rc ih =>
    have e : (SOp.update k ns' F' z').run lib r ((f 0).dist x) = ((SOp.update k ns F z).run lib r x).map (f 0).dist := by
      simp only [SOp.run]
      rw [means_recoded f x noises, rootsOf_recoded lib hl r ha.1.1 ha.1.2 f fits x noises hx.1, transform_recoded f g lib.toLib r ha.1.1 ha.1.2 same, Option.map_map, Option.map_map]
      cases hq : covTransform lib.toLib r k (fun i => (dists x ns i).mean) (rootsOf lib r (dists x ns)) F with
      | none => rfl
      | some q =>
        refine congrArg some ?_
        show updateStep lib.toLib id id ((f 0).dist x) (g.dist q.1) ((f 0).T * q.2 * g.Tᴴ) z' = (f 0).dist (updateStep lib.toLib id id x q.1 q.2 z)
        rw [reads]
        exact step_recoded lib.toLib (f 0) g inv x q.1 (hx.2.1 q hq) q.2 z
    show ((SOp.update k ns' F' z').run lib r ((f 0).dist x)).bind (rest'.run lib r) = (((SOp.update k ns F z).run lib r x).bind (rest.run lib r)).map j.dist
    rw [e]
    cases hy : (SOp.update k ns F z).run lib r x with
    | none => rfl
    | some y => exact ih ha.2 y (hx.2.2 y hy)

/-! ## The order of coordinates -/

/-- Two components with variance 25/2 each and covariance 15/2. -/
noncomputable def pairCov : Matrix (Fin 2) (Fin 2) ℝ := !![25 / 2, 15 / 2; 15 / 2, 25 / 2]

/-- The two components exchanged. -/
def swapped : Affine ℝ 2 2 := ⟨!![0, 1; 1, 0], 0⟩

def unchanged : Affine ℝ 1 1 := ⟨1, 0⟩

/-- The fourth power of the first component, and of the second. -/
def firstFourth : SHist ℝ 2 1 := .cons (.predict (b := 0) (p := 1) (fun _ => 2) (fun i => i.elim0) fun z _ => z 0 0 ^ 4) .nil
def secondFourth : SHist ℝ 2 1 := .cons (.predict (b := 0) (p := 1) (fun _ => 2) (fun i => i.elim0) fun z _ => z 0 1 ^ 4) .nil

theorem swapped_recoded : SRecoded (fun _ f => f.Invertible) swapped unchanged firstFourth secondFourth := by
  refine .predict (b := 0) (k := fun _ => 2) (fun _ => swapped) unchanged (fun _ => ?_) (fun i => i.elim0) (fun z => ?_) .nil
  · simp [Affine.Invertible, swapped, det_fin_two]
  · ext a
    simp [Affine.point, swapped, unchanged, vecHead]

theorem pair_chol (lib : SLib ℝ) (hl : LowerRoots lib) : lib.chol ((2 : ℝ) • pairCov) = !![5, 0; 3, 4] := by
  have e : (2 : ℝ) • pairCov = !![5, 0; 3, 4] * (!![5, 0; 3, 4] : Matrix (Fin 2) (Fin 2) ℝ)ᴴ := by
    ext i j
    fin_cases i <;> fin_cases j <;> norm_num [pairCov, Matrix.mul_apply, Fin.sum_univ_two]
  have hp : ((2 : ℝ) • pairCov).PosDef := by
    rw [e]
    refine PosDef.mul_conjTranspose_self _ (Matrix.vecMul_injective_of_isUnit ((isUnit_iff_isUnit_det _).2 ?_))
    simp [det_fin_two]
  refine CovArith.isChol_unique_low hp (hl _ hp) ⟨fun i j hij => ?_, ?_, fun i => ?_⟩
  · fin_cases i <;> fin_cases j <;> simp_all
  · rw [e]; rfl
  · fin_cases i <;> simp

/-- The mean that the cubature rule gives a function of the pair. -/
theorem pair_mean (lib : SLib ℝ) (hl : LowerRoots lib) (F : ((i : Fin 1) → Fin 2 → ℝ) → Fin 1 → ℝ) :
    ∃ y, (SHist.cons (.predict (b := 0) (p := 1) (fun _ => 2) (fun i => i.elim0) F) .nil).run lib .cubature ⟨0, pairCov⟩ = some y ∧
      y.mean 0 = (F (fun _ => ![5, 3]) 0 + F (fun _ => ![0, 4]) 0 + F (fun _ => ![-5, -3]) 0 + F (fun _ => ![0, -4]) 0) / 4 := by
  set x : Gauss ℝ (Fin 2) := ⟨0, pairCov⟩ with hx
  set delta : (i : Fin 1) → Matrix (Fin 2) (Fin 2) ℝ := fun _ => !![5, 0; 3, 4] with hdelta
  have hroot : rootsOf (k := fun _ : Fin 1 => 2) lib .cubature (dists (k := fun _ : Fin 1 => 2) x fun i => i.elim0) = delta := by
    funext i
    obtain rfl : i = 0 := Fin.fin_one_eq_zero i
    refine Eq.trans ?_ (pair_chol lib hl)
    show lib.chol (((Rule.cubature.gamma (∑ _ : Fin 1, 2) : ℝ) : ℝ) • pairCov) = _
    norm_num [Rule.gamma]
  have hmean : (fun i => (dists (k := fun _ : Fin 1 => 2) x (fun i => i.elim0) i).mean) = fun _ _ => (0 : ℝ) := by
    funext i
    obtain rfl : i = 0 := Fin.fin_one_eq_zero i
    rfl
  have hrun := transform_eq lib.toLib .cubature (fun _ : Fin 1 => 2) (fun _ _ => (0 : ℝ)) delta F (Z := pointsOf (fun _ => 2) 4 [[.plus, .minus]] delta) rfl
  obtain ⟨q, hq, hm⟩ : ∃ q, covTransform lib.toLib .cubature (fun _ : Fin 1 => 2) (fun _ _ => (0 : ℝ)) delta F = some q ∧
      q.1.mean = weightedMean (Rule.cubature.weights (∑ _ : Fin 1, 2)) (outputs F (fun _ _ => (0 : ℝ)) (pointsOf (fun _ : Fin 1 => 2) 4 [[.plus, .minus]] delta)) :=
    ⟨_, hrun, rfl⟩
  refine ⟨q.1, ?_, ?_⟩
  · show (((SOp.predict (b := 0) (p := 1) (fun _ => 2) (fun i => i.elim0) F).run lib .cubature x).bind some) = _
    rw [Option.bind_fun_some]
    show (covTransform lib.toLib .cubature (fun _ : Fin 1 => 2) (fun i => (dists (k := fun _ : Fin 1 => 2) x (fun i => i.elim0) i).mean)
      (rootsOf (k := fun _ : Fin 1 => 2) lib .cubature (dists (k := fun _ : Fin 1 => 2) x fun i => i.elim0)) F).map Prod.fst = _
    rw [hroot, hmean, hq]
    rfl
  · rw [hm]
    show ∑ c : Fin 4, outputs F (fun _ _ => (0 : ℝ)) (pointsOf (fun _ : Fin 1 => 2) 4 [[.plus, .minus]] delta) 0 c * (1 / ((4 : ℕ) : ℝ)) = _
    have hc : ∀ (c : Fin 4) (v : Fin 2 → ℝ), (∀ s, pointsOf (fun _ : Fin 1 => 2) 4 [[.plus, .minus]] delta ⟨0, s⟩ c = v s) →
        outputs F (fun _ _ => (0 : ℝ)) (pointsOf (fun _ : Fin 1 => 2) 4 [[.plus, .minus]] delta) 0 c = F (fun _ => v) 0 := by
      intro c v hv
      show F (fun i s => pointsOf (fun _ : Fin 1 => 2) 4 [[.plus, .minus]] delta ⟨i, s⟩ c + 0) 0 = _
      congr 1
      congr 1
      funext i s
      obtain rfl : i = 0 := Fin.fin_one_eq_zero i
      rw [hv, add_zero]
    rw [Fin.sum_univ_four, hc 0 ![5, 3], hc 1 ![0, 4], hc 2 ![-5, -3], hc 3 ![0, -4]]
    · push_cast
      ring
    all_goals
      intro s
      fin_cases s <;> simp [pointsOf, elem, Piece.elem, Piece.width, hdelta]

/-- **C162** fails for other coordinates: if the two components are exchanged, the mean of the fourth power of the first is 337/2 instead of 625/2. -/
theorem C162_order_violated (lib : SLib ℝ) (hl : LowerRoots lib) : SRecoded (fun _ f => f.Invertible) swapped unchanged firstFourth secondFourth ∧
    ∃ y y', firstFourth.run lib .cubature ⟨0, pairCov⟩ = some y ∧ secondFourth.run lib .cubature (swapped.dist ⟨0, pairCov⟩) = some y' ∧
      y.mean 0 = 625 / 2 ∧ y'.mean 0 = 337 / 2 ∧ y' ≠ unchanged.dist y := by
  refine ⟨swapped_recoded, ?_⟩
  obtain ⟨y, h1, h2⟩ := pair_mean lib hl fun z _ => z 0 0 ^ 4
  obtain ⟨y', h1', h2'⟩ := pair_mean lib hl fun z _ => z 0 1 ^ 4
  have hs : swapped.dist ⟨0, pairCov⟩ = ⟨0, pairCov⟩ := by
    refine Gauss.ext ?_ ?_
    · show swapped.point 0 = 0
      simp [Affine.point, swapped]
    · show swapped.spread pairCov = pairCov
      ext i j
      fin_cases i <;> fin_cases j <;> norm_num [Affine.spread, swapped, pairCov, Matrix.mul_apply, Matrix.vecMul, dotProduct, Fin.sum_univ_two]
  have e : y.mean 0 = 625 / 2 := by rw [h2]; norm_num
  have e' : y'.mean 0 = 337 / 2 := by rw [h2']; norm_num
  refine ⟨y, y', h1, by rw [hs]; exact h1', e, e', fun h => ?_⟩
  have := congrArg (fun q => q.mean 0) h
  simp only [Affine.dist, Affine.point, unchanged, one_mulVec, add_zero, e, e'] at this
  norm_num at this

/-! ## Cases -/

/-- A library whose square roots are lower Cholesky factors. -/
noncomputable def lowerLib : SLib 𝕜 :=
  { (someSLib : SLib 𝕜) with
    chol := fun A => open Classical in if h : A.PosSemidef then (CovArith.exists_chol_low h).choose else A
    chol_spec := fun A h => by
      simp only [dif_pos h]
      exact (CovArith.exists_chol_low h).choose_spec.2.1 }

theorem lowerLib_lower : LowerRoots (lowerLib : SLib 𝕜) := fun A h => by
  simp only [lowerLib, dif_pos h.posSemidef]
  exact (CovArith.exists_chol_low h.posSemidef).choose_spec

theorem pair_posDef : pairCov.PosDef := by
  have e : pairCov = ((1 / 2 : ℝ)) • (!![5, 0; 3, 4] * (!![5, 0; 3, 4] : Matrix (Fin 2) (Fin 2) ℝ)ᴴ) := by
    ext i j
    fin_cases i <;> fin_cases j <;> norm_num [pairCov, Matrix.mul_apply, Matrix.vecMul, dotProduct, Fin.sum_univ_two]
  rw [e]
  refine (PosDef.mul_conjTranspose_self _ (Matrix.vecMul_injective_of_isUnit ((isUnit_iff_isUnit_det _).2 ?_))).smul (by norm_num)
  simp [det_fin_two]

/-- Other units for both components, where the second is measured from a multiple of the first, and another unit for what is predicted. -/
def sheared : Affine ℝ 2 2 := ⟨!![2, 0; 1, 3], ![1, -4]⟩
def fivefold : Affine ℝ 1 1 := ⟨!![5], ![7]⟩

noncomputable def shearedFourth : SHist ℝ 2 1 :=
  .cons (.predict (b := 0) (p := 1) (fun _ => 2) (fun i => i.elim0) fun z _ => 5 * ((z 0 0 - 1) / 2) ^ 4 + 7) .nil

theorem sheared_recoded : SRecoded LowerPositive sheared fivefold firstFourth shearedFourth := by
  refine .predict (b := 0) (k := fun _ => 2) (fun _ => sheared) fivefold (fun _ => ⟨fun i j h => ?_, fun i => ?_⟩) (fun i => i.elim0) (fun z => ?_) .nil
  · fin_cases i <;> fin_cases j <;> simp_all [sheared]
  · fin_cases i <;> norm_num [sheared]
  · ext a
    obtain rfl : a = 0 := Fin.fin_one_eq_zero a
    simp [Affine.point, sheared, fivefold, vecHead]

example : shearedFourth.run lowerLib .cubature (sheared.dist ⟨0, pairCov⟩) = (firstFourth.run lowerLib .cubature ⟨0, pairCov⟩).map fivefold.dist := by
  refine C162_lower_partial lowerLib lowerLib_lower .cubature sheared_recoded ⟨⟨fun _ => by norm_num, trivial⟩, trivial⟩ ⟨0, pairCov⟩ ⟨fun i => ?_, fun _ _ => trivial⟩
  obtain rfl : i = 0 := Fin.fin_one_eq_zero i
  exact pair_posDef

example : ∃ y y', firstFourth.run lowerLib .cubature ⟨0, pairCov⟩ = some y ∧ secondFourth.run lowerLib .cubature (swapped.dist ⟨0, pairCov⟩) = some y' ∧ y' ≠ unchanged.dist y := by
  obtain ⟨-, y, y', h, h', -, -, h3⟩ := C162_order_violated lowerLib lowerLib_lower
  exact ⟨y, y', h, h', h3⟩

/-- A state that is measured as it is, and the same in degrees Fahrenheit. -/
def seen : SHist ℝ 1 1 := .cons (.update (b := 0) (p := 1) (fun _ => 1) (fun i => i.elim0) (fun z => z 0) ![20]) .nil
def seenF : SHist ℝ 1 1 := .cons (.update (b := 0) (p := 1) (fun _ => 1) (fun i => i.elim0) (fun z => z 0) ![68]) .nil
noncomputable def fahrenheit : Affine ℝ 1 1 := ⟨!![9 / 5], ![32]⟩

theorem fahrenheit_recoded : SRecoded LowerPositive fahrenheit fahrenheit seen seenF := by
  refine .update (b := 0) (k := fun _ => 1) (fun _ => fahrenheit) fahrenheit (fun _ => ⟨fun i j h => ?_, fun i => ?_⟩) ?_ (fun i => i.elim0) (fun z => rfl) ?_ .nil
  · fin_cases i; fin_cases j; simp_all
  · fin_cases i; norm_num [fahrenheit]
  · norm_num [Affine.Invertible, fahrenheit]
  · ext i
    fin_cases i
    norm_num [Affine.point, fahrenheit]

/-- Two opposite points at distance one have variance one. -/
theorem opposite_points (W : Weights 2) (hW : ∀ c, W.wm c = 1 / 2 ∧ W.wc c = 1 / 2) (Y : Matrix (Fin 1) (Fin 2) ℝ) (h0 : Y 0 0 = 1) (h1 : Y 0 1 = -1) :
    gramOf W (deviations Y (weightedMean W Y)) 0 0 = 1 := by
  have hm : weightedMean W Y 0 = 0 := by
    simp [weightedMean, mulVec, dotProduct, Fin.sum_univ_two, scal, hW, h0, h1]
  have hs : ∀ c, scal (𝕜 := ℝ) W.wc c = 1 / 2 := fun c => by simp [scal, hW]
  simp only [gramOf, Matrix.mul_apply, conjTranspose_apply, deviations, hm, sub_zero, Fin.sum_univ_two, h0, h1, star_trivial]
  norm_num [hs]

theorem seen_regular : RunsRegular lowerLib .cubature seen ⟨0, (1 : Matrix (Fin 1) (Fin 1) ℝ)⟩ := by
  refine ⟨fun i => ?_, fun q hq => ?_, fun _ _ => trivial⟩
  · obtain rfl : i = 0 := Fin.fin_one_eq_zero i
    exact PosDef.one
  · have hroot : rootsOf (k := fun _ : Fin 1 => 1) (lowerLib : SLib ℝ) .cubature (dists (k := fun _ : Fin 1 => 1) ⟨0, 1⟩ fun i => i.elim0) = fun _ => 1 := by
      funext i
      obtain rfl : i = 0 := Fin.fin_one_eq_zero i
      show lowerLib.chol (((Rule.cubature.gamma (∑ _ : Fin 1, 1) : ℝ) : ℝ) • (1 : Matrix (Fin 1) (Fin 1) ℝ)) = 1
      have e : ((Rule.cubature.gamma (∑ _ : Fin 1, 1) : ℝ) : ℝ) • (1 : Matrix (Fin 1) (Fin 1) ℝ) = 1 := by norm_num [Rule.gamma]
      rw [e]
      refine CovArith.isChol_unique_low PosDef.one (lowerLib_lower _ PosDef.one) ⟨fun i j hij => ?_, ?_, fun i => ?_⟩
      · fin_cases i; fin_cases j; simp_all
      · show (1 : Matrix (Fin 1) (Fin 1) ℝ) * (1 : Matrix (Fin 1) (Fin 1) ℝ)ᴴ = 1
        simp
      · simp
    rw [hroot, transform_eq (lowerLib : SLib ℝ).toLib .cubature (fun _ : Fin 1 => 1) _ _ _ (Z := pointsOf (fun _ => 1) 2 [[.plus, .minus]] fun _ => 1) rfl] at hq
    obtain rfl := Option.some.inj hq
    clear hq hroot
    have e : ∀ A : Matrix (Fin 1) (Fin 1) ℝ, A 0 0 = 1 → A.PosDef := fun A h => by
      have : A = 1 := by
        ext i j
        fin_cases i; fin_cases j; simpa using h
      rw [this]
      exact PosDef.one
    refine e _ ?_
    refine opposite_points (Rule.cubature.weights (∑ _ : Fin 1, 1)) (fun c => ?_) _ ?_ ?_
    · show (1 / ((2 : ℕ) : ℝ) : ℝ) = 1 / 2 ∧ (1 / ((2 : ℕ) : ℝ) : ℝ) = 1 / 2
      norm_num
    all_goals
      refine (add_zero _).trans ?_
      norm_num [pointsOf, elem, Piece.elem, Piece.width]
      exact one_apply_eq (0 : Fin 1)

example : seenF.run lowerLib .cubature (fahrenheit.dist ⟨0, 1⟩) = (seen.run lowerLib .cubature ⟨0, 1⟩).map fahrenheit.dist :=
  C162_lower_partial lowerLib lowerLib_lower .cubature fahrenheit_recoded ⟨⟨fun _ => by norm_num, trivial⟩, trivial⟩ ⟨0, 1⟩ seen_regular

end OpenKalman.SigmaFrames
