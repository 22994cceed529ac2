import Verif.Theorems.Kalman

/-!
# C52, C54: Bayes' rule and recursive least squares
-/

set_option linter.unusedSectionVars false

namespace OpenKalman.Kalman
open Matrix
open scoped ComplexOrder MatrixOrder

variable {𝕜 : Type} [RCLike 𝕜] (lib : Lib 𝕜) {n m : Type} [Fintype n] [DecidableEq n] [Fintype m] [DecidableEq m]

theorem unit_of_posDef {A : Matrix n n 𝕜} (h : A.PosDef) : IsUnit A.det := (isUnit_iff_isUnit_det _).mp h.isUnit

/-- The four facts about the gain `K = P H* S⁻¹` behind everything below. -/
theorem info_facts (H : Matrix m n 𝕜) (P : Matrix n n 𝕜) (R : Matrix m m 𝕜) (hP : P.PosDef) (hR : R.PosDef) :
    let S := H * P * Hᴴ + R
    let K := P * Hᴴ * S⁻¹
    let Q := P - K * (H * P)
    Q * (P⁻¹ + Hᴴ * R⁻¹ * H) = 1 ∧ (P⁻¹ + Hᴴ * R⁻¹ * H) * K = Hᴴ * R⁻¹ ∧ Kᴴ * (Hᴴ * R⁻¹) + S⁻¹ = R⁻¹ ∧ Q.det * S.det = P.det * R.det := by
  intro S K Q
  have hu : IsUnit S.det := measCov_unit hP.posSemidef H hR
  have hPu := unit_of_posDef hP
  have hRu := unit_of_posDef hR
  have hSh : S.IsHermitian := (isHermitian_conj hP.1 H).add hR.1
  have hKS : K * S = P * Hᴴ := by show P * Hᴴ * S⁻¹ * S = _; rw [Matrix.mul_assoc, nonsing_inv_mul _ hu, Matrix.mul_one]
  have hHPH : H * P * Hᴴ = S - R := by show _ = H * P * Hᴴ + R - R; abel
  have hS : S * S⁻¹ = 1 := mul_nonsing_inv _ hu
  have hS' : S⁻¹ * S = 1 := nonsing_inv_mul _ hu
  have hRR : R * R⁻¹ = 1 := mul_nonsing_inv _ hRu
  have hRR' : R⁻¹ * R = 1 := nonsing_inv_mul _ hRu
  have hPP : P * P⁻¹ = 1 := mul_nonsing_inv _ hPu
  have hPP' : P⁻¹ * P = 1 := nonsing_inv_mul _ hPu
  have h2 : (P⁻¹ + Hᴴ * R⁻¹ * H) * K = Hᴴ * R⁻¹ := by
    have e : (P⁻¹ + Hᴴ * R⁻¹ * H) * (P * Hᴴ) = Hᴴ * R⁻¹ * S := by
      calc (P⁻¹ + Hᴴ * R⁻¹ * H) * (P * Hᴴ) = P⁻¹ * P * Hᴴ + Hᴴ * R⁻¹ * (H * P * Hᴴ) := by
            simp only [Matrix.add_mul, Matrix.mul_assoc]
        _ = Hᴴ + (Hᴴ * R⁻¹ * S - Hᴴ * (R⁻¹ * R)) := by rw [hPP', hHPH, Matrix.one_mul, Matrix.mul_sub, Matrix.mul_assoc Hᴴ R⁻¹ R]
        _ = Hᴴ * R⁻¹ * S := by rw [hRR', Matrix.mul_one]; abel
    show _ * (P * Hᴴ * S⁻¹) = _
    rw [← Matrix.mul_assoc, e, Matrix.mul_assoc, hS, Matrix.mul_one]
  refine ⟨?_, h2, ?_, ?_⟩
  · have : (P⁻¹ + Hᴴ * R⁻¹ * H) * Q = 1 := by
      show _ * (P - K * (H * P)) = 1
      rw [Matrix.mul_sub, ← Matrix.mul_assoc _ K, h2, Matrix.add_mul, hPP']
      simp only [Matrix.mul_assoc]
      abel
    exact mul_eq_one_comm.mp this
  · have e : Kᴴ = S⁻¹ * (H * P) := by
      show (P * Hᴴ * S⁻¹)ᴴ = _
      rw [conjTranspose_mul, conjTranspose_mul, conjTranspose_conjTranspose, conjTranspose_nonsing_inv, hSh.eq, hP.1.eq]
    calc Kᴴ * (Hᴴ * R⁻¹) + S⁻¹ = S⁻¹ * (H * P * Hᴴ) * R⁻¹ + S⁻¹ := by rw [e]; simp only [Matrix.mul_assoc]
      _ = R⁻¹ := by rw [hHPH, Matrix.mul_sub, hS', Matrix.sub_mul, Matrix.one_mul, Matrix.mul_assoc, hRR, Matrix.mul_one]; abel
  · have := invertibleOfIsUnitDet P hPu
    have := invertibleOfIsUnitDet S hu
    have d1 := det_fromBlocks₁₁ P (P * Hᴴ) (H * P) S
    have d2 := det_fromBlocks₂₂ P (P * Hᴴ) (H * P) S
    rw [invOf_eq_nonsing_inv] at d1 d2
    have e1 : S - H * P * P⁻¹ * (P * Hᴴ) = R := by
      rw [Matrix.mul_assoc H P P⁻¹, hPP, Matrix.mul_one, ← Matrix.mul_assoc, hHPH]; abel
    rw [e1] at d1
    rw [d1] at d2
    rw [d2, mul_comm]

/-- The posterior covariance, given by `linUpdate`. -/
theorem linUpdate_posDef (H : Matrix m n 𝕜) (R : Matrix m m 𝕜) (r z : m → 𝕜) (x : Gauss 𝕜 n) (hx : x.cov.PosDef) (hR : R.PosDef) :
    (linUpdate lib H R r z x).cov.PosDef := by
  have hu := measCov_unit hx.posSemidef H hR
  have hps : (linUpdate lib H R r z x).cov.PosSemidef :=
    (C48_optimal lib id id x (measure H R r x) _ z (linear_joint hx.posSemidef H hR.posSemidef) (solve_ok lib _ hu)).2.2
  rw [hps.posDef_iff_isUnit]
  rw [linUpdate_eq lib H R r z x hx.1 hR.1 hu]
  exact IsUnit.of_mul_eq_one _ (info_facts H x.cov R hx hR).1

/-! ## C52 -/

/-- **C52** (information form): the inverse covariance grows by `H* R⁻¹ H`, and the information vector by `H* R⁻¹ (z - r)`.  The posterior is positive
definite, so this determines it. -/
theorem C52_information (H : Matrix m n 𝕜) (R : Matrix m m 𝕜) (r z : m → 𝕜) (x : Gauss 𝕜 n) (hx : x.cov.PosDef) (hR : R.PosDef) :
    let x' := linUpdate lib H R r z x
    x'.cov.PosDef ∧ x'.cov⁻¹ = x.cov⁻¹ + Hᴴ * R⁻¹ * H ∧ x'.cov⁻¹ *ᵥ x'.mean = x.cov⁻¹ *ᵥ x.mean + (Hᴴ * R⁻¹) *ᵥ (z - r) := by
  intro x'
  obtain ⟨f1, f2, -, -⟩ := info_facts H x.cov R hx hR
  have e := linUpdate_eq lib H R r z x hx.1 hR.1 (measCov_unit hx.posSemidef H hR)
  have hinv : x'.cov⁻¹ = x.cov⁻¹ + Hᴴ * R⁻¹ * H := by
    show (linUpdate lib H R r z x).cov⁻¹ = _
    rw [e]
    exact inv_eq_right_inv f1
  refine ⟨linUpdate_posDef lib H R r z x hx hR, hinv, ?_⟩
  rw [hinv]
  show _ *ᵥ (linUpdate lib H R r z x).mean = _
  rw [e]
  simp only []
  rw [mulVec_add, mulVec_mulVec, f2, add_mulVec, mulVec_sub, mulVec_sub, mulVec_add, mulVec_mulVec]
  abel

theorem quad_sub (A : Matrix n n 𝕜) (u v : n → 𝕜) : quad A (u - v) = quad A u - star u ⬝ᵥ A *ᵥ v - star v ⬝ᵥ A *ᵥ u + quad A v := by
  simp only [quad, star_sub, mulVec_sub, dotProduct_sub, sub_dotProduct]
  ring

theorem quad_mul (A : Matrix m m 𝕜) (B : Matrix m n 𝕜) (u : n → 𝕜) : quad A (B *ᵥ u) = quad (Bᴴ * A * B) u := by
  simp only [quad, star_mulVec, ← dotProduct_mulVec, mulVec_mulVec, Matrix.mul_assoc]

/-- Completing the square: what the prior and the likelihood say about `θ` is what the posterior says, up to a term not depending on `θ`. -/
theorem C52_square (H : Matrix m n 𝕜) (R : Matrix m m 𝕜) (r z : m → 𝕜) (x : Gauss 𝕜 n) (hx : x.cov.PosDef) (hR : R.PosDef) (θ : n → 𝕜) :
    let x' := linUpdate lib H R r z x
    quad x.cov⁻¹ (θ - x.mean) + quad R⁻¹ (z - (H *ᵥ θ + r)) =
      quad x'.cov⁻¹ (θ - x'.mean) + quad (H * x.cov * Hᴴ + R)⁻¹ (z - (H *ᵥ x.mean + r)) := by
  intro x'
  obtain ⟨f1, f2, f3, -⟩ := info_facts H x.cov R hx hR
  have e := linUpdate_eq lib H R r z x hx.1 hR.1 (measCov_unit hx.posSemidef H hR)
  have hinv := (C52_information lib H R r z x hx hR).2.1
  have hm : x'.mean = x.mean + (x.cov * Hᴴ * (H * x.cov * Hᴴ + R)⁻¹) *ᵥ (z - (H *ᵥ x.mean + r)) := by
    show (linUpdate lib H R r z x).mean = _
    rw [e]
  show quad x.cov⁻¹ (θ - x.mean) + quad R⁻¹ (z - (H *ᵥ θ + r)) = quad (linUpdate lib H R r z x).cov⁻¹ (θ - x'.mean) + _
  rw [hinv, hm]
  set S := H * x.cov * Hᴴ + R with hS
  set K := x.cov * Hᴴ * S⁻¹ with hK
  set A := x.cov⁻¹ + Hᴴ * R⁻¹ * H with hA
  have h1 : z - (H *ᵥ θ + r) = (z - (H *ᵥ x.mean + r)) - H *ᵥ (θ - x.mean) := by rw [mulVec_sub]; abel
  rw [h1, ← sub_sub θ x.mean]
  generalize z - (H *ᵥ x.mean + r) = v
  generalize θ - x.mean = w
  have hAh : A.IsHermitian := hx.1.inv.add (by
    have := isHermitian_conj hR.1.inv Hᴴ
    rwa [conjTranspose_conjTranspose] at this)
  have hKA : Kᴴ * A = R⁻¹ * H := by
    have := congrArg conjTranspose f2
    rw [conjTranspose_mul A K, conjTranspose_mul Hᴴ R⁻¹, hAh.eq, conjTranspose_conjTranspose, hR.1.inv.eq] at this
    exact this
  have f2' : A * K = Hᴴ * R⁻¹ := f2
  have f3' : Kᴴ * (Hᴴ * R⁻¹) + S⁻¹ = R⁻¹ := f3
  rw [quad_sub R⁻¹, quad_sub A, quad_mul, quad_mul]
  have a1 : star w ⬝ᵥ A *ᵥ (K *ᵥ v) = star (H *ᵥ w) ⬝ᵥ R⁻¹ *ᵥ v := by
    rw [mulVec_mulVec, f2', star_mulVec, ← dotProduct_mulVec, mulVec_mulVec]
  have a2 : star (K *ᵥ v) ⬝ᵥ A *ᵥ w = star v ⬝ᵥ R⁻¹ *ᵥ (H *ᵥ w) := by
    rw [star_mulVec, ← dotProduct_mulVec, mulVec_mulVec, hKA, mulVec_mulVec]
  have a3 : quad (Kᴴ * A * K) v + quad S⁻¹ v = quad R⁻¹ v := by
    have h : quad R⁻¹ v = quad (Kᴴ * (Hᴴ * R⁻¹) + S⁻¹) v := by rw [f3']
    rw [h, Matrix.mul_assoc, f2']
    simp only [quad, add_mulVec, dotProduct_add]
  have a4 : quad A w = quad x.cov⁻¹ w + quad (Hᴴ * R⁻¹ * H) w := by
    rw [hA]
    simp only [quad, add_mulVec, dotProduct_add]
  rw [a1, a2, a4, ← a3]
  ring

/-- **C52** (Bayes' rule): prior density times likelihood is posterior density times the density of the measurement, so the posterior is the conditional
distribution of the state given the measurement. -/
theorem C52_bayes (lib : Lib ℝ) (H : Matrix m n ℝ) (R : Matrix m m ℝ) (r z : m → ℝ) (x : Gauss ℝ n) (hx : x.cov.PosDef) (hR : R.PosDef) (θ : n → ℝ) :
    let x' := linUpdate lib H R r z x
    normalDensity x.mean x.cov θ * normalDensity (H *ᵥ θ + r) R z =
      normalDensity x'.mean x'.cov θ * normalDensity (H *ᵥ x.mean + r) (H * x.cov * Hᴴ + R) z := by
  intro x'
  have hx' : x'.cov.PosDef := linUpdate_posDef lib H R r z x hx hR
  have hS : (H * x.cov * Hᴴ + R).PosDef := by
    have := hR.posSemidef_add (hx.posSemidef.mul_mul_conjTranspose_same H)
    exact this
  have hsq := C52_square lib H R r z x hx hR θ
  have hdet : x'.cov.det * (H * x.cov * Hᴴ + R).det = x.cov.det * R.det := by
    have e := linUpdate_eq lib H R r z x hx.1 hR.1 (measCov_unit hx.posSemidef H hR)
    show (linUpdate lib H R r z x).cov.det * _ = _
    rw [e]
    exact (info_facts H x.cov R hx hR).2.2.2
  have hpi : 0 < 2 * Real.pi := by positivity
  unfold normalDensity
  rw [div_mul_div_comm, div_mul_div_comm, ← Real.exp_add, ← Real.exp_add,
    ← Real.sqrt_mul (mul_pos (pow_pos hpi _) hx.det_pos).le, ← Real.sqrt_mul (mul_pos (pow_pos hpi _) hx'.det_pos).le]
  congr 1
  · congr 1
    have : quad x.cov⁻¹ (θ - x.mean) + quad R⁻¹ (z - (H *ᵥ θ + r)) =
      quad x'.cov⁻¹ (θ - x'.mean) + quad (H * x.cov * Hᴴ + R)⁻¹ (z - (H *ᵥ x.mean + r)) := hsq
    linarith
  · congr 1
    calc _ = (2 * Real.pi) ^ Fintype.card n * (2 * Real.pi) ^ Fintype.card m * (x.cov.det * R.det) := by ring
      _ = (2 * Real.pi) ^ Fintype.card n * (2 * Real.pi) ^ Fintype.card m * (x'.cov.det * (H * x.cov * Hᴴ + R).det) := by rw [hdet]
      _ = _ := by ring

/-- Prior variance 1 on each of two components, whose sum is measured with variance 1. -/
example : ((linUpdate someLib (!![1, 1] : Matrix (Fin 1) (Fin 2) ℝ) 1 0 (fun _ => 3) ⟨0, 1⟩).cov)⁻¹ = !![2, 1; 1, 2] := by
  rw [(C52_information someLib _ _ 0 _ ⟨0, 1⟩ PosDef.one PosDef.one).2.1]
  ext i j
  fin_cases i <;> fin_cases j <;> norm_num [Matrix.mul_apply, Matrix.vecMul]

/-! ## C54 -/

/-- **C54** (transform): the covariance is divided by the forgetting factor, the mean kept, and the noise added; the cross-covariance is the scaled covariance. -/
theorem C54_transform (lam : 𝕜) (x : Gauss 𝕜 n) (ns : List (Gauss 𝕜 n)) :
    (rlsTransform lam x ns).mean = x.mean + (ns.map Gauss.mean).sum ∧ (rlsTransform lam x ns).cov = lam⁻¹ • x.cov + (ns.map Gauss.cov).sum ∧
    rlsTransformCross lam x ns = (rlsTransform lam x ns, lam⁻¹ • x.cov) := by
  have hfold : ∀ (ns : List (Gauss 𝕜 n)) (y : Gauss 𝕜 n),
      (ns.foldl Gauss.add y).mean = y.mean + (ns.map Gauss.mean).sum ∧ (ns.foldl Gauss.add y).cov = y.cov + (ns.map Gauss.cov).sum := by
    intro ns
    induction ns with
    | nil => intro y; simp
    | cons d ns ih =>
      intro y
      have := ih (y.add d)
      simp only [List.foldl_cons, List.map_cons, List.sum_cons, ← add_assoc]
      exact this
  have h := hfold ns ⟨x.mean, (1 / lam) • x.cov⟩
  rw [one_div] at h
  refine ⟨?_, ?_, ?_⟩
  · unfold rlsTransform; rw [one_div]; exact h.1
  · unfold rlsTransform; rw [one_div]; exact h.2
  · unfold rlsTransformCross rlsTransform; simp

/-- Recursive least squares: the filter with the RLS transform for the predict and a linear measurement.  Latest observation first. -/
noncomputable def rls (lam : ℝ) (x0 : Gauss 𝕜 n) : List (Obs 𝕜 n) → Gauss 𝕜 n
  | [] => x0
  | o :: os => linUpdate lib o.H o.R 0 o.z (rlsTransform (lam : 𝕜) (rls lam x0 os) [])

theorem smul_posDef {lam : ℝ} (hl : 0 < lam) {P : Matrix n n 𝕜} (hP : P.PosDef) : ((1 / (lam : 𝕜)) • P).PosDef := by
  have h : (0 : 𝕜) < 1 / (lam : 𝕜) := by
    have : (1 / (lam : 𝕜)) = (((1 / lam : ℝ)) : 𝕜) := by push_cast; rfl
    rw [this]
    exact RCLike.ofReal_pos.mpr (by positivity)
  exact hP.smul h

theorem smul_inv {lam : ℝ} (hl : 0 < lam) {P : Matrix n n 𝕜} (hP : P.PosDef) : ((1 / (lam : 𝕜)) • P)⁻¹ = (lam : 𝕜) • P⁻¹ := by
  have h : (lam : 𝕜) ≠ 0 := by
    simpa using hl.ne'
  refine inv_eq_right_inv ?_
  rw [Matrix.smul_mul, Matrix.mul_smul, mul_nonsing_inv _ (unit_of_posDef hP), smul_smul, one_div, inv_mul_cancel₀ h, one_smul]

/-- **C54** (information matrix): after any number of observations the inverse covariance is `λ^N P₀⁻¹ + Σ λ^k Hₖ* Rₖ⁻¹ Hₖ`, where `k` is the age of the
observation. -/
theorem C54_information (lam : ℝ) (hl : 0 < lam) (x0 : Gauss 𝕜 n) (h0 : x0.cov.PosDef) (os : List (Obs 𝕜 n)) (hR : ∀ o ∈ os, o.R.PosDef) :
    (rls lib lam x0 os).cov.PosDef ∧
    (rls lib lam x0 os).cov⁻¹ = (lam : 𝕜) ^ os.length • x0.cov⁻¹ + (os.zipIdx.map fun v => (lam : 𝕜) ^ v.2 • (v.1.Hᴴ * v.1.R⁻¹ * v.1.H)).sum := by
  induction os with
  | nil => exact ⟨h0, by simp [rls]⟩
  | cons o os ih =>
    obtain ⟨hp, hi⟩ := ih fun o ho => hR o (List.mem_cons_of_mem _ ho)
    have hs : (rlsTransform (lam : 𝕜) (rls lib lam x0 os) []).cov.PosDef := smul_posDef hl hp
    obtain ⟨c1, c2, -⟩ := C52_information lib o.H o.R 0 o.z _ hs (hR o List.mem_cons_self)
    refine ⟨c1, ?_⟩
    show (linUpdate lib o.H o.R 0 o.z (rlsTransform (lam : 𝕜) (rls lib lam x0 os) [])).cov⁻¹ = _
    rw [c2]
    have e : (rlsTransform (lam : 𝕜) (rls lib lam x0 os) []).cov⁻¹ = (lam : 𝕜) • (rls lib lam x0 os).cov⁻¹ := smul_inv hl hp
    rw [e, hi, List.zipIdx_cons, List.map_cons, List.sum_cons, pow_zero, one_smul, List.length_cons, smul_add, smul_smul, ← pow_succ']
    have hz : ((os.zipIdx (0 + 1)).map fun v => (lam : 𝕜) ^ v.2 • (v.1.Hᴴ * v.1.R⁻¹ * v.1.H)).sum =
        (lam : 𝕜) • (os.zipIdx.map fun v => (lam : 𝕜) ^ v.2 • (v.1.Hᴴ * v.1.R⁻¹ * v.1.H)).sum := by
      rw [List.smul_sum, List.map_map, List.zipIdx_succ, List.map_map]
      congr 1
      refine List.map_congr_left fun v _ => ?_
      show (lam : 𝕜) ^ (v.2 + 1) • _ = (lam : 𝕜) • ((lam : 𝕜) ^ v.2 • _)
      rw [smul_smul, pow_succ']
    rw [hz]
    abel

/-- **C54** (least squares): the estimate is the unique minimiser of the exponentially weighted sum of squared residuals. -/
theorem C54_least_squares (lam : ℝ) (hl : 0 < lam) (x0 : Gauss 𝕜 n) (h0 : x0.cov.PosDef) (os : List (Obs 𝕜 n)) (hR : ∀ o ∈ os, o.R.PosDef) (θ : n → 𝕜)
    (hθ : θ ≠ (rls lib lam x0 os).mean) :
    lsCost lam x0.cov x0.mean (rls lib lam x0 os).mean os < lsCost lam x0.cov x0.mean θ os := by
  have key : ∃ c : 𝕜, ∀ θ, lsCost lam x0.cov x0.mean θ os = quad (rls lib lam x0 os).cov⁻¹ (θ - (rls lib lam x0 os).mean) + c := by
    clear hθ
    induction os with
    | nil => exact ⟨0, fun θ => by simp [lsCost, rls]⟩
    | cons o os ih =>
      have hR' : ∀ o ∈ os, o.R.PosDef := fun o ho => hR o (List.mem_cons_of_mem _ ho)
      obtain ⟨c, hc⟩ := ih hR'
      have hp := (C54_information lib lam hl x0 h0 os hR').1
      have hs : (rlsTransform (lam : 𝕜) (rls lib lam x0 os) []).cov.PosDef := smul_posDef hl hp
      refine ⟨(lam : 𝕜) * c + quad (o.H * (rlsTransform (lam : 𝕜) (rls lib lam x0 os) []).cov * o.Hᴴ + o.R)⁻¹
          (o.z - (o.H *ᵥ (rlsTransform (lam : 𝕜) (rls lib lam x0 os) []).mean + 0)), fun θ => ?_⟩
      have sq := C52_square lib o.H o.R 0 o.z _ hs (hR o List.mem_cons_self) θ
      simp only [] at sq
      have e : quad (rlsTransform (lam : 𝕜) (rls lib lam x0 os) []).cov⁻¹ (θ - (rlsTransform (lam : 𝕜) (rls lib lam x0 os) []).mean) =
          (lam : 𝕜) * quad (rls lib lam x0 os).cov⁻¹ (θ - (rls lib lam x0 os).mean) := by
        have e' : (rlsTransform (lam : 𝕜) (rls lib lam x0 os) []).cov⁻¹ = (lam : 𝕜) • (rls lib lam x0 os).cov⁻¹ := smul_inv hl hp
        rw [e']
        simp only [quad, smul_mulVec, dotProduct_smul, smul_eq_mul]
        rfl
      rw [e] at sq
      show (lam : 𝕜) * lsCost lam x0.cov x0.mean θ os + quad o.R⁻¹ (o.z - o.H *ᵥ θ) = _
      rw [hc θ, mul_add, add_right_comm]
      rw [add_zero] at sq
      rw [sq]
      show _ = quad (linUpdate lib o.H o.R 0 o.z (rlsTransform (lam : 𝕜) (rls lib lam x0 os) [])).cov⁻¹ _ + _
      simp only [rls]
      ring
  obtain ⟨c, hc⟩ := key
  rw [hc, hc, sub_self]
  have hp := (C54_information lib lam hl x0 h0 os hR).1
  have h0 : quad (rls lib lam x0 os).cov⁻¹ (0 : n → 𝕜) = 0 := by simp [quad]
  rw [h0]
  have := hp.inv.dotProduct_mulVec_pos (sub_ne_zero.mpr hθ)
  exact (add_lt_add_iff_right c).mpr this

/-- Forgetting factor one half, two scalar observations. -/
example : ((rls someLib (1 / 2) ⟨0, 1⟩ [⟨1, 1, 1, fun _ => 3⟩, ⟨1, 1, 1, fun _ => 5⟩] : Gauss ℝ (Fin 1)).cov)⁻¹ = !![7 / 4] := by
  rw [(C54_information someLib (1 / 2) (by norm_num) ⟨0, 1⟩ PosDef.one _ (by
    intro o ho
    simp only [List.mem_cons, List.not_mem_nil, or_false] at ho
    rcases ho with rfl | rfl <;> exact PosDef.one)).2]
  ext i j
  fin_cases i
  fin_cases j
  norm_num [List.zipIdx]

end OpenKalman.Kalman
