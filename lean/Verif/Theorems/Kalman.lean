import Verif.Proof.Kalman

/-!
# C48–C52: the Kalman filter

Every theorem holds for every library `lib` satisfying the stated specifications of its solver and factorisations; `someLib` shows there is one.
-/

set_option linter.unusedSectionVars false

namespace OpenKalman.Kalman
open Matrix
open scoped ComplexOrder MatrixOrder

variable {𝕜 : Type} [RCLike 𝕜]

theorem exists_factor {n : Type} [Fintype n] [DecidableEq n] {A : Matrix n n 𝕜} (h : A.PosSemidef) : ∃ B : Matrix n n 𝕜, B * Bᴴ = A := by
  obtain ⟨B, hB⟩ := CStarAlgebra.nonneg_iff_eq_star_mul_self.mp h.nonneg
  exact ⟨Bᴴ, by rw [conjTranspose_conjTranspose, hB]; rfl⟩

open Classical in
/-- A library meeting the specifications. -/
noncomputable def someLib : Lib 𝕜 where
  solve A B := A⁻¹ * B
  lq A := (exists_factor (posSemidef_self_mul_conjTranspose A)).choose
  downdate L U := if h : (L * Lᴴ - U * Uᴴ).PosSemidef then (exists_factor h).choose else 0
  herm A := A
  solve_spec A B h := by rw [← Matrix.mul_assoc, mul_nonsing_inv _ h, Matrix.one_mul]
  lq_spec A := (exists_factor (posSemidef_self_mul_conjTranspose A)).choose_spec
  downdate_spec L U h := by rw [dif_pos h]; exact (exists_factor h).choose_spec
  herm_spec _ _ := rfl

variable (lib : Lib 𝕜) {n m : Type} [Fintype n] [DecidableEq n] [Fintype m] [DecidableEq m]

/-! ## C48 -/

/-- **C48** (gain): with an invertible measurement covariance there is exactly one gain with `K Pyy = Pxy`, and the update gives mean `x + K (z - y)` and
covariance `P - K Pyy K*`. -/
theorem C48_gain (wx : (n → 𝕜) → n → 𝕜) (wy : (m → 𝕜) → m → 𝕜) (Nx : Gauss 𝕜 n) (Ny : Gauss 𝕜 m) (Pxy : Matrix n m 𝕜) (z : m → 𝕜)
    (hy : Ny.cov.IsHermitian) (hu : IsUnit Ny.cov.det) :
    ∃! K : Matrix n m 𝕜, K * Ny.cov = Pxy ∧
      updateStep lib wx wy Nx Ny Pxy z = ⟨wx (Nx.mean + K *ᵥ (wy z - Ny.mean)), Nx.cov - K * Ny.cov * Kᴴ⟩ := by
  refine ⟨Pxy * Ny.cov⁻¹, ⟨?_, ?_⟩, ?_⟩
  · rw [Matrix.mul_assoc, nonsing_inv_mul _ hu, Matrix.mul_one]
  · rw [updateStep_eq lib wx wy Nx Ny Pxy z hy hu]
    congr 2
    rw [conjTranspose_mul, conjTranspose_nonsing_inv, hy.eq, Matrix.mul_assoc Pxy Ny.cov⁻¹ Ny.cov, nonsing_inv_mul _ hu, Matrix.mul_one, Matrix.mul_assoc]
  · rintro K ⟨hK, -⟩
    rw [← hK, Matrix.mul_assoc, mul_nonsing_inv _ hu, Matrix.mul_one]

/-- **C48** (optimality): the posterior covariance is the error covariance of the gain used, and no gain has a smaller one; it is positive semidefinite.
The measurement covariance need not be invertible as long as the solver solved the equation for the gain; `C48_solvable` says that there is a solution. -/
theorem C48_optimal (wx : (n → 𝕜) → n → 𝕜) (wy : (m → 𝕜) → m → 𝕜) (Nx : Gauss 𝕜 n) (Ny : Gauss 𝕜 m) (Pxy : Matrix n m 𝕜) (z : m → 𝕜)
    (hj : (jointCov Nx.cov Pxy Ny.cov).PosSemidef) (hK : Ny.covᴴ * lib.solve Ny.covᴴ Pxyᴴ = Pxyᴴ) :
    (updateStep lib wx wy Nx Ny Pxy z).cov = errorCov Nx.cov Pxy Ny.cov (lib.solve Ny.covᴴ Pxyᴴ)ᴴ ∧
    (∀ G, (errorCov Nx.cov Pxy Ny.cov G - (updateStep lib wx wy Nx Ny Pxy z).cov).PosSemidef) ∧
    (updateStep lib wx wy Nx Ny Pxy z).cov.PosSemidef := by
  have hy := (joint_hermitian hj).2
  have h1 := updateStep_errorCov lib wx wy Nx Ny Pxy z hy hK
  refine ⟨h1, fun G => ?_, ?_⟩
  · rw [updateStep_cov lib wx wy Nx Ny Pxy z hy hK, (gain_facts hy hK).2.2.2 G]
    exact (joint_yy hj).mul_mul_conjTranspose_same _
  · rw [h1]
    exact errorCov_posSemidef hj _

/-- The hypothesis on the solver holds for invertible covariances. -/
theorem C48_solver (Pyy : Matrix m m 𝕜) (Pxy : Matrix n m 𝕜) (hu : IsUnit Pyy.det) : Pyyᴴ * lib.solve Pyyᴴ Pxyᴴ = Pxyᴴ := solve_ok lib Pxy hu

/-- **C48** (solvability): for every joint covariance the equation for the gain has a solution, and every solution leads to the same posterior covariance. -/
theorem C48_solvable (P : Matrix n n 𝕜) (Pxy : Matrix n m 𝕜) (Pyy : Matrix m m 𝕜) (hj : (jointCov P Pxy Pyy).PosSemidef) :
    (∃ X, Pyyᴴ * X = Pxyᴴ) ∧ ∀ X Y, Pyyᴴ * X = Pxyᴴ → Pyyᴴ * Y = Pxyᴴ → P - Pxy * X = P - Pxy * Y := by
  refine ⟨gain_exists hj, fun X Y hX hY => ?_⟩
  have hy := (joint_hermitian hj).2
  have h1 := (gain_facts (P := P) hy hX).1
  have h2 := (gain_facts (P := P) hy hX).2.2.1
  have h3 : Pxy * Y = Xᴴ * Pxyᴴ := by
    calc Pxy * Y = Xᴴ * Pyy * Y := by rw [h1]
      _ = Xᴴ * (Pyyᴴ * Y) := by rw [Matrix.mul_assoc, hy.eq]
      _ = Xᴴ * Pxyᴴ := by rw [hY]
  rw [h3, ← conjTranspose_mul, h2.eq]

/-- **C48** (the optimum is attained once): another gain with the same error covariance is the same gain. -/
theorem C48_unique_optimum (P : Matrix n n 𝕜) (Pxy : Matrix n m 𝕜) (Pyy : Matrix m m 𝕜) (hy : Pyy.PosDef) (K G : Matrix n m 𝕜) (hK : K * Pyy = Pxy)
    (hG : errorCov P Pxy Pyy G = errorCov P Pxy Pyy K) : G = K := by
  have hK' : Pyyᴴ * Kᴴ = Pxyᴴ := by rw [← hK, conjTranspose_mul]
  have f := (gain_facts (P := P) hy.1 hK').2.2.2
  have h0 : (G - K) * Pyy * (G - K)ᴴ = 0 := by
    have a := f G
    have b := f K
    rw [conjTranspose_conjTranspose] at a b
    rw [hG, b, sub_self, Matrix.zero_mul, Matrix.zero_mul] at a
    exact a.symm
  by_contra hne
  have hne' : G - K ≠ 0 := sub_ne_zero.mpr hne
  obtain ⟨i, hi⟩ : ∃ i, (G - K) i ≠ 0 := by
    by_contra hall
    push Not at hall
    exact hne' (funext hall)
  have hv : star ((G - K) i) ≠ 0 := by simpa using hi
  have := hy.dotProduct_mulVec_pos hv
  rw [star_star] at this
  have e := congrFun (congrFun h0 i) i
  have : (((G - K) * Pyy * (G - K)ᴴ) i i) = (G - K) i ⬝ᵥ Pyy *ᵥ star ((G - K) i) := by
    rw [Matrix.mul_apply', Matrix.mul_apply_eq_vecMul, dotProduct_mulVec]
    rfl
  rw [this] at e
  simp_all

/-- A one-dimensional state with prior variance 4 measured with noise variance 1: the hypotheses hold. -/
example : (jointCov (!![4] : Matrix (Fin 1) (Fin 1) ℝ) !![4] !![5]).PosSemidef ∧ IsUnit (!![5] : Matrix (Fin 1) (Fin 1) ℝ).det := by
  constructor
  · have h4 : (!![4] : Matrix (Fin 1) (Fin 1) ℝ).PosSemidef := by
      have := posSemidef_self_mul_conjTranspose (!![2] : Matrix (Fin 1) (Fin 1) ℝ)
      convert this using 1
      ext i j; fin_cases i; fin_cases j; norm_num [Matrix.mul_apply]
    have := linear_joint h4 (1 : Matrix (Fin 1) (Fin 1) ℝ) (R := 1) PosSemidef.one
    have e1 : (!![4] : Matrix (Fin 1) (Fin 1) ℝ) * (1 : Matrix (Fin 1) (Fin 1) ℝ)ᴴ = !![4] := by simp
    have e2 : (1 : Matrix (Fin 1) (Fin 1) ℝ) * !![4] * (1 : Matrix (Fin 1) (Fin 1) ℝ)ᴴ + 1 = !![5] := by
      ext i j; fin_cases i; fin_cases j; norm_num
    rwa [e1, e2] at this
  · simp

/-! ## C49 -/

/-- What the noise terms of a linear transform add: the sum of `B R B*`, where `B` is the matrix given for the term or else the identity. -/
def noiseTotal {n p : ℕ} (g : LinTrans 𝕜 n p) (ns : List (Gauss 𝕜 (Fin p))) : Matrix (Fin p) (Fin p) 𝕜 :=
  (ns.zipIdx.map fun v => g.Bs.getD v.2 1 * v.1.cov * (g.Bs.getD v.2 1)ᴴ).sum

theorem noiseTotal_eq {n p : ℕ} (g : LinTrans 𝕜 n p) (ns : List (Gauss 𝕜 (Fin p))) : noiseTotal g ns = noiseCov (noiseTerms g ns) := by
  unfold noiseTotal noiseCov noiseTerms pertMatrix
  rw [List.map_map]
  rfl

/-- An update is valid if its noise is non-degenerate. -/
def Op.Valid {n k : ℕ} : Op 𝕜 n k → Prop
  | .predict _ _ => True
  | .update _ H ns _ => (noiseTotal H (ns.map GaussChol.toGauss)).PosDef

def Hist.Valid {n k : ℕ} : Hist 𝕜 n k → Prop
  | .nil => True
  | .cons op h => op.Valid ∧ h.Valid

theorem predict_posSemidef {n p : ℕ} (g : LinTrans 𝕜 n p) (x : Gauss 𝕜 (Fin n)) (ns : List (Gauss 𝕜 (Fin p))) (hx : x.cov.PosSemidef)
    (hn : ∀ d ∈ ns, d.cov.PosSemidef) : (linearTransform lib g x ns).cov.PosSemidef := by
  rw [linearTransform_eq lib g x ns hx.1 fun d hd => (hn d hd).1]
  exact (hx.mul_mul_conjTranspose_same _).add (noiseCov_posSemidef _ (mem_noiseTerms (P := fun d => d.cov.PosSemidef) hn))

theorem update_joint {n m : ℕ} (H : LinTrans 𝕜 n m) (ns : List (Gauss 𝕜 (Fin m))) (x : Gauss 𝕜 (Fin n)) (hx : x.cov.PosSemidef)
    (hn : ∀ d ∈ ns, d.cov.PosSemidef) : (jointCov x.cov (x.cov * H.Aᴴ) (linearTransform lib H x ns).cov).PosSemidef := by
  rw [linearTransform_eq lib H x ns hx.1 fun d hd => (hn d hd).1]
  exact linear_joint hx H.A (noiseCov_posSemidef _ (mem_noiseTerms (P := fun d => d.cov.PosSemidef) hn))

theorem update_unit {n m : ℕ} (H : LinTrans 𝕜 n m) (ns : List (Gauss 𝕜 (Fin m))) (x : Gauss 𝕜 (Fin n)) (hx : x.cov.PosSemidef)
    (hn : ∀ d ∈ ns, d.cov.PosSemidef) (hR : (noiseTotal H ns).PosDef) : IsUnit (linearTransform lib H x ns).cov.det := by
  rw [linearTransform_eq lib H x ns hx.1 fun d hd => (hn d hd).1]
  rw [noiseTotal_eq] at hR
  exact measCov_unit hx H.A hR

theorem update_step_form {n m : ℕ} (H : LinTrans 𝕜 n m) (ns : List (Gauss 𝕜 (Fin m))) (z : Fin m → 𝕜) (x : Gauss 𝕜 (Fin n)) (hx : x.cov.PosSemidef)
    (hn : ∀ d ∈ ns, d.cov.PosSemidef) :
    update lib H ns z x = updateStep lib id id x (linearTransform lib H x ns) (x.cov * H.Aᴴ) z := by
  unfold update
  simp only [linearTransformCross_eq lib H x ns hx.1 fun d hd => (hn d hd).1]

/-- **C49** (updates never increase the covariance), and leave it positive semidefinite. -/
theorem C49_update {n m : ℕ} (H : LinTrans 𝕜 n m) (ns : List (Gauss 𝕜 (Fin m))) (z : Fin m → 𝕜) (x : Gauss 𝕜 (Fin n)) (hx : x.cov.PosSemidef)
    (hn : ∀ d ∈ ns, d.cov.PosSemidef) (hR : (noiseTotal H ns).PosDef) :
    (update lib H ns z x).cov.PosSemidef ∧ (x.cov - (update lib H ns z x).cov).PosSemidef := by
  rw [update_step_form lib H ns z x hx hn]
  have hj := update_joint lib H ns x hx hn
  have hK := solve_ok lib (x.cov * H.Aᴴ) (update_unit lib H ns x hx hn hR)
  obtain ⟨-, h2, h3⟩ := C48_optimal lib id id x _ _ z hj hK
  refine ⟨h3, ?_⟩
  have := h2 0
  rw [errorCov_eq] at this
  simpa using this

/-- **C49** (histories): after any interleaving of predicts and updates with non-degenerate measurement noise the covariance is Hermitian and positive
semidefinite.  Dimensions may change along the way. -/
theorem C49_history {n k : ℕ} (h : Hist 𝕜 n k) (hv : h.Valid) (x : Gauss 𝕜 (Fin n)) (hx : x.cov.PosSemidef) :
    (h.run lib x).cov.IsHermitian ∧ (h.run lib x).cov.PosSemidef := by
  suffices (h.run lib x).cov.PosSemidef from ⟨this.1, this⟩
  induction h with
  | nil => exact hx
  | cons op h ih =>
    refine ih hv.2 _ ?_
    cases op with
    | predict F ns => exact predict_posSemidef lib F x _ hx (toGauss_mem_hermitian ns)
    | update m H ns z => exact (C49_update lib H _ z x hx (toGauss_mem_hermitian ns) hv.1).1

/-- **C49** (predict): a noise-free predict with the identity matrix changes nothing. -/
theorem C49_identity_predict {n : ℕ} (Bs : List (Matrix (Fin n) (Fin n) 𝕜)) (x : Gauss 𝕜 (Fin n)) (hx : x.cov.IsHermitian) :
    linearTransform lib ⟨1, Bs⟩ x [] = x := by
  rw [linearTransform_eq lib _ x [] hx (by simp)]
  refine Gauss.ext ?_ ?_
  · rw [apply_eq]; simp
  · simp [noiseCov, noiseTerms]

/-- A history with a growing state: start in one dimension, predict into two, measure their sum. -/
noncomputable def sampleHist : Hist ℝ 1 2 :=
  .cons (.predict ⟨!![1; 2], []⟩ [⟨0, 1⟩]) (.cons (.update 1 ⟨!![1, 1], []⟩ [⟨0, 1⟩] fun _ => 3) .nil)

theorem sampleHist_valid : sampleHist.Valid := by
  refine ⟨trivial, ?_, trivial⟩
  show (noiseTotal _ _).PosDef
  have : noiseTotal (⟨!![1, 1], []⟩ : LinTrans ℝ 2 1) ([(⟨0, 1⟩ : GaussChol ℝ (Fin 1))].map GaussChol.toGauss) = 1 := by
    simp [noiseTotal, GaussChol.toGauss]
  rw [this]
  exact PosDef.one

example : (sampleHist.run someLib ⟨0, 1⟩).cov.PosSemidef := (C49_history someLib sampleHist sampleHist_valid ⟨0, 1⟩ PosSemidef.one).2

/-! ## C50 -/

/-- **C50**: the square-root filter and the covariance filter give the same means and covariances over every valid history. -/
theorem C50_square_root {n k : ℕ} (h : Hist 𝕜 n k) (hv : h.Valid) (x : GaussChol 𝕜 (Fin n)) :
    (h.runChol lib x).toGauss = h.run lib x.toGauss := by
  induction h with
  | nil => rfl
  | cons op h ih =>
    show (h.runChol lib (op.runChol lib x)).toGauss = h.run lib (op.run lib x.toGauss)
    rw [ih hv.2]
    congr 1
    cases op with
    | predict F ns => exact linearTransformChol_toGauss lib F x ns
    | update m H ns z =>
      have hx := toGauss_posSemidef x
      have hn := toGauss_mem_hermitian ns
      show (updateChol lib H ns z x).toGauss = update lib H (ns.map GaussChol.toGauss) z x.toGauss
      rw [update_step_form lib H _ z _ hx hn]
      unfold updateChol
      simp only [linearTransformCrossChol_eq]
      have e := linearTransformChol_toGauss lib H x ns
      have hj := update_joint lib H _ x.toGauss hx hn
      have hu := update_unit lib H _ x.toGauss hx hn hv.1
      rw [← e] at hj hu
      rw [updateStepChol_toGauss lib id id x _ _ z hj (solve_ok lib _ hu), e]

/-- **C50** (cycle): the combined call, as it is meant, is the history of one predict and one update. -/
theorem C50_cycle {n n' m : ℕ} (F : LinTrans 𝕜 n n') (H : LinTrans 𝕜 n' m) (q : List (GaussChol 𝕜 (Fin n'))) (r : List (GaussChol 𝕜 (Fin m)))
    (z : Fin m → 𝕜) (x : GaussChol 𝕜 (Fin n)) (hR : (noiseTotal H (r.map GaussChol.toGauss)).PosDef) :
    cycle lib F H (q.map GaussChol.toGauss) (r.map GaussChol.toGauss) z x.toGauss =
      ((Hist.cons (.predict F q) (.cons (.update m H r z) .nil)).runChol lib x).toGauss := by
  have h := C50_square_root lib (Hist.cons (.predict F q) (.cons (.update m H r z) .nil)) ⟨trivial, hR, trivial⟩ x
  exact h.symm

/-- **C50** (start): every valid prior has a factor to start from. -/
theorem C50_start (x : Gauss 𝕜 n) (hx : x.cov.PosSemidef) : ∃ c : GaussChol 𝕜 n, c.toGauss = x := by
  obtain ⟨B, hB⟩ := exists_factor hx
  exact ⟨⟨x.mean, B⟩, Gauss.ext rfl hB⟩

example : (sampleHist.runChol someLib ⟨0, 1⟩).toGauss = sampleHist.run someLib (GaussChol.toGauss ⟨0, 1⟩) :=
  C50_square_root someLib sampleHist sampleHist_valid _

/-! ## C51 -/

/-- The distribution of the measurement `H x + r`, where the noise has mean `r` and covariance `R`. -/
def measure (H : Matrix m n 𝕜) (R : Matrix m m 𝕜) (r : m → 𝕜) (x : Gauss 𝕜 n) : Gauss 𝕜 m := ⟨H *ᵥ x.mean + r, H * x.cov * Hᴴ + R⟩

/-- A linear update in terms of one noise term. -/
def linUpdate (H : Matrix m n 𝕜) (R : Matrix m m 𝕜) (r z : m → 𝕜) (x : Gauss 𝕜 n) : Gauss 𝕜 n :=
  updateStep lib id id x (measure H R r x) (x.cov * Hᴴ) z

/-- The filter's `update` is a linear update with the sum of its noise terms. -/
theorem C51_update_form {n m : ℕ} (H : LinTrans 𝕜 n m) (ns : List (Gauss 𝕜 (Fin m))) (z : Fin m → 𝕜) (x : Gauss 𝕜 (Fin n)) (hx : x.cov.PosSemidef)
    (hn : ∀ d ∈ ns, d.cov.PosSemidef) :
    update lib H ns z x = linUpdate lib H.A (noiseTotal H ns) (ns.zipIdx.map fun v => H.Bs.getD v.2 1 *ᵥ v.1.mean).sum z x := by
  rw [update_step_form lib H ns z x hx hn, linearTransform_eq lib H x ns hx.1 fun d hd => (hn d hd).1]
  unfold linUpdate measure
  rw [noiseTotal_eq, apply_eq, List.zipIdx_map, List.map_map]
  rfl

theorem linUpdate_eq (H : Matrix m n 𝕜) (R : Matrix m m 𝕜) (r z : m → 𝕜) (x : Gauss 𝕜 n) (hx : x.cov.IsHermitian) (hR : R.IsHermitian)
    (hu : IsUnit (H * x.cov * Hᴴ + R).det) :
    linUpdate lib H R r z x = ⟨x.mean + (x.cov * Hᴴ * (H * x.cov * Hᴴ + R)⁻¹) *ᵥ (z - (H *ᵥ x.mean + r)),
      x.cov - x.cov * Hᴴ * (H * x.cov * Hᴴ + R)⁻¹ * (H * x.cov)⟩ := by
  unfold linUpdate
  rw [updateStep_eq]
  · simp [measure, conjTranspose_mul, hx.eq]
  · exact (isHermitian_conj hx H).add hR
  · exact hu

variable {m₁ m₂ : Type} [Fintype m₁] [DecidableEq m₁] [Fintype m₂] [DecidableEq m₂]

/-- **C51** (batch): updating with two independent measurements stacked is updating with the first and then with the second.  The two measurement
covariances must be invertible; the prior may be singular. -/
theorem C51_batch (H₁ : Matrix m₁ n 𝕜) (R₁ : Matrix m₁ m₁ 𝕜) (r₁ z₁ : m₁ → 𝕜) (H₂ : Matrix m₂ n 𝕜) (R₂ : Matrix m₂ m₂ 𝕜) (r₂ z₂ : m₂ → 𝕜)
    (x : Gauss 𝕜 n) (hx : x.cov.IsHermitian) (hR₁ : R₁.IsHermitian) (hR₂ : R₂.IsHermitian) (hu₁ : IsUnit (H₁ * x.cov * H₁ᴴ + R₁).det)
    (hu₂ : IsUnit (H₂ * (linUpdate lib H₁ R₁ r₁ z₁ x).cov * H₂ᴴ + R₂).det) :
    linUpdate lib (fromRows H₁ H₂) (fromBlocks R₁ 0 0 R₂) (Sum.elim r₁ r₂) (Sum.elim z₁ z₂) x =
      linUpdate lib H₂ R₂ r₂ z₂ (linUpdate lib H₁ R₁ r₁ z₁ x) := by
  have e1 := linUpdate_eq lib H₁ R₁ r₁ z₁ x hx hR₁ hu₁
  obtain ⟨μ, P⟩ := x
  simp only [] at hx hu₁ e1
  set S₁ := H₁ * P * H₁ᴴ + R₁ with hS₁
  set K₁ := P * H₁ᴴ * S₁⁻¹ with hK₁
  have hS₁h : S₁.IsHermitian := (isHermitian_conj hx H₁).add hR₁
  have hK₁S : K₁ * S₁ = P * H₁ᴴ := by rw [hK₁, Matrix.mul_assoc, nonsing_inv_mul _ hu₁, Matrix.mul_one]
  have hK₁H : (K₁ * (H₁ * P)).IsHermitian := by
    have : K₁ * (H₁ * P) = P * H₁ᴴ * S₁⁻¹ * (P * H₁ᴴ)ᴴ := by rw [hK₁, conjTranspose_mul, conjTranspose_conjTranspose, hx.eq]
    rw [this]
    exact isHermitian_conj hS₁h.inv _
  set P₁ := P - K₁ * (H₁ * P) with hP₁
  have hP₁h : P₁.IsHermitian := hx.sub hK₁H
  set μ₁ := μ + K₁ *ᵥ (z₁ - (H₁ *ᵥ μ + r₁)) with hμ₁
  rw [e1] at hu₂ ⊢
  simp only [] at hu₂
  have e2 := linUpdate_eq lib H₂ R₂ r₂ z₂ ⟨μ₁, P₁⟩ hP₁h hR₂ hu₂
  simp only [] at e2
  rw [e2]
  set S₂ := H₂ * P₁ * H₂ᴴ + R₂ with hS₂
  set K₂ := P₁ * H₂ᴴ * S₂⁻¹ with hK₂
  have hK₂S : K₂ * S₂ = P₁ * H₂ᴴ := by rw [hK₂, Matrix.mul_assoc, nonsing_inv_mul _ hu₂, Matrix.mul_one]
  -- the stacked measurement
  have hHP : fromRows H₁ H₂ * P * (fromRows H₁ H₂)ᴴ + fromBlocks R₁ 0 0 R₂ =
      fromBlocks S₁ (H₁ * P * H₂ᴴ) (H₂ * P * H₁ᴴ) (H₂ * P * H₂ᴴ + R₂) := by
    rw [conjTranspose_fromRows_eq_fromCols_conjTranspose, fromRows_mul, fromRows_mul_fromCols, fromBlocks_add]
    simp [hS₁]
  have hPH : P * (fromRows H₁ H₂)ᴴ = fromCols (P * H₁ᴴ) (P * H₂ᴴ) := by
    rw [conjTranspose_fromRows_eq_fromCols_conjTranspose, mul_fromCols]
  have hschur : H₂ * P * H₂ᴴ + R₂ - H₂ * P * H₁ᴴ * S₁⁻¹ * (H₁ * P * H₂ᴴ) = S₂ := by
    rw [hS₂, hP₁, hK₁]
    simp only [Matrix.mul_sub, Matrix.sub_mul, Matrix.mul_assoc]
    abel
  have hSu : IsUnit (fromBlocks S₁ (H₁ * P * H₂ᴴ) (H₂ * P * H₁ᴴ) (H₂ * P * H₂ᴴ + R₂)).det := by
    have := invertibleOfIsUnitDet S₁ hu₁
    rw [det_fromBlocks₁₁, invOf_eq_nonsing_inv, hschur]
    exact hu₁.mul hu₂
  have hgain : fromCols (K₁ - K₂ * H₂ * K₁) K₂ * fromBlocks S₁ (H₁ * P * H₂ᴴ) (H₂ * P * H₁ᴴ) (H₂ * P * H₂ᴴ + R₂) =
      fromCols (P * H₁ᴴ) (P * H₂ᴴ) := by
    rw [fromCols_mul_fromBlocks]
    congr 1
    · rw [Matrix.sub_mul, Matrix.mul_assoc (K₂ * H₂), hK₁S]
      simp only [Matrix.mul_assoc]
      abel
    · have h1 : K₂ * (H₂ * P * H₂ᴴ + R₂) = K₂ * S₂ + K₂ * H₂ * K₁ * (H₁ * P * H₂ᴴ) := by
        rw [hS₂, hP₁]
        simp only [Matrix.mul_sub, Matrix.sub_mul, Matrix.mul_add, Matrix.mul_assoc]
        abel
      rw [h1, hK₂S, hP₁]
      simp only [Matrix.sub_mul, Matrix.mul_assoc]
      abel
  have hRb : (fromBlocks R₁ 0 0 R₂ : Matrix (m₁ ⊕ m₂) (m₁ ⊕ m₂) 𝕜).IsHermitian := by
    rw [isHermitian_fromBlocks_iff]
    exact ⟨hR₁, by simp, by simp, hR₂⟩
  rw [linUpdate_eq lib _ _ _ _ _ hx hRb (by rw [hHP]; exact hSu)]
  simp only [hHP, hPH]
  have hK : fromCols (P * H₁ᴴ) (P * H₂ᴴ) * (fromBlocks S₁ (H₁ * P * H₂ᴴ) (H₂ * P * H₁ᴴ) (H₂ * P * H₂ᴴ + R₂))⁻¹ =
      fromCols (K₁ - K₂ * H₂ * K₁) K₂ := by
    rw [← hgain, Matrix.mul_assoc, mul_nonsing_inv _ hSu, Matrix.mul_one]
  rw [hK]
  refine Gauss.ext ?_ ?_
  · simp only []
    have hr : Sum.elim z₁ z₂ - (fromRows H₁ H₂ *ᵥ μ + Sum.elim r₁ r₂) =
        Sum.elim (z₁ - (H₁ *ᵥ μ + r₁)) (z₂ - (H₂ *ᵥ μ + r₂)) := by
      rw [fromRows_mulVec]
      funext i
      cases i <;> simp
    rw [hr, fromCols_mulVec_sumElim, hμ₁]
    generalize z₁ - (H₁ *ᵥ μ + r₁) = v
    simp only [Matrix.mulVec_add, Matrix.sub_mulVec, Matrix.mulVec_sub, Matrix.mulVec_mulVec, Matrix.mul_assoc]
    abel
  · simp only []
    rw [fromRows_mul, fromCols_mul_fromRows, hP₁]
    simp only [Matrix.mul_sub, Matrix.sub_mul, Matrix.mul_assoc]
    abel

/-- A measurement given with its components in another order. -/
theorem linUpdate_reindex (e : m₁ ≃ m₂) (H : Matrix m₂ n 𝕜) (R : Matrix m₂ m₂ 𝕜) (r z : m₂ → 𝕜) (x : Gauss 𝕜 n) (hx : x.cov.IsHermitian)
    (hR : R.IsHermitian) (hu : IsUnit (H * x.cov * Hᴴ + R).det) :
    linUpdate lib (H.submatrix e id) (R.submatrix e e) (r ∘ e) (z ∘ e) x = linUpdate lib H R r z x := by
  have hS : H.submatrix e id * x.cov * (H.submatrix e id)ᴴ + R.submatrix e e = (H * x.cov * Hᴴ + R).submatrix e e := by
    ext i j
    simp [Matrix.mul_apply, Matrix.submatrix]
  rw [linUpdate_eq lib H R r z x hx hR hu,
    linUpdate_eq lib _ _ _ _ x hx (hR.submatrix e) (by rw [hS, det_submatrix_equiv_self]; exact hu), hS, inv_submatrix_equiv]
  have hPH : x.cov * (H.submatrix e id)ᴴ = (x.cov * Hᴴ).submatrix id e := by
    ext i j
    simp [Matrix.mul_apply]
  have hK : x.cov * (H.submatrix e id)ᴴ * (H * x.cov * Hᴴ + R)⁻¹.submatrix e e = (x.cov * Hᴴ * (H * x.cov * Hᴴ + R)⁻¹).submatrix id e := by
    rw [hPH, submatrix_mul_equiv]
  rw [hK]
  refine Gauss.ext ?_ ?_
  · simp only []
    congr 1
    have : z ∘ e - (H.submatrix e id *ᵥ x.mean + r ∘ e) = (z - (H *ᵥ x.mean + r)) ∘ e := by
      funext i
      simp [Matrix.mulVec, dotProduct]
    rw [this, submatrix_mulVec_equiv]
    generalize z - (H *ᵥ x.mean + r) = v
    have : (v ∘ e) ∘ e.symm = v := by funext i; simp
    rw [this]
    rfl
  · simp only []
    congr 1
    have : H.submatrix e id * x.cov = (H * x.cov).submatrix e id := by
      ext i j
      simp [Matrix.mul_apply]
    rw [this, submatrix_mul_equiv]
    simp

/-- **C51** (order): the order of the two measurements does not matter. -/
theorem C51_order (H₁ : Matrix m₁ n 𝕜) (R₁ : Matrix m₁ m₁ 𝕜) (r₁ z₁ : m₁ → 𝕜) (H₂ : Matrix m₂ n 𝕜) (R₂ : Matrix m₂ m₂ 𝕜) (r₂ z₂ : m₂ → 𝕜)
    (x : Gauss 𝕜 n) (hx : x.cov.PosSemidef) (hR₁ : R₁.PosDef) (hR₂ : R₂.PosDef) :
    linUpdate lib H₂ R₂ r₂ z₂ (linUpdate lib H₁ R₁ r₁ z₁ x) = linUpdate lib H₁ R₁ r₁ z₁ (linUpdate lib H₂ R₂ r₂ z₂ x) := by
  have hps : ∀ {m : Type} [Fintype m] [DecidableEq m] (H : Matrix m n 𝕜) (R : Matrix m m 𝕜) (r z : m → 𝕜), R.PosDef →
      (linUpdate lib H R r z x).cov.PosSemidef := by
    intro m _ _ H R r z hR
    exact (C48_optimal lib id id x (measure H R r x) _ z (linear_joint hx H hR.posSemidef) (solve_ok lib _ (measCov_unit hx H hR))).2.2
  have b1 := C51_batch lib H₁ R₁ r₁ z₁ H₂ R₂ r₂ z₂ x hx.1 hR₁.1 hR₂.1 (measCov_unit hx H₁ hR₁) (measCov_unit (hps H₁ R₁ r₁ z₁ hR₁) H₂ hR₂)
  have b2 := C51_batch lib H₂ R₂ r₂ z₂ H₁ R₁ r₁ z₁ x hx.1 hR₂.1 hR₁.1 (measCov_unit hx H₂ hR₂) (measCov_unit (hps H₂ R₂ r₂ z₂ hR₂) H₁ hR₁)
  have hRb : (fromBlocks R₂ 0 0 R₁ : Matrix (m₂ ⊕ m₁) (m₂ ⊕ m₁) 𝕜).PosDef := by
    have := invertibleOfIsUnitDet R₂ ((isUnit_iff_isUnit_det _).mp hR₂.isUnit)
    have hps : (fromBlocks R₂ 0 (0 : Matrix m₂ m₁ 𝕜)ᴴ R₁ : Matrix (m₂ ⊕ m₁) (m₂ ⊕ m₁) 𝕜).PosSemidef := by
      rw [PosDef.fromBlocks₁₁ _ _ hR₂]
      simpa using hR₁.posSemidef
    rw [conjTranspose_zero] at hps
    rw [hps.posDef_iff_isUnit, isUnit_iff_isUnit_det, det_fromBlocks_zero₂₁]
    exact ((isUnit_iff_isUnit_det _).mp hR₂.isUnit).mul ((isUnit_iff_isUnit_det _).mp hR₁.isUnit)
  have hb := linUpdate_reindex lib (Equiv.sumComm m₁ m₂) (fromRows H₂ H₁) (fromBlocks R₂ 0 0 R₁) (Sum.elim r₂ r₁) (Sum.elim z₂ z₁) x hx.1 hRb.1
    (measCov_unit hx _ hRb)
  rw [← b1, ← b2, ← hb]
  congr 1
  · ext i j; cases i <;> rfl
  · ext i j; cases i <;> cases j <;> rfl
  · funext i; cases i <;> rfl
  · funext i; cases i <;> rfl

end OpenKalman.Kalman
