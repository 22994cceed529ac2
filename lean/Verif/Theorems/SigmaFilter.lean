import Verif.Proof.SigmaFilter

/-!
# C150 to C152: Kalman filters on sample points

`Admissible` names the parameters for which the points and weights make sense; all defaults are admissible.  The covariance of C150 and C151 is that of the
self-adjoint form; C152 is about the Cholesky form on top of Eigen.
-/

namespace OpenKalman.SigmaFilter
open Matrix Kalman SigmaPoints EigenHooks
open scoped ComplexOrder

set_option linter.unusedSectionVars false

variable {𝕜 : Type} [RCLike 𝕜] {b p n m : ℕ}

/-- The default parameters of `UnscentedSigmaPointsStateEstimation` and `UnscentedSigmaPointsParameterEstimation` (Unscented.hpp:27-70) are admissible. -/
theorem defaults_admissible (dim : ℕ) (hd : 0 < dim) :
    Admissible (.unscented 0.001 2 0) dim ∧ Admissible (.unscented 0.001 2 (3 - dim)) dim ∧ Admissible .cubature dim := by
  have : (0 : ℝ) < dim := Nat.cast_pos.mpr hd
  exact ⟨⟨by norm_num, by norm_num, by linarith⟩, ⟨by norm_num, by norm_num, by linarith⟩, trivial⟩

/-! ## C150 -/

section transform
variable (lib : Kalman.Lib 𝕜) (r : Rule) (k : Fin (b + 1) → ℕ) (mean : (i : Fin (b + 1)) → Fin (k i) → 𝕜)
  (delta P : (i : Fin (b + 1)) → Matrix (Fin (k i)) (Fin (k i)) 𝕜) (g : ((i : Fin (b + 1)) → Fin (k i) → 𝕜) → Fin p → 𝕜)

theorem cov_eq {count : ℕ} (W : Weights count) (D : Matrix (Fin p) (Fin count) 𝕜) : covarianceOf lib W D = gramOf W D := lib.herm_spec _ (gramOf_herm W D)

theorem transform_eq {Z : Matrix ((i : Fin (b + 1)) × Fin (k i)) (Fin (r.count (∑ i, k i))) 𝕜} (hZ : r.points k delta = some Z) :
    covTransform lib r k mean delta g =
      some (⟨weightedMean (r.weights (∑ i, k i)) (outputs g mean Z),
          gramOf (r.weights (∑ i, k i)) (deviations (outputs g mean Z) (weightedMean (r.weights (∑ i, k i)) (outputs g mean Z)))⟩,
        crossOf (r.weights (∑ i, k i)) (statePoints Z) (deviations (outputs g mean Z) (weightedMean (r.weights (∑ i, k i)) (outputs g mean Z)))) := by
  rw [covTransform, hZ, Option.map_some]
  simp only [cov_eq]

theorem root_scaled (hk : ∀ i, 0 < k i) (hr : Admissible r (∑ i, k i)) (i : Fin (b + 1))
    (hd : delta i * (delta i)ᴴ = (r.gamma (∑ i, k i) : 𝕜) • P i) : ((1 / r.gamma (∑ i, k i) : ℝ) : 𝕜) • (delta i * (delta i)ᴴ) = P i := by
  have hg := gamma_pos r _ (sum_k_pos k hk) hr
  rw [hd, smul_smul, ← RCLike.ofReal_mul, one_div, inv_mul_cancel₀ hg.ne', RCLike.ofReal_one, one_smul]

/-- **C150** (semidefinite): for admissible parameters, whatever the function and whichever square roots of the covariances are used, the transform gives a
result, and the covariances of input and output with the cross-covariance are the blocks of a positive semidefinite matrix. -/
theorem C150_semidefinite (hk : ∀ i, 0 < k i) (hr : Admissible r (∑ i, k i)) (hd : ∀ i, delta i * (delta i)ᴴ = (r.gamma (∑ i, k i) : 𝕜) • P i) :
    ∃ y, covTransform lib r k mean delta g = some y ∧ (jointCov (P 0) y.2 y.1.cov).PosSemidef := by
  obtain ⟨Z, h1, h2⟩ := points_ok r k hk hr delta
  refine ⟨_, transform_eq lib r k mean delta g h1, ?_⟩
  have := gram_posSemidef (good_rule (𝕜 := 𝕜) r _ (sum_k_pos k hk) hr) (fromRows (statePoints Z) (outputs g mean Z))
  rw [joint_gram r delta Z h2, root_scaled r k delta P hk hr 0 (hd 0)] at this
  exact this

/-- **C150** (definite): the covariance of the output is positive definite exactly if the points are mapped into no proper affine subspace; the joint covariance
exactly if the same holds for the pairs of input and output. -/
theorem C150_definite (hk : ∀ i, 0 < k i) (hr : Admissible r (∑ i, k i)) (hd : ∀ i, delta i * (delta i)ᴴ = (r.gamma (∑ i, k i) : 𝕜) • P i) :
    ∃ Z y, r.points k delta = some Z ∧ covTransform lib r k mean delta g = some y ∧
      (y.1.cov.PosDef ↔ Spread (Matrix.of fun a c => g (fun i q => Z ⟨i, q⟩ c + mean i q) a : Matrix (Fin p) (Fin (r.count (∑ i, k i))) 𝕜)) ∧
      ((jointCov (P 0) y.2 y.1.cov).PosDef ↔ Spread (fromRows (Matrix.of fun a c => Z ⟨0, a⟩ c)
        (Matrix.of fun a c => g (fun i q => Z ⟨i, q⟩ c + mean i q) a : Matrix (Fin p) (Fin (r.count (∑ i, k i))) 𝕜))) := by
  obtain ⟨Z, h1, h2⟩ := points_ok r k hk hr delta
  have hg := good_rule (𝕜 := 𝕜) r _ (sum_k_pos k hk) hr
  refine ⟨Z, _, h1, transform_eq lib r k mean delta g h1, gram_posDef_iff hg (outputs g mean Z), ?_⟩
  have := gram_posDef_iff hg (fromRows (statePoints Z) (outputs g mean Z))
  rw [joint_gram r delta Z h2, root_scaled r k delta P hk hr 0 (hd 0)] at this
  exact this

end transform

/-- **C150** (parameters): without `beta ≥ alpha²` the covariance may be negative, although all square roots exist: with `alpha = 1`, `beta = 0`, `kappa = -1/2`,
the square of a standard normal variable gets the variance `-1/2`. -/
theorem C150_parameters (lib : Kalman.Lib ℝ) : ∃ y, covTransform lib (.unscented 1 0 (-1 / 2)) (fun _ : Fin 1 => 1) (fun _ _ => 0)
    (fun _ => diagonal fun _ => Real.sqrt (1 / 2)) (fun z (_ : Fin 1) => z 0 0 ^ 2) = some y ∧ y.1.cov 0 0 = -1 / 2 := by
  refine ⟨_, transform_eq lib _ _ _ _ _ (Z := pointsOf (fun _ => 1) 3 [[.zero 1, .plus, .minus]] fun _ => diagonal fun _ => Real.sqrt (1 / 2)) rfl, ?_⟩
  have hs : Real.sqrt (1 / 2) ^ 2 = 1 / 2 := Real.sq_sqrt (by norm_num)
  have hY : ∀ c : Fin 3, (outputs (fun z (_ : Fin 1) => z 0 0 ^ 2) (fun _ _ => (0 : ℝ))
      (pointsOf (fun _ : Fin 1 => 1) 3 [[.zero 1, .plus, .minus]] fun _ => diagonal fun _ => Real.sqrt (1 / 2)) : Matrix (Fin 1) (Fin 3) ℝ) 0 c =
      ![0, 1 / 2, 1 / 2] c := by
    intro c
    fin_cases c
    · norm_num [outputs, pointsOf, elem, Piece.elem, Piece.width]
    · simp [outputs, pointsOf, elem, Piece.elem, Piece.width]
    · simp [outputs, pointsOf, elem, Piece.elem, Piece.width]
  generalize hYd : (outputs (fun z (_ : Fin 1) => z 0 0 ^ 2) (fun _ _ => (0 : ℝ))
      (pointsOf (fun _ : Fin 1 => 1) 3 [[.zero 1, .plus, .minus]] fun _ => diagonal fun _ => Real.sqrt (1 / 2)) : Matrix (Fin 1) (Fin 3) ℝ) = Y at hY
  have hfin : ∀ Y : Matrix (Fin 1) (Fin 3) ℝ, (∀ c, Y 0 c = ![0, 1 / 2, 1 / 2] c) →
      gramOf (unscentedWeights 1 1 0 (-1 / 2)) (deviations Y (weightedMean (unscentedWeights 1 1 0 (-1 / 2)) Y)) 0 0 = -1 / 2 := by
    intro Y hY
    have e : ∀ D : Matrix (Fin 1) (Fin 3) ℝ, gramOf (unscentedWeights 1 1 0 (-1 / 2)) D 0 0 =
        ∑ c, D 0 c * ((unscentedWeights 1 1 0 (-1 / 2)).wc c * D 0 c) := by
      intro D
      rw [gramOf, Matrix.mul_apply]
      refine Finset.sum_congr rfl fun c _ => ?_
      rw [diagonal_mul]
      rfl
    have y0 : Y 0 0 = 0 := hY 0
    have y1 : Y 0 1 = 1 / 2 := hY 1
    have y2 : Y 0 2 = 1 / 2 := hY 2
    have hw : ∀ c : Fin 2, (unscentedWeights 1 1 0 (-1 / 2)).wm c.succ = 1 ∧ (unscentedWeights 1 1 0 (-1 / 2)).wc c.succ = 1 := fun c => by
      norm_num [unscentedWeights, scaledWeights]
    have hw0 : (unscentedWeights 1 1 0 (-1 / 2)).wm 0 = -1 ∧ (unscentedWeights 1 1 0 (-1 / 2)).wc 0 = -1 := by
      norm_num [unscentedWeights, scaledWeights]
    have hm : weightedMean (unscentedWeights 1 1 0 (-1 / 2)) Y 0 = 1 := by
      show ∑ c : Fin 3, Y 0 c * (unscentedWeights 1 1 0 (-1 / 2)).wm c = 1
      rw [Fin.sum_univ_three, y0, y1, y2, hw0.1]
      have h1 := (hw 0).1
      have h2 := (hw 1).1
      change (unscentedWeights 1 1 0 (-1 / 2)).wm (1 : Fin 3) = 1 at h1
      change (unscentedWeights 1 1 0 (-1 / 2)).wm (2 : Fin 3) = 1 at h2
      rw [h1, h2]
      norm_num
    rw [e, Fin.sum_univ_three]
    have h1 := (hw 0).2
    have h2 := (hw 1).2
    change (unscentedWeights 1 1 0 (-1 / 2)).wc (1 : Fin 3) = 1 at h1
    change (unscentedWeights 1 1 0 (-1 / 2)).wc (2 : Fin 3) = 1 at h2
    simp only [deviations, hm, y0, y1, y2, h1, h2]
    rw [hw0.2]
    norm_num
  rw [← hYd] at hY
  exact hfin _ hY

/-- The distance of a moving object, with noise that enters nonlinearly: the hypotheses of C150 for two arguments. -/
example (lib : Kalman.Lib ℝ) : ∃ y, covTransform lib (.unscented 0.001 2 0) (fun _ : Fin 2 => 2) (fun _ _ => 1)
    (fun _ => ((Real.sqrt ((Rule.unscented 0.001 2 0).gamma (∑ _ : Fin 2, 2)) : ℝ) : ℝ) • 1)
    (fun z (_ : Fin 2) => Real.sqrt (z 0 0 ^ 2 + z 0 1 ^ 2) * Real.exp (z 1 0 * z 1 1)) = some y ∧ (jointCov 1 y.2 y.1.cov).PosSemidef := by
  have hk : ∀ i : Fin 2, 0 < (fun _ : Fin 2 => 2) i := fun i => by norm_num
  have hr := (defaults_admissible (∑ _ : Fin 2, 2) (sum_k_pos _ hk)).1
  refine C150_semidefinite lib _ (fun _ : Fin 2 => 2) _ _ (fun _ => 1) _ hk hr fun i => ?_
  rw [conjTranspose_smul, conjTranspose_one, Matrix.smul_mul, Matrix.mul_smul, Matrix.one_mul, smul_smul]
  congr 1
  exact Real.mul_self_sqrt (gamma_pos _ _ (sum_k_pos _ hk) hr).le

/-! ## C151 -/

/-- What a call may do: any square roots of the covariances may be used. -/
def OpReaches (lib : Kalman.Lib 𝕜) (r : Rule) : {n k : ℕ} → SOp 𝕜 n k → Gauss 𝕜 (Fin n) → Gauss 𝕜 (Fin k) → Prop
  | _, _, .predict k ns g, x, y => ∃ delta : (i : Fin _) → Matrix (Fin (k i)) (Fin (k i)) 𝕜,
      (∀ i, delta i * (delta i)ᴴ = (r.gamma (∑ i, k i) : 𝕜) • (dists x ns i).cov) ∧
      ∃ c, covTransform lib r k (fun i => (dists x ns i).mean) delta g = some (y, c)
  | _, _, .update k ns g z, x, y => ∃ delta : (i : Fin _) → Matrix (Fin (k i)) (Fin (k i)) 𝕜,
      (∀ i, delta i * (delta i)ᴴ = (r.gamma (∑ i, k i) : 𝕜) • (dists x ns i).cov) ∧
      ∃ q, covTransform lib r k (fun i => (dists x ns i).mean) delta g = some q ∧ y = updateStep lib id id x q.1 q.2 z

/-- What a history may do. -/
def Reaches (lib : Kalman.Lib 𝕜) (r : Rule) : {n k : ℕ} → SHist 𝕜 n k → Gauss 𝕜 (Fin n) → Gauss 𝕜 (Fin k) → Prop
  | _, _, .nil, x, y => y = x
  | _, _, .cons op h, x, y => ∃ u, OpReaches lib r op x u ∧ Reaches lib r h u y

/-- The parameters are admissible for the sum of the dimensions of state and noise. -/
def OpAdmissible (r : Rule) : {n k : ℕ} → SOp 𝕜 n k → Prop
  | _, _, .predict k _ _ => (∀ i, 0 < k i) ∧ Admissible r (∑ i, k i)
  | _, _, .update k _ _ _ => (∀ i, 0 < k i) ∧ Admissible r (∑ i, k i)

def AllAdmissible (r : Rule) : {n k : ℕ} → SHist 𝕜 n k → Prop
  | _, _, .nil => True
  | _, _, .cons op h => OpAdmissible r op ∧ AllAdmissible r h

/-- The solver solves systems with a semidefinite matrix that have a solution, as that of the Eigen interface does (C141). -/
def Solves (lib : Kalman.Lib 𝕜) : Prop := ∀ (m n : ℕ) (A : Matrix (Fin m) (Fin m) 𝕜) (B : Matrix (Fin m) (Fin n) 𝕜), A.PosSemidef →
  (∃ X : Matrix (Fin m) (Fin n) 𝕜, A * X = B) → A * lib.solve A B = B

theorem dists_cov {k : Fin (b + 1) → ℕ} (x : Gauss 𝕜 (Fin (k 0))) (hx : x.cov.PosSemidef) (ns : (i : Fin b) → GaussChol 𝕜 (Fin (k i.succ))) (i : Fin (b + 1)) :
    (dists x ns i).cov.PosSemidef := by
  refine Fin.cases ?_ (fun i => ?_) i
  · exact hx
  · exact posSemidef_self_mul_conjTranspose _

theorem update_posSemidef (lib : Kalman.Lib 𝕜) (hs : Solves lib) (x : Gauss 𝕜 (Fin n)) (y : Gauss 𝕜 (Fin p)) (Pxy : Matrix (Fin n) (Fin p) 𝕜) (z : Fin p → 𝕜)
    (hj : (jointCov x.cov Pxy y.cov).PosSemidef) : (updateStep lib id id x y Pxy z).cov.PosSemidef := by
  have hy := joint_yy hj
  have hK : y.covᴴ * lib.solve y.covᴴ Pxyᴴ = Pxyᴴ := hs _ _ _ _ (by rw [hy.1.eq]; exact hy) (gain_exists hj)
  rw [updateStep_errorCov lib id id x y Pxy z hy.1 hK]
  exact errorCov_posSemidef hj _

theorem op_posSemidef (lib : Kalman.Lib 𝕜) (hs : Solves lib) (r : Rule) {n k : ℕ} (op : SOp 𝕜 n k) (hop : OpAdmissible r op) (x : Gauss 𝕜 (Fin n))
    (hx : x.cov.PosSemidef) (y : Gauss 𝕜 (Fin k)) (h : OpReaches lib r op x y) : y.cov.PosSemidef := by
  cases op with
  | predict k ns g =>
    obtain ⟨delta, hd, c, hc⟩ := h
    obtain ⟨q, hq, hj⟩ := C150_semidefinite lib r k (fun i => (dists x ns i).mean) delta (fun i => (dists x ns i).cov) g hop.1 hop.2 hd
    rw [hc] at hq
    obtain rfl := Option.some.inj hq
    exact joint_yy hj
  | update k ns g z =>
    obtain ⟨delta, hd, q', hq', rfl⟩ := h
    obtain ⟨q, hq, hj⟩ := C150_semidefinite lib r k (fun i => (dists x ns i).mean) delta (fun i => (dists x ns i).cov) g hop.1 hop.2 hd
    rw [hq'] at hq
    obtain rfl := Option.some.inj hq
    exact update_posSemidef lib hs x _ _ z hj

theorem op_runs (lib : SLib 𝕜) (r : Rule) {n k : ℕ} (op : SOp 𝕜 n k) (hop : OpAdmissible r op) (x : Gauss 𝕜 (Fin n)) (hx : x.cov.PosSemidef) :
    ∃ y, op.run lib r x = some y ∧ OpReaches lib.toLib r op x y := by
  have hroots : ∀ {b : ℕ} {k : Fin (b + 1) → ℕ} (x : Gauss 𝕜 (Fin (k 0))) (_ : x.cov.PosSemidef) (ns : (i : Fin b) → GaussChol 𝕜 (Fin (k i.succ)))
      (_ : ∀ i, 0 < k i) (_ : Admissible r (∑ i, k i)) (i : Fin (b + 1)),
      rootsOf lib r (dists x ns) i * (rootsOf lib r (dists x ns) i)ᴴ = (r.gamma (∑ i, k i) : 𝕜) • (dists x ns i).cov := by
    intro b k x hx ns hk hr i
    exact lib.chol_spec _ (smul_posSemidef (dists_cov x hx ns i) _ (gamma_pos r _ (sum_k_pos k hk) hr).le)
  cases op with
  | predict k ns g =>
    have hd := hroots x hx ns hop.1 hop.2
    obtain ⟨q, hq, -⟩ := C150_semidefinite lib.toLib r k (fun i => (dists x ns i).mean) (rootsOf lib r (dists x ns)) (fun i => (dists x ns i).cov) g hop.1 hop.2 hd
    exact ⟨q.1, by simp only [SOp.run, hq, Option.map_some], _, hd, q.2, hq⟩
  | update k ns g z =>
    have hd := hroots x hx ns hop.1 hop.2
    obtain ⟨q, hq, -⟩ := C150_semidefinite lib.toLib r k (fun i => (dists x ns i).mean) (rootsOf lib r (dists x ns)) (fun i => (dists x ns i).cov) g hop.1 hop.2 hd
    exact ⟨_, by simp only [SOp.run, hq, Option.map_some], _, hd, q, hq, rfl⟩

/-- **C151**: through every history of predictions and updates by arbitrary functions, whichever square roots are used, the covariance stays positive
semidefinite, even if the measurement covariance is singular. -/
theorem C151_invariant (lib : Kalman.Lib 𝕜) (hs : Solves lib) (r : Rule) : {n k : ℕ} → (h : SHist 𝕜 n k) → AllAdmissible r h → (x : Gauss 𝕜 (Fin n)) →
    x.cov.PosSemidef → (y : Gauss 𝕜 (Fin k)) → Reaches lib r h x y → y.cov.PosSemidef
  | _, _, .nil, _, _, hx, _, hy => by
    obtain rfl := hy
    exact hx
  | _, _, .cons op h, ha, x, hx, y, hy => by
    obtain ⟨u, h1, h2⟩ := hy
    exact C151_invariant lib hs r h ha.2 u (op_posSemidef lib hs r op ha.1 x hx u h1) y h2

/-- **C151** (the filter as coded): every history gives a result, which is one of those above, so that its covariance is positive semidefinite. -/
theorem C151_history (lib : SLib 𝕜) (hs : Solves lib.toLib) (r : Rule) : {n k : ℕ} → (h : SHist 𝕜 n k) → AllAdmissible r h → (x : Gauss 𝕜 (Fin n)) →
    x.cov.PosSemidef → ∃ y, h.run lib r x = some y ∧ Reaches lib.toLib r h x y ∧ y.cov.PosSemidef
  | _, _, .nil, _, x, hx => ⟨x, rfl, rfl, hx⟩
  | _, _, .cons op h, ha, x, hx => by
    obtain ⟨u, h1, h2⟩ := op_runs lib r op ha.1 x hx
    obtain ⟨y, h3, h4, h5⟩ := C151_history lib hs r h ha.2 u (op_posSemidef lib.toLib hs r op ha.1 x hx u h2)
    exact ⟨y, by rw [SHist.run, h1, Option.bind_some, h3], ⟨u, h2, h4⟩, h5⟩

/-- A library whose solver solves every solvable system. -/
noncomputable def solvingLib : SLib 𝕜 :=
  { (someSLib : SLib 𝕜) with
    solve := fun {m n} _ _ A B => open Classical in if h : ∃ X : Matrix m n 𝕜, A * X = B then h.choose else 0
    solve_spec := fun {m n} _ _ A B hA => by
      have h : ∃ X : Matrix m n 𝕜, A * X = B := ⟨A⁻¹ * B, by rw [← Matrix.mul_assoc, mul_nonsing_inv _ hA, Matrix.one_mul]⟩
      simp only [dif_pos h]
      exact h.choose_spec }

theorem solvingLib_solves : Solves (solvingLib : SLib 𝕜).toLib := fun m n A B _ h => by
  simp only [solvingLib, dif_pos h]
  exact h.choose_spec

/-- A nonlinear prediction with multiplicative noise, and an update by two copies of one measurement without noise of its own, whose covariance is singular. -/
noncomputable def sampleHist : SHist ℝ 2 2 :=
  .cons (.predict (b := 1) (fun _ => 2) (fun _ => ⟨0, 1⟩) fun z a => Real.sin (z 0 a) * (1 + z 1 a))
    (.cons (.update (b := 0) (p := 2) (fun _ => 2) (fun i => i.elim0) (fun z _ => z 0 0 * z 0 1) ![3, 3]) .nil)

example : ∃ y, sampleHist.run solvingLib (.unscented 0.001 2 0) ⟨0, 1⟩ = some y ∧ y.cov.PosSemidef := by
  have h1 := (defaults_admissible 4 (by norm_num)).1
  have h2 := (defaults_admissible 2 (by norm_num)).1
  obtain ⟨y, h, -, h'⟩ := C151_history solvingLib solvingLib_solves (.unscented 0.001 2 0) sampleHist
    ⟨⟨fun _ => by norm_num, by simpa using h1⟩, ⟨fun _ => by norm_num, by simpa using h2⟩, trivial⟩ ⟨0, 1⟩ PosSemidef.one
  exact ⟨y, h, h'⟩

/-! ## C152 -/

theorem bind_error_iff {α β : Type} (x : Except Err α) (f : α → β) (e : Err) : (x.bind fun a => .ok (f a)) = .error e ↔ x = .error e := by
  cases x <;> simp [Except.bind]

section sqrt
variable (E : EigenLib 𝕜) (r : Rule) (k : Fin (b + 1) → ℕ) (d : (i : Fin (b + 1)) → GaussChol 𝕜 (Fin (k i)))
  (g : ((i : Fin (b + 1)) → Fin (k i) → 𝕜) → Fin p → 𝕜)

/-- The square roots used by the Cholesky form. -/
noncomputable def cholRoots (i : Fin (b + 1)) : Matrix (Fin (k i)) (Fin (k i)) 𝕜 := ((Real.sqrt (r.gamma (∑ i, k i)) : ℝ) : 𝕜) • (d i).fac

theorem cholRoots_sq (hk : ∀ i, 0 < k i) (hr : Admissible r (∑ i, k i)) (i : Fin (b + 1)) :
    cholRoots r k d i * (cholRoots r k d i)ᴴ = (r.gamma (∑ i, k i) : 𝕜) • (d i).toGauss.cov := by
  rw [cholRoots, conjTranspose_smul, Matrix.smul_mul, Matrix.mul_smul, smul_smul, RCLike.star_def, RCLike.conj_ofReal, ← RCLike.ofReal_mul,
    Real.mul_self_sqrt (gamma_pos r _ (sum_k_pos k hk) hr).le]
  rfl

theorem sqrtTransform_eq {Z : Matrix ((i : Fin (b + 1)) × Fin (k i)) (Fin (r.count (∑ i, k i))) 𝕜} (hZ : r.points k (cholRoots r k d) = some Z) :
    sqrtTransform E r k d g = (factorOf E r (∑ i, k i) (deviations (outputs g (fun i => (d i).mean) Z)
        (weightedMean (r.weights (∑ i, k i)) (outputs g (fun i => (d i).mean) Z)))).bind fun F =>
      .ok (⟨weightedMean (r.weights (∑ i, k i)) (outputs g (fun i => (d i).mean) Z), F⟩, crossOf (r.weights (∑ i, k i)) (statePoints Z)
        (deviations (outputs g (fun i => (d i).mean) Z) (weightedMean (r.weights (∑ i, k i)) (outputs g (fun i => (d i).mean) Z)))) := by
  unfold sqrtTransform
  have : (r.points k fun i => ((Real.sqrt (r.gamma (∑ i, k i)) : ℝ) : 𝕜) • (d i).fac) = some Z := hZ
  rw [this]
  rfl

/-- A result of the Cholesky form that agrees with the self-adjoint form. -/
structure Agrees (lib : Kalman.Lib 𝕜) (y : GaussChol 𝕜 (Fin p) × Matrix (Fin (k 0)) (Fin p) 𝕜) : Prop where
  tri : IsTri .lower y.1.fac
  real : RealDiag y.1.fac
  eq : covTransform lib r k (fun i => (d i).mean) (cholRoots r k d) g = some (y.1.toGauss, y.2)

theorem agrees_of (lib : Kalman.Lib 𝕜) {Z : Matrix ((i : Fin (b + 1)) × Fin (k i)) (Fin (r.count (∑ i, k i))) 𝕜}
    (hZ : r.points k (cholRoots r k d) = some Z) (h : ∃ F, factorOf E r (∑ i, k i) (deviations (outputs g (fun i => (d i).mean) Z)
        (weightedMean (r.weights (∑ i, k i)) (outputs g (fun i => (d i).mean) Z))) = .ok F ∧ IsTri .lower F ∧ RealDiag F ∧
      F * Fᴴ = gramOf (r.weights (∑ i, k i)) (deviations (outputs g (fun i => (d i).mean) Z)
        (weightedMean (r.weights (∑ i, k i)) (outputs g (fun i => (d i).mean) Z)))) : ∃ y, sqrtTransform E r k d g = .ok y ∧ Agrees r k d g lib y := by
  obtain ⟨F, h1, h2, h3, h4⟩ := h
  refine ⟨_, by rw [sqrtTransform_eq E r k d g hZ, h1]; rfl, ⟨h2, h3, ?_⟩⟩
  rw [transform_eq lib r k _ _ g hZ, ← h4]
  rfl

/-- **C152** (no negative weight): with cubature points, and with unscented points whose centre does not have a negative weight, nothing is thrown for any
function, and mean, covariance and cross-covariance are those of the self-adjoint form. -/
theorem C152_nonnegative (lib : Kalman.Lib 𝕜) (hk : ∀ i, 0 < k i) (hr : Admissible r (∑ i, k i)) (hn : NonNegative r (∑ i, k i)) :
    ∃ y, sqrtTransform E r k d g = .ok y ∧ Agrees r k d g lib y := by
  obtain ⟨Z, h1, -⟩ := points_ok r k hk hr (cholRoots r k d)
  exact agrees_of E r k d g lib h1 (factor_nonneg E r _ hr hn _)

/-- **C152** (negative weight): if the weight of the centre is negative, `std::runtime_error` is thrown exactly if the function maps the points into a proper affine
subspace; otherwise the results are those of the self-adjoint form. -/
theorem C152_negative_partial (lib : Kalman.Lib 𝕜) (alpha beta kappa : ℝ) (hk : ∀ i, 0 < k i) (hr : Admissible (.unscented alpha beta kappa) (∑ i, k i))
    (hc : centre alpha beta kappa (∑ i, k i) < 0) : ∃ Z, (Rule.unscented alpha beta kappa).points k (cholRoots (.unscented alpha beta kappa) k d) = some Z ∧
      (sqrtTransform E (.unscented alpha beta kappa) k d g = .error .runtimeError ↔ ¬ Spread (outputs g (fun i => (d i).mean) Z)) ∧
      (Spread (outputs g (fun i => (d i).mean) Z) →
        ∃ y, sqrtTransform E (.unscented alpha beta kappa) k d g = .ok y ∧ Agrees (.unscented alpha beta kappa) k d g lib y) := by
  obtain ⟨Z, h1, -⟩ := points_ok (.unscented alpha beta kappa) k hk hr (cholRoots (.unscented alpha beta kappa) k d)
  have hg := good_rule (𝕜 := 𝕜) _ _ (sum_k_pos k hk) hr
  have hiff := gram_posDef_iff hg (outputs g (fun i => (d i).mean) Z)
  have h0 : (unscentedWeights (∑ i, k i) alpha beta kappa).wc 0 < 0 := by rw [centre_eq alpha beta kappa _ hr.1 hr.2.2]; exact hc
  have hneg := scaled_negative E (unscentedWeights (∑ i, k i) alpha beta kappa) h0 (outer_nonneg alpha beta kappa _ hr.2.2)
    (deviations (outputs g (fun i => (d i).mean) Z) (weightedMean (unscentedWeights (∑ i, k i) alpha beta kappa) (outputs g (fun i => (d i).mean) Z)))
  refine ⟨Z, h1, ?_, fun hs => agrees_of E _ k d g lib h1 (hneg.2 (hiff.mpr hs))⟩
  rw [← not_congr hiff]
  rw [sqrtTransform_eq E _ k d g h1]
  exact (bind_error_iff _ _ _).trans hneg.1

/-- The centre has a negative weight with the default parameters, whatever the dimension. -/
theorem defaults_negative (dim : ℕ) (hd : 0 < dim) : centre 0.001 2 0 dim < 0 ∧ centre 0.001 2 (3 - dim) dim < 0 := by
  have h : (1 : ℝ) ≤ dim := Nat.one_le_cast.mpr hd
  have h0 : (dim : ℝ) ≠ 0 := by positivity
  constructor
  · have : (dim : ℝ) / (0.001 ^ 2 * (dim + 0)) = 1000000 := by
      rw [add_zero, div_eq_iff (by positivity)]
      ring
    unfold centre
    rw [this]
    norm_num
  · have : (dim : ℝ) / (0.001 ^ 2 * (dim + (3 - dim))) = dim * (1000000 / 3) := by
      have : (dim : ℝ) + (3 - dim) = 3 := by ring
      rw [this, div_eq_iff (by norm_num)]
      ring
    unfold centre
    rw [this]
    nlinarith

/-- **C152** (violated: dependent outputs): if some combination of the outputs is constant, the default unscented filter throws, although the self-adjoint form has a
covariance, and the filter with cubature points a factor of one. -/
theorem C152_dependent_violated (lib : Kalman.Lib 𝕜) (hk : ∀ i, 0 < k i) (v : Fin p → 𝕜) (hv : v ≠ 0) (c : 𝕜) (hg : ∀ z, ∑ a, v a * g z a = c) :
    sqrtTransform E (.unscented 0.001 2 0) k d g = .error .runtimeError ∧
    (∃ y, covTransform lib (.unscented 0.001 2 0) k (fun i => (d i).mean) (cholRoots (.unscented 0.001 2 0) k d) g = some y ∧ y.1.cov.PosSemidef) ∧
    ∃ y, sqrtTransform E .cubature k d g = .ok y := by
  have hr := (defaults_admissible (∑ i, k i) (sum_k_pos k hk)).1
  refine ⟨?_, ?_, ?_⟩
  · obtain ⟨Z, -, h2, -⟩ := C152_negative_partial E k d g lib 0.001 2 0 hk hr (defaults_negative _ (sum_k_pos k hk)).1
    refine h2.mpr fun hs => hv (hs v fun c1 c2 => ?_)
    exact (hg _).trans (hg _).symm
  · obtain ⟨y, h1, h2⟩ := C150_semidefinite lib (.unscented 0.001 2 0) k (fun i => (d i).mean) _ (fun i => (d i).toGauss.cov) g hk hr
      (cholRoots_sq _ k d hk hr)
    exact ⟨y, h1, joint_yy h2⟩
  · obtain ⟨y, h1, -⟩ := C152_nonnegative E .cubature k d g lib hk trivial trivial
    exact ⟨y, h1⟩

theorem not_spread_of_few {count : ℕ} (Y : Matrix (Fin p) (Fin (count + 1)) 𝕜) (h : count < p) : ¬ Spread Y := by
  intro hs
  let f : (Fin p → 𝕜) →ₗ[𝕜] (Fin count → 𝕜) := (Matrix.of fun c a => Y a c.succ - Y a 0 : Matrix (Fin count) (Fin p) 𝕜).mulVecLin
  have hker : LinearMap.ker f ≠ ⊥ := LinearMap.ker_ne_bot_of_finrank_lt (by simpa using h)
  obtain ⟨v, hv, hne⟩ := Submodule.exists_mem_ne_zero_of_ne_bot hker
  refine hne (hs v ?_)
  have key : ∀ c, ∑ a, v a * Y a c = ∑ a, v a * Y a 0 := by
    intro c
    refine Fin.cases rfl (fun c => ?_) c
    have := congrFun (LinearMap.mem_ker.mp hv) c
    simp only [f, mulVecLin_apply, mulVec, dotProduct, Matrix.of_apply, Pi.zero_apply, sub_mul, Finset.sum_sub_distrib] at this
    rw [sub_eq_zero] at this
    simpa only [mul_comm] using this
  intro c c'
  rw [key c, key c']

/-- **C152** (violated: many outputs): the default unscented filter throws for every function with more than twice as many outputs as inputs, such as the positions of
some landmarks relative to a vehicle. -/
theorem C152_many_outputs_violated (lib : Kalman.Lib 𝕜) (hk : ∀ i, 0 < k i) (hp : (∑ i, k i) * 2 < p) :
    sqrtTransform E (.unscented 0.001 2 0) k d g = .error .runtimeError ∧ sqrtTransform E (.unscented 0.001 2 (3 - (∑ i, k i : ℕ))) k d g = .error .runtimeError := by
  have hr := defaults_admissible (∑ i, k i) (sum_k_pos k hk)
  have hn := defaults_negative (∑ i, k i) (sum_k_pos k hk)
  constructor
  · obtain ⟨Z, -, h2, -⟩ := C152_negative_partial E k d g lib _ _ _ hk hr.1 hn.1
    exact h2.mpr (not_spread_of_few _ hp)
  · obtain ⟨Z, -, h2, -⟩ := C152_negative_partial E k d g lib _ _ _ hk hr.2.1 hn.2
    exact h2.mpr (not_spread_of_few _ hp)

end sqrt

/-- A bearing and a distance without noise: the outputs of three landmarks are more than twice as many as the inputs. -/
example (E : EigenLib ℝ) (lib : Kalman.Lib ℝ) (l : Fin 5 → ℝ) : sqrtTransform E (.unscented 0.001 2 0) (fun _ : Fin 1 => 2) (fun _ => ⟨0, 1⟩)
    (fun z (a : Fin 5) => Real.sqrt ((z 0 0 - l a) ^ 2 + z 0 1 ^ 2)) = .error .runtimeError :=
  (C152_many_outputs_violated E (fun _ : Fin 1 => 2) (fun _ => ⟨0, 1⟩) _ lib (fun _ => by norm_num) (by simp)).1

/-- A state one of whose components is constant. -/
example (E : EigenLib ℝ) (lib : Kalman.Lib ℝ) : sqrtTransform E (.unscented 0.001 2 0) (fun _ : Fin 1 => 2) (fun _ => ⟨0, 1⟩)
    (fun z => ![Real.sin (z 0 0), 7]) = .error .runtimeError :=
  (C152_dependent_violated E (fun _ : Fin 1 => 2) (fun _ => ⟨0, 1⟩) _ lib (fun _ => by norm_num) ![0, 1]
    (fun h => by have := congrFun h 1; simp at this) 7 (fun z => by simp [Fin.sum_univ_two])).1

example (E : EigenLib ℝ) (lib : Kalman.Lib ℝ) : ∃ y, sqrtTransform E .cubature (fun _ : Fin 1 => 2) (fun _ => ⟨0, 1⟩) (fun z => ![Real.sin (z 0 0), 7]) = .ok y ∧
    Agrees .cubature (fun _ : Fin 1 => 2) (fun _ => ⟨0, 1⟩) (fun z => ![Real.sin (z 0 0), 7]) lib y :=
  C152_nonnegative E .cubature (fun _ : Fin 1 => 2) (fun _ => ⟨0, 1⟩) (fun z => ![Real.sin (z 0 0), 7]) lib (fun _ => by norm_num) trivial trivial

/-- Noise enters additively and has a positive definite covariance. -/
def OpRegular (r : Rule) : {n k : ℕ} → SOp 𝕜 n k → Prop
  | _, _, .predict k ns g => (∀ i, 0 < k i) ∧ Admissible r (∑ i, k i) ∧ ∃ h B, g = additive h B ∧ (∑ i, B i * (ns i).toGauss.cov * (B i)ᴴ).PosDef
  | _, _, .update k ns g _ => (∀ i, 0 < k i) ∧ Admissible r (∑ i, k i) ∧ ∃ h B, g = additive h B ∧ (∑ i, B i * (ns i).toGauss.cov * (B i)ᴴ).PosDef

def AllRegularS (r : Rule) : {n k : ℕ} → SHist 𝕜 n k → Prop
  | _, _, .nil => True
  | _, _, .cons op h => OpRegular r op ∧ AllRegularS r h

theorem dists_toGauss {k : Fin (b + 1) → ℕ} (x : GaussChol 𝕜 (Fin (k 0))) (ns : (i : Fin b) → GaussChol 𝕜 (Fin (k i.succ))) (i : Fin (b + 1)) :
    dists x.toGauss ns i = (distsChol x ns i).toGauss := by
  refine Fin.cases rfl (fun i => rfl) i

theorem additive_step (E : EigenLib 𝕜) (lib : Kalman.Lib 𝕜) (r : Rule) (k : Fin (b + 1) → ℕ) (x : GaussChol 𝕜 (Fin (k 0))) (hx : Prior x)
    (ns : (i : Fin b) → GaussChol 𝕜 (Fin (k i.succ))) (h : (Fin (k 0) → 𝕜) → Fin p → 𝕜) (B : (i : Fin b) → Matrix (Fin p) (Fin (k i.succ)) 𝕜)
    (hk : ∀ i, 0 < k i) (hr : Admissible r (∑ i, k i)) (hB : (∑ i, B i * (ns i).toGauss.cov * (B i)ᴴ).PosDef) :
    ∃ y, sqrtTransform E r k (distsChol x ns) (additive h B) = .ok y ∧ Agrees r k (distsChol x ns) (additive h B) lib y ∧
      (jointCov x.toGauss.cov y.2 y.1.toGauss.cov).PosDef := by
  obtain ⟨Z, h1, h2⟩ := points_ok r k hk hr (cholRoots r k (distsChol x ns))
  have hg := good_rule (𝕜 := 𝕜) r _ (sum_k_pos k hk) hr
  have hgp := gamma_pos r _ (sum_k_pos k hk) hr
  have hsq := cholRoots_sq r k (distsChol x ns) hk hr
  have hsp : Spread (fromRows (statePoints Z) (outputs (additive h B) (fun i => (distsChol x ns i).mean) Z)) := by
    refine additive_spread r _ Z h2 _ h B ?_ ?_
    · rw [hsq]
      exact hx.pos.smul (RCLike.ofReal_pos.mpr hgp)
    · have e : ∑ i, B i * (cholRoots r k (distsChol x ns) i.succ * (cholRoots r k (distsChol x ns) i.succ)ᴴ) * (B i)ᴴ =
          (r.gamma (∑ i, k i) : 𝕜) • ∑ i, B i * (ns i).toGauss.cov * (B i)ᴴ := by
        rw [Finset.smul_sum]
        refine Finset.sum_congr rfl fun i _ => ?_
        rw [hsq, Matrix.mul_smul, Matrix.smul_mul]
        rfl
      rw [e]
      exact hB.smul (RCLike.ofReal_pos.mpr hgp)
  have hJ := (gram_posDef_iff hg _).mpr hsp
  rw [joint_gram r _ Z h2, root_scaled r k _ (fun i => (distsChol x ns i).toGauss.cov) hk hr 0 (hsq 0)] at hJ
  have hY : (gramOf (r.weights (∑ i, k i)) (deviations (outputs (additive h B) (fun i => (distsChol x ns i).mean) Z)
      (weightedMean (r.weights (∑ i, k i)) (outputs (additive h B) (fun i => (distsChol x ns i).mean) Z)))).PosDef := hJ.submatrix Sum.inr_injective
  obtain ⟨y, h3, h4⟩ := agrees_of E r k (distsChol x ns) (additive h B) lib h1 (factor_posDef E r _ hr _ hY)
  refine ⟨y, h3, h4, ?_⟩
  have h5 := h4.eq
  rw [transform_eq lib r k _ _ _ h1] at h5
  have h6 := Option.some.inj h5
  have e1 := (congrArg Prod.fst h6).symm
  have e2 := (congrArg Prod.snd h6).symm
  dsimp only at e1 e2
  rw [e1, e2]
  exact hJ

theorem op_sqrt (E : EigenLib 𝕜) (lib : Kalman.Lib 𝕜) (r : Rule) {n k : ℕ} (op : SOp 𝕜 n k) (hop : OpRegular r op) (x : GaussChol 𝕜 (Fin n)) (hx : Prior x) :
    ∃ y, op.runSqrt E r x = .ok y ∧ OpReaches lib r op x.toGauss y.toGauss ∧ Prior y := by
  cases op with
  | predict k ns g =>
    obtain ⟨hk, hr, h, B, rfl, hB⟩ := hop
    obtain ⟨y, h1, h2, h3⟩ := additive_step E lib r k x hx ns h B hk hr hB
    refine ⟨y.1, by simp only [SOp.runSqrt, bind, Except.bind, h1], ⟨cholRoots r k (distsChol x ns), fun i => ?_, y.2, ?_⟩, h2.tri, h2.real,
      h3.submatrix Sum.inr_injective⟩
    · rw [dists_toGauss]; exact cholRoots_sq r k (distsChol x ns) hk hr i
    · simp only [dists_toGauss]; exact h2.eq
  | update k ns g z =>
    obtain ⟨hk, hr, h, B, rfl, hB⟩ := hop
    obtain ⟨y, h1, h2, h3⟩ := additive_step E lib r k x hx ns h B hk hr hB
    obtain ⟨x', h4, h5, h6⟩ := sqrtUpdate_ok E lib x y.1 y.2 z hx h3
    refine ⟨x', by simp only [SOp.runSqrt, bind, Except.bind, h1]; exact h4, ⟨cholRoots r k (distsChol x ns), fun i => ?_, (y.1.toGauss, y.2), ?_, h5⟩, h6⟩
    · rw [dists_toGauss]; exact cholRoots_sq r k (distsChol x ns) hk hr i
    · simp only [dists_toGauss]; exact h2.eq

/-- **C152** (histories): if noise with a positive definite covariance is added to arbitrary functions of the state, the square-root filter never throws, with
any admissible rule (the defaults included), does what the filter on covariances may do, and keeps a lower triangle with a real diagonal and a positive definite
square. -/
theorem C152_history_partial (E : EigenLib 𝕜) (lib : Kalman.Lib 𝕜) (r : Rule) : {n k : ℕ} → (h : SHist 𝕜 n k) → AllRegularS r h →
    (x : GaussChol 𝕜 (Fin n)) → Prior x → ∃ y, h.runSqrt E r x = .ok y ∧ Reaches lib r h x.toGauss y.toGauss ∧ Prior y
  | _, _, .nil, _, x, hx => ⟨x, rfl, rfl, hx⟩
  | _, _, .cons op h, ha, x, hx => by
    obtain ⟨u, h1, h2, h3⟩ := op_sqrt E lib r op ha.1 x hx
    obtain ⟨y, h4, h5, h6⟩ := C152_history_partial E lib r h ha.2 u h3
    exact ⟨y, by simp only [SHist.runSqrt, bind, Except.bind, h1]; exact h4, ⟨u.toGauss, h2, h5⟩, h6⟩

/-- A nonlinear motion and a nonlinear measurement, with added noise. -/
noncomputable def regularHist : SHist ℝ 2 2 :=
  .cons (.predict (b := 1) (fun _ => 2) (fun _ => ⟨0, 1⟩) (additive (fun x a => Real.sin (x a) * x 0) fun _ => 1))
    (.cons (.update (b := 1) (p := 2) (fun _ => 2) (fun _ => ⟨0, 1⟩) (additive (fun x _ => x 0 * x 1) fun _ => 1) ![3, 4]) .nil)

example : ∃ y, regularHist.runSqrt (someLib : EigenLib ℝ) (.unscented 0.001 2 0) ⟨0, 1⟩ = .ok y ∧ Prior y := by
  have h1 := (defaults_admissible 4 (by norm_num)).1
  have hB : (∑ i : Fin 1, (fun _ => 1 : (i : Fin 1) → Matrix (Fin 2) (Fin 2) ℝ) i * (⟨0, 1⟩ : GaussChol ℝ (Fin 2)).toGauss.cov *
      ((fun _ => 1 : (i : Fin 1) → Matrix (Fin 2) (Fin 2) ℝ) i)ᴴ).PosDef := by
    simpa [GaussChol.toGauss] using PosDef.one
  obtain ⟨y, h, -, h'⟩ := C152_history_partial (someLib : EigenLib ℝ) Kalman.someLib (.unscented 0.001 2 0) regularHist
    ⟨⟨fun _ => by norm_num, by simpa using h1, _, _, rfl, hB⟩, ⟨fun _ => by norm_num, by simpa using h1, _, _, rfl, hB⟩, trivial⟩ ⟨0, 1⟩
    ⟨fun i j h => one_apply_ne fun e => h (by subst e; exact le_refl _), fun i j _ => by simp, by simpa [GaussChol.toGauss] using PosDef.one⟩
  exact ⟨y, h, h'⟩

end OpenKalman.SigmaFilter
