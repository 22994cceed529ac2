import Verif.Theorems.SigmaFilter
import Verif.Theorems.KalmanBayes
import Verif.Model.SmallNoise
import Mathlib.Analysis.Calculus.FDeriv.Basic
import Mathlib.Analysis.Asymptotics.Lemmas
import Mathlib.Topology.Instances.Matrix

/-! # Lemmas about sample-point transforms of distributions with small covariances -/

set_option linter.unusedSectionVars false

namespace OpenKalman.SigmaFilter
open Matrix Kalman SigmaPoints Filter Topology Asymptotics
open scoped ComplexOrder

variable {𝕜 : Type} [RCLike 𝕜] {b p : ℕ}

/-! ## Points are as small as the covariances -/

theorem elem_le {k : ℕ} (delta : Matrix (Fin k) (Fin k) 𝕜) (a : Fin k) (c : ℕ) (L : List Piece) : ‖elem delta a c L‖ ^ 2 ≤ ∑ s, ‖delta a s‖ ^ 2 := by
  have h0 : (0 : ℝ) ≤ ∑ s, ‖delta a s‖ ^ 2 := Finset.sum_nonneg fun _ _ => sq_nonneg _
  have h1 : ∀ s, ‖delta a s‖ ^ 2 ≤ ∑ s, ‖delta a s‖ ^ 2 := fun s => Finset.single_le_sum (f := fun s => ‖delta a s‖ ^ 2) (fun _ _ => sq_nonneg _) (Finset.mem_univ s)
  induction L generalizing c with
  | nil => simpa [elem] using h0
  | cons q L ih =>
    unfold elem
    split
    · cases q with
      | zero w => simpa [Piece.elem] using h0
      | plus =>
        show ‖if h : c < k then delta a ⟨c, h⟩ else 0‖ ^ 2 ≤ _
        split_ifs
        · exact h1 _
        · simpa using h0
      | minus =>
        show ‖if h : c < k then -delta a ⟨c, h⟩ else 0‖ ^ 2 ≤ _
        split_ifs
        · rw [norm_neg]
          exact h1 _
        · simpa using h0
    · exact ih _

theorem point_le (r : Rule) {k : Fin b → ℕ} {delta : (i : Fin b) → Matrix (Fin (k i)) (Fin (k i)) 𝕜} {Z : Matrix ((i : Fin b) × Fin (k i)) (Fin (r.count (∑ i, k i))) 𝕜}
    (hZ : r.points k delta = some Z) (i : Fin b) (a : Fin (k i)) (c : Fin (r.count (∑ i, k i))) : ‖Z ⟨i, a⟩ c‖ ^ 2 ≤ ‖(delta i * (delta i)ᴴ) a a‖ := by
  unfold Rule.points at hZ
  obtain ⟨L, -, rfl⟩ := Option.map_eq_some_iff.1 hZ
  refine (elem_le (delta i) a c _).trans (le_of_eq ?_)
  have : (delta i * (delta i)ᴴ) a a = ((∑ s, ‖delta i a s‖ ^ 2 : ℝ) : 𝕜) := by
    rw [Matrix.mul_apply, RCLike.ofReal_sum]
    refine Finset.sum_congr rfl fun s _ => ?_
    rw [conjTranspose_apply, RCLike.star_def, RCLike.mul_conj, RCLike.ofReal_pow]
  rw [this, RCLike.norm_ofReal, abs_of_nonneg (Finset.sum_nonneg fun _ _ => sq_nonneg _)]

/-- The parameter that tends to zero. -/
abbrev small : Filter ℝ := 𝓝[≠] 0

theorem small_ne : ∀ᶠ e in small, e ≠ 0 := eventually_mem_nhdsWithin

/-- Covariances of the order of `e²`: divided by `e²` they tend to `C`. -/
def Shrinks {m n : Type} (P : ℝ → Matrix m n 𝕜) (C : Matrix m n 𝕜) : Prop := Tendsto (fun e : ℝ => ((e : 𝕜) ^ 2)⁻¹ • P e) small (𝓝 C)

theorem Shrinks.entry {m n : Type} {P : ℝ → Matrix m n 𝕜} {C : Matrix m n 𝕜} (h : Shrinks P C) (i : m) (j : n) :
    Tendsto (fun e : ℝ => ((e : 𝕜) ^ 2)⁻¹ * P e i j) small (𝓝 (C i j)) := by
  have := (tendsto_pi_nhds.1 ((tendsto_pi_nhds.1 h) i)) j
  exact this

theorem shrinks_iff {m n : Type} {P : ℝ → Matrix m n 𝕜} {C : Matrix m n 𝕜} : Shrinks P C ↔ ∀ i j, Tendsto (fun e : ℝ => ((e : 𝕜) ^ 2)⁻¹ * P e i j) small (𝓝 (C i j)) :=
  ⟨fun h => h.entry, fun h => tendsto_pi_nhds.2 fun i => tendsto_pi_nhds.2 fun j => h i j⟩

theorem Shrinks.isBigO {m n : Type} {P : ℝ → Matrix m n 𝕜} {C : Matrix m n 𝕜} (h : Shrinks P C) (i : m) (j : n) : (fun e => P e i j) =O[small] fun e => e ^ 2 := by
  have h1 := (h.entry i j).isBigO_one ℝ
  have h2 : (fun e : ℝ => (e : 𝕜) ^ 2) =O[small] fun e => e ^ 2 := by
    refine IsBigO.of_bound 1 (Eventually.of_forall fun e => ?_)
    simp
  refine (h2.mul h1).congr' ?_ ?_
  · filter_upwards [small_ne] with e he
    have : (e : 𝕜) ^ 2 ≠ 0 := pow_ne_zero _ (RCLike.ofReal_ne_zero.2 he)
    rw [mul_inv_cancel_left₀ this]
  · exact Eventually.of_forall fun e => mul_one _

theorem points_isBigO (r : Rule) {k : Fin b → ℕ} {delta P : ℝ → (i : Fin b) → Matrix (Fin (k i)) (Fin (k i)) 𝕜} {P0 : (i : Fin b) → Matrix (Fin (k i)) (Fin (k i)) 𝕜}
    (hP : ∀ i, Shrinks (fun e => P e i) (P0 i)) (hd : ∀ᶠ e in small, ∀ i, delta e i * (delta e i)ᴴ = (r.gamma (∑ i, k i) : 𝕜) • P e i)
    {Z : ℝ → Matrix ((i : Fin b) × Fin (k i)) (Fin (r.count (∑ i, k i))) 𝕜} (hZ : ∀ᶠ e in small, r.points k (delta e) = some (Z e)) (x : (i : Fin b) × Fin (k i))
    (c : Fin (r.count (∑ i, k i))) : (fun e => Z e x c) =O[small] fun e => e := by
  obtain ⟨i, a⟩ := x
  refine IsBigO.of_pow (n := 2) (by norm_num) ?_
  have h1 := ((hP i).isBigO a a).const_mul_left (r.gamma (∑ i, k i) : 𝕜)
  refine IsBigO.trans (IsBigO.of_bound 1 ?_) h1
  filter_upwards [hd, hZ] with e hd hZ
  have := point_le r hZ i a c
  rw [hd i] at this
  simpa using this

/-! ## The transform -/

/-- The Jacobians side by side. -/
noncomputable def jacAll {k : Fin (b + 1) → ℕ} (J : ((i : Fin (b + 1)) → Fin (k i) → 𝕜) →L[𝕜] (Fin p → 𝕜)) : Matrix (Fin p) ((i : Fin (b + 1)) × Fin (k i)) 𝕜 :=
  Matrix.of fun a x => J (Pi.single x.1 (Pi.single x.2 1)) a

theorem jacAll_apply {k : Fin (b + 1) → ℕ} (J : ((i : Fin (b + 1)) → Fin (k i) → 𝕜) →L[𝕜] (Fin p → 𝕜)) (z : (i : Fin (b + 1)) → Fin (k i) → 𝕜) (a : Fin p) :
    J z a = ∑ x : (i : Fin (b + 1)) × Fin (k i), jacAll J a x * z x.1 x.2 := by
  have hz : z = ∑ i, ∑ q, z i q • (Pi.single i (Pi.single q (1 : 𝕜)) : (i : Fin (b + 1)) → Fin (k i) → 𝕜) := by
    funext i q
    rw [Finset.sum_apply, Finset.sum_eq_single i, Finset.sum_apply, Finset.sum_apply, Finset.sum_eq_single q]
    · simp
    · intro q' _ h
      simp [Pi.single_eq_of_ne (Ne.symm h)]
    · simp
    · intro i' _ h
      rw [Finset.sum_apply]
      refine Finset.sum_eq_zero fun q' _ => ?_
      simp [Pi.single_eq_of_ne (Ne.symm h)]
    · simp
  conv_lhs => rw [hz]
  simp only [map_sum, map_smul, Finset.sum_apply, Pi.smul_apply, smul_eq_mul]
  rw [← Finset.univ_sigma_univ, Finset.sum_sigma]
  exact Finset.sum_congr rfl fun i _ => Finset.sum_congr rfl fun q _ => mul_comm _ _

section limit
variable (r : Rule) {k : Fin (b + 1) → ℕ} {g : ((i : Fin (b + 1)) → Fin (k i) → 𝕜) → Fin p → 𝕜} {J : ((i : Fin (b + 1)) → Fin (k i) → 𝕜) →L[𝕜] (Fin p → 𝕜)}
  {mean : ℝ → (i : Fin (b + 1)) → Fin (k i) → 𝕜} {μ : (i : Fin (b + 1)) → Fin (k i) → 𝕜}
  {Z : ℝ → Matrix ((i : Fin (b + 1)) × Fin (k i)) (Fin (r.count (∑ i, k i))) 𝕜}

/-- What the function differs from its linearisation, at the points. -/
noncomputable def rest (J : ((i : Fin (b + 1)) → Fin (k i) → 𝕜) →L[𝕜] (Fin p → 𝕜)) (g : ((i : Fin (b + 1)) → Fin (k i) → 𝕜) → Fin p → 𝕜) {count : ℕ}
    (m : (i : Fin (b + 1)) → Fin (k i) → 𝕜) (Z : Matrix ((i : Fin (b + 1)) × Fin (k i)) (Fin count) 𝕜) : Matrix (Fin p) (Fin count) 𝕜 :=
  Matrix.of fun a c => outputs g m Z a c - g m a - (jacAll J * Z) a c

theorem rest_isLittleO (hg : HasStrictFDerivAt g J μ) (hm : Tendsto mean small (𝓝 μ)) (hZ : ∀ x c, (fun e => Z e x c) =O[small] fun e => e) (a : Fin p)
    (c : Fin (r.count (∑ i, k i))) : (fun e => rest J g (mean e) (Z e) a c) =o[small] fun e => e := by
  set v : ℝ → (i : Fin (b + 1)) → Fin (k i) → 𝕜 := fun e i q => Z e ⟨i, q⟩ c with hv
  have h1 : v =O[small] fun e => e := isBigO_pi.2 fun i => isBigO_pi.2 fun q => hZ ⟨i, q⟩ c
  have h2 : Tendsto v small (𝓝 0) := h1.trans_tendsto (tendsto_nhdsWithin_of_tendsto_nhds tendsto_id)
  have h3 : Tendsto (fun e => (v e + mean e, mean e)) small (𝓝 (μ, μ)) := by
    have := (h2.add hm).prodMk_nhds hm
    rwa [zero_add] at this
  have h4 := hg.isLittleO.comp_tendsto h3
  have h5 : (fun e => g (v e + mean e) - g (mean e) - J (v e)) =o[small] fun e => e := by
    refine IsLittleO.trans_isBigO (f := fun e => g (v e + mean e) - g (mean e) - J (v e)) (g := v) ?_ h1
    refine h4.congr (fun e => ?_) fun e => ?_
    · simp
    · simp
  refine ((isLittleO_pi.1 h5) a).congr_left fun e => ?_
  show g (v e + mean e) a - g (mean e) a - J (v e) a = _
  rw [jacAll_apply]
  rfl

/-- The same, less its mean. -/
noncomputable def restDev (J : ((i : Fin (b + 1)) → Fin (k i) → 𝕜) →L[𝕜] (Fin p → 𝕜)) (g : ((i : Fin (b + 1)) → Fin (k i) → 𝕜) → Fin p → 𝕜) {count : ℕ}
    (W : Weights count) (m : (i : Fin (b + 1)) → Fin (k i) → 𝕜) (Z : Matrix ((i : Fin (b + 1)) × Fin (k i)) (Fin count) 𝕜) : Matrix (Fin p) (Fin count) 𝕜 :=
  deviations (rest J g m Z) (weightedMean W (rest J g m Z))

theorem mean_expand {count : ℕ} (W : Weights count) (h1 : ∑ c, W.wm c = 1) (m : (i : Fin (b + 1)) → Fin (k i) → 𝕜) (Z : Matrix ((i : Fin (b + 1)) × Fin (k i)) (Fin count) 𝕜)
    (hZ : Z *ᵥ scal W.wm = 0) : weightedMean W (outputs g m Z) = g m + weightedMean W (rest J g m Z) := by
  have e0 : outputs g m Z = Matrix.of (fun a _ => g m a) + jacAll J * Z + rest J g m Z := by
    ext a c
    simp only [rest, Matrix.add_apply, Matrix.of_apply]
    ring
  have e1 : ∑ c, scal (𝕜 := 𝕜) W.wm c = 1 := by
    simp only [scal]
    rw [← RCLike.ofReal_sum (K := 𝕜), h1]
    simp
  unfold weightedMean
  conv_lhs => rw [e0]
  rw [add_mulVec, add_mulVec, ← mulVec_mulVec, hZ, mulVec_zero, add_zero]
  congr 1
  funext a
  show ∑ c, g m a * scal W.wm c = g m a
  rw [← Finset.mul_sum, e1, mul_one]

theorem dev_expand {count : ℕ} (W : Weights count) (h1 : ∑ c, W.wm c = 1) (m : (i : Fin (b + 1)) → Fin (k i) → 𝕜) (Z : Matrix ((i : Fin (b + 1)) × Fin (k i)) (Fin count) 𝕜)
    (hZ : Z *ᵥ scal W.wm = 0) : deviations (outputs g m Z) (weightedMean W (outputs g m Z)) = jacAll J * Z + restDev J g W m Z := by
  rw [mean_expand (J := J) W h1 m Z hZ]
  ext a c
  simp only [deviations, restDev, Matrix.add_apply, Pi.add_apply]
  have : rest J g m Z a c = outputs g m Z a c - g m a - (jacAll J * Z) a c := rfl
  rw [this]
  ring

theorem restMean_isLittleO (hg : HasStrictFDerivAt g J μ) (hm : Tendsto mean small (𝓝 μ)) (hZ : ∀ x c, (fun e => Z e x c) =O[small] fun e => e)
    (W : Weights (r.count (∑ i, k i))) (a : Fin p) : (fun e => weightedMean W (rest J g (mean e) (Z e)) a) =o[small] fun e => e := by
  show (fun e => ∑ c, rest J g (mean e) (Z e) a c * scal W.wm c) =o[small] fun e => e
  exact IsLittleO.fun_sum fun c _ => ((rest_isLittleO r hg hm hZ a c).const_mul_left (scal W.wm c)).congr_left fun e => mul_comm _ _

theorem restDev_isLittleO (hg : HasStrictFDerivAt g J μ) (hm : Tendsto mean small (𝓝 μ)) (hZ : ∀ x c, (fun e => Z e x c) =O[small] fun e => e)
    (W : Weights (r.count (∑ i, k i))) (a : Fin p) (c : Fin (r.count (∑ i, k i))) : (fun e => restDev J g W (mean e) (Z e) a c) =o[small] fun e => e :=
  (rest_isLittleO r hg hm hZ a c).sub (restMean_isLittleO r hg hm hZ W a)

theorem lin_isBigO {q : Type} [Fintype q] {count : ℕ} {n : Type} (A : Matrix n q 𝕜) {Z : ℝ → Matrix q (Fin count) 𝕜} (hZ : ∀ x c, (fun e => Z e x c) =O[small] fun e => e) (a : n) (c : Fin count) :
    (fun e => (A * Z e) a c) =O[small] fun e => e := by
  show (fun e => ∑ x, A a x * Z e x c) =O[small] fun e => e
  exact IsBigO.fun_sum fun x _ => (hZ x c).const_mul_left _

/-- Products with a weight in between. -/
theorem cross_isLittleO {m n : Type} {count : ℕ} (W : Weights count) {X : ℝ → Matrix m (Fin count) 𝕜} {Y : ℝ → Matrix n (Fin count) 𝕜}
    (h : ∀ a a' c, (fun e => X e a c * star (Y e a' c)) =o[small] fun e => e ^ 2) (a : m) (a' : n) :
    (fun e => (X e * (diagonal (scal (𝕜 := 𝕜) W.wc) * (Y e)ᴴ)) a a') =o[small] fun e => e ^ 2 := by
  have : ∀ e, (X e * (diagonal (scal (𝕜 := 𝕜) W.wc) * (Y e)ᴴ)) a a' = ∑ c, scal (𝕜 := 𝕜) W.wc c * (X e a c * star (Y e a' c)) := fun e => by
    rw [Matrix.mul_apply]
    refine Finset.sum_congr rfl fun c _ => ?_
    rw [diagonal_mul, conjTranspose_apply]
    ring
  simp only [this]
  exact IsLittleO.fun_sum fun c _ => (h a a' c).const_mul_left _

theorem mul_left_small {f h : ℝ → 𝕜} (hf : f =O[small] fun e => e) (hh : h =o[small] fun e => e) : (fun e => f e * star (h e)) =o[small] fun e => e ^ 2 := by
  have h1 : (fun e => star (h e)) =o[small] fun e => e := IsLittleO.of_norm_left (by simpa using hh.norm_left)
  exact (hf.mul_isLittleO h1).congr_right fun e => (sq e).symm

theorem mul_right_small {f h : ℝ → 𝕜} (hf : f =o[small] fun e => e) (hh : h =O[small] fun e => e) : (fun e => f e * star (h e)) =o[small] fun e => e ^ 2 := by
  have h1 : (fun e => star (h e)) =O[small] fun e => e := IsBigO.of_norm_left (by simpa using hh.norm_left)
  exact (hf.mul_isBigO h1).congr_right fun e => (sq e).symm

/-- What is of lower order does not matter. -/
theorem Shrinks.add_small {m n : Type} {P R : ℝ → Matrix m n 𝕜} {C : Matrix m n 𝕜} (h : Shrinks P C) (hR : ∀ i j, (fun e => R e i j) =o[small] fun e => e ^ 2) :
    Shrinks (fun e => P e + R e) C := by
  refine shrinks_iff.2 fun i j => ?_
  have h1 := h.entry i j
  have h2 : Tendsto (fun e : ℝ => ((e : 𝕜) ^ 2)⁻¹ * R e i j) small (𝓝 0) := by
    have h3 : (fun e => R e i j) =o[small] fun e : ℝ => (e : 𝕜) ^ 2 := IsLittleO.of_norm_right (by simpa using (hR i j).norm_right)
    refine h3.tendsto_div_nhds_zero.congr fun e => ?_
    rw [div_eq_mul_inv, mul_comm]
  have := h1.add h2
  rw [add_zero] at this
  refine this.congr fun e => ?_
  rw [Matrix.add_apply, mul_add]

theorem Shrinks.congr {m n : Type} {P R : ℝ → Matrix m n 𝕜} {C : Matrix m n 𝕜} (h : Shrinks P C) (hR : ∀ᶠ e in small, P e = R e) : Shrinks R C :=
  Tendsto.congr' (hR.mono fun e he => by rw [he]) h

theorem Shrinks.mul_left {l m n : Type} [Fintype m] {P : ℝ → Matrix m n 𝕜} {C : Matrix m n 𝕜} (h : Shrinks P C) (A : Matrix l m 𝕜) : Shrinks (fun e => A * P e) (A * C) := by
  have hc : Continuous fun X : Matrix m n 𝕜 => A * X := by fun_prop
  refine ((hc.tendsto C).comp h).congr fun e => ?_
  exact Matrix.mul_smul _ _ _

theorem Shrinks.mul_right {l m n : Type} [Fintype n] {P : ℝ → Matrix m n 𝕜} {C : Matrix m n 𝕜} (h : Shrinks P C) (A : Matrix n l 𝕜) : Shrinks (fun e => P e * A) (C * A) := by
  have hc : Continuous fun X : Matrix m n 𝕜 => X * A := by fun_prop
  refine ((hc.tendsto C).comp h).congr fun e => ?_
  exact Matrix.smul_mul _ _ _

theorem shrinks_block {b : ℕ} {k : Fin b → ℕ} {P : ℝ → (i : Fin b) → Matrix (Fin (k i)) (Fin (k i)) 𝕜} {P0 : (i : Fin b) → Matrix (Fin (k i)) (Fin (k i)) 𝕜}
    (h : ∀ i, Shrinks (fun e => P e i) (P0 i)) : Shrinks (fun e => blockDiagonal' (P e)) (blockDiagonal' P0) := by
  refine shrinks_iff.2 fun ⟨i, a⟩ ⟨j, a'⟩ => ?_
  by_cases hij : i = j
  · subst hij
    simp only [blockDiagonal'_apply_eq]
    exact (h i).entry a a'
  · simp only [blockDiagonal'_apply_ne _ _ _ hij, mul_zero]
    exact tendsto_const_nhds

theorem jacAll_coeffs {b p : ℕ} {k : Fin (b + 1) → ℕ} {g : ((i : Fin (b + 1)) → Fin (k i) → 𝕜) → Fin p → 𝕜} {J : ((i : Fin (b + 1)) → Fin (k i) → 𝕜) →L[𝕜] (Fin p → 𝕜)}
    {μ : (i : Fin (b + 1)) → Fin (k i) → 𝕜} (hg : HasFDerivAt g J μ) : jacAll J = coeffs k (jac g μ 0) fun i => jac g μ i.succ := by
  ext a ⟨i, q⟩
  have : jacAll J a ⟨i, q⟩ = jac g μ i a q := by
    show J _ a = fderiv 𝕜 g μ _ a
    rw [hg.fderiv]
  rw [this]
  refine Fin.cases (fun q => ?_) (fun i q => ?_) i q
  · rfl
  · rfl

theorem statePoints_coeffs {b count : ℕ} {k : Fin (b + 1) → ℕ} (Z : Matrix ((i : Fin (b + 1)) × Fin (k i)) (Fin count) 𝕜) :
    statePoints Z = coeffs k (1 : Matrix (Fin (k 0)) (Fin (k 0)) 𝕜) (fun _ => 0) * Z := by
  ext a cc
  have := congrFun (coeffs_mulVec k (1 : Matrix (Fin (k 0)) (Fin (k 0)) 𝕜) (fun _ => 0) (fun ia => Z ia cc)) a
  rw [show (coeffs k (1 : Matrix (Fin (k 0)) (Fin (k 0)) 𝕜) (fun _ => 0) * Z) a cc = _ from this]
  simp [statePoints]

theorem transform_limit (lib : Kalman.Lib 𝕜) (hk : ∀ i, 0 < k i) (hr : Admissible r (∑ i, k i)) (hg : HasStrictFDerivAt g J μ) (hm : Tendsto mean small (𝓝 μ))
    {delta P : ℝ → (i : Fin (b + 1)) → Matrix (Fin (k i)) (Fin (k i)) 𝕜} {P0 : (i : Fin (b + 1)) → Matrix (Fin (k i)) (Fin (k i)) 𝕜}
    (hP : ∀ i, Shrinks (fun e => P e i) (P0 i)) (hd : ∀ᶠ e in small, ∀ i, delta e i * (delta e i)ᴴ = (r.gamma (∑ i, k i) : 𝕜) • P e i)
    {y : ℝ → Gauss 𝕜 (Fin p) × Matrix (Fin (k 0)) (Fin p) 𝕜} (hy : ∀ᶠ e in small, covTransform lib r k (mean e) (delta e) g = some (y e)) :
    Tendsto (fun e => (y e).1.mean) small (𝓝 (g μ)) ∧
    Shrinks (fun e => (y e).1.cov) (jac g μ 0 * P0 0 * (jac g μ 0)ᴴ + ∑ i : Fin b, jac g μ i.succ * P0 i.succ * (jac g μ i.succ)ᴴ) ∧
    Shrinks (fun e => (y e).2) (P0 0 * (jac g μ 0)ᴴ) := by
  choose Z hZ hok using fun e => points_ok r k hk hr (delta e)
  have hW := (good_rule (𝕜 := 𝕜) r _ (sum_k_pos k hk) hr).total
  set W := r.weights (∑ i, k i) with hWdef
  have hO : ∀ x c, (fun e => Z e x c) =O[small] fun e => e := points_isBigO r hP hd (Eventually.of_forall hZ)
  have hρ := restDev_isLittleO r hg hm hO W
  have hρm := restMean_isLittleO r hg hm hO W
  have hy' : ∀ᶠ e in small, y e = (⟨g (mean e) + weightedMean W (rest J g (mean e) (Z e)), gramOf W (jacAll J * Z e + restDev J g W (mean e) (Z e))⟩,
      crossOf W (statePoints (Z e)) (jacAll J * Z e + restDev J g W (mean e) (Z e))) := by
    filter_upwards [hy] with e he
    rw [transform_eq lib r k _ _ g (hZ e), ← hWdef, dev_expand (J := J) W hW _ _ (hok e).mean, mean_expand (J := J) W hW _ _ (hok e).mean] at he
    exact (Option.some.inj he).symm
  have hcov : ∀ᶠ e in small, Z e * (diagonal (scal W.wc) * (Z e)ᴴ) = blockDiagonal' (P e) := by
    filter_upwards [hd] with e he
    rw [← Matrix.mul_assoc]
    refine (hok e).cov.trans ?_
    congr 1
    funext i
    exact root_scaled r k (delta e) (P e) hk hr i (he i)
  have hA : jacAll J = coeffs k (jac g μ 0) fun i => jac g μ i.succ := jacAll_coeffs hg.hasFDerivAt
  have hB := shrinks_block hP
  refine ⟨?_, ?_, ?_⟩
  · have h1 : Tendsto (fun e => g (mean e)) small (𝓝 (g μ)) := (hg.hasFDerivAt.continuousAt.tendsto).comp hm
    have h2 : Tendsto (fun e => weightedMean W (rest J g (mean e) (Z e))) small (𝓝 0) :=
      tendsto_pi_nhds.2 fun a => (hρm a).trans_tendsto (tendsto_nhdsWithin_of_tendsto_nhds tendsto_id)
    have h3 := h1.add h2
    rw [add_zero] at h3
    refine h3.congr' ?_
    filter_upwards [hy'] with e he
    rw [he]
  · have h1 : Shrinks (fun e => jacAll J * blockDiagonal' (P e) * (jacAll J)ᴴ) (jacAll J * blockDiagonal' P0 * (jacAll J)ᴴ) := (hB.mul_left _).mul_right _
    have h2 := (((h1.add_small (cross_isLittleO W fun a a' c => mul_left_small (lin_isBigO (jacAll J) hO a c) (hρ a' c))).add_small
      (cross_isLittleO W fun a a' c => mul_right_small (hρ a c) (lin_isBigO (jacAll J) hO a' c))).add_small
      (cross_isLittleO W fun a a' c => mul_right_small (hρ a c) (hρ a' c).isBigO))
    have h3 : jacAll J * blockDiagonal' P0 * (jacAll J)ᴴ = jac g μ 0 * P0 0 * (jac g μ 0)ᴴ + ∑ i : Fin b, jac g μ i.succ * P0 i.succ * (jac g μ i.succ)ᴴ := by
      rw [hA, coeffs_block, coeffs_adjoint]
    rw [h3] at h2
    refine h2.congr ?_
    filter_upwards [hy', hcov] with e he hc
    rw [he]
    show _ = gramOf W _
    unfold gramOf
    rw [conjTranspose_add, conjTranspose_mul, ← hc]
    simp only [Matrix.mul_add, Matrix.add_mul, Matrix.mul_assoc]
    abel
  · set S := coeffs k (1 : Matrix (Fin (k 0)) (Fin (k 0)) 𝕜) (fun _ => 0) with hS
    have h1 : Shrinks (fun e => S * blockDiagonal' (P e) * (jacAll J)ᴴ) (S * blockDiagonal' P0 * (jacAll J)ᴴ) := (hB.mul_left _).mul_right _
    have h2 := h1.add_small (cross_isLittleO W fun a a' c => mul_left_small (lin_isBigO S hO a c) (hρ a' c))
    have h3 : S * blockDiagonal' P0 * (jacAll J)ᴴ = P0 0 * (jac g μ 0)ᴴ := by
      rw [hA, hS, coeffs_block, coeffs_adjoint]
      simp
    rw [h3] at h2
    refine h2.congr ?_
    filter_upwards [hy', hcov] with e he hc
    rw [he]
    show _ = crossOf W _ _
    unfold crossOf
    rw [conjTranspose_add, conjTranspose_mul, ← hc, statePoints_coeffs (Z e), ← hS]
    simp only [Matrix.mul_add, Matrix.mul_assoc]

end limit

/-! ## The update -/

theorem transform_herm (lib : Kalman.Lib 𝕜) (r : Rule) {k : Fin (b + 1) → ℕ} {g : ((i : Fin (b + 1)) → Fin (k i) → 𝕜) → Fin p → 𝕜} {mean : (i : Fin (b + 1)) → Fin (k i) → 𝕜}
    {delta : (i : Fin (b + 1)) → Matrix (Fin (k i)) (Fin (k i)) 𝕜} {y : Gauss 𝕜 (Fin p) × Matrix (Fin (k 0)) (Fin p) 𝕜} (h : covTransform lib r k mean delta g = some y) :
    y.1.cov.IsHermitian := by
  obtain ⟨Z, -, rfl⟩ := Option.map_eq_some_iff.1 h
  show (covarianceOf lib _ _).IsHermitian
  rw [cov_eq]
  exact gramOf_herm _ _

theorem shrinks_det {m : ℕ} {V : ℝ → Matrix (Fin m) (Fin m) 𝕜} {S : Matrix (Fin m) (Fin m) 𝕜} (h : Shrinks V S) (hS : IsUnit S.det) : ∀ᶠ e in small, IsUnit (V e).det := by
  have hc : Continuous fun X : Matrix (Fin m) (Fin m) 𝕜 => X.det := by fun_prop
  have h1 := (hc.tendsto S).comp h
  have h2 := h1.eventually_ne hS.ne_zero
  filter_upwards [h2] with e he
  refine isUnit_iff_ne_zero.2 fun h0 => he ?_
  show (((e : 𝕜) ^ 2)⁻¹ • V e).det = 0
  rw [det_smul, h0, mul_zero]

theorem gain_limit {m n : ℕ} {V : ℝ → Matrix (Fin m) (Fin m) 𝕜} {S : Matrix (Fin m) (Fin m) 𝕜} (h : Shrinks V S) (hS : IsUnit S.det) {C : ℝ → Matrix (Fin n) (Fin m) 𝕜}
    {C0 : Matrix (Fin n) (Fin m) 𝕜} (hC : Shrinks C C0) : Tendsto (fun e => C e * (V e)⁻¹) small (𝓝 (C0 * S⁻¹)) := by
  have h1 : Tendsto (fun e : ℝ => (((e : 𝕜) ^ 2)⁻¹ • V e)⁻¹) small (𝓝 S⁻¹) := by
    have h0 : ContinuousAt (fun X : Matrix (Fin m) (Fin m) 𝕜 => X⁻¹) S := by
      refine continuousAt_matrix_inv S ?_
      rw [Ring.inverse_eq_inv']
      exact continuousAt_inv₀ hS.ne_zero
    exact h0.tendsto.comp h
  have hc : Continuous fun q : Matrix (Fin n) (Fin m) 𝕜 × Matrix (Fin m) (Fin m) 𝕜 => q.1 * q.2 := by fun_prop
  have h2 := (hc.tendsto (C0, S⁻¹)).comp (hC.prodMk_nhds h1)
  refine h2.congr' ?_
  filter_upwards [shrinks_det h hS, small_ne] with e hu he
  have hne : (e : 𝕜) ^ 2 ≠ 0 := pow_ne_zero _ (RCLike.ofReal_ne_zero.2 he)
  have hi : (((e : 𝕜) ^ 2)⁻¹ • V e)⁻¹ = ((e : 𝕜) ^ 2) • (V e)⁻¹ := by
    refine inv_eq_left_inv ?_
    rw [Matrix.smul_mul, Matrix.mul_smul, smul_smul, mul_inv_cancel₀ hne, one_smul, nonsing_inv_mul _ hu]
  show (((e : 𝕜) ^ 2)⁻¹ • C e) * (((e : 𝕜) ^ 2)⁻¹ • V e)⁻¹ = _
  rw [hi, Matrix.smul_mul, Matrix.mul_smul, smul_smul, inv_mul_cancel₀ hne, one_smul]

theorem update_limit (lib : Kalman.Lib 𝕜) {m n : ℕ} {x : ℝ → Gauss 𝕜 (Fin n)} {x0 : Gauss 𝕜 (Fin n)} (hx : Tendsto (fun e => (x e).mean) small (𝓝 x0.mean))
    (hP : Shrinks (fun e => (x e).cov) x0.cov) {y : ℝ → Gauss 𝕜 (Fin m) × Matrix (Fin n) (Fin m) 𝕜} {y0 : Gauss 𝕜 (Fin m) × Matrix (Fin n) (Fin m) 𝕜}
    (hy : Tendsto (fun e => (y e).1.mean) small (𝓝 y0.1.mean)) (hV : Shrinks (fun e => (y e).1.cov) y0.1.cov) (hC : Shrinks (fun e => (y e).2) y0.2)
    (hh : ∀ᶠ e in small, (y e).1.cov.IsHermitian) (h0 : y0.1.cov.PosDef) (z : Fin m → 𝕜) :
    Tendsto (fun e => (updateStep lib id id (x e) (y e).1 (y e).2 z).mean) small (𝓝 (updateStep lib id id x0 y0.1 y0.2 z).mean) ∧
    Shrinks (fun e => (updateStep lib id id (x e) (y e).1 (y e).2 z).cov) (updateStep lib id id x0 y0.1 y0.2 z).cov := by
  have hS : IsUnit y0.1.cov.det := unit_of_posDef h0
  have hK := gain_limit hV hS hC
  have hev : ∀ᶠ e in small, updateStep lib id id (x e) (y e).1 (y e).2 z =
      ⟨(x e).mean + ((y e).2 * (y e).1.cov⁻¹) *ᵥ (z - (y e).1.mean), (x e).cov - (y e).2 * (y e).1.cov⁻¹ * (y e).2ᴴ⟩ := by
    filter_upwards [shrinks_det hV hS, hh] with e hu hh
    exact updateStep_eq lib id id (x e) (y e).1 (y e).2 z hh hu
  rw [updateStep_eq lib id id x0 y0.1 y0.2 z h0.1 hS]
  constructor
  · have hc : Continuous fun q : Matrix (Fin n) (Fin m) 𝕜 × (Fin m → 𝕜) => q.1 *ᵥ q.2 := by fun_prop
    have h1 : Tendsto (fun e => z - (y e).1.mean) small (𝓝 (z - y0.1.mean)) := tendsto_const_nhds.sub hy
    have h2 := (hc.tendsto (y0.2 * y0.1.cov⁻¹, z - y0.1.mean)).comp (hK.prodMk_nhds h1)
    refine (hx.add h2).congr' ?_
    filter_upwards [hev] with e he
    rw [he]
    rfl
  · have hc : Continuous fun q : Matrix (Fin n) (Fin m) 𝕜 × Matrix (Fin n) (Fin m) 𝕜 => q.1 * q.2ᴴ := by fun_prop
    have h2 := (hc.tendsto (y0.2 * y0.1.cov⁻¹, y0.2)).comp (hK.prodMk_nhds hC)
    have h3 : Tendsto _ small (𝓝 (x0.cov - y0.2 * y0.1.cov⁻¹ * y0.2ᴴ)) := Tendsto.sub hP h2
    refine Tendsto.congr' ?_ h3
    filter_upwards [hev] with e he
    rw [he]
    show ((e : 𝕜) ^ 2)⁻¹ • (x e).cov - (y e).2 * (y e).1.cov⁻¹ * (((e : 𝕜) ^ 2)⁻¹ • (y e).2)ᴴ = ((e : 𝕜) ^ 2)⁻¹ • ((x e).cov - (y e).2 * (y e).1.cov⁻¹ * (y e).2ᴴ)
    have hr : star ((e : 𝕜) ^ 2)⁻¹ = ((e : 𝕜) ^ 2)⁻¹ := by simp
    rw [conjTranspose_smul, hr, Matrix.mul_smul, smul_sub]

end OpenKalman.SigmaFilter
