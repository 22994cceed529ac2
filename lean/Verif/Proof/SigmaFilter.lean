import Verif.Spec.SigmaFilter
import Verif.Model.SigmaFilter
import Verif.Theorems.SigmaPoints
import Verif.Theorems.EigenHooks

/-! # Lemmas about filters on sample points -/

namespace OpenKalman.SigmaFilter
open Matrix Kalman SigmaPoints EigenHooks
open scoped ComplexOrder

set_option linter.unusedSectionVars false

variable {𝕜 : Type} [RCLike 𝕜] {b p count : ℕ}

/-! ## The quadratic form of the weights -/

/-- The weighted square of the deviations of numbers from their weighted mean. -/
noncomputable def form (W : Weights count) (s : Fin count → 𝕜) : ℝ := ∑ c, W.wc c * ‖s c - ∑ c', (W.wm c' : 𝕜) * s c'‖ ^ 2

/-- Weights for which this is a square norm modulo constants. -/
structure Good (𝕜 : Type) [RCLike 𝕜] (W : Weights count) : Prop where
  total : ∑ c, W.wm c = 1
  nonneg : ∀ s : Fin count → 𝕜, 0 ≤ form W s
  zero : ∀ s : Fin count → 𝕜, form W s = 0 → ∀ c c', s c = s c'

theorem form_const (W : Weights count) (hW : ∑ c, W.wm c = 1) (s : Fin count → 𝕜) (h : ∀ c c', s c = s c') : form W s = 0 := by
  unfold form
  refine Finset.sum_eq_zero fun c _ => ?_
  have h1 : ∑ c', (W.wm c' : 𝕜) * s c' = s c := by
    rw [Finset.sum_congr rfl fun c' _ => by rw [h c' c], ← Finset.sum_mul, ← RCLike.ofReal_sum, hW, RCLike.ofReal_one, one_mul]
  rw [h1, sub_self, norm_zero]
  simp

theorem good_cubature (count : ℕ) (hc : 0 < count) : Good 𝕜 (cubatureWeights count) := by
  have hpos : (0 : ℝ) < 1 / count := by positivity
  refine ⟨?_, fun s => ?_, fun s h c c' => ?_⟩
  · simp only [cubatureWeights, Finset.sum_const, Finset.card_univ, Fintype.card_fin, nsmul_eq_mul]
    field_simp
  · exact Finset.sum_nonneg fun c _ => mul_nonneg hpos.le (sq_nonneg _)
  · have h1 := (Finset.sum_eq_zero_iff_of_nonneg (fun c _ => mul_nonneg hpos.le (sq_nonneg _))).mp h
    have h2 : ∀ c, s c = ∑ c', ((cubatureWeights count).wm c' : 𝕜) * s c' := fun c => by
      have := h1 c (Finset.mem_univ c)
      rcases mul_eq_zero.mp this with h | h
      · exact absurd h hpos.ne'
      · exact sub_eq_zero.mp (norm_eq_zero.mp (by simpa using h))
    rw [h2 c, h2 c']

theorem real_identity {m : ℕ} (w : ℝ) (d : Fin m → ℝ) (e : ℝ) (he : e = ∑ c, w * d c) :
    ∑ c, w * (d c - e) ^ 2 = w * ∑ c, d c ^ 2 + (m * w - 2) * e ^ 2 := by
  have h1 : ∀ c, w * (d c - e) ^ 2 = w * d c ^ 2 - 2 * e * (w * d c) + w * e ^ 2 := fun c => by ring
  simp only [h1]
  rw [Finset.sum_add_distrib, Finset.sum_sub_distrib, ← Finset.mul_sum, ← Finset.mul_sum, ← he, Finset.sum_const, Finset.card_univ, Fintype.card_fin,
    nsmul_eq_mul]
  ring

theorem norm_identity {m : ℕ} (w : ℝ) (d : Fin m → 𝕜) (e : 𝕜) (he : e = ∑ c, (w : 𝕜) * d c) :
    ∑ c, w * ‖d c - e‖ ^ 2 = w * ∑ c, ‖d c‖ ^ 2 + (m * w - 2) * ‖e‖ ^ 2 := by
  have hr : RCLike.re e = ∑ c, w * RCLike.re (d c) := by rw [he, map_sum]; simp
  have hi : RCLike.im e = ∑ c, w * RCLike.im (d c) := by rw [he, map_sum]; simp
  have h1 := real_identity w _ _ hr
  have h2 := real_identity w _ _ hi
  simp only [RCLike.norm_sq_eq_def, map_sub, ← pow_two]
  rw [Finset.sum_congr rfl fun c _ => mul_add _ _ _, Finset.sum_add_distrib, h1, h2, Finset.sum_add_distrib]
  ring

/-- The form of scaled weights: squares of the differences from the first number. -/
theorem scaled_identity {m : ℕ} (alpha beta W0 W : ℝ) (ha : alpha ≠ 0) (hs : W0 + m * W = 1) (s : Fin (m + 1) → 𝕜) :
    form (scaledWeights m alpha beta W0 W) s = W / (alpha * alpha) * ∑ c : Fin m, ‖s c.succ - s 0‖ ^ 2 +
      (beta - alpha * alpha) * ‖∑ c : Fin m, ((W / (alpha * alpha) : ℝ) : 𝕜) * (s c.succ - s 0)‖ ^ 2 := by
  set a := alpha * alpha with hadef
  have ha' : a ≠ 0 := mul_self_ne_zero.mpr ha
  set w := W / a with hw
  set e : 𝕜 := ∑ c : Fin m, (w : 𝕜) * (s c.succ - s 0) with he
  have hw0 : (W0 - 1) / a + 1 = 1 - m * w := by
    rw [hw]; field_simp; linarith
  have hmean : ∑ c, ((scaledWeights m alpha beta W0 W).wm c : 𝕜) * s c = s 0 + e := by
    rw [Fin.sum_univ_succ]
    simp only [scaledWeights, Fin.cons_zero, Fin.cons_succ, ← hadef, ← hw, hw0]
    rw [he, Finset.sum_congr rfl fun (c : Fin m) _ => mul_sub _ _ _, Finset.sum_sub_distrib, Finset.sum_const, Finset.card_univ, Fintype.card_fin,
      nsmul_eq_mul]
    push_cast
    ring
  unfold form
  rw [hmean, Fin.sum_univ_succ]
  simp only [scaledWeights, Fin.cons_zero, Fin.cons_succ, ← hadef, ← hw, hw0]
  have h1 : ∀ c : Fin m, s c.succ - (s 0 + e) = (s c.succ - s 0) - e := fun c => by ring
  have h2 : s 0 - (s 0 + e) = -e := by ring
  simp only [h1, h2, norm_neg]
  rw [norm_identity w (fun c : Fin m => s c.succ - s 0) e he]
  ring

theorem good_scaled {m : ℕ} (alpha beta W0 W : ℝ) (ha : alpha ≠ 0) (hs : W0 + m * W = 1) (hW : 0 < W) (hb : alpha * alpha ≤ beta) :
    Good 𝕜 (scaledWeights m alpha beta W0 W) := by
  have haa : 0 < alpha * alpha := mul_self_pos.mpr ha
  have hw : 0 < W / (alpha * alpha) := div_pos hW haa
  have h1 : ∀ s : Fin (m + 1) → 𝕜, 0 ≤ W / (alpha * alpha) * ∑ c : Fin m, ‖s c.succ - s 0‖ ^ 2 := fun s =>
    mul_nonneg hw.le (Finset.sum_nonneg fun c _ => sq_nonneg _)
  have h2 : ∀ s : Fin (m + 1) → 𝕜, 0 ≤ (beta - alpha * alpha) * ‖∑ c : Fin m, ((W / (alpha * alpha) : ℝ) : 𝕜) * (s c.succ - s 0)‖ ^ 2 := fun s =>
    mul_nonneg (by linarith) (sq_nonneg _)
  refine ⟨?_, fun s => ?_, fun s h => ?_⟩
  · rw [Fin.sum_univ_succ]
    simp only [scaledWeights, Fin.cons_zero, Fin.cons_succ, Finset.sum_const, Finset.card_univ, Fintype.card_fin, nsmul_eq_mul]
    field_simp
    linarith
  · rw [scaled_identity alpha beta W0 W ha hs]
    exact add_nonneg (h1 s) (h2 s)
  · rw [scaled_identity alpha beta W0 W ha hs] at h
    have h3 : W / (alpha * alpha) * ∑ c : Fin m, ‖s c.succ - s 0‖ ^ 2 = 0 := le_antisymm (by linarith [h2 s]) (h1 s)
    have h4 := (mul_eq_zero.mp h3).resolve_left hw.ne'
    have h5 := (Finset.sum_eq_zero_iff_of_nonneg (fun c _ => sq_nonneg _)).mp h4
    have h6 : ∀ c : Fin m, s c.succ = s 0 := fun c => sub_eq_zero.mp (norm_eq_zero.mp (by simpa using h5 c (Finset.mem_univ c)))
    have h7 : ∀ c, s c = s 0 := fun c => by
      refine Fin.cases rfl h6 c
    intro c c'
    rw [h7 c, h7 c']

/-- Parameters for which the covariance is one: the factor `gamma` and the weights outside the centre are positive, and `beta` is at least `alpha²`. -/
def Admissible : Rule → ℕ → Prop
  | .cubature, _ => True
  | .unscented alpha beta kappa, dim => alpha ≠ 0 ∧ alpha ^ 2 ≤ beta ∧ 0 < dim + kappa

theorem good_rule (r : Rule) (dim : ℕ) (hd : 0 < dim) (h : Admissible r dim) : Good 𝕜 (r.weights dim) := by
  cases r with
  | cubature => exact good_cubature (dim * 2) (by omega)
  | unscented alpha beta kappa =>
    obtain ⟨ha, hb, hk⟩ := h
    refine good_scaled alpha beta _ _ ha ?_ (by positivity) (by nlinarith)
    have := hk.ne'
    push_cast
    field_simp
    ring

theorem gamma_pos (r : Rule) (dim : ℕ) (hd : 0 < dim) (h : Admissible r dim) : 0 < r.gamma dim := by
  cases r with
  | cubature => exact Nat.cast_pos.mpr hd
  | unscented alpha beta kappa =>
    obtain ⟨ha, hb, hk⟩ := h
    exact mul_pos (mul_self_pos.mpr ha) (by linarith)

/-! ## Covariances -/

section cov
variable {ι : Type} [Fintype ι] [DecidableEq ι]

/-- Deviations from the weighted mean. -/
noncomputable def devs (W : Weights count) (Y : Matrix ι (Fin count) 𝕜) : Matrix ι (Fin count) 𝕜 := Matrix.of fun a c => Y a c - (Y *ᵥ scal W.wm) a

/-- The weighted sum of squares. -/
noncomputable def gramOf (W : Weights count) (D : Matrix ι (Fin count) 𝕜) : Matrix ι ι 𝕜 := D * (diagonal (scal W.wc) * Dᴴ)

theorem gramOf_herm (W : Weights count) (D : Matrix ι (Fin count) 𝕜) : (gramOf W D).IsHermitian := by
  unfold gramOf
  rw [IsHermitian, conjTranspose_mul, conjTranspose_mul, conjTranspose_conjTranspose, Matrix.mul_assoc, diagonal_conjTranspose]
  congr 3
  funext c
  simp [scal]

theorem gram_quad (W : Weights count) (Y : Matrix ι (Fin count) 𝕜) (v : ι → 𝕜) :
    star v ⬝ᵥ gramOf W (devs W Y) *ᵥ v = (form W (fun c => ∑ a, star (v a) * Y a c) : 𝕜) := by
  set D := devs W Y with hD
  have h1 : ∀ c, (star v ᵥ* D) c = (∑ a, star (v a) * Y a c) - ∑ c', (W.wm c' : 𝕜) * ∑ a, star (v a) * Y a c' := by
    intro c
    simp only [hD, devs, vecMul, dotProduct, Matrix.of_apply, Pi.star_apply, mul_sub, Finset.sum_sub_distrib]
    congr 1
    simp only [mulVec, dotProduct, scal, Finset.mul_sum]
    rw [Finset.sum_comm]
    exact Finset.sum_congr rfl fun c' _ => Finset.sum_congr rfl fun a _ => by ring
  unfold gramOf
  rw [dotProduct_mulVec, ← vecMul_vecMul, ← vecMul_vecMul, ← dotProduct_mulVec]
  have h2 : Dᴴ *ᵥ v = star (star v ᵥ* D) := by rw [star_vecMul, star_star]
  rw [h2]
  simp only [dotProduct, vecMul_diagonal, Pi.star_apply, form, h1]
  rw [RCLike.ofReal_sum]
  refine Finset.sum_congr rfl fun c _ => ?_
  rw [RCLike.ofReal_mul, RCLike.ofReal_pow, ← RCLike.mul_conj, RCLike.star_def, scal]
  ring

theorem gram_posSemidef {W : Weights count} (hW : Good 𝕜 W) (Y : Matrix ι (Fin count) 𝕜) : (gramOf W (devs W Y)).PosSemidef := by
  refine PosSemidef.of_dotProduct_mulVec_nonneg (gramOf_herm W _) fun v => ?_
  rw [gram_quad]
  exact RCLike.ofReal_nonneg.mpr (hW.nonneg _)

theorem gram_posDef_iff {W : Weights count} (hW : Good 𝕜 W) (Y : Matrix ι (Fin count) 𝕜) : (gramOf W (devs W Y)).PosDef ↔ Spread Y := by
  constructor
  · intro h v hv
    by_contra hne
    have h1 := h.dotProduct_mulVec_pos (x := star v) (by simpa using hne)
    rw [gram_quad] at h1
    simp only [Pi.star_apply, star_star] at h1
    rw [form_const W hW.total _ hv] at h1
    simp at h1
  · intro h
    refine PosDef.of_dotProduct_mulVec_pos (gramOf_herm W _) fun {v} hv => ?_
    rw [gram_quad]
    refine RCLike.ofReal_pos.mpr (lt_of_le_of_ne (hW.nonneg _) fun h0 => hv ?_)
    have h1 := h (star v) (hW.zero _ h0.symm)
    simpa using h1

end cov

/-! ## Points -/

/-- What is known of the points made from square roots `delta`. -/
structure PointsOK (r : Rule) (k : Fin b → ℕ) (delta : (i : Fin b) → Matrix (Fin (k i)) (Fin (k i)) 𝕜)
    (Z : Matrix ((i : Fin b) × Fin (k i)) (Fin (r.count (∑ i, k i))) 𝕜) : Prop where
  mean : Z *ᵥ scal (r.weights (∑ i, k i)).wm = 0
  cov : Z * diagonal (scal (r.weights (∑ i, k i)).wc) * Zᴴ = blockDiagonal' fun i => ((1 / r.gamma (∑ i, k i) : ℝ) : 𝕜) • (delta i * (delta i)ᴴ)
  plus : ∀ (i : Fin b) (j : Fin (k i)), ∃ c, (∀ a, Z ⟨i, a⟩ c = delta i a j) ∧ ∀ i', i' ≠ i → ∀ a, Z ⟨i', a⟩ c = 0
  minus : ∀ (i : Fin b) (j : Fin (k i)), ∃ c, (∀ a, Z ⟨i, a⟩ c = -delta i a j) ∧ ∀ i', i' ≠ i → ∀ a, Z ⟨i', a⟩ c = 0

theorem points_columns (k : Fin b → ℕ) (s count : ℕ) (hc : s + 2 * ∑ i, k i ≤ count) (L : List (List Piece)) (hF : Frames s (List.ofFn k) L)
    (delta : (i : Fin b) → Matrix (Fin (k i)) (Fin (k i)) 𝕜) (i : Fin b) (j : Fin (k i)) :
    (∃ c, (∀ a, pointsOf k count L delta ⟨i, a⟩ c = delta i a j) ∧ ∀ i', i' ≠ i → ∀ a, pointsOf k count L delta ⟨i', a⟩ c = 0) ∧
    ∃ c, (∀ a, pointsOf k count L delta ⟨i, a⟩ c = -delta i a j) ∧ ∀ i', i' ≠ i → ∀ a, pointsOf k count L delta ⟨i', a⟩ c = 0 := by
  have hpt : ∀ (i : Fin b) (a : Fin (k i)) (c : Fin count), pointsOf k count L delta ⟨i, a⟩ c = bump (s + 2 * start k i) (delta i) a c := by
    intro i a c
    exact hF i (k i) (by rw [List.getElem?_ofFn]; simp) (delta i) a c
  have hle := start_le k i
  have hj := j.2
  have hout : ∀ c : ℕ, s + 2 * start k i ≤ c → c < s + 2 * start k i + k i + k i → ∀ i', i' ≠ i → ∀ a, bump (s + 2 * start k i') (delta i') a c = 0 := by
    intro c h1 h2 i' hi a
    refine bump_out _ _ _ _ ?_
    rcases lt_or_gt_of_ne hi with h | h
    · right; have := start_lt k h; omega
    · left; have := start_lt k h; omega
  refine ⟨⟨⟨s + 2 * start k i + j, by omega⟩, fun a => ?_, fun i' hi a => ?_⟩, ⟨⟨s + 2 * start k i + k i + j, by omega⟩, fun a => ?_, fun i' hi a => ?_⟩⟩
  · rw [hpt]; exact bump_plus _ _ _ _
  · rw [hpt]; exact hout _ (by simp <;> omega) (by simp <;> omega) i' hi a
  · rw [hpt]; exact bump_minus _ _ _ _
  · rw [hpt]; exact hout _ (by simp <;> omega) (by simp <;> omega) i' hi a

theorem sum_k_pos (k : Fin (b + 1) → ℕ) (hk : ∀ i, 0 < k i) : 0 < ∑ i, k i :=
  lt_of_lt_of_le (hk 0) (Finset.single_le_sum (f := k) (fun _ _ => Nat.zero_le _) (Finset.mem_univ 0))

theorem points_ok (r : Rule) (k : Fin (b + 1) → ℕ) (hk : ∀ i, 0 < k i) (hr : Admissible r (∑ i, k i))
    (delta : (i : Fin (b + 1)) → Matrix (Fin (k i)) (Fin (k i)) 𝕜) : ∃ Z, r.points k delta = some Z ∧ PointsOK r k delta Z := by
  have hd := sum_k_pos k hk
  have hmem : ∀ q ∈ List.ofFn k, 0 < q := by simp only [List.mem_ofFn, forall_exists_index]; rintro _ i rfl; exact hk i
  cases r with
  | cubature =>
    obtain ⟨L, hL, hF⟩ := cubature_frames (∑ i, k i) (List.ofFn k) (by simp) hmem List.sum_ofFn
    refine ⟨pointsOf k ((∑ i, k i) * 2) L delta, by simp only [Rule.points, Rule.layout, hL, Option.map_some]; rfl, ?_⟩
    have hc : 0 + 2 * ∑ i, k i ≤ (∑ i, k i) * 2 := by omega
    obtain ⟨m1, m2⟩ := points_moments k 0 ((∑ i, k i) * 2) hc L hF delta (scal (cubatureWeights ((∑ i, k i) * 2)).wm)
      (((1 / ((∑ i, k i) * 2 : ℕ) : ℝ)) : 𝕜) (fun c _ => rfl)
    refine ⟨m1, m2.trans ?_, fun i j => (points_columns k 0 _ hc L hF delta i j).1, fun i j => (points_columns k 0 _ hc L hF delta i j).2⟩
    congr 1
    funext i
    congr 1
    simp only [Rule.gamma]
    push_cast
    have : ((∑ i, k i : ℕ) : 𝕜) ≠ 0 := by exact_mod_cast hd.ne'
    push_cast at this
    field_simp
  | unscented alpha beta kappa =>
    obtain ⟨ha, hb, hkp⟩ := hr
    obtain ⟨L, hL, hF⟩ := unscented_frames (∑ i, k i) (List.ofFn k) (by simp) hmem List.sum_ofFn
    refine ⟨pointsOf k ((∑ i, k i) * 2 + 1) L delta, by simp only [Rule.points, Rule.layout, hL, Option.map_some]; rfl, ?_⟩
    have hc : 1 + 2 * ∑ i, k i ≤ (∑ i, k i) * 2 + 1 := by omega
    set dim := ∑ i, k i with hdim
    have tailW : ∀ w : Fin (dim * 2 + 1) → ℝ, (∀ c : Fin (dim * 2), w c.succ = 0.5 / (dim + kappa) / (alpha * alpha)) →
        ∀ c : Fin (dim * 2 + 1), 1 ≤ (c : ℕ) → scal w c = (((0.5 / (dim + kappa) / (alpha * alpha) : ℝ)) : 𝕜) := by
      intro w hw c hc
      obtain ⟨c', rfl⟩ : ∃ c' : Fin (dim * 2), c = c'.succ := ⟨c.pred (by rintro rfl; simp at hc), by simp⟩
      simp only [scal, hw]
    obtain ⟨m1, -⟩ := points_moments k 1 (dim * 2 + 1) hc L hF delta (scal (unscentedWeights dim alpha beta kappa).wm) _ (tailW _ (fun c => rfl))
    obtain ⟨-, m2⟩ := points_moments k 1 (dim * 2 + 1) hc L hF delta (scal (unscentedWeights dim alpha beta kappa).wc) _ (tailW _ (fun c => rfl))
    refine ⟨m1, m2.trans ?_, fun i j => (points_columns k 1 _ hc L hF delta i j).1, fun i j => (points_columns k 1 _ hc L hF delta i j).2⟩
    congr 1
    funext i
    congr 1
    have h1 : (2 : ℝ) * (0.5 / (dim + kappa) / (alpha * alpha)) = 1 / (alpha * alpha * (kappa + dim)) := by
      have := hkp.ne'
      have h' : kappa + dim ≠ 0 := by rw [add_comm]; exact this
      field_simp
      ring
    simp only [Rule.gamma]
    rw [← h1]
    push_cast
    rfl

/-! ## Joint covariances -/

section joint
variable {k : Fin (b + 1) → ℕ} (r : Rule) (delta : (i : Fin (b + 1)) → Matrix (Fin (k i)) (Fin (k i)) 𝕜)
    (Z : Matrix ((i : Fin (b + 1)) × Fin (k i)) (Fin (r.count (∑ i, k i))) 𝕜)

theorem devs_rows (hZ : PointsOK r k delta Z) (Y : Matrix (Fin p) (Fin (r.count (∑ i, k i))) 𝕜) :
    devs (r.weights (∑ i, k i)) (fromRows (statePoints Z) Y) =
      fromRows (statePoints Z) (deviations Y (weightedMean (r.weights (∑ i, k i)) Y)) := by
  ext a c
  cases a with
  | inl a =>
    simp only [devs, Matrix.of_apply, fromRows_apply_inl, fromRows_mulVec, Sum.elim_inl]
    have := congrFun hZ.mean ⟨0, a⟩
    have h2 : (statePoints Z *ᵥ scal (r.weights (∑ i, k i)).wm) a = 0 := this
    rw [h2, sub_zero]
  | inr a => simp only [devs, Matrix.of_apply, fromRows_apply_inr, fromRows_mulVec, Sum.elim_inr]; rfl

theorem state_cov (hZ : PointsOK r k delta Z) :
    gramOf (r.weights (∑ i, k i)) (statePoints Z) = ((1 / r.gamma (∑ i, k i) : ℝ) : 𝕜) • (delta 0 * (delta 0)ᴴ) := by
  have h := hZ.cov
  ext a a'
  have h1 := congrFun (congrFun h ⟨0, a⟩) ⟨0, a'⟩
  rw [blockDiagonal'_apply_eq] at h1
  rw [← h1, gramOf, ← Matrix.mul_assoc, Matrix.mul_apply, Matrix.mul_apply]
  refine Finset.sum_congr rfl fun c _ => ?_
  rw [Matrix.mul_diagonal, Matrix.mul_diagonal]
  rfl

theorem joint_gram (hZ : PointsOK r k delta Z) (Y : Matrix (Fin p) (Fin (r.count (∑ i, k i))) 𝕜) :
    gramOf (r.weights (∑ i, k i)) (devs (r.weights (∑ i, k i)) (fromRows (statePoints Z) Y)) =
      jointCov (((1 / r.gamma (∑ i, k i) : ℝ) : 𝕜) • (delta 0 * (delta 0)ᴴ))
        (crossOf (r.weights (∑ i, k i)) (statePoints Z) (deviations Y (weightedMean (r.weights (∑ i, k i)) Y)))
        (gramOf (r.weights (∑ i, k i)) (deviations Y (weightedMean (r.weights (∑ i, k i)) Y))) := by
  rw [devs_rows r delta Z hZ, ← state_cov r delta Z hZ, jointCov]
  set W := r.weights (∑ i, k i)
  set X := statePoints Z
  set D := deviations Y (weightedMean W Y)
  have hd : (diagonal (scal W.wc : Fin (r.count (∑ i, k i)) → 𝕜))ᴴ = diagonal (scal W.wc) := by
    rw [diagonal_conjTranspose]
    congr 1
    funext c
    simp [scal]
  unfold gramOf crossOf
  rw [conjTranspose_fromRows_eq_fromCols_conjTranspose, mul_fromCols, fromRows_mul_fromCols]
  congr 1
  rw [conjTranspose_mul, conjTranspose_mul, conjTranspose_conjTranspose, hd, Matrix.mul_assoc]

/-- Additive noise spreads the points of state and output, whatever the function of the state is. -/
theorem additive_spread (hZ : PointsOK r k delta Z) (mean : (i : Fin (b + 1)) → Fin (k i) → 𝕜) (h : (Fin (k 0) → 𝕜) → Fin p → 𝕜)
    (B : (i : Fin b) → Matrix (Fin p) (Fin (k i.succ)) 𝕜) (h0 : (delta 0 * (delta 0)ᴴ).PosDef)
    (hB : (∑ i, B i * (delta i.succ * (delta i.succ)ᴴ) * (B i)ᴴ).PosDef) : Spread (fromRows (statePoints Z) (outputs (additive h B) mean Z)) := by
  intro v hv
  -- the functional on the columns of a block
  have key : ∀ (i : Fin b) (j : Fin (k i.succ)), ∑ a, v (Sum.inr a) * (B i * delta i.succ) a j = 0 := by
    intro i j
    obtain ⟨u, hu⟩ : ∃ u : Fin (k i.succ) → 𝕜, ∀ a, delta i.succ a j = u a := ⟨_, fun _ => rfl⟩
    obtain ⟨c, hc1, hc2⟩ := hZ.plus i.succ j
    obtain ⟨c', hc1', hc2'⟩ := hZ.minus i.succ j
    have h1 := hv c c'
    rw [Fintype.sum_sum_type, Fintype.sum_sum_type] at h1
    simp only [fromRows_apply_inl, fromRows_apply_inr, statePoints, Matrix.of_apply, hc2 0 (Fin.succ_ne_zero i).symm, hc2' 0 (Fin.succ_ne_zero i).symm,
      mul_zero, Finset.sum_const_zero, zero_add] at h1
    have hy : ∀ (c : Fin _) (u : Fin (k i.succ) → 𝕜), (∀ a, Z ⟨i.succ, a⟩ c = u a) → (∀ i', i' ≠ i.succ → ∀ a, Z ⟨i', a⟩ c = 0) → ∀ a,
        outputs (additive h B) mean Z a c = additive h B mean a + (B i *ᵥ u) a := by
      intro c u hu hz a
      simp only [outputs, Matrix.of_apply, additive, Pi.add_apply, Finset.sum_apply]
      have e0 : (fun r => Z ⟨0, r⟩ c + mean 0 r) = mean 0 := funext fun r => by rw [hz 0 (Fin.succ_ne_zero i).symm, zero_add]
      rw [e0, add_assoc]
      congr 1
      rw [← Finset.add_sum_erase _ _ (Finset.mem_univ i), ← Finset.add_sum_erase _ (fun q => (B q *ᵥ mean q.succ) a) (Finset.mem_univ i)]
      have e1 : (fun r => Z ⟨i.succ, r⟩ c + mean i.succ r) = u + mean i.succ := funext fun r => by rw [hu]; rfl
      have e2 : ∑ q ∈ Finset.univ.erase i, (B q *ᵥ fun r => Z ⟨q.succ, r⟩ c + mean q.succ r) a = ∑ q ∈ Finset.univ.erase i, (B q *ᵥ mean q.succ) a := by
        refine Finset.sum_congr rfl fun q hq => ?_
        have e3 : (fun r => Z ⟨q.succ, r⟩ c + mean q.succ r) = mean q.succ := funext fun r => by
          rw [hz q.succ (fun e => (Finset.mem_erase.mp hq).1 (Fin.succ_injective _ e)), zero_add]
        rw [e3]
      rw [e1, e2, mulVec_add, Pi.add_apply]
      ring
    have e5 : ∀ a, Z ⟨i.succ, a⟩ c' = (-u) a := fun a => by rw [hc1', hu]; rfl
    simp only [hy c u (fun a => (hc1 a).trans (hu a)) hc2, hy c' (-u) e5 hc2', mulVec_neg, Pi.neg_apply, mul_add, mul_neg, Finset.sum_add_distrib,
      Finset.sum_neg_distrib] at h1
    have h2 := self_eq_neg.mp (add_left_cancel h1)
    rw [← h2]
    refine Finset.sum_congr rfl fun a _ => ?_
    rw [Matrix.mul_apply, mulVec, dotProduct]
    simp only [hu]
  have hw : (fun a => v (Sum.inr a)) = 0 := by
    by_contra hne
    have h1 := hB.dotProduct_mulVec_pos (x := star fun a => v (Sum.inr a)) (by simpa using hne)
    rw [star_star, sum_mulVec, dotProduct_sum] at h1
    have h2 : ∀ i, (fun a => v (Sum.inr a)) ⬝ᵥ (B i * (delta i.succ * (delta i.succ)ᴴ) * (B i)ᴴ) *ᵥ star (fun a => v (Sum.inr a)) = 0 := by
      intro i
      have h3 : (fun a => v (Sum.inr a)) ᵥ* (B i * delta i.succ) = 0 := by
        funext j
        have := key i j
        rw [vecMul, Pi.zero_apply, ← this]
        rfl
      rw [dotProduct_mulVec, ← Matrix.mul_assoc, Matrix.mul_assoc, ← vecMul_vecMul, h3, zero_vecMul, zero_dotProduct]
    rw [Finset.sum_eq_zero fun i _ => h2 i] at h1
    exact lt_irrefl _ h1
  have hu : (fun a => v (Sum.inl a)) = 0 := by
    have key0 : ∀ j : Fin (k 0), ∑ a, v (Sum.inl a) * delta 0 a j = 0 := by
      intro j
      obtain ⟨c, hc1, -⟩ := hZ.plus 0 j
      obtain ⟨c', hc1', -⟩ := hZ.minus 0 j
      have h1 := hv c c'
      rw [Fintype.sum_sum_type, Fintype.sum_sum_type] at h1
      have hz : ∀ a, v (Sum.inr a) = 0 := fun a => congrFun hw a
      simp only [fromRows_apply_inl, statePoints, Matrix.of_apply, hc1, hc1', hz, zero_mul, Finset.sum_const_zero, add_zero, mul_neg,
        Finset.sum_neg_distrib] at h1
      exact self_eq_neg.mp h1
    by_contra hne
    have h1 := h0.dotProduct_mulVec_pos (x := star fun a => v (Sum.inl a)) (by simpa using hne)
    rw [star_star] at h1
    have h3 : (fun a => v (Sum.inl a)) ᵥ* delta 0 = 0 := by
      funext j
      have := key0 j
      rw [vecMul, Pi.zero_apply, ← this]
      rfl
    rw [dotProduct_mulVec, ← vecMul_vecMul, h3, zero_vecMul, zero_dotProduct] at h1
    exact lt_irrefl _ h1
  funext a
  cases a with
  | inl a => exact congrFun hu a
  | inr a => exact congrFun hw a

end joint

/-! ## Factors -/

section factor
variable (E : EigenLib 𝕜)

theorem sqrt_gram {m : ℕ} (w : Fin m → ℝ) (hw : ∀ c, 0 ≤ w c) (D : Matrix (Fin p) (Fin m) 𝕜) :
    (D * diagonal (scal fun c => Real.sqrt (w c))) * (D * diagonal (scal fun c => Real.sqrt (w c)))ᴴ = D * (diagonal (scal w) * Dᴴ) := by
  rw [conjTranspose_mul, diagonal_conjTranspose, Matrix.mul_assoc, ← Matrix.mul_assoc (diagonal _), diagonal_mul_diagonal]
  congr 3
  funext c
  simp only [scal, Pi.star_apply, RCLike.star_def, RCLike.conj_ofReal]
  rw [← RCLike.ofReal_mul, Real.mul_self_sqrt (hw c)]

theorem gram_split {m : ℕ} (W : Weights (m + 1)) (D : Matrix (Fin p) (Fin (m + 1)) 𝕜) :
    (Matrix.of fun a c => D a c.succ : Matrix (Fin p) (Fin m) 𝕜) * (diagonal (scal fun c => W.wc c.succ) *
        (Matrix.of fun a c => D a c.succ : Matrix (Fin p) (Fin m) 𝕜)ᴴ) +
      (W.wc 0 : 𝕜) • ((Matrix.of fun a _ => D a 0 : Matrix (Fin p) (Fin 1) 𝕜) * (Matrix.of fun a _ => D a 0 : Matrix (Fin p) (Fin 1) 𝕜)ᴴ) = gramOf W D := by
  have key : ∀ {q : ℕ} (w : Fin q → ℝ) (D : Matrix (Fin p) (Fin q) 𝕜) (a a' : Fin p),
      (D * (diagonal (scal w) * Dᴴ) : Matrix (Fin p) (Fin p) 𝕜) a a' = ∑ c, (w c : 𝕜) * (D a c * star (D a' c)) := by
    intro q w D a a'
    rw [← Matrix.mul_assoc, Matrix.mul_apply]
    refine Finset.sum_congr rfl fun c _ => ?_
    rw [Matrix.mul_diagonal, conjTranspose_apply, scal]
    ring
  ext a a'
  rw [gramOf, Matrix.add_apply, Matrix.smul_apply, key, key, Matrix.mul_apply, Fin.sum_univ_one, Fin.sum_univ_succ, add_comm, smul_eq_mul]
  rfl

/-- With no negative weight nothing is thrown. -/
theorem scaled_ok {m : ℕ} (W : Weights (m + 1)) (hW : ∀ c, 0 ≤ W.wc c) (D : Matrix (Fin p) (Fin (m + 1)) 𝕜) :
    ∃ F, scaledFactor E W D = .ok F ∧ IsTri .lower F ∧ RealDiag F ∧ F * Fᴴ = gramOf W D := by
  refine ⟨_, by rw [scaledFactor, if_neg (not_lt.mpr (hW 0))], lq_tri E _, lq_diag E _, ?_⟩
  rw [lq_sq, sqrt_gram _ hW]
  rfl

theorem tail_stands {m : ℕ} (W : Weights (m + 1)) (hW : ∀ c : Fin m, 0 ≤ W.wc c.succ) (D : Matrix (Fin p) (Fin (m + 1)) 𝕜) :
    Stands .lower (part .lower (E.lq ((Matrix.of fun a c => D a c.succ : Matrix (Fin p) (Fin m) 𝕜) * diagonal (scal fun c => Real.sqrt (W.wc c.succ)))))
      ((Matrix.of fun a c => D a c.succ : Matrix (Fin p) (Fin m) 𝕜) * (diagonal (scal fun c => W.wc c.succ) *
        (Matrix.of fun a c => D a c.succ : Matrix (Fin p) (Fin m) 𝕜)ᴴ)) := by
  refine ⟨isTri_part _ _, ?_⟩
  rw [part_eq _ _ (lq_tri E _)]
  simp only [gram]
  rw [lq_sq, sqrt_gram _ hW]

/-- With a negative first weight there is a result exactly if the covariance is positive definite. -/
theorem scaled_negative {m : ℕ} (W : Weights (m + 1)) (h0 : W.wc 0 < 0) (hW : ∀ c : Fin m, 0 ≤ W.wc c.succ) (D : Matrix (Fin p) (Fin (m + 1)) 𝕜) :
    (scaledFactor E W D = .error .runtimeError ↔ ¬ (gramOf W D).PosDef) ∧
    ((gramOf W D).PosDef → ∃ F, scaledFactor E W D = .ok F ∧ IsTri .lower F ∧ RealDiag F ∧ F * Fᴴ = gramOf W D) := by
  have hst := tail_stands E W hW D
  have hsp := gram_split W D
  set tail := (Matrix.of fun a c => D a c.succ : Matrix (Fin p) (Fin m) 𝕜) with htail
  set head := (Matrix.of fun a _ => D a 0 : Matrix (Fin p) (Fin 1) 𝕜) with hhead
  set M := E.lq (tail * diagonal (scal fun c => Real.sqrt (W.wc c.succ))) with hM
  have hun : scaledFactor E W D = (E.rankUpdateTriangular .lower M head (W.wc 0)).bind fun G => .ok (part .lower G) := by
    rw [scaledFactor, if_pos h0]
    rfl
  have hok : (gramOf W D).PosDef → ∃ F, scaledFactor E W D = .ok F ∧ IsTri .lower F ∧ RealDiag F ∧ F * Fᴴ = gramOf W D := by
    intro hp
    rw [← hsp] at hp
    obtain ⟨G, h1, h2, h3⟩ := C140_downdate_partial E .lower M _ (lq_diag E _) hst head (W.wc 0) hp
    refine ⟨part .lower G, by rw [hun, h1]; rfl, isTri_part _ _, realDiag_part _ _ h2, ?_⟩
    rw [← hsp]
    exact h3.sq
  refine ⟨⟨fun h hp => ?_, fun hp => ?_⟩, hok⟩
  · obtain ⟨F, hF, _⟩ := hok hp
    rw [h] at hF
    cases hF
  · rw [← hsp] at hp
    have h1 := (C140_throws E .lower M _ (lq_diag E _) hst head (W.wc 0) h0.le (by norm_num)).mpr hp
    rw [hun, h1]
    rfl

/-- The weight of the centre. -/
noncomputable def centre (alpha beta kappa : ℝ) (dim : ℕ) : ℝ := 2 - alpha ^ 2 + beta - dim / (alpha ^ 2 * (dim + kappa))

theorem centre_eq (alpha beta kappa : ℝ) (dim : ℕ) (ha : alpha ≠ 0) (hk : 0 < dim + kappa) :
    (unscentedWeights dim alpha beta kappa).wc 0 = centre alpha beta kappa dim := by
  simp only [unscentedWeights, scaledWeights, Fin.cons_zero, centre]
  have := hk.ne'
  field_simp
  ring

theorem outer_nonneg (alpha beta kappa : ℝ) (dim : ℕ) (hk : 0 < dim + kappa) (c : Fin (dim * 2)) : 0 ≤ (unscentedWeights dim alpha beta kappa).wc c.succ := by
  simp only [unscentedWeights, scaledWeights, Fin.cons_succ]
  exact div_nonneg (by positivity) (mul_self_nonneg _)

/-- Rules without a negative weight. -/
def NonNegative : Rule → ℕ → Prop
  | .cubature, _ => True
  | .unscented alpha beta kappa, dim => 0 ≤ centre alpha beta kappa dim

theorem cubature_ok (count : ℕ) (D : Matrix (Fin p) (Fin count) 𝕜) :
    ∃ F, Except.ok (ε := Err) (E.lq (((Real.sqrt (1 / (count : ℕ)) : ℝ) : 𝕜) • D)) = .ok F ∧ IsTri .lower F ∧ RealDiag F ∧
      F * Fᴴ = gramOf (cubatureWeights count) D := by
  refine ⟨_, rfl, lq_tri E _, lq_diag E _, ?_⟩
  have h0 : (0 : ℝ) ≤ 1 / (count : ℕ) := by positivity
  rw [lq_sq, conjTranspose_smul, Matrix.smul_mul, Matrix.mul_smul, smul_smul, RCLike.star_def, RCLike.conj_ofReal, ← RCLike.ofReal_mul,
    Real.mul_self_sqrt h0]
  have h1 : (diagonal (scal (cubatureWeights count).wc) : Matrix (Fin count) (Fin count) 𝕜) = ((1 / (count : ℕ) : ℝ) : 𝕜) • 1 := by
    rw [smul_one_eq_diagonal]
    rfl
  rw [gramOf, h1, Matrix.smul_mul, Matrix.one_mul, Matrix.mul_smul]

theorem factor_nonneg (r : Rule) (dim : ℕ) (hr : Admissible r dim) (hn : NonNegative r dim) (D : Matrix (Fin p) (Fin (r.count dim)) 𝕜) :
    ∃ F, factorOf E r dim D = .ok F ∧ IsTri .lower F ∧ RealDiag F ∧ F * Fᴴ = gramOf (r.weights dim) D := by
  cases r with
  | cubature =>
    exact cubature_ok E (dim * 2) D
  | unscented alpha beta kappa =>
    refine scaled_ok E _ (fun c => ?_) D
    refine Fin.cases ?_ (fun c => outer_nonneg alpha beta kappa dim hr.2.2 c) c
    rw [centre_eq alpha beta kappa dim hr.1 hr.2.2]
    exact hn

theorem factor_posDef (r : Rule) (dim : ℕ) (hr : Admissible r dim) (D : Matrix (Fin p) (Fin (r.count dim)) 𝕜) (hD : (gramOf (r.weights dim) D).PosDef) :
    ∃ F, factorOf E r dim D = .ok F ∧ IsTri .lower F ∧ RealDiag F ∧ F * Fᴴ = gramOf (r.weights dim) D := by
  by_cases hn : NonNegative r dim
  · exact factor_nonneg E r dim hr hn D
  · cases r with
    | cubature => exact absurd trivial hn
    | unscented alpha beta kappa =>
      refine (scaled_negative E (unscentedWeights dim alpha beta kappa) ?_ (outer_nonneg alpha beta kappa dim hr.2.2) D).2 hD
      rw [centre_eq alpha beta kappa dim hr.1 hr.2.2]
      exact not_le.mp hn

end factor

/-! ## The update -/

theorem errorCov_posDef {n m : Type} [Fintype n] [Fintype m] [DecidableEq n] [DecidableEq m] {P : Matrix n n 𝕜} {Pxy : Matrix n m 𝕜} {Pyy : Matrix m m 𝕜}
    (h : (jointCov P Pxy Pyy).PosDef) (G : Matrix n m 𝕜) : (errorCov P Pxy Pyy G).PosDef := by
  refine h.mul_mul_conjTranspose_same ?_
  intro v w hvw
  have := congrArg (fun f => fun i => f (Sum.inl i)) hvw
  simpa [vecMul_fromCols] using this

theorem sqrtUpdate_ok (E : EigenLib 𝕜) (lib : Kalman.Lib 𝕜) {n : ℕ} (x : GaussChol 𝕜 (Fin n)) (y : GaussChol 𝕜 (Fin p)) (Pxy : Matrix (Fin n) (Fin p) 𝕜)
    (z : Fin p → 𝕜) (hx : Prior x) (hj : (jointCov x.toGauss.cov Pxy y.toGauss.cov).PosDef) :
    ∃ x', sqrtUpdate E x y Pxy z = .ok x' ∧ x'.toGauss = updateStep lib id id x.toGauss y.toGauss Pxy z ∧ Prior x' := by
  have hyp : y.toGauss.cov.PosDef := hj.submatrix Sum.inr_injective
  have hu : IsUnit y.toGauss.cov.det := (Matrix.isUnit_iff_isUnit_det _).mp hyp.isUnit
  obtain ⟨X, hX1, hX2⟩ := solve_definite E false false .lower _ _ (stores_self .lower _ hyp.1) hyp Pxyᴴ
  have hK : y.toGauss.covᴴ * X = Pxyᴴ := by rw [hyp.1.eq]; exact hX2
  obtain ⟨g1, g2, g3, g4⟩ := gain_facts (P := x.toGauss.cov) hyp.1 hK
  have hXe : lib.solve y.toGauss.covᴴ Pxyᴴ = X := by
    refine solve_unique (A := y.toGauss.covᴴ) (B := Pxyᴴ) ?_ (solve_ok lib Pxy hu) hK
    rw [det_conjTranspose]
    exact hu.star
  have hpost : (x.toGauss.cov - Pxy * X).PosDef := by
    have h1 := g4 Xᴴ
    rw [sub_self, Matrix.zero_mul, Matrix.zero_mul] at h1
    rw [← sub_eq_zero.mp h1]
    exact errorCov_posDef hj Xᴴ
  have hU : E.lq (Xᴴ * y.fac) * (E.lq (Xᴴ * y.fac))ᴴ = Pxy * X := by
    rw [lq_sq, g2]
    simp only [GaussChol.toGauss, conjTranspose_mul, conjTranspose_conjTranspose, Matrix.mul_assoc]
  have hst : Stands .lower (part .lower x.fac) x.toGauss.cov := ⟨isTri_part _ _, by rw [part_eq _ _ hx.tri]; rfl⟩
  have hcov : x.toGauss.cov + ((-1 : ℝ) : 𝕜) • (E.lq (Xᴴ * y.fac) * (E.lq (Xᴴ * y.fac))ᴴ) = x.toGauss.cov - Pxy * X := by
    rw [hU]; simp [sub_eq_add_neg]
  obtain ⟨G, hG1, hG2, hG3⟩ := C140_downdate_partial E .lower x.fac x.toGauss.cov hx.real hst (E.lq (Xᴴ * y.fac)) (-1) (by rw [hcov]; exact hpost)
  rw [hcov] at hG3
  have hsq : part .lower G * (part .lower G)ᴴ = x.toGauss.cov - Pxy * X := hG3.sq
  refine ⟨⟨x.mean + Xᴴ *ᵥ (z - y.mean), part .lower G⟩, ?_, ?_, ⟨isTri_part _ _, realDiag_part _ _ hG2, ?_⟩⟩
  · unfold sqrtUpdate
    have e : (y.fac * y.facᴴ)ᴴ = y.toGauss.cov := hyp.1.eq
    rw [e, hX1]
    simp only [bind, Except.bind]
    rw [hG1]
  · refine Gauss.ext ?_ ?_
    · simp only [updateStep, hXe]
      rfl
    · rw [updateStep_cov lib _ _ _ _ _ _ hyp.1 (by rw [hXe]; exact hK), hXe]
      exact hsq
  · show (part .lower G * (part .lower G)ᴴ).PosDef
    rw [hsq]
    exact hpost

end OpenKalman.SigmaFilter
