import Verif.Proof.Forgetting
import Mathlib.Analysis.SpecificLimits.Basic

/-!
# C172: recursive least squares with a forgetting factor over long histories
-/

set_option linter.unusedSectionVars false

namespace OpenKalman.Kalman
open Matrix Filter Topology
open scoped ComplexOrder MatrixOrder

variable {𝕜 : Type} [RCLike 𝕜] (lib : Lib 𝕜) {n : Type} [Fintype n] [DecidableEq n]

/-- **C172** (bound): if the latest observations say at least `a` in every direction, the reported covariance is bounded, whatever it was at first and whatever was observed before. -/
theorem C172_bounded (lam : ℝ) (hl : 0 < lam) (h1 : lam ≤ 1) (x0 : Gauss 𝕜 n) (h0 : x0.cov.PosDef) (new old : List (Obs 𝕜 n)) (hR : ∀ p ∈ new ++ old, p.R.PosDef) (L : ℕ)
    (hL : new.length ≤ L + 1) (a : ℝ) (ha : 0 < a) (he : Excites a new) :
    ((((a * lam ^ L)⁻¹ : ℝ) : 𝕜) • (1 : Matrix n n 𝕜) - (rls lib lam x0 (new ++ old)).cov).PosSemidef := by
  refine inv_bound (C54_information lib lam hl x0 h0 _ hR).1 (by positivity) ?_
  have h2 := info_lower lib lam hl h1 x0 h0 old L new hR hL
  have h3 := PosSemidef.smul he (real_nonneg (𝕜 := 𝕜) (pow_nonneg hl.le L))
  refine (congrArg PosSemidef ?_).mp (h2.add h3)
  rw [smul_sub, smul_smul, mul_comm a, RCLike.ofReal_mul]
  abel

/-- **C172** (error): if no residual of the true parameters `θ` is larger than `E` (as a weighted square), the error of the estimate is bounded: what was wrong at first counts less and less. -/
theorem C172_error (lam : ℝ) (hl : 0 < lam) (h1 : lam ≤ 1) (x0 : Gauss 𝕜 n) (h0 : x0.cov.PosDef) (new old : List (Obs 𝕜 n)) (hR : ∀ p ∈ new ++ old, p.R.PosDef) (L : ℕ)
    (hL : new.length ≤ L + 1) (a : ℝ) (he : Excites a new) (θ : n → 𝕜) (E : ℝ) (hE : ∀ o ∈ new ++ old, quad o.R⁻¹ (o.z - o.H *ᵥ θ) ≤ (E : 𝕜)) :
    ((a * lam ^ L : ℝ) : 𝕜) * quad 1 (θ - (rls lib lam x0 (new ++ old)).mean) ≤
      ((lam ^ (new ++ old).length : ℝ) : 𝕜) * quad x0.cov⁻¹ (θ - x0.mean) + ((E * ∑ k ∈ Finset.range (new ++ old).length, lam ^ k : ℝ) : 𝕜) := by
  obtain ⟨c, c0, hc⟩ := rls_cost lib lam hl x0 h0 (new ++ old) hR
  refine le_trans ?_ (cost_bound lam hl x0.cov x0.mean θ E _ hE)
  rw [hc θ]
  refine le_trans ?_ (le_add_of_nonneg_right c0)
  have h2 := info_lower lib lam hl h1 x0 h0 old L new hR hL
  have h3 := PosSemidef.smul he (real_nonneg (𝕜 := 𝕜) (pow_nonneg hl.le L))
  have h4 := (h2.add h3).dotProduct_mulVec_nonneg (θ - (rls lib lam x0 (new ++ old)).mean)
  rw [← sub_nonneg]
  refine h4.trans (le_of_eq ?_)
  rw [smul_sub, smul_smul, sub_add_sub_cancel, sub_mulVec, dotProduct_sub, quad, quad, smul_mulVec, dotProduct_smul, mul_comm a, RCLike.ofReal_mul]
  rfl

/-- **C172** (tracking): if every `L + 1` observations in turn say at least `a > 0` in every direction and are exact, the estimate converges to the true parameters, from whatever start. -/
theorem C172_converges (lam : ℝ) (hl : 0 < lam) (h1 : lam < 1) (x0 : Gauss 𝕜 n) (h0 : x0.cov.PosDef) (o : ℕ → Obs 𝕜 n) (hR : ∀ k, (o k).R.PosDef) (L : ℕ) (a : ℝ) (ha : 0 < a)
    (he : ∀ s, Excites a (recent o s (L + 1))) (θ : n → 𝕜) (hθ : ∀ k, (o k).Exact θ) :
    Tendsto (fun N => (rls lib lam x0 (recent o 0 N)).mean) atTop (𝓝 θ) := by
  rw [← tendsto_add_atTop_iff_nat (L + 1), tendsto_pi_nhds]
  intro i
  set q : ℝ := RCLike.re (quad x0.cov⁻¹ (θ - x0.mean)) with hq
  have key : ∀ N, ‖θ i - (rls lib lam x0 (recent o 0 (N + (L + 1)))).mean i‖ ^ 2 ≤ lam ^ N * (q / (a * lam ^ L)) := by
    intro N
    have hE : ∀ p ∈ recent o (0 + N) (L + 1) ++ recent o 0 N, quad p.R⁻¹ (p.z - p.H *ᵥ θ) ≤ ((0 : ℝ) : 𝕜) := by
      intro p hp
      obtain ⟨k, rfl⟩ : ∃ k, p = o k := by
        rcases List.mem_append.1 hp with h | h <;> exact mem_recent h
      have : (o k).z = (o k).H *ᵥ θ := hθ k
      rw [this, sub_self]; simp [quad]
    have hR' : ∀ p ∈ recent o (0 + N) (L + 1) ++ recent o 0 N, p.R.PosDef := by
      intro p hp
      obtain ⟨k, rfl⟩ : ∃ k, p = o k := by
        rcases List.mem_append.1 hp with h | h <;> exact mem_recent h
      exact hR k
    have h := C172_error lib lam hl h1.le x0 h0 _ _ hR' L (by rw [length_recent]) a (he _) θ 0 hE
    rw [← recent_add, length_recent, zero_mul, RCLike.ofReal_zero, add_zero] at h
    have h := RCLike.re_monotone h
    rw [RCLike.re_ofReal_mul, RCLike.re_ofReal_mul, ← hq] at h
    set v := θ - (rls lib lam x0 (recent o 0 (N + (L + 1)))).mean with hv
    have hs : ‖v i‖ ^ 2 ≤ RCLike.re (quad 1 v) := by
      have e : RCLike.re (quad 1 v) = ∑ j, ‖v j‖ ^ 2 := by
        simp only [quad, one_mulVec, dotProduct, map_sum, Pi.star_apply, RCLike.star_def]
        refine Finset.sum_congr rfl fun j _ => ?_
        rw [RCLike.conj_mul, ← RCLike.ofReal_pow, RCLike.ofReal_re]
      rw [e]
      exact Finset.single_le_sum (f := fun j => ‖v j‖ ^ 2) (fun j _ => sq_nonneg _) (Finset.mem_univ i)
    have q0 : 0 ≤ q := by
      have := h0.inv.posSemidef.re_dotProduct_nonneg (θ - x0.mean)
      exact this
    have hb : 0 < a * lam ^ L := by positivity
    show ‖v i‖ ^ 2 ≤ _
    refine hs.trans ?_
    rw [← mul_div_assoc, le_div_iff₀ hb, mul_comm]
    refine h.trans (mul_le_mul_of_nonneg_right (pow_le_pow_of_le_one hl.le h1.le (by omega)) q0)
  have hz : Tendsto (fun N : ℕ => lam ^ N * (q / (a * lam ^ L))) atTop (𝓝 0) := by
    simpa using (tendsto_pow_atTop_nhds_zero_of_lt_one hl.le h1).mul_const (q / (a * lam ^ L))
  have h2 : Tendsto (fun N => ‖θ i - (rls lib lam x0 (recent o 0 (N + (L + 1)))).mean i‖ ^ 2) atTop (𝓝 0) :=
    squeeze_zero (fun _ => sq_nonneg _) key hz
  have h3 : Tendsto (fun N => ‖θ i - (rls lib lam x0 (recent o 0 (N + (L + 1)))).mean i‖) atTop (𝓝 0) := by
    have := h2.sqrt
    simpa [Real.sqrt_sq] using this
  have h4 := tendsto_zero_iff_norm_tendsto_zero.2 h3
  simpa using h4.const_sub (θ i)

/-- **C172** (forgetting): of a direction that is never observed the estimate is kept, but the reported variance is divided by the forgetting factor every time, so that it grows without bound. -/
theorem C172_windup (lam : ℝ) (hl : 0 < lam) (x0 : Gauss 𝕜 n) (h0 : x0.cov.PosDef) (os : List (Obs 𝕜 n)) (hR : ∀ o ∈ os, o.R.PosDef) (v : n → 𝕜) (hv : ∀ o ∈ os, o.H *ᵥ v = 0) :
    quad (rls lib lam x0 os).cov (x0.cov⁻¹ *ᵥ v) = ((lam⁻¹ ^ os.length : ℝ) : 𝕜) * quad x0.cov (x0.cov⁻¹ *ᵥ v) ∧
      star (x0.cov⁻¹ *ᵥ v) ⬝ᵥ (rls lib lam x0 os).mean = star (x0.cov⁻¹ *ᵥ v) ⬝ᵥ x0.mean := by
  have hl' : (lam : 𝕜) ≠ 0 := by simpa using hl.ne'
  have key : (rls lib lam x0 os).cov⁻¹ *ᵥ v = ((lam ^ os.length : ℝ) : 𝕜) • x0.cov⁻¹ *ᵥ v ∧
      star v ⬝ᵥ (rls lib lam x0 os).cov⁻¹ *ᵥ (rls lib lam x0 os).mean = ((lam ^ os.length : ℝ) : 𝕜) * star v ⬝ᵥ x0.cov⁻¹ *ᵥ x0.mean := by
    induction os with
    | nil => simp [rls]
    | cons o os ih =>
      obtain ⟨i1, i2⟩ := ih (fun o ho => hR o (List.mem_cons_of_mem _ ho)) fun o ho => hv o (List.mem_cons_of_mem _ ho)
      obtain ⟨c1, c2⟩ := rls_cons lib lam hl x0 h0 o os hR
      have hH := hv o List.mem_cons_self
      refine ⟨?_, ?_⟩
      · rw [c1, add_mulVec, smul_mulVec, i1, Obs.info, ← mulVec_mulVec, hH, mulVec_zero, add_zero, smul_smul, List.length_cons, pow_succ', RCLike.ofReal_mul]
      · rw [c2, dotProduct_add, dotProduct_smul, i2, smul_eq_mul, ← mulVec_mulVec, dotProduct_mulVec (star v) o.Hᴴ, ← star_mulVec, hH, star_zero, zero_dotProduct, add_zero,
          List.length_cons, pow_succ', RCLike.ofReal_mul, mul_assoc]
  obtain ⟨k1, k2⟩ := key
  have hp := (C54_information lib lam hl x0 h0 os hR).1
  have hc : ((lam ^ os.length : ℝ) : 𝕜) ≠ 0 := by simpa using (pow_pos hl os.length).ne'
  have hw : ∀ P : Matrix n n 𝕜, P.PosDef → ∀ y, star (P⁻¹ *ᵥ v) ⬝ᵥ y = star v ⬝ᵥ P⁻¹ *ᵥ y := by
    intro P hP y
    rw [star_mulVec, ← dotProduct_mulVec, hP.inv.1.eq]
  refine ⟨?_, ?_⟩
  · have e : (rls lib lam x0 os).cov *ᵥ (x0.cov⁻¹ *ᵥ v) = ((lam⁻¹ ^ os.length : ℝ) : 𝕜) • v := by
      have : x0.cov⁻¹ *ᵥ v = ((lam⁻¹ ^ os.length : ℝ) : 𝕜) • (rls lib lam x0 os).cov⁻¹ *ᵥ v := by
        rw [k1, smul_smul, ← RCLike.ofReal_mul, ← mul_pow, inv_mul_cancel₀ hl.ne', one_pow, RCLike.ofReal_one, one_smul]
      rw [this, mulVec_smul, mulVec_mulVec, mul_nonsing_inv _ (unit_of_posDef hp), one_mulVec]
    rw [quad, e, quad, mulVec_mulVec, mul_nonsing_inv _ (unit_of_posDef h0), one_mulVec, dotProduct_smul, smul_eq_mul]
  · rw [hw _ h0, hw _ h0]
    refine mul_left_cancel₀ hc ?_
    rw [← k2, ← hw _ hp, k1, star_smul, smul_dotProduct, ← hw _ h0]
    simp

/-! ### A case: two parameters observed in turn -/

/-- The first parameter is observed at even times, the second at odd times; they are 3 and 5. -/
noncomputable def turns (k : ℕ) : Obs ℝ (Fin 2) := if k % 2 = 0 then ⟨1, !![1, 0], 1, fun _ => 3⟩ else ⟨1, !![0, 1], 1, fun _ => 5⟩

theorem turns_all (p : Obs ℝ (Fin 2) → Prop) (h0 : p ⟨1, !![1, 0], 1, fun _ => 3⟩) (h1 : p ⟨1, !![0, 1], 1, fun _ => 5⟩) (k : ℕ) : p (turns k) := by
  unfold turns
  split_ifs
  exacts [h0, h1]

theorem turns_excite (s : ℕ) : Excites 1 (recent turns s (1 + 1)) := by
  have e : ((recent turns s (1 + 1)).map Obs.info).sum = 1 := by
    rcases Nat.mod_two_eq_zero_or_one s with h | h
    · have h' : (s + 1) % 2 = 1 := by omega
      simp only [recent, turns, add_zero, h, h', if_true, List.map_cons, List.map_nil, List.sum_cons, List.sum_nil]
      ext i j
      fin_cases i <;> fin_cases j <;> simp [Obs.info, Matrix.mul_apply, Matrix.add_apply]
    · have h' : (s + 1) % 2 = 0 := by omega
      simp only [recent, turns, add_zero, h, h', if_true, List.map_cons, List.map_nil, List.sum_cons, List.sum_nil]
      ext i j
      fin_cases i <;> fin_cases j <;> simp [Obs.info, Matrix.mul_apply, Matrix.add_apply]
  unfold Excites
  rw [e]
  simpa using PosSemidef.zero

/-- From any start the estimate converges to 3 and 5, and the covariance is at most that of two observations. -/
example (x0 : Gauss ℝ (Fin 2)) (h0 : x0.cov.PosDef) :
    Tendsto (fun N => (rls someLib (9 / 10) x0 (recent turns 0 N)).mean) atTop (𝓝 ![3, 5]) ∧
      ∀ N, ((((1 * (9 / 10) ^ 1)⁻¹ : ℝ) : ℝ) • (1 : Matrix (Fin 2) (Fin 2) ℝ) - (rls someLib (9 / 10) x0 (recent turns 0 (N + 2))).cov).PosSemidef := by
  have hR : ∀ k, (turns k).R.PosDef := turns_all (fun o => o.R.PosDef) PosDef.one PosDef.one
  refine ⟨C172_converges someLib (9 / 10) (by norm_num) (by norm_num) x0 h0 turns hR 1 1 one_pos turns_excite ![3, 5] fun k => ?_, fun N => ?_⟩
  · exact turns_all (Obs.Exact ![3, 5]) (by ext i; simp [mulVec, dotProduct, Fin.sum_univ_two]) (by ext i; simp [mulVec, dotProduct, Fin.sum_univ_two]) k
  · rw [recent_add]
    refine C172_bounded someLib (9 / 10) (by norm_num) (by norm_num) x0 h0 _ _ (fun p hp => ?_) 1 (by rw [length_recent]) 1 one_pos (turns_excite _)
    obtain ⟨k, rfl⟩ : ∃ k, p = turns k := by
      rcases List.mem_append.1 hp with h | h <;> exact mem_recent h
    exact hR k

/-- If the second parameter is never observed, its variance is multiplied by 1024 in ten steps with a forgetting factor of one half. -/
example : quad (rls someLib (1 / 2) ⟨0, 1⟩ (List.replicate 10 ⟨1, !![1, 0], 1, fun _ => 3⟩) : Gauss ℝ (Fin 2)).cov ![0, 1] = 1024 := by
  have := (C172_windup someLib (1 / 2) (by norm_num) (⟨0, 1⟩ : Gauss ℝ (Fin 2)) PosDef.one (List.replicate 10 ⟨1, !![1, 0], 1, fun _ => 3⟩)
    (fun o ho => by rw [List.eq_of_mem_replicate ho]; exact PosDef.one) ![0, 1]
    (fun o ho => by rw [List.eq_of_mem_replicate ho]; ext i; simp [mulVec, dotProduct, Fin.sum_univ_two])).1
  rw [inv_one, one_mulVec] at this
  rw [this]
  norm_num [quad, dotProduct, Fin.sum_univ_two]

/-! ### The cross-covariance -/

/-- **C172** (cross-covariance): what `transform_with_cross_covariance` returns are covariances of a joint distribution exactly if the noise makes up for the scaled cross-covariance. -/
theorem C172_cross_iff (lam : ℝ) (x : Gauss 𝕜 n) (hx : x.cov.PosDef) (ns : List (Gauss 𝕜 n)) :
    (jointCov x.cov (rlsTransformCross (lam : 𝕜) x ns).2 (rlsTransformCross (lam : 𝕜) x ns).1.cov).PosSemidef ↔
      ((ns.map Gauss.cov).sum + ((lam⁻¹ - lam⁻¹ ^ 2 : ℝ) : 𝕜) • x.cov).PosSemidef := by
  obtain ⟨-, t2, t3⟩ := C54_transform (lam : 𝕜) x ns
  rw [t3]
  have hu := unit_of_posDef hx
  haveI := invertibleOfIsUnitDet _ hu
  unfold jointCov
  rw [PosDef.fromBlocks₁₁ _ _ hx]
  refine iff_of_eq (congrArg PosSemidef ?_)
  show (rlsTransform (lam : 𝕜) x ns).cov - ((lam : 𝕜)⁻¹ • x.cov)ᴴ * x.cov⁻¹ * ((lam : 𝕜)⁻¹ • x.cov) = _
  have hs : star (lam : 𝕜)⁻¹ = (lam : 𝕜)⁻¹ := by rw [← RCLike.ofReal_inv]; simp
  rw [t2, conjTranspose_smul, hx.1.eq, hs, Matrix.smul_mul, Matrix.smul_mul, mul_nonsing_inv _ hu, Matrix.mul_smul, Matrix.one_mul, smul_smul, RCLike.ofReal_sub, sub_smul,
    RCLike.ofReal_pow, RCLike.ofReal_inv, sq]
  abel

/-- Without forgetting, or if the factor is more than one, they are. -/
theorem C172_cross_partial (lam : ℝ) (h1 : 1 ≤ lam) (x : Gauss 𝕜 n) (hx : x.cov.PosDef) (ns : List (Gauss 𝕜 n)) (hn : ∀ d ∈ ns, d.cov.PosSemidef) :
    (jointCov x.cov (rlsTransformCross (lam : 𝕜) x ns).2 (rlsTransformCross (lam : 𝕜) x ns).1.cov).PosSemidef := by
  rw [C172_cross_iff lam x hx]
  refine PosSemidef.add ?_ (hx.posSemidef.smul (real_nonneg ?_))
  · induction ns with
    | nil => exact PosSemidef.zero
    | cons d ns ih => exact (hn d List.mem_cons_self).add (ih fun d hd => hn d (List.mem_cons_of_mem _ hd))
  · have : lam⁻¹ ≤ 1 := inv_le_one_of_one_le₀ h1
    have h0 : 0 ≤ lam⁻¹ := inv_nonneg.2 (by linarith)
    nlinarith

/-- **Violated**: with any forgetting and no noise they are not, and an update with this transform as the measurement reports a negative covariance. -/
theorem C172_cross_violated [Nonempty n] (lam : ℝ) (hl : 0 < lam) (h1 : lam < 1) (x : Gauss 𝕜 n) (hx : x.cov.PosDef) (z : n → 𝕜) :
    ¬ (jointCov x.cov (rlsTransformCross (lam : 𝕜) x []).2 (rlsTransformCross (lam : 𝕜) x []).1.cov).PosSemidef ∧
      (-(rlsUpdate lib (lam : 𝕜) [] z x).cov).PosDef := by
  have hi : 1 < lam⁻¹ := (one_lt_inv₀ hl).2 h1
  have hpos : (0 : 𝕜) < ((lam⁻¹ ^ 2 - lam⁻¹ : ℝ) : 𝕜) := RCLike.ofReal_pos.2 (by nlinarith)
  have hpos' : (0 : 𝕜) < ((lam⁻¹ - 1 : ℝ) : 𝕜) := RCLike.ofReal_pos.2 (by linarith)
  refine ⟨fun h => ?_, ?_⟩
  · rw [C172_cross_iff lam x hx] at h
    have a := (hx.smul hpos).add_posSemidef h
    have e : ((lam⁻¹ ^ 2 - lam⁻¹ : ℝ) : 𝕜) • x.cov + ((([] : List (Gauss 𝕜 n)).map Gauss.cov).sum + ((lam⁻¹ - lam⁻¹ ^ 2 : ℝ) : 𝕜) • x.cov) = 0 := by
      rw [List.map_nil, List.sum_nil, zero_add, ← add_smul, ← RCLike.ofReal_add]
      simp
    rw [e] at a
    have := a.diag_pos (i := Classical.arbitrary n)
    simp at this
  · obtain ⟨-, t2, t3⟩ := C54_transform (lam : 𝕜) x []
    rw [List.map_nil, List.sum_nil, add_zero] at t2
    have hl' : (0 : 𝕜) < (lam : 𝕜)⁻¹ := by rw [← RCLike.ofReal_inv]; exact RCLike.ofReal_pos.2 (inv_pos.2 hl)
    have hy : (rlsTransform (lam : 𝕜) x []).cov.PosDef := t2 ▸ hx.smul hl'
    have hK := solve_ok lib ((lam : 𝕜)⁻¹ • x.cov) (unit_of_posDef hy)
    unfold rlsUpdate
    rw [t3]
    show (-(updateStep lib id id x (rlsTransform (lam : 𝕜) x []) ((lam : 𝕜)⁻¹ • x.cov) z).cov).PosDef
    rw [updateStep_cov lib _ _ _ _ _ _ hy.1 hK]
    have e : (lam : 𝕜)⁻¹ • x.cov * lib.solve (rlsTransform (lam : 𝕜) x []).covᴴ ((lam : 𝕜)⁻¹ • x.cov)ᴴ = (lam : 𝕜)⁻¹ • x.cov := by
      have h2 : (rlsTransform (lam : 𝕜) x []).covᴴ = (lam : 𝕜)⁻¹ • x.cov := by rw [hy.1.eq, t2]
      have h3 : ((lam : 𝕜)⁻¹ • x.cov)ᴴ = (lam : 𝕜)⁻¹ • x.cov := by rw [← t2]; exact hy.1.eq
      rw [h2, h3] at hK ⊢
      exact hK
    rw [e]
    refine (congrArg PosDef ?_).mp (hx.smul hpos')
    rw [RCLike.ofReal_sub, RCLike.ofReal_one, RCLike.ofReal_inv, sub_smul, one_smul, neg_sub]

/-- With the default factor. -/
example (z : Fin 2 → ℝ) : (-(rlsUpdate someLib (((0.9995 : ℝ) : ℝ)) [] z ⟨0, 1⟩).cov).PosDef :=
  (C172_cross_violated someLib 0.9995 (by norm_num) (by norm_num) ⟨0, 1⟩ PosDef.one z).2

end OpenKalman.Kalman
