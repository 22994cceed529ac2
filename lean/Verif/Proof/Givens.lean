import Verif.Model.Givens
import Verif.Spec.Givens
import Mathlib.Tactic.FieldSimp
import Mathlib.Tactic.Ring
import Mathlib.Tactic.Linarith
import Mathlib.Tactic.Positivity
import Mathlib.Algebra.Order.Archimedean.Basic

namespace OpenKalman.Givens
open OpenKalman.Blas

/-- The loop ends at the first round after which the test fails, if there is one. -/
theorem doWhile_ends {S : Type*} (step : S → S) (again : S → Prop) [DecidablePred again] (s : S) (h : ∃ n, ¬ again (step^[n + 1] s)) :
    ∃ k, ¬ again (step^[k + 1] s) ∧ (∀ j < k, again (step^[j + 1] s)) ∧ ∀ fuel, k < fuel → ∀ count, doWhile step again fuel s count = some (step^[k + 1] s, count + (k + 1)) := by
  classical
  obtain ⟨n, hn⟩ := h
  induction n generalizing s with
  | zero =>
    refine ⟨0, hn, fun j hj => absurd hj (Nat.not_lt_zero _), fun fuel hf count => ?_⟩
    obtain ⟨m, rfl⟩ := Nat.exists_eq_succ_of_ne_zero (by omega : fuel ≠ 0)
    have hn' : ¬ again (step s) := hn
    simp only [doWhile]
    rw [if_neg hn']
    rfl
  | succ n ih =>
    by_cases h0 : again (step s)
    · obtain ⟨k, hk, hlt, hrun⟩ := ih (step s) (by rwa [← Function.iterate_succ_apply])
      refine ⟨k + 1, by rwa [Function.iterate_succ_apply], fun j hj => ?_, fun fuel hf count => ?_⟩
      · cases j with
        | zero => exact h0
        | succ j => rw [Function.iterate_succ_apply]; exact hlt j (by omega)
      · obtain ⟨m, rfl⟩ := Nat.exists_eq_succ_of_ne_zero (by omega : fuel ≠ 0)
        simp only [doWhile]
        rw [if_pos h0, hrun m (by omega), Function.iterate_succ_apply step (k + 1)]
        congr 2
        omega
    · refine ⟨0, h0, fun j hj => absurd hj (Nat.not_lt_zero _), fun fuel hf count => ?_⟩
      obtain ⟨m, rfl⟩ := Nat.exists_eq_succ_of_ne_zero (by omega : fuel ≠ 0)
      simp only [doWhile]
      rw [if_neg h0]
      rfl

theorem doWhile_mono {S : Type*} (step : S → S) (again : S → Prop) [DecidablePred again] {m n : ℕ} (h : m ≤ n) (s : S) (count : ℕ) (o : S × ℕ)
    (ho : doWhile step again m s count = some o) : doWhile step again n s count = some o := by
  induction m generalizing n s count with
  | zero => simp [doWhile] at ho
  | succ m ih =>
    obtain ⟨n, rfl⟩ := Nat.exists_eq_succ_of_ne_zero (by omega : n ≠ 0)
    simp only [doWhile] at ho ⊢
    by_cases ha : again (step s)
    · rw [if_pos ha] at ho ⊢
      exact ih (by omega) _ _ ho
    · rw [if_neg ha] at ho ⊢
      exact ho

theorem setupReal_mono {σ f g : ℝ} {m n : ℕ} (h : m ≤ n) {o : Rot ℝ} (ho : setupReal σ m f g = some o) : setupReal σ n f g = some o := by
  simp only [setupReal] at ho ⊢
  split_ifs at ho ⊢
  · exact ho
  · exact ho
  · obtain ⟨s, hs, rfl⟩ := Option.map_eq_some_iff.mp ho
    rw [doWhile_mono _ _ h _ _ _ hs]; rfl
  · obtain ⟨s, hs, rfl⟩ := Option.map_eq_some_iff.mp ho
    rw [doWhile_mono _ _ h _ _ _ hs]; rfl
  · exact ho

theorem setupComplex_mono {safmin σ : ℝ} {f g : ℂ} {m n : ℕ} (h : m ≤ n) {o : Rot ℂ} (ho : setupComplex safmin σ m f g = some o) : setupComplex safmin σ n f g = some o := by
  simp only [setupComplex] at ho ⊢
  split_ifs at ho ⊢
  · obtain ⟨s, hs, rfl⟩ := Option.map_eq_some_iff.mp ho
    rw [doWhile_mono _ _ h _ _ _ hs]; rfl
  · exact ho
  · obtain ⟨s, hs, rfl⟩ := Option.map_eq_some_iff.mp ho
    rw [doWhile_mono _ _ h _ _ _ hs]; rfl
  · exact ho

theorem loop_mul {R : Type*} [CommMonoid R] (n : ℕ) (a r : R) : loop 0 n (fun _ r => r * a) r = r * a ^ n := by
  induction n with
  | zero => rw [loop_of_le (Nat.le_refl 0), pow_zero, mul_one]
  | succ n ih => rw [loop_zero_succ, ih, pow_succ, mul_assoc]

/-! ## Real numbers -/

theorem iterate_scale (a f g : ℝ) (n : ℕ) : (fun s : ℝ × ℝ => (s.1 * a, s.2 * a))^[n] (f, g) = (f * a ^ n, g * a ^ n) := by
  induction n with
  | zero => simp
  | succ n ih => rw [Function.iterate_succ_apply', ih]; simp [pow_succ, mul_assoc]

theorem max_abs_scale (a f g : ℝ) (ha : 0 ≤ a) : max |f * a| |g * a| = max |f| |g| * a := by
  rw [abs_mul, abs_mul, abs_of_nonneg ha, max_mul_of_nonneg _ _ ha]

/-- Scaling by `t` and back does not matter. -/
theorem plain_rotates (f g t : ℝ) (ht : 0 < t) (n : ℕ) (b : ℝ) (hb : t * b ^ n = 1) (hf : f ≠ 0) :
    Rotates f g (plain (f * t) (g * t) n b).cs (plain (f * t) (g * t) n b).sn (plain (f * t) (g * t) n b).r ∧ (plain (f * t) (g * t) n b).r = Real.sqrt (f ^ 2 + g ^ 2) := by
  have hq : 0 < f ^ 2 + g ^ 2 := by positivity
  have hr : Real.sqrt (f * t * (f * t) + g * t * (g * t)) = Real.sqrt (f ^ 2 + g ^ 2) * t := by
    rw [show f * t * (f * t) + g * t * (g * t) = (f ^ 2 + g ^ 2) * t ^ 2 by ring, Real.sqrt_mul hq.le, Real.sqrt_sq ht.le]
  have hs := Real.sqrt_pos.mpr hq
  have hss : Real.sqrt (f ^ 2 + g ^ 2) ^ 2 = f ^ 2 + g ^ 2 := Real.sq_sqrt hq.le
  have hr' : (plain (f * t) (g * t) n b).r = Real.sqrt (f ^ 2 + g ^ 2) := by
    simp only [plain]
    rw [loop_mul, hr, mul_assoc, hb, mul_one]
  have hc : (plain (f * t) (g * t) n b).cs = f / Real.sqrt (f ^ 2 + g ^ 2) := by
    simp only [plain]
    rw [hr]
    field_simp
  have hn : (plain (f * t) (g * t) n b).sn = g / Real.sqrt (f ^ 2 + g ^ 2) := by
    simp only [plain]
    rw [hr]
    field_simp
  refine ⟨⟨?_, ?_, ?_⟩, hr'⟩
  · rw [hc, hn, div_pow, div_pow, hss, ← add_div, div_self hq.ne']
  · rw [hc, hn, hr', eq_comm, ← sub_eq_zero]
    field_simp
    rw [hss]
    ring
  · rw [hc, hn]
    ring

theorem fixSigns_rotates (f g : ℝ) (o : Rot ℝ) (h : Rotates f g o.cs o.sn o.r) : Rotates f g (fixSigns f g o).cs (fixSigns f g o).sn (fixSigns f g o).r := by
  unfold fixSigns
  split_ifs
  · exact ⟨by simpa using h.unit, by have := h.first; simp only; linarith, by have := h.second; simp only; linarith⟩
  · exact h

theorem fixSigns_sign (f g : ℝ) (o : Rot ℝ) (h : o.cs ≠ 0) (hfg : |g| < |f|) : 0 < (fixSigns f g o).cs := by
  unfold fixSigns
  split_ifs with hc
  · simpa using hc.2
  · have := fun hlt => hc ⟨hfg, hlt⟩
    exact lt_of_le_of_ne (not_lt.mp this) (Ne.symm h)

theorem fixSigns_keep (f g : ℝ) (o : Rot ℝ) (hfg : |f| ≤ |g|) : fixSigns f g o = o := by
  unfold fixSigns
  rw [if_neg (fun h => absurd h.1 (not_lt.mpr hfg))]

theorem exists_shrunk {σ : ℝ} (h0 : 0 < σ) (h1 : σ < 1) (m : ℝ) : ∃ n : ℕ, m * σ ^ (n + 1) < 1 / σ := by
  rcases le_or_gt m 0 with hm | hm
  · exact ⟨0, lt_of_le_of_lt (mul_nonpos_of_nonpos_of_nonneg hm (by positivity)) (by positivity)⟩
  · obtain ⟨n, hn⟩ := exists_pow_lt_of_lt_one (show (0 : ℝ) < 1 / σ / m by positivity) h1
    refine ⟨n, ?_⟩
    have : σ ^ (n + 1) ≤ σ ^ n := pow_le_pow_of_le_one h0.le h1.le (Nat.le_succ n)
    calc m * σ ^ (n + 1) ≤ m * σ ^ n := mul_le_mul_of_nonneg_left this hm.le
      _ < m * (1 / σ / m) := mul_lt_mul_of_pos_left hn hm
      _ = 1 / σ := by field_simp

theorem exists_grown {σ : ℝ} (h0 : 0 < σ) (h1 : σ < 1) {m : ℝ} (hm : 0 < m) : ∃ n : ℕ, σ < m * (1 / σ) ^ (n + 1) := by
  have h2 : 1 < 1 / σ := by rw [lt_div_iff₀ h0]; linarith
  obtain ⟨n, hn⟩ := pow_unbounded_of_one_lt (σ / m) h2
  refine ⟨n, ?_⟩
  have : (1 / σ) ^ n ≤ (1 / σ) ^ (n + 1) := pow_le_pow_right₀ h2.le (Nat.le_succ n)
  calc σ = m * (σ / m) := by field_simp
    _ < m * (1 / σ) ^ n := mul_lt_mul_of_pos_left hn hm
    _ ≤ m * (1 / σ) ^ (n + 1) := mul_le_mul_of_nonneg_left this hm.le

theorem plain_all (f g t : ℝ) (ht : 0 < t) (n : ℕ) (b : ℝ) (hb : t * b ^ n = 1) (hf : f ≠ 0) :
    let o := fixSigns f g (plain (f * t) (g * t) n b)
    Rotates f g o.cs o.sn o.r ∧ (|g| < |f| → 0 < o.cs) ∧ (f ≠ 0 → |f| ≤ |g| → o.r = Real.sqrt (f ^ 2 + g ^ 2)) := by
  intro o
  have hp := plain_rotates f g t ht n b hb hf
  refine ⟨fixSigns_rotates f g _ hp.1, fixSigns_sign f g _ ?_, fun _ h => ?_⟩
  · intro h0
    have h1 := hp.1.first
    have h2 := hp.1.second
    have h3 := hp.1.unit
    rw [h0] at h2 h3
    have : (plain (f * t) (g * t) n b).sn = 0 := by
      rcases mul_eq_zero.mp (show (plain (f * t) (g * t) n b).sn * f = 0 by linarith) with h | h
      · exact h
      · exact absurd h hf
    rw [this] at h3
    norm_num at h3
  · show (fixSigns f g _).r = _
    rw [fixSigns_keep f g _ h]
    exact hp.2

theorem setupReal_spec {σ : ℝ} (h0 : 0 < σ) (h1 : σ < 1) (f g : ℝ) : ∃ N, ∀ fuel, N ≤ fuel → ∃ o, setupReal σ fuel f g = some o ∧
    Rotates f g o.cs o.sn o.r ∧ (|g| < |f| → 0 < o.cs) ∧ (f ≠ 0 → g ≠ 0 → |f| ≤ |g| → o.r = Real.sqrt (f ^ 2 + g ^ 2)) := by
  unfold setupReal
  by_cases hg : g = 0
  · subst hg
    exact ⟨0, fun _ _ => ⟨⟨1, 0, f⟩, by simp, ⟨by norm_num, by simp, by simp⟩, fun _ => one_pos, fun _ h => absurd rfl h⟩⟩
  by_cases hf : f = 0
  · subst hf
    refine ⟨0, fun _ _ => ⟨⟨0, 1, g⟩, by simp [hg], ⟨by norm_num, by simp, by simp⟩, fun h => ?_, fun h => absurd rfl h⟩⟩
    rw [abs_zero] at h
    exact absurd h (not_lt.mpr (abs_nonneg g))
  simp only [hg, hf, if_false]
  have hpos : 0 < max |f| |g| := lt_max_of_lt_left (abs_pos.mpr hf)
  have hcancel : ∀ n : ℕ, σ ^ n * (1 / σ) ^ n = 1 := fun n => by rw [← mul_pow, mul_one_div_cancel h0.ne', one_pow]
  by_cases hl : max |f| |g| ≥ 1 / σ
  · simp only [if_pos hl]
    obtain ⟨k, -, -, hrun⟩ := doWhile_ends (fun s : ℝ × ℝ => (s.1 * σ, s.2 * σ)) (fun s => max |s.1| |s.2| ≥ 1 / σ) (f, g) (by
      obtain ⟨n, hn⟩ := exists_shrunk h0 h1 (max |f| |g|)
      refine ⟨n, ?_⟩
      rw [iterate_scale, not_le]
      rw [max_abs_scale _ _ _ (by positivity)]
      exact hn)
    refine ⟨k + 1, fun fuel hf' => ?_⟩
    rw [hrun fuel (by omega), iterate_scale]
    have := plain_all f g (σ ^ (k + 1)) (by positivity) (0 + (k + 1)) (1 / σ) (by rw [zero_add]; exact hcancel _) hf
    exact ⟨_, rfl, this.1, this.2.1, fun a _ => this.2.2 a⟩
  simp only [if_neg hl]
  by_cases hs : max |f| |g| ≤ σ
  · simp only [if_pos hs]
    obtain ⟨k, -, -, hrun⟩ := doWhile_ends (fun s : ℝ × ℝ => (s.1 * (1 / σ), s.2 * (1 / σ))) (fun s => max |s.1| |s.2| ≤ σ) (f, g) (by
      obtain ⟨n, hn⟩ := exists_grown h0 h1 hpos
      refine ⟨n, ?_⟩
      rw [iterate_scale, not_le]
      rw [max_abs_scale _ _ _ (by positivity)]
      exact hn)
    refine ⟨k + 1, fun fuel hf' => ?_⟩
    rw [hrun fuel (by omega), iterate_scale]
    have := plain_all f g ((1 / σ) ^ (k + 1)) (by positivity) (0 + (k + 1)) σ (by rw [zero_add, mul_comm]; exact hcancel _) hf
    exact ⟨_, rfl, this.1, this.2.1, fun a _ => this.2.2 a⟩
  · simp only [if_neg hs]
    have := plain_all f g 1 one_pos 0 1 (by simp) hf
    rw [mul_one, mul_one] at this
    exact ⟨0, fun _ _ => ⟨_, rfl, this.1, this.2.1, fun a _ => this.2.2 a⟩⟩

/-! ## Complex numbers -/

theorem abssq_eq (z : ℂ) : abssq z = ‖z‖ ^ 2 := by
  rw [Complex.sq_norm, Complex.normSq_apply]
  rfl

theorem hypot_eq (z : ℂ) : hypot z.re z.im = ‖z‖ := by
  unfold hypot
  rw [show z.re ^ 2 + z.im ^ 2 = ‖z‖ ^ 2 by rw [← abssq_eq, abssq]; ring, Real.sqrt_sq (norm_nonneg z)]

theorem mk_div (z : ℂ) (d : ℝ) : (⟨z.re / d, z.im / d⟩ : ℂ) = z / (d : ℂ) := by
  apply Complex.ext <;> simp [Complex.div_ofReal_re, Complex.div_ofReal_im]

theorem mk_conj_div (z : ℂ) (d : ℝ) : (⟨z.re / d, -z.im / d⟩ : ℂ) = (starRingEnd ℂ) z / (d : ℂ) := by
  apply Complex.ext <;> simp [Complex.div_ofReal_re, Complex.div_ofReal_im]

theorem mk_mul (z : ℂ) (a : ℝ) : (⟨a * z.re, a * z.im⟩ : ℂ) = (a : ℂ) * z := by
  apply Complex.ext <;> simp

theorem abs1_le (z : ℂ) : abs1 z ≤ ‖z‖ := max_le (Complex.abs_re_le_norm z) (Complex.abs_im_le_norm z)

theorem abs1_pos {z : ℂ} (h : z ≠ 0) : 0 < abs1 z := by
  unfold abs1
  rcases lt_or_eq_of_le (le_max_of_le_left (abs_nonneg z.re) : 0 ≤ max |z.re| |z.im|) with h' | h'
  · exact h'
  · exfalso
    apply h
    have h1 : |z.re| ≤ 0 := by rw [h']; exact le_max_left _ _
    have h2 : |z.im| ≤ 0 := by rw [h']; exact le_max_right _ _
    exact Complex.ext (abs_nonpos_iff.mp h1) (abs_nonpos_iff.mp h2)

theorem abs1_mul (z : ℂ) {a : ℝ} (ha : 0 ≤ a) : abs1 (z * (a : ℂ)) = abs1 z * a := by
  unfold abs1
  simp only [Complex.re_mul_ofReal, Complex.im_mul_ofReal, abs_mul, abs_of_nonneg ha]
  rw [max_mul_of_nonneg _ _ ha]

theorem direction_eq {σ : ℝ} (h0 : 0 < σ) (f : ℂ) : direction σ f = f / (‖f‖ : ℂ) := by
  unfold direction
  split_ifs with h
  · simp only
    rw [mk_div, hypot_eq]
  · simp only
    have hre : 1 / σ * f.re = (((1 / σ : ℝ) : ℂ) * f).re := by simp
    have him : 1 / σ * f.im = (((1 / σ : ℝ) : ℂ) * f).im := by simp
    rw [hre, him, mk_div, hypot_eq, norm_mul, Complex.norm_real, Real.norm_of_nonneg (by positivity)]
    push_cast
    by_cases hf : f = 0
    · simp [hf]
    · have : ((‖f‖ : ℝ) : ℂ) ≠ 0 := by simpa using hf
      have hσ : (σ : ℂ) ≠ 0 := by exact_mod_cast h0.ne'
      field_simp

/-- The branch for an `f` that is not tiny: the rotation is exact, and `r` before the scaling is undone is `t` times what it should be. -/
theorem common_spec (safmin σ t : ℝ) (ht : 0 < t) (hm : 0 < safmin) (f g : ℂ) (count : ℤ) (hc : ¬ abssq (f * t) ≤ max (abssq (g * t)) 1 * safmin) :
    let o := afterScaling safmin σ f g (f * t) (g * t) count
    o.cs ^ 2 + ‖o.sn‖ ^ 2 = 1 ∧ (o.cs : ℂ) * g - (starRingEnd ℂ) o.sn * f = 0 ∧ o.r = undo σ count ((t : ℂ) * ((o.cs : ℂ) * f + o.sn * g)) ∧
      (o.cs : ℂ) * f + o.sn * g ≠ 0 := by
  intro o
  have hf2 : 0 < abssq (f * t) := lt_of_le_of_lt (by positivity) (not_le.mp hc)
  have hg2 : 0 ≤ abssq (g * t) := by rw [abssq_eq]; positivity
  have hd : 0 < abssq (f * t) + abssq (g * t) := by linarith
  set F := Real.sqrt (1 + abssq (g * t) / abssq (f * t)) with hF
  have hF2 : F ^ 2 * abssq (f * t) = abssq (f * t) + abssq (g * t) := by
    rw [hF, Real.sq_sqrt (by positivity), add_mul, one_mul, div_mul_cancel₀ _ hf2.ne']
  have hF0 : 0 < F := Real.sqrt_pos.mpr (by positivity)
  have hcs : o.cs = 1 / F := by
    show (afterScaling _ _ _ _ _ _ _).cs = _
    simp only [afterScaling, if_neg hc]
    rfl
  have hsn : o.sn = ((F / (abssq (f * t) + abssq (g * t)) : ℝ) : ℂ) * (f * t) * (starRingEnd ℂ) (g * t) := by
    show (afterScaling _ _ _ _ _ _ _).sn = _
    simp only [afterScaling, if_neg hc]
    rw [← hF]
    have := mk_div (⟨F * (f * t).re, F * (f * t).im⟩ : ℂ) (abssq (f * t) + abssq (g * t))
    simp only at this
    rw [this, mk_mul]
    push_cast
    ring
  have hr : o.r = undo σ count ((F : ℂ) * (f * t)) := by
    show (afterScaling _ _ _ _ _ _ _).r = _
    simp only [afterScaling, if_neg hc]
    rw [← hF, mk_mul]
  -- the same in terms of complex numbers
  have hff : (starRingEnd ℂ) (f * t) * (f * t) = ((abssq (f * t) : ℝ) : ℂ) := by
    rw [abssq_eq, Complex.conj_mul']
    push_cast
    rfl
  have hgg : (starRingEnd ℂ) (g * t) * (g * t) = ((abssq (g * t) : ℝ) : ℂ) := by
    rw [abssq_eq, Complex.conj_mul']
    push_cast
    rfl
  have htc : (t : ℂ) ≠ 0 := by exact_mod_cast ht.ne'
  have key1 : 1 / F = F / (abssq (f * t) + abssq (g * t)) * abssq (f * t) := by
    rw [div_mul_eq_mul_div, div_eq_div_iff hF0.ne' hd.ne', one_mul, ← hF2]
    ring
  have key2 : 1 / F + F / (abssq (f * t) + abssq (g * t)) * abssq (g * t) = F := by
    rw [key1, ← mul_add, div_mul_cancel₀ _ hd.ne']
  have hfirst : (o.cs : ℂ) * f + o.sn * g = (F : ℂ) * f := by
    have e : o.sn * g = ((F / (abssq (f * t) + abssq (g * t)) * abssq (g * t) : ℝ) : ℂ) * f := by
      rw [hsn]
      push_cast at hgg ⊢
      rw [← hgg]
      simp only [map_mul, Complex.conj_ofReal]
      ring
    rw [e, hcs]
    rw [← add_mul, ← Complex.ofReal_add, key2]
  refine ⟨?_, ?_, ?_, ?_⟩
  · rw [hcs, hsn]
    have : ‖((F / (abssq (f * t) + abssq (g * t)) : ℝ) : ℂ) * (f * t) * (starRingEnd ℂ) (g * t)‖ ^ 2 =
        (F / (abssq (f * t) + abssq (g * t))) ^ 2 * abssq (f * t) * abssq (g * t) := by
      rw [abssq_eq, abssq_eq, norm_mul, norm_mul, Complex.norm_conj, mul_pow, mul_pow, Complex.norm_real, Real.norm_eq_abs, sq_abs]
    rw [this]
    have e : (F / (abssq (f * t) + abssq (g * t))) ^ 2 * abssq (f * t) * abssq (g * t) = F / (abssq (f * t) + abssq (g * t)) * abssq (g * t) * (1 / F) := by
      rw [key1]; ring
    rw [e]
    have : (1 / F) ^ 2 + F / (abssq (f * t) + abssq (g * t)) * abssq (g * t) * (1 / F) = (1 / F + F / (abssq (f * t) + abssq (g * t)) * abssq (g * t)) * (1 / F) := by ring
    rw [this, key2, mul_one_div_cancel hF0.ne']
  · have e : (starRingEnd ℂ) o.sn * f = ((F / (abssq (f * t) + abssq (g * t)) * abssq (f * t) : ℝ) : ℂ) * g := by
      rw [hsn]
      push_cast at hff ⊢
      rw [← hff]
      simp only [map_mul, map_div₀, map_add, Complex.conj_ofReal, Complex.conj_conj]
      ring
    rw [e, ← key1, hcs, sub_self]
  · rw [hr, hfirst]
    congr 1
    ring
  · rw [hfirst]
    have hf : f ≠ 0 := by
      rintro rfl
      simp [abssq] at hf2
    exact mul_ne_zero (by exact_mod_cast hF0.ne') hf

/-- The branch for a tiny `f`: `r` is what it should be, and the rotation is unitary up to `safmin / σ²`. -/
theorem rare_spec (safmin σ t : ℝ) (h0 : 0 < σ) (ht : 0 < t) (hm : 0 < safmin) (hmσ : safmin < σ ^ 2) (h1 : σ < 1) (f g : ℂ) (count : ℤ)
    (hbig : σ < max (abs1 (f * t)) (abs1 (g * t))) (hc : abssq (f * t) ≤ max (abssq (g * t)) 1 * safmin) :
    let o := afterScaling safmin σ f g (f * t) (g * t) count
    AlmostRotates (safmin / σ ^ 2) f g o.cs o.sn ∧ o.r = (o.cs : ℂ) * f + o.sn * g := by
  intro o
  have hε : 0 ≤ safmin / σ ^ 2 := by positivity
  have hσ2 : σ ^ 2 < 1 := by nlinarith
  -- `g` is the large one
  have hratio : 0 < abssq (g * t) ∧ abssq (f * t) / abssq (g * t) ≤ safmin / σ ^ 2 := by
    rcases le_or_gt 1 (abssq (g * t)) with hg | hg
    · rw [max_eq_left hg] at hc
      have hpos : 0 < abssq (g * t) := by linarith
      refine ⟨hpos, ?_⟩
      rw [div_le_div_iff₀ hpos (by positivity)]
      nlinarith [mul_pos hpos hm]
    · rw [max_eq_right hg.le, one_mul] at hc
      have hsmall : abs1 (f * t) < σ := by
        refine lt_of_le_of_lt (abs1_le _) ?_
        rw [abssq_eq] at hc
        exact lt_of_pow_lt_pow_left₀ 2 h0.le (by linarith)
      have hgbig : σ < abs1 (g * t) := by
        rcases lt_max_iff.mp hbig with h | h
        · linarith
        · exact h
      have hg2 : σ ^ 2 < abssq (g * t) := by
        rw [abssq_eq]
        exact pow_lt_pow_left₀ (lt_of_lt_of_le hgbig (abs1_le _)) h0.le (by norm_num)
      have hpos : 0 < abssq (g * t) := lt_trans (by positivity) hg2
      refine ⟨hpos, ?_⟩
      rw [div_le_div_iff₀ hpos (by positivity)]
      have h3 : 0 ≤ abssq (f * t) := by rw [abssq_eq]; positivity
      nlinarith
  have hgpos : 0 < ‖g * t‖ := by
    have := hratio.1
    rw [abssq_eq] at this
    exact lt_of_le_of_ne (norm_nonneg _) (fun e => by rw [← e] at this; norm_num at this)
  have hnt : ∀ z : ℂ, ‖z * (t : ℂ)‖ = ‖z‖ * t := fun z => by rw [norm_mul, Complex.norm_real, Real.norm_of_nonneg ht.le]
  have hg : 0 < ‖g‖ := by
    rw [hnt] at hgpos
    exact pos_of_mul_pos_left hgpos ht.le
  have hgc : ((‖g‖ : ℝ) : ℂ) ≠ 0 := by exact_mod_cast hg.ne'
  have htc : (t : ℂ) ≠ 0 := by exact_mod_cast ht.ne'
  have hgg : (starRingEnd ℂ) g * g = (‖g‖ : ℂ) * (‖g‖ : ℂ) := by rw [Complex.conj_mul']; ring
  have hconj : (starRingEnd ℂ) (g * t) / ((‖g * (t : ℂ)‖ : ℝ) : ℂ) = (starRingEnd ℂ) g / (‖g‖ : ℂ) := by
    rw [hnt, map_mul, Complex.conj_ofReal]
    push_cast
    exact mul_div_mul_right _ _ htc
  by_cases hf : f = 0
  · have ho : o = { cs := 0, sn := (starRingEnd ℂ) g / (‖g‖ : ℂ), r := (‖g‖ : ℂ) } := by
      show afterScaling _ _ _ _ _ _ _ = _
      simp only [afterScaling, if_pos hc, if_pos hf]
      rw [mk_conj_div, hypot_eq, hypot_eq, hconj]
    rw [ho, hf]
    have hn : ‖(starRingEnd ℂ) g / (‖g‖ : ℂ)‖ = 1 := by
      rw [norm_div, Complex.norm_conj, Complex.norm_real, norm_norm, div_self hg.ne']
    refine ⟨⟨?_, ?_, ?_⟩, ?_⟩
    · simp only [hn]; norm_num
    · simp only [hn]; linarith
    · simp
    · simp only [mul_zero, zero_add]
      rw [div_mul_eq_mul_div, hgg, mul_div_assoc, div_self hgc, mul_one]
  · have hfn : 0 < ‖f‖ := norm_pos_iff.mpr hf
    have hfc : ((‖f‖ : ℝ) : ℂ) ≠ 0 := by exact_mod_cast hfn.ne'
    have hff : (starRingEnd ℂ) f * f = (‖f‖ : ℂ) * (‖f‖ : ℂ) := by rw [Complex.conj_mul']; ring
    have hcs : o.cs = ‖f‖ / ‖g‖ := by
      show (afterScaling _ _ _ _ _ _ _).cs = _
      simp only [afterScaling, if_pos hc, if_neg hf]
      rw [hypot_eq, abssq_eq, Real.sqrt_sq (norm_nonneg _), hnt, hnt, mul_div_mul_right _ _ ht.ne']
    have hsn : o.sn = f / (‖f‖ : ℂ) * ((starRingEnd ℂ) g / (‖g‖ : ℂ)) := by
      show (afterScaling _ _ _ _ _ _ _).sn = _
      simp only [afterScaling, if_pos hc, if_neg hf]
      rw [mk_conj_div, abssq_eq, Real.sqrt_sq (norm_nonneg _), hconj, direction_eq h0]
    have hr : o.r = (o.cs : ℂ) * f + o.sn * g := by
      show (afterScaling _ _ _ _ _ _ _).r = ((afterScaling _ _ _ _ _ _ _).cs : ℂ) * f + (afterScaling _ _ _ _ _ _ _).sn * g
      simp only [afterScaling, if_pos hc, if_neg hf]
    have hn : ‖f / (‖f‖ : ℂ) * ((starRingEnd ℂ) g / (‖g‖ : ℂ))‖ = 1 := by
      rw [norm_mul, norm_div, norm_div, Complex.norm_conj, Complex.norm_real, Complex.norm_real, norm_norm, norm_norm, div_self hfn.ne', div_self hg.ne', mul_one]
    refine ⟨⟨?_, ?_, ?_⟩, hr⟩
    · rw [hsn, hn]; nlinarith [sq_nonneg o.cs]
    · rw [hsn, hn, hcs]
      have := hratio.2
      rw [abssq_eq, abssq_eq, hnt, hnt, mul_pow, mul_pow, mul_div_mul_right _ _ (pow_ne_zero 2 ht.ne')] at this
      rw [div_pow]
      linarith
    · rw [hsn, hcs]
      simp only [map_mul, map_div₀, Complex.conj_ofReal, Complex.conj_conj]
      push_cast
      have : (starRingEnd ℂ) f / (‖f‖ : ℂ) * (g / (‖g‖ : ℂ)) * f = ((starRingEnd ℂ) f * f) / (‖f‖ : ℂ) * (g / (‖g‖ : ℂ)) := by ring
      rw [this, hff, mul_div_assoc, div_self hfc]
      ring

theorem iterate_scaleC (a : ℝ) (f g : ℂ) (m : ℝ) (n : ℕ) :
    (fun s : ℂ × ℂ × ℝ => (s.1 * (a : ℂ), s.2.1 * (a : ℂ), s.2.2 * a))^[n] (f, g, m) = (f * ((a ^ n : ℝ) : ℂ), g * ((a ^ n : ℝ) : ℂ), m * a ^ n) := by
  induction n with
  | zero => simp
  | succ n ih => rw [Function.iterate_succ_apply', ih]; simp [pow_succ, mul_assoc]

theorem undo_up {σ : ℝ} (h0 : 0 < σ) (k : ℕ) (z : ℂ) : undo σ ((k + 1 : ℕ) : ℤ) (((σ ^ (k + 1) : ℝ) : ℂ) * z) = z := by
  have h1 : ((k + 1 : ℕ) : ℤ) ≠ 0 := by omega
  have h2 : ((k + 1 : ℕ) : ℤ) > 0 := by omega
  simp only [undo, if_pos h1, if_pos h2]
  rw [loop_mul, Int.toNat_natCast, mul_comm _ z, mul_assoc]
  have : ((σ ^ (k + 1) : ℝ) : ℂ) * ((1 / σ : ℝ) : ℂ) ^ (k + 1) = 1 := by
    rw [← Complex.ofReal_pow, ← Complex.ofReal_mul, ← mul_pow, mul_one_div_cancel h0.ne']
    simp
  rw [this, mul_one]

/-- For a negative count the scaling is undone just if it was one round. -/
theorem undo_down {σ : ℝ} (h0 : 0 < σ) (k : ℕ) (z : ℂ) :
    undo σ (-((k + 1 : ℕ) : ℤ)) ((((1 / σ) ^ (k + 1) : ℝ) : ℂ) * z) = if k = 0 then z else (((1 / σ) ^ (k + 1) : ℝ) : ℂ) * z := by
  have h1 : -((k + 1 : ℕ) : ℤ) ≠ 0 := by omega
  have h2 : ¬ -((k + 1 : ℕ) : ℤ) > 0 := by omega
  simp only [undo, if_pos h1, if_neg h2, forDown]
  by_cases hk : k = 0
  · subst hk
    rw [if_pos rfl, loop_mul]
    have : (1 - - -((0 + 1 : ℕ) : ℤ) + 1).toNat = 1 := by decide
    rw [this]
    have hσ : (σ : ℂ) ≠ 0 := by exact_mod_cast h0.ne'
    push_cast
    field_simp
  · rw [if_neg hk, loop_mul]
    have : (1 - - -((k + 1 : ℕ) : ℤ) + 1).toNat = 0 := by omega
    rw [this, pow_zero, mul_one]

/-- All that holds of the complex rotation; `r` is off by a factor if it had to be scaled up more than once. -/
theorem setupComplex_spec {safmin σ : ℝ} (h0 : 0 < σ) (h1 : σ < 1) (hm : 0 < safmin) (hmσ : safmin < σ ^ 2) (f g : ℂ) :
    ∃ N, ∀ fuel, N ≤ fuel → ∃ o, setupComplex safmin σ fuel f g = some o ∧ AlmostRotates (safmin / σ ^ 2) f g o.cs o.sn ∧
      ((f = 0 ∨ g = 0 ∨ σ ^ 2 < max (abs1 f) (abs1 g)) → o.r = (o.cs : ℂ) * f + o.sn * g) ∧
      (0 < ‖g‖ → ‖g‖ ≤ ‖f‖ → max (abs1 f) (abs1 g) ≤ σ ^ 2 → o.r ≠ (o.cs : ℂ) * f + o.sn * g) := by
  have hσσ : σ ^ 2 < σ := by nlinarith
  have h2 : 1 < 1 / σ := by rw [lt_div_iff₀ h0]; linarith
  have hε : 0 ≤ safmin / σ ^ 2 := by positivity
  have hone : ∀ {o : Rot ℂ}, o.cs ^ 2 + ‖o.sn‖ ^ 2 = 1 → (o.cs : ℂ) * g - (starRingEnd ℂ) o.sn * f = 0 → AlmostRotates (safmin / σ ^ 2) f g o.cs o.sn :=
    fun h h' => ⟨h.ge, by rw [h]; linarith, h'⟩
  unfold setupComplex
  by_cases hl : max (abs1 f) (abs1 g) ≥ 1 / σ
  · simp only [if_pos hl]
    obtain ⟨k, hk, hall, hrun⟩ := doWhile_ends (fun s : ℂ × ℂ × ℝ => (s.1 * (σ : ℂ), s.2.1 * (σ : ℂ), s.2.2 * σ)) (fun s => s.2.2 ≥ 1 / σ) (f, g, max (abs1 f) (abs1 g)) (by
      obtain ⟨n, hn⟩ := exists_shrunk h0 h1 (max (abs1 f) (abs1 g))
      refine ⟨n, ?_⟩
      rw [iterate_scaleC, not_le]
      exact hn)
    refine ⟨k + 1, fun fuel hf' => ?_⟩
    rw [hrun fuel (by omega), iterate_scaleC]
    refine ⟨_, rfl, ?_⟩
    simp only [zero_add]
    have ht : 0 < σ ^ (k + 1) := by positivity
    by_cases hc : abssq (f * ((σ ^ (k + 1) : ℝ) : ℂ)) ≤ max (abssq (g * ((σ ^ (k + 1) : ℝ) : ℂ))) 1 * safmin
    · have hbig : σ < max (abs1 (f * ((σ ^ (k + 1) : ℝ) : ℂ))) (abs1 (g * ((σ ^ (k + 1) : ℝ) : ℂ))) := by
        rw [abs1_mul f ht.le, abs1_mul g ht.le, ← max_mul_of_nonneg _ _ ht.le]
        have : max (abs1 f) (abs1 g) * σ ^ k ≥ 1 / σ := by
          cases k with
          | zero => simpa using hl
          | succ k =>
            have := hall k (Nat.lt_succ_self k)
            rw [iterate_scaleC] at this
            exact this
        have : 1 ≤ max (abs1 f) (abs1 g) * σ ^ (k + 1) := by
          rw [pow_succ, ← mul_assoc]
          calc (1 : ℝ) = 1 / σ * σ := by field_simp
            _ ≤ _ := mul_le_mul_of_nonneg_right this h0.le
        linarith
      have := rare_spec safmin σ _ h0 ht hm hmσ h1 f g ((k + 1 : ℕ) : ℤ) hbig hc
      refine ⟨this.1, fun _ => this.2, fun _ _ hle => ?_⟩
      linarith
    · have := common_spec safmin σ _ ht hm f g ((k + 1 : ℕ) : ℤ) hc
      refine ⟨hone this.1 this.2.1, fun _ => this.2.2.1.trans (undo_up h0 k _), fun _ _ hle => ?_⟩
      linarith
  simp only [if_neg hl]
  by_cases hs : max (abs1 f) (abs1 g) ≤ σ
  · simp only [if_pos hs]
    by_cases hg : g = 0
    · subst hg
      refine ⟨0, fun _ _ => ⟨_, by rw [if_pos rfl], ⟨by norm_num, by norm_num; exact hε, by simp⟩, fun _ => by simp, fun h => absurd h (by simp)⟩⟩
    simp only [if_neg hg]
    have hpos : 0 < max (abs1 f) (abs1 g) := lt_max_of_lt_right (abs1_pos hg)
    obtain ⟨k, hk, hall, hrun⟩ := doWhile_ends (fun s : ℂ × ℂ × ℝ => (s.1 * ((1 / σ : ℝ) : ℂ), s.2.1 * ((1 / σ : ℝ) : ℂ), s.2.2 * (1 / σ))) (fun s => s.2.2 ≤ σ)
      (f, g, max (abs1 f) (abs1 g)) (by
      obtain ⟨n, hn⟩ := exists_grown h0 h1 hpos
      refine ⟨n, ?_⟩
      rw [iterate_scaleC, not_le]
      exact hn)
    rw [iterate_scaleC] at hk
    have hk' : σ < max (abs1 f) (abs1 g) * (1 / σ) ^ (k + 1) := not_le.mp hk
    refine ⟨k + 1, fun fuel hf' => ?_⟩
    rw [hrun fuel (by omega), iterate_scaleC]
    refine ⟨_, rfl, ?_⟩
    simp only [zero_add]
    have ht : 0 < (1 / σ) ^ (k + 1) := by positivity
    have hk0 : k = 0 ↔ σ ^ 2 < max (abs1 f) (abs1 g) := by
      constructor
      · rintro rfl
        rw [zero_add, pow_one, mul_one_div, lt_div_iff₀ h0] at hk'
        rw [pow_two]
        exact hk'
      · intro h
        by_contra hne
        have := hall 0 (Nat.pos_of_ne_zero hne)
        rw [iterate_scaleC] at this
        simp only [zero_add, pow_one] at this
        rw [mul_one_div, div_le_iff₀ h0, ← pow_two] at this
        linarith
    have hbig : σ < max (abs1 (f * (((1 / σ) ^ (k + 1) : ℝ) : ℂ))) (abs1 (g * (((1 / σ) ^ (k + 1) : ℝ) : ℂ))) := by
      rw [abs1_mul f ht.le, abs1_mul g ht.le, ← max_mul_of_nonneg _ _ ht.le]
      exact hk'
    by_cases hc : abssq (f * (((1 / σ) ^ (k + 1) : ℝ) : ℂ)) ≤ max (abssq (g * (((1 / σ) ^ (k + 1) : ℝ) : ℂ))) 1 * safmin
    · have := rare_spec safmin σ _ h0 ht hm hmσ h1 f g (-((k + 1 : ℕ) : ℤ)) hbig hc
      refine ⟨this.1, fun _ => this.2, fun hgp hgf _ => ?_⟩
      exfalso
      have hgf' : abssq (g * (((1 / σ) ^ (k + 1) : ℝ) : ℂ)) ≤ abssq (f * (((1 / σ) ^ (k + 1) : ℝ) : ℂ)) := by
        rw [abssq_eq, abssq_eq, norm_mul, norm_mul]
        exact pow_le_pow_left₀ (by positivity) (mul_le_mul_of_nonneg_right hgf (norm_nonneg _)) 2
      have hfb : σ ^ 2 < abssq (f * (((1 / σ) ^ (k + 1) : ℝ) : ℂ)) := by
        rcases lt_max_iff.mp hbig with h | h
        · rw [abssq_eq]
          exact pow_lt_pow_left₀ (lt_of_lt_of_le h (abs1_le _)) h0.le (by norm_num)
        · refine lt_of_lt_of_le ?_ hgf'
          rw [abssq_eq]
          exact pow_lt_pow_left₀ (lt_of_lt_of_le h (abs1_le _)) h0.le (by norm_num)
      have hσ2 : σ ^ 2 < 1 := by nlinarith
      rcases le_total (abssq (g * (((1 / σ) ^ (k + 1) : ℝ) : ℂ))) 1 with h | h
      · rw [max_eq_right h] at hc
        linarith
      · rw [max_eq_left h] at hc
        nlinarith
    · have := common_spec safmin σ _ ht hm f g (-((k + 1 : ℕ) : ℤ)) hc
      have hr := this.2.2.1.trans (undo_down h0 k _)
      refine ⟨hone this.1 this.2.1, fun h => ?_, fun _ _ hle => ?_⟩
      · have hk : k = 0 := by
          rcases h with h | h | h
          · exfalso
            apply hc
            rw [h]
            simp only [zero_mul, abssq, Complex.zero_re, Complex.zero_im, mul_zero, add_zero]
            positivity
          · exact absurd h hg
          · exact hk0.mpr h
        rw [hr, if_pos hk]
      · have hk : k ≠ 0 := fun h => absurd (hk0.mp h) (not_lt.mpr hle)
        rw [hr, if_neg hk]
        intro heq
        have hne := this.2.2.2
        have h3 : (((1 / σ) ^ (k + 1) : ℝ) : ℂ) = 1 := mul_right_cancel₀ hne (by rw [heq, one_mul])
        have h4 : (1 / σ) ^ (k + 1) = 1 := by exact_mod_cast h3
        have h5 : 1 < (1 / σ) ^ (k + 1) := one_lt_pow₀ h2 (by omega)
        linarith
  · simp only [if_neg hs]
    refine ⟨0, fun _ _ => ⟨_, rfl, ?_⟩⟩
    have hbig : σ < max (abs1 (f * ((1 : ℝ) : ℂ))) (abs1 (g * ((1 : ℝ) : ℂ))) := by
      simpa using not_le.mp hs
    by_cases hc : abssq (f * ((1 : ℝ) : ℂ)) ≤ max (abssq (g * ((1 : ℝ) : ℂ))) 1 * safmin
    · have := rare_spec safmin σ 1 h0 one_pos hm hmσ h1 f g 0 hbig hc
      simp only [Complex.ofReal_one, mul_one] at this
      refine ⟨this.1, fun _ => this.2, fun _ _ hle => ?_⟩
      have := not_le.mp hs
      linarith
    · have := common_spec safmin σ 1 one_pos hm f g 0 hc
      simp only [Complex.ofReal_one, mul_one] at this
      refine ⟨hone this.1 this.2.1, fun _ => ?_, fun _ _ hle => ?_⟩
      · rw [this.2.2.1]
        simp [undo]
      · have := not_le.mp hs
        linarith

/-! ## Applying a rotation -/

theorem applyReal_apply (n : ℕ) (c s : ℝ) (x y : ℕ → ℝ) :
    applyReal n c s (x, y) = (fun i => if i < n then c * x i + s * y i else x i, fun i => if i < n then c * y i - s * x i else y i) := by
  have := loop_invariant (fun k (t : (ℕ → ℝ) × (ℕ → ℝ)) => t = (fun i => if i < k then c * x i + s * y i else x i, fun i => if i < k then c * y i - s * x i else y i)) (Nat.zero_le n)
    (fun i xy => (Function.update xy.1 i (c * xy.1 i + s * xy.2 i), Function.update xy.2 i (c * xy.2 i - s * xy.1 i))) (x, y) (by simp) ?_
  · exact this
  · rintro k _ _ t rfl
    refine Prod.ext ?_ ?_ <;>
    · funext i
      by_cases hi : i = k
      · subst hi; simp
      · have : i < k ↔ i < k + 1 := by omega
        simp [Function.update_of_ne hi, this]

theorem applyComplex_apply (n : ℕ) (c : ℝ) (s : ℂ) (x y : ℕ → ℂ) :
    applyComplex n c s (x, y) =
      (fun i => if i < n then (c : ℂ) * x i + s * y i else x i, fun i => if i < n then (c : ℂ) * y i - (starRingEnd ℂ) s * x i else y i) := by
  have := loop_invariant (fun k (t : (ℕ → ℂ) × (ℕ → ℂ)) => t = (fun i => if i < k then (c : ℂ) * x i + s * y i else x i,
      fun i => if i < k then (c : ℂ) * y i - (starRingEnd ℂ) s * x i else y i)) (Nat.zero_le n)
    (fun i xy => (Function.update xy.1 i ((c : ℂ) * xy.1 i + s * xy.2 i), Function.update xy.2 i ((c : ℂ) * xy.2 i - (starRingEnd ℂ) s * xy.1 i))) (x, y) (by simp) ?_
  · exact this
  · rintro k _ _ t rfl
    refine Prod.ext ?_ ?_ <;>
    · funext i
      by_cases hi : i = k
      · subst hi; simp
      · have : i < k ↔ i < k + 1 := by omega
        simp [Function.update_of_ne hi, this]

end OpenKalman.Givens
