import Verif.Spec.MonteLimit
import Verif.Theorems.MonteCarlo
import Mathlib.Probability.StrongLaw

/-! # Lemmas for C173 -/

namespace OpenKalman.MonteCarlo
open MeasureTheory ProbabilityTheory Filter Topology

variable {Ω δ : Type} [MeasurableSpace Ω] [MeasurableSpace δ] {n m : ℕ}

theorem sum_map_range (f : ℕ → ℝ) (N : ℕ) : ((List.range N).map f).sum = ∑ k ∈ Finset.range N, f k := by
  induction N with
  | zero => rfl
  | succ N ih => rw [List.range_succ, List.map_append, List.sum_append, ih, Finset.sum_range_succ]; simp

theorem avg_drawn (x : δ → Fin n → ℝ) (y : δ → Fin m → ℝ) (D : ℕ → Ω → δ) (N : ℕ) (ω : Ω) (F : Sample ℝ n m → ℝ) :
    avg (drawn x y D N ω) F = (∑ k ∈ Finset.range N, F ⟨x (D k ω), y (D k ω)⟩) / N := by
  rw [avg, drawn, List.map_map, List.length_map, List.length_range, ← sum_map_range]
  rfl

/-- The covariance of a sample by the sums of products. -/
theorem cov_drawn (x : δ → Fin n → ℝ) (y : δ → Fin m → ℝ) (D : ℕ → Ω → δ) (N : ℕ) (hN : 2 ≤ N) (ω : Ω) (F G : Sample ℝ n m → ℝ) (f g : δ → ℝ) (hf : ∀ d, F ⟨x d, y d⟩ = f d)
    (hg : ∀ d, G ⟨x d, y d⟩ = g d) :
    cov (drawn x y D N ω) F G =
      (∑ k ∈ Finset.range N, f (D k ω) * g (D k ω) - (∑ k ∈ Finset.range N, f (D k ω)) * (∑ k ∈ Finset.range N, g (D k ω)) / N) / (N - 1) := by
  have hN' : (N : ℝ) ≠ 0 := by positivity
  unfold cov
  rw [avg_drawn, avg_drawn]
  have hl : (drawn x y D N ω).length = N := by rw [drawn, List.length_map, List.length_range]
  rw [hl, drawn, List.map_map, ← sum_map_range]
  congr 1
  simp only [Function.comp_def, hf, hg, star_trivial]
  rw [sum_map_range, sum_map_range]
  set A := ∑ k ∈ Finset.range N, f (D k ω)
  set B := ∑ k ∈ Finset.range N, g (D k ω)
  have e : ∀ k, (f (D k ω) - A / N) * (g (D k ω) - B / N) = f (D k ω) * g (D k ω) - f (D k ω) * (B / N) - A / N * g (D k ω) + A / N * (B / N) := fun k => by ring
  simp only [e, Finset.sum_add_distrib, Finset.sum_sub_distrib, ← Finset.sum_mul, ← Finset.mul_sum, Finset.sum_const, Finset.card_range, nsmul_eq_mul]
  field_simp
  ring

variable {P : Measure Ω} [IsProbabilityMeasure P] {D : ℕ → Ω → δ}

theorem Draws.ident_comp (h : Draws P D) {f : δ → ℝ} (hf : Measurable f) (k : ℕ) : IdentDistrib (fun ω => f (D k ω)) (fun ω => f (D 0 ω)) P P := (h.ident k).comp hf

theorem Good.memLp {f : δ → ℝ} (hf : Good P D f) (h : Draws P D) (k : ℕ) : MemLp (fun ω => f (D k ω)) 2 P := (h.ident_comp hf.meas k).memLp_iff.2 hf.square

theorem Good.int {f : δ → ℝ} (hf : Good P D f) (h : Draws P D) (k : ℕ) : Integrable (fun ω => f (D k ω)) P := (hf.memLp h k).integrable (by norm_num)

theorem Draws.mean_eq (h : Draws P D) {f : δ → ℝ} (hf : Measurable f) (k : ℕ) : ∫ ω, f (D k ω) ∂P = ∫ ω, f (D 0 ω) ∂P := (h.ident_comp hf k).integral_eq

theorem prod_int {f g : δ → ℝ} (hf : Good P D f) (hg : Good P D g) (h : Draws P D) (j k : ℕ) : Integrable (fun ω => f (D j ω) * g (D k ω)) P :=
  (hf.memLp h j).integrable_mul (hg.memLp h k)

theorem mean_prod {f g : δ → ℝ} (hf : Good P D f) (hg : Good P D g) (h : Draws P D) (j k : ℕ) :
    ∫ ω, f (D j ω) * g (D k ω) ∂P = if j = k then ∫ ω, f (D 0 ω) * g (D 0 ω) ∂P else (∫ ω, f (D 0 ω) ∂P) * ∫ ω, g (D 0 ω) ∂P := by
  split_ifs with e
  · subst e
    exact h.mean_eq (hf.meas.mul hg.meas) j
  · have hi : IndepFun (fun ω => f (D j ω)) (fun ω => g (D k ω)) P := (h.indep e).comp hf.meas hg.meas
    rw [hi.integral_fun_mul_eq_mul_integral (hf.int h j).aestronglyMeasurable (hg.int h k).aestronglyMeasurable, h.mean_eq hf.meas j, h.mean_eq hg.meas k]

/-- Means over the draws converge. -/
theorem avg_tendsto {f : δ → ℝ} (hf : Measurable f) (hi : Integrable (fun ω => f (D 0 ω)) P) (h : Draws P D) :
    ∀ᵐ ω ∂P, Tendsto (fun N : ℕ => (∑ k ∈ Finset.range N, f (D k ω)) / N) atTop (𝓝 (∫ ω, f (D 0 ω) ∂P)) :=
  strong_law_ae_real (fun k ω => f (D k ω)) hi (fun _ _ e => (h.indep e).comp hf hf) fun k => h.ident_comp hf k

/-- And so do covariances. -/
theorem cov_tendsto {f g : δ → ℝ} (hf : Good P D f) (hg : Good P D g) (h : Draws P D) :
    ∀ᵐ ω ∂P, Tendsto (fun N : ℕ => (∑ k ∈ Finset.range N, f (D k ω) * g (D k ω) - (∑ k ∈ Finset.range N, f (D k ω)) * (∑ k ∈ Finset.range N, g (D k ω)) / N) / ((N : ℝ) - 1)) atTop
      (𝓝 (cov[fun ω => f (D 0 ω), fun ω => g (D 0 ω); P])) := by
  filter_upwards [avg_tendsto hf.meas (hf.int h 0) h, avg_tendsto hg.meas (hg.int h 0) h, avg_tendsto (hf.meas.mul hg.meas) (prod_int hf hg h 0 0) h] with ω h1 h2 h3
  rw [covariance_eq_sub hf.square hg.square]
  have h4 : Tendsto (fun N : ℕ => (N : ℝ) / ((N : ℝ) - 1)) atTop (𝓝 1) := by
    have : Tendsto (fun N : ℕ => 1 + 1 / ((N : ℝ) - 1)) atTop (𝓝 (1 + 0)) := by
      refine tendsto_const_nhds.add ?_
      have := (tendsto_inv_atTop_zero (𝕜 := ℝ)).comp (tendsto_atTop_add_const_right _ (-1) (tendsto_natCast_atTop_atTop (R := ℝ)))
      simpa only [one_div, Function.comp_def, ← sub_eq_add_neg] using this
    rw [add_zero] at this
    refine this.congr' ?_
    filter_upwards [eventually_ge_atTop 2] with N hN
    have : (N : ℝ) - 1 ≠ 0 := by
      have : (2 : ℝ) ≤ N := by exact_mod_cast hN
      linarith
    field_simp
    ring
  have h5 := h4.mul (h3.sub (h1.mul h2))
  rw [one_mul] at h5
  refine (h5.congr' ?_)
  filter_upwards [eventually_ge_atTop 2] with N hN
  have hN0 : (N : ℝ) ≠ 0 := by positivity
  have : (N : ℝ) - 1 ≠ 0 := by
    have : (2 : ℝ) ≤ N := by exact_mod_cast hN
    linarith
  simp only [Pi.mul_apply]
  field_simp

/-- The expectation of a covariance of samples. -/
theorem cov_mean {f g : δ → ℝ} (hf : Good P D f) (hg : Good P D g) (h : Draws P D) (N : ℕ) (hN : 2 ≤ N) :
    ∫ ω, (∑ k ∈ Finset.range N, f (D k ω) * g (D k ω) - (∑ k ∈ Finset.range N, f (D k ω)) * (∑ k ∈ Finset.range N, g (D k ω)) / N) / ((N : ℝ) - 1) ∂P =
      cov[fun ω => f (D 0 ω), fun ω => g (D 0 ω); P] := by
  have hN0 : (N : ℝ) ≠ 0 := by positivity
  have hN1 : (N : ℝ) - 1 ≠ 0 := by
    have : (2 : ℝ) ≤ N := by exact_mod_cast hN
    linarith
  have i1 : Integrable (fun ω => ∑ k ∈ Finset.range N, f (D k ω) * g (D k ω)) P := integrable_finsetSum _ fun k _ => prod_int hf hg h k k
  have i2 : Integrable (fun ω => ∑ j ∈ Finset.range N, ∑ k ∈ Finset.range N, f (D j ω) * g (D k ω)) P :=
    integrable_finsetSum _ fun j _ => integrable_finsetSum _ fun k _ => prod_int hf hg h j k
  rw [integral_div]
  simp only [Finset.sum_mul_sum]
  rw [integral_sub i1 (i2.div_const _), integral_div, integral_finsetSum _ fun k _ => prod_int hf hg h k k,
    integral_finsetSum _ fun j _ => integrable_finsetSum _ fun k _ => prod_int hf hg h j k]
  have e2 : ∀ j ∈ Finset.range N, ∫ ω, ∑ k ∈ Finset.range N, f (D j ω) * g (D k ω) ∂P =
      ∫ ω, f (D 0 ω) * g (D 0 ω) ∂P + ((N : ℝ) - 1) * ((∫ ω, f (D 0 ω) ∂P) * ∫ ω, g (D 0 ω) ∂P) := by
    intro j hj
    rw [integral_finsetSum _ fun k _ => prod_int hf hg h j k]
    rw [Finset.sum_congr rfl fun k _ => mean_prod hf hg h j k]
    rw [← Finset.add_sum_erase _ _ hj, if_pos rfl, Finset.sum_congr rfl (g := fun _ => (∫ ω, f (D 0 ω) ∂P) * ∫ ω, g (D 0 ω) ∂P)
      fun k hk => if_neg (Finset.ne_of_mem_erase hk).symm, Finset.sum_const, Finset.card_erase_of_mem hj, Finset.card_range, nsmul_eq_mul, Nat.cast_sub (by omega), Nat.cast_one]
  have e1 : ∀ k ∈ Finset.range N, ∫ ω, f (D k ω) * g (D k ω) ∂P = ∫ ω, f (D 0 ω) * g (D 0 ω) ∂P := fun k _ => by rw [mean_prod hf hg h, if_pos rfl]
  rw [Finset.sum_congr rfl e2, Finset.sum_congr rfl e1]
  simp only [Finset.sum_const, Finset.card_range, nsmul_eq_mul]
  rw [covariance_eq_sub hf.square hg.square]
  simp only [Pi.mul_apply]
  field_simp
  ring

theorem avg_mean {f : δ → ℝ} (hf : Good P D f) (h : Draws P D) (N : ℕ) (hN : N ≠ 0) : ∫ ω, (∑ k ∈ Finset.range N, f (D k ω)) / N ∂P = ∫ ω, f (D 0 ω) ∂P := by
  have hN0 : (N : ℝ) ≠ 0 := by exact_mod_cast hN
  rw [integral_div, integral_finsetSum _ fun k _ => hf.int h k, Finset.sum_congr rfl fun k _ => h.mean_eq hf.meas k, Finset.sum_const, Finset.card_range, nsmul_eq_mul]
  field_simp

theorem avg_variance {f : δ → ℝ} (hf : Good P D f) (h : Draws P D) (N : ℕ) (hN : N ≠ 0) :
    Var[fun ω => (∑ k ∈ Finset.range N, f (D k ω)) / N; P] = Var[fun ω => f (D 0 ω); P] / N := by
  have hN0 : (N : ℝ) ≠ 0 := by exact_mod_cast hN
  have e : (fun ω => (∑ k ∈ Finset.range N, f (D k ω)) / N) = fun ω => (N : ℝ)⁻¹ * (∑ k ∈ Finset.range N, fun ω => f (D k ω)) ω := by
    funext ω
    rw [Finset.sum_apply, div_eq_inv_mul]
  rw [e, variance_const_mul, IndepFun.variance_sum (fun k _ => hf.memLp h k) fun i _ j _ e => (h.indep e).comp hf.meas hf.meas,
    Finset.sum_congr rfl fun k _ => (h.ident_comp hf.meas k).variance_eq, Finset.sum_const, Finset.card_range, nsmul_eq_mul]
  field_simp

end OpenKalman.MonteCarlo
