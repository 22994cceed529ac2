import Verif.Spec.Moments
import Verif.Theorems.SigmaPoints
import Mathlib.Probability.Distributions.Gaussian.HasGaussianLaw.Independence
import Mathlib.Probability.Moments.MGFAnalytic

/-! # Moments of random vectors and of sample points -/

set_option linter.unusedSectionVars false

namespace OpenKalman.Moments
open MeasureTheory ProbabilityTheory Matrix OpenKalman.SigmaPoints

variable {Ω σ : Type} [MeasurableSpace Ω] {P : Measure Ω} [IsProbabilityMeasure P]

/-! ## Polynomials around a point -/

/-- Products of at most `k` coordinates. -/
def products (σ : Type) (k : ℕ) : Set ((σ → ℝ) → ℝ) := {f | ∃ S : Multiset σ, S.card ≤ k ∧ f = fun d => (S.map d).prod}

theorem products_mono {k l : ℕ} (h : k ≤ l) : Submodule.span ℝ (products σ k) ≤ Submodule.span ℝ (products σ l) := by
  refine Submodule.span_mono ?_
  rintro f ⟨S, hS, rfl⟩
  exact ⟨S, hS.trans h, rfl⟩

/-- Multiplication by a coordinate. -/
theorem coord_mul {k : ℕ} (s : σ) {f : (σ → ℝ) → ℝ} (hf : f ∈ Submodule.span ℝ (products σ k)) :
    (fun d => d s * f d) ∈ Submodule.span ℝ (products σ (k + 1)) := by
  induction hf using Submodule.span_induction with
  | mem f hf =>
    obtain ⟨S, hS, rfl⟩ := hf
    refine Submodule.subset_span ⟨s ::ₘ S, by rw [Multiset.card_cons]; omega, ?_⟩
    funext d
    rw [Multiset.map_cons, Multiset.prod_cons]
  | zero =>
    have : (fun d : σ → ℝ => d s * (0 : (σ → ℝ) → ℝ) d) = 0 := by
      funext d
      simp
    rw [this]
    exact Submodule.zero_mem _
  | add f g _ _ hf hg =>
    have : (fun d : σ → ℝ => d s * (f + g) d) = (fun d => d s * f d) + fun d => d s * g d := by
      funext d
      simp [mul_add]
    rw [this]
    exact Submodule.add_mem _ hf hg
  | smul c f _ hf =>
    have : (fun d : σ → ℝ => d s * (c • f) d) = c • fun d => d s * f d := by
      funext d
      simp only [Pi.smul_apply, smul_eq_mul]
      ring
    rw [this]
    exact Submodule.smul_mem _ c hf

/-- A product of coordinates that are moved by `m`. -/
theorem moved_product (m : σ → ℝ) (S : Multiset σ) : (fun d => (S.map fun s => d s + m s).prod) ∈ Submodule.span ℝ (products σ S.card) := by
  induction S using Multiset.induction with
  | empty => exact Submodule.subset_span ⟨0, le_refl _, by funext d; simp⟩
  | cons s S ih =>
    have : (fun d : σ → ℝ => ((s ::ₘ S).map fun s => d s + m s).prod) =
        (fun d => d s * (S.map fun s => d s + m s).prod) + m s • fun d => (S.map fun s => d s + m s).prod := by
      funext d
      simp only [Multiset.map_cons, Multiset.prod_cons, Pi.add_apply, Pi.smul_apply, smul_eq_mul]
      ring
    rw [this, Multiset.card_cons]
    exact Submodule.add_mem _ (coord_mul s ih) (Submodule.smul_mem _ _ (products_mono (Nat.le_succ _) ih))

/-- A polynomial function around a point. -/
theorem PolyFun.around {k : ℕ} {f : (σ → ℝ) → ℝ} (hf : PolyFun k f) (m : σ → ℝ) : (fun d => f (fun s => d s + m s)) ∈ Submodule.span ℝ (products σ k) := by
  obtain ⟨p, hp, e⟩ := hf
  have : (fun d => f fun s => d s + m s) = ∑ v ∈ p.support, p.coeff v • fun d : σ → ℝ => (v.toMultiset.map fun s => d s + m s).prod := by
    funext d
    rw [e, MvPolynomial.eval_eq, Finset.sum_apply]
    refine Finset.sum_congr rfl fun v _ => ?_
    rw [Pi.smul_apply, smul_eq_mul, Finsupp.toMultiset_map, Finsupp.prod_toMultiset, Finsupp.prod_mapDomain_index (fun _ => pow_zero _) (fun _ _ _ => pow_add _ _ _)]
    rfl
  rw [this]
  refine Submodule.sum_mem _ fun v hv => Submodule.smul_mem _ _ (products_mono ?_ (moved_product m _))
  rw [Finsupp.card_toMultiset]
  exact (MvPolynomial.le_totalDegree hv).trans hp

/-! ## Expectations of polynomials -/

theorem memLp_one_of_three {X Y Z : Ω → ℝ} (hX : MemLp X 3 P) (hY : MemLp Y 3 P) (hZ : MemLp Z 3 P) : Integrable (fun ω => X ω * Y ω * Z ω) P := by
  have h := MemLp.prod' (s := Finset.univ) (f := ![X, Y, Z]) (p := fun _ : Fin 3 => 3) (μ := P) (by
    intro i _
    fin_cases i
    · exact hX
    · exact hY
    · exact hZ)
  have e : (∑ _i : Fin 3, (3 : ENNReal)⁻¹)⁻¹ = 1 := by
    rw [Finset.sum_const, Finset.card_univ, Fintype.card_fin, nsmul_eq_mul]
    norm_num
    rw [ENNReal.mul_inv_cancel (by norm_num) (by norm_num)]
  rw [e] at h
  have h2 := memLp_one_iff_integrable.1 h
  refine h2.congr (Filter.Eventually.of_forall fun ω => ?_)
  simp [Fin.prod_univ_three]

section balanced
variable {X : Ω → σ → ℝ} {m : σ → ℝ} {C : Matrix σ σ ℝ}

theorem Balanced.dev (h : Balanced P X m C) (s : σ) : MemLp (fun ω => X ω s - m s) 3 P := (h.power s).sub (memLp_const _)

theorem Balanced.int1 (h : Balanced P X m C) (s : σ) : Integrable (fun ω => X ω s - m s) P := (h.dev s).integrable (by norm_num)

theorem Balanced.int2 (h : Balanced P X m C) (s t : σ) : Integrable (fun ω => (X ω s - m s) * (X ω t - m t)) P :=
  ((h.dev s).mono_exponent (by norm_num : (2 : ENNReal) ≤ 3)).integrable_mul ((h.dev t).mono_exponent (by norm_num : (2 : ENNReal) ≤ 3))

theorem Balanced.int3 (h : Balanced P X m C) (s t u : σ) : Integrable (fun ω => (X ω s - m s) * (X ω t - m t) * (X ω u - m u)) P :=
  memLp_one_of_three (h.dev s) (h.dev t) (h.dev u)

theorem Balanced.first (h : Balanced P X m C) (s : σ) : ∫ ω, (X ω s - m s) ∂P = 0 := by
  rw [integral_sub ((h.power s).integrable (by norm_num)) (integrable_const _), h.mean, integral_const]
  simp

/-- Weighted points with the same moments as `X` give the same mean of every polynomial of degree at most 3. -/
theorem Balanced.expect (h : Balanced P X m C) {count : ℕ} (w : Fin count → ℝ) (Z : Matrix σ (Fin count) ℝ) (h0 : ∑ c, w c = 1) (h1 : ∀ s, ∑ c, w c * Z s c = 0)
    (h2 : ∀ s t, ∑ c, w c * (Z s c * Z t c) = C s t) (h3 : ∀ s t u, ∑ c, w c * (Z s c * Z t c * Z u c) = 0) {f : (σ → ℝ) → ℝ}
    (hf : f ∈ Submodule.span ℝ (products σ 3)) :
    Integrable (fun ω => f fun s => X ω s - m s) P ∧ ∫ ω, f (fun s => X ω s - m s) ∂P = ∑ c, w c * f fun s => Z s c := by
  induction hf using Submodule.span_induction with
  | mem f hf =>
    obtain ⟨S, hS, rfl⟩ := hf
    have hc : S.card = 0 ∨ S.card = 1 ∨ S.card = 2 ∨ S.card = 3 := by omega
    rcases hc with hc | hc | hc | hc
    · rw [Multiset.card_eq_zero] at hc
      subst hc
      simp [h0]
    · obtain ⟨s, rfl⟩ := Multiset.card_eq_one.1 hc
      simp only [Multiset.map_singleton, Multiset.prod_singleton]
      exact ⟨h.int1 s, (h.first s).trans (h1 s).symm⟩
    · obtain ⟨s, t, rfl⟩ := Multiset.card_eq_two.1 hc
      simp only [Multiset.insert_eq_cons, Multiset.map_cons, Multiset.map_singleton, Multiset.prod_cons, Multiset.prod_singleton]
      exact ⟨h.int2 s t, (h.second s t).trans (h2 s t).symm⟩
    · obtain ⟨s, t, u, rfl⟩ := Multiset.card_eq_three.1 hc
      simp only [Multiset.insert_eq_cons, Multiset.map_cons, Multiset.map_singleton, Multiset.prod_cons, Multiset.prod_singleton, ← mul_assoc]
      refine ⟨h.int3 s t u, (h.third s t u).trans ?_⟩
      rw [← h3 s t u]
      exact Finset.sum_congr rfl fun c _ => by ring
  | zero => simp
  | add f g _ _ hf hg =>
    refine ⟨hf.1.add hg.1, ?_⟩
    simp only [Pi.add_apply, mul_add, Finset.sum_add_distrib]
    rw [integral_add hf.1 hg.1, hf.2, hg.2]
  | smul c f _ hf =>
    refine ⟨hf.1.const_mul c, ?_⟩
    simp only [Pi.smul_apply, smul_eq_mul]
    rw [integral_const_mul, hf.2, Finset.mul_sum]
    exact Finset.sum_congr rfl fun _ _ => by ring

/-- The same for products with a coordinate, for which the sum of the weights does not matter. -/
theorem Balanced.expect_coord (h : Balanced P X m C) {count : ℕ} (w : Fin count → ℝ) (Z : Matrix σ (Fin count) ℝ) (h1 : ∀ s, ∑ c, w c * Z s c = 0)
    (h2 : ∀ s t, ∑ c, w c * (Z s c * Z t c) = C s t) (h3 : ∀ s t u, ∑ c, w c * (Z s c * Z t c * Z u c) = 0) (a : σ) {f : (σ → ℝ) → ℝ}
    (hf : f ∈ Submodule.span ℝ (products σ 2)) :
    Integrable (fun ω => (X ω a - m a) * f fun s => X ω s - m s) P ∧ ∫ ω, (X ω a - m a) * f (fun s => X ω s - m s) ∂P = ∑ c, w c * (Z a c * f fun s => Z s c) := by
  induction hf using Submodule.span_induction with
  | mem f hf =>
    obtain ⟨S, hS, rfl⟩ := hf
    have hc : S.card = 0 ∨ S.card = 1 ∨ S.card = 2 := by omega
    rcases hc with hc | hc | hc
    · rw [Multiset.card_eq_zero] at hc
      subst hc
      simp only [Multiset.map_zero, Multiset.prod_zero, mul_one]
      exact ⟨h.int1 a, (h.first a).trans (h1 a).symm⟩
    · obtain ⟨s, rfl⟩ := Multiset.card_eq_one.1 hc
      simp only [Multiset.map_singleton, Multiset.prod_singleton]
      exact ⟨h.int2 a s, (h.second a s).trans (h2 a s).symm⟩
    · obtain ⟨s, t, rfl⟩ := Multiset.card_eq_two.1 hc
      simp only [Multiset.insert_eq_cons, Multiset.map_cons, Multiset.map_singleton, Multiset.prod_cons, Multiset.prod_singleton, ← mul_assoc]
      refine ⟨h.int3 a s t, (h.third a s t).trans ?_⟩
      rw [← h3 a s t]
      exact Finset.sum_congr rfl fun c _ => by ring
  | zero => simp
  | add f g _ _ hf hg =>
    simp only [Pi.add_apply, mul_add, Finset.sum_add_distrib]
    exact ⟨hf.1.add hg.1, by rw [integral_add hf.1 hg.1, hf.2, hg.2]⟩
  | smul c f _ hf =>
    simp only [Pi.smul_apply, smul_eq_mul, mul_left_comm _ c]
    refine ⟨hf.1.const_mul c, ?_⟩
    rw [integral_const_mul, hf.2, Finset.mul_sum]

end balanced

/-! ## Third moments of the points -/

/-- The weighted third moment of the points of one distribution. -/
theorem bump_third {k : ℕ} (count s : ℕ) (h : s + k + k ≤ count) (delta : Matrix (Fin k) (Fin k) ℝ) (a a' a'' : Fin k) (w : ℕ → ℝ) (W : ℝ)
    (hw : ∀ c, s ≤ c → w c = W) : ∑ c ∈ Finset.range count, w c * (bump s delta a c * bump s delta a' c * bump s delta a'' c) = 0 := by
  rw [sum_frame _ count s k h (fun c hc => by rw [bump_out s delta a c hc, zero_mul, zero_mul, mul_zero]), Finset.sum_range, Finset.sum_range, ← Finset.sum_add_distrib]
  refine Finset.sum_eq_zero fun c _ => ?_
  simp only [bump_plus, bump_minus]
  rw [hw _ (by omega), hw _ (by omega)]
  ring

/-- All moments up to the third of a matrix of points consisting of frames from column `s`. -/
theorem points_third {b : ℕ} (k : Fin b → ℕ) (s count : ℕ) (hc : s + 2 * ∑ i, k i ≤ count) (L : List (List Piece)) (hF : Frames s (List.ofFn k) L)
    (delta : (i : Fin b) → Matrix (Fin (k i)) (Fin (k i)) ℝ) (w : Fin count → ℝ) (W : ℝ) (hw : ∀ c : Fin count, s ≤ c → w c = W) (x y z : (i : Fin b) × Fin (k i)) :
    ∑ c, w c * (pointsOf k count L delta x c * pointsOf k count L delta y c * pointsOf k count L delta z c) = 0 := by
  have hpt : ∀ (x : (i : Fin b) × Fin (k i)) (c : Fin count), pointsOf k count L delta x c = bump (s + 2 * start k x.1) (delta x.1) x.2 c := by
    intro x c
    exact hF x.1 (k x.1) (by rw [List.getElem?_ofFn]; simp) (delta x.1) x.2 c
  let w' : ℕ → ℝ := fun c => if h : c < count then w ⟨c, h⟩ else W
  have hww : ∀ c : Fin count, w c = w' c := by
    intro c
    simp only [w']
    rw [dif_pos c.2]
  have hw' : ∀ c, s ≤ c → w' c = W := by
    intro c hc
    simp only [w']
    split_ifs with h
    · exact hw ⟨c, h⟩ hc
    · rfl
  have hdis : ∀ (x y : (i : Fin b) × Fin (k i)) (c : ℕ), x.1 ≠ y.1 → bump (s + 2 * start k x.1) (delta x.1) x.2 c = 0 ∨ bump (s + 2 * start k y.1) (delta y.1) y.2 c = 0 := by
    intro x y c hij
    rcases lt_or_gt_of_ne hij with h | h
    · exact bump_disjoint _ _ (by have := start_lt k h; omega) _ _ _ _ _
    · exact (bump_disjoint _ _ (by have := start_lt k h; omega) _ _ _ _ _).symm
  by_cases hxy : x.1 = y.1
  · by_cases hxz : x.1 = z.1
    · obtain ⟨i, a⟩ := x
      obtain ⟨j, a'⟩ := y
      obtain ⟨l, a''⟩ := z
      simp only at hxy hxz
      subst hxy hxz
      rw [Finset.sum_congr rfl fun c _ => by rw [hpt, hpt, hpt, hww c],
        ← Finset.sum_range (fun c => w' c * (bump (s + 2 * start k i) (delta i) a c * bump (s + 2 * start k i) (delta i) a' c * bump (s + 2 * start k i) (delta i) a'' c))]
      refine bump_third count _ ?_ _ _ _ _ w' W fun c hc => hw' c (by omega)
      have := start_le k i
      omega
    · refine Finset.sum_eq_zero fun c _ => ?_
      rw [hpt, hpt, hpt]
      rcases hdis x z c hxz with h | h <;> rw [h] <;> ring
  · refine Finset.sum_eq_zero fun c _ => ?_
    rw [hpt, hpt, hpt]
    rcases hdis x y c hxy with h | h <;> rw [h] <;> ring

/-- Third moments of cubature points. -/
theorem cubature_third {b : ℕ} (k : Fin (b + 1) → ℕ) (hk : ∀ i, 0 < k i) (lib : SLib ℝ) (Q : (i : Fin (b + 1)) → Matrix (Fin (k i)) (Fin (k i)) ℝ)
    (Z : Matrix ((i : Fin (b + 1)) × Fin (k i)) (Fin ((∑ i, k i) * 2)) ℝ) (hZ : cubaturePoints k lib Q = some Z) (x y z : (i : Fin (b + 1)) × Fin (k i)) :
    ∑ c, (cubatureWeights ((∑ i, k i) * 2)).wm c * (Z x c * Z y c * Z z c) = 0 := by
  obtain ⟨L, hL, hF⟩ := cubature_frames (∑ i, k i) (List.ofFn k) (by simp) (by simp only [List.mem_ofFn, forall_exists_index]; rintro _ i rfl; exact hk i)
    (List.sum_ofFn)
  simp only [cubaturePoints, hL, Option.map_some, Option.some.injEq] at hZ
  subst hZ
  exact points_third k 0 _ (by omega) L hF _ _ _ (fun c _ => rfl) x y z

/-- Third moments of unscented points, with any weights that are the same for all points but the first, which does not matter for products with coordinates. -/
theorem unscented_moments {b : ℕ} (k : Fin (b + 1) → ℕ) (hk : ∀ i, 0 < k i) (lib : SLib ℝ) (alpha beta kappa : ℝ) (Q : (i : Fin (b + 1)) → Matrix (Fin (k i)) (Fin (k i)) ℝ)
    (Z : Matrix ((i : Fin (b + 1)) × Fin (k i)) (Fin ((∑ i, k i) * 2 + 1)) ℝ) (hZ : unscentedPoints k lib alpha kappa Q = some Z) (x y z : (i : Fin (b + 1)) × Fin (k i)) :
    ∑ c, (unscentedWeights (∑ i, k i) alpha beta kappa).wm c * (Z x c * Z y c * Z z c) = 0 ∧
    ∑ c, (unscentedWeights (∑ i, k i) alpha beta kappa).wc c * (Z x c * Z y c * Z z c) = 0 ∧
    ∑ c, (unscentedWeights (∑ i, k i) alpha beta kappa).wc c * Z x c = 0 := by
  obtain ⟨L, hL, hF⟩ := unscented_frames (∑ i, k i) (List.ofFn k) (by simp) (by simp only [List.mem_ofFn, forall_exists_index]; rintro _ i rfl; exact hk i)
    (List.sum_ofFn)
  simp only [unscentedPoints, hL, Option.map_some, Option.some.injEq] at hZ
  subst hZ
  have tail : ∀ w : Fin ((∑ i, k i) * 2 + 1) → ℝ, (∀ c : Fin ((∑ i, k i) * 2), w c.succ = 0.5 / ((∑ i, k i : ℕ) + kappa) / (alpha * alpha)) →
      ∀ c : Fin ((∑ i, k i) * 2 + 1), 1 ≤ (c : ℕ) → w c = 0.5 / ((∑ i, k i : ℕ) + kappa) / (alpha * alpha) := by
    intro w hw c hc
    obtain ⟨c', rfl⟩ := Fin.exists_succ_eq.2 (show c ≠ 0 by rintro rfl; simp at hc)
    exact hw c'
  have hm := tail (unscentedWeights (∑ i, k i) alpha beta kappa).wm fun c => by simp [unscentedWeights, scaledWeights]
  have hc := tail (unscentedWeights (∑ i, k i) alpha beta kappa).wc fun c => by simp [unscentedWeights, scaledWeights]
  refine ⟨points_third k 1 _ (by omega) L hF _ _ _ hm x y z, points_third k 1 _ (by omega) L hF _ _ _ hc x y z, ?_⟩
  have := (points_moments k 1 ((∑ i, k i) * 2 + 1) (by omega) L hF (fun i => lib.chol ((((alpha * alpha * (kappa + (∑ i, k i : ℕ)) : ℝ) : ℝ)) • Q i))
    (unscentedWeights (∑ i, k i) alpha beta kappa).wc _ hc).1
  have := congrFun this x
  simp only [Matrix.mulVec, dotProduct, Pi.zero_apply] at this
  rw [← this]
  exact Finset.sum_congr rfl fun c _ => mul_comm _ _

/-! ## Moments of normal variables -/

theorem exp_derivs (v : ℝ) : iteratedDeriv 3 (fun t : ℝ => Real.exp (v * t ^ 2 / 2)) 0 = 0 ∧ iteratedDeriv 4 (fun t : ℝ => Real.exp (v * t ^ 2 / 2)) 0 = 3 * v ^ 2 := by
  have hp : ∀ (q q' : ℝ → ℝ), (∀ t, HasDerivAt q (q' t) t) → deriv (fun t => q t * Real.exp (v * t ^ 2 / 2)) = fun t => (q' t + v * t * q t) * Real.exp (v * t ^ 2 / 2) := by
    intro q q' hq
    funext t
    have h1 : HasDerivAt (fun t : ℝ => v * t ^ 2 / 2) (v * t) t := by
      have := (((hasDerivAt_id t).pow 2).const_mul v).div_const 2
      refine this.congr_deriv ?_
      simp
      ring
    have := ((hq t).mul h1.exp).deriv
    refine Eq.trans this ?_
    ring
  have e0 : (fun t : ℝ => Real.exp (v * t ^ 2 / 2)) = fun t => (fun _ => (1 : ℝ)) t * Real.exp (v * t ^ 2 / 2) := by
    funext t
    simp
  have d1 := hp (fun _ => 1) (fun _ => 0) fun t => hasDerivAt_const t 1
  have d2 := hp (fun t => 0 + v * t * 1) (fun _ => v) fun t => by
    have := ((hasDerivAt_id t).const_mul v)
    simpa using this
  have d3 := hp (fun t => v + v * t * (0 + v * t * 1)) (fun t => 2 * v ^ 2 * t) fun t => by
    have := (((hasDerivAt_id t).pow 2).const_mul (v ^ 2)).const_add v
    refine (this.congr_deriv ?_).congr_of_eventuallyEq (Filter.Eventually.of_forall fun s => ?_)
    · simp
      ring
    · simp
      ring
  have d4 := hp (fun t => 2 * v ^ 2 * t + v * t * (v + v * t * (0 + v * t * 1))) (fun t => 3 * v ^ 2 + 3 * v ^ 3 * t ^ 2) fun t => by
    have := ((hasDerivAt_id t).const_mul (3 * v ^ 2)).add (((hasDerivAt_id t).pow 3).const_mul (v ^ 3))
    refine (this.congr_deriv ?_).congr_of_eventuallyEq (Filter.Eventually.of_forall fun s => ?_)
    · simp
      ring
    · simp
      ring
  constructor
  · rw [iteratedDeriv_succ, iteratedDeriv_succ, iteratedDeriv_succ, iteratedDeriv_zero, e0, d1, d2, d3]
    simp
  · rw [iteratedDeriv_succ, iteratedDeriv_succ, iteratedDeriv_succ, iteratedDeriv_succ, iteratedDeriv_zero, e0, d1, d2, d3, d4]
    simp

theorem gaussianReal_moments (v : NNReal) : ∫ x, x ^ 3 ∂(gaussianReal 0 v) = 0 ∧ ∫ x, x ^ 4 ∂(gaussianReal 0 v) = 3 * (v : ℝ) ^ 2 := by
  have hm : mgf id (gaussianReal 0 v) = fun t => Real.exp (v * t ^ 2 / 2) := by
    rw [mgf_id_gaussianReal]
    funext t
    simp
  have h0 : (0 : ℝ) ∈ interior (integrableExpSet id (gaussianReal 0 v)) := by
    rw [integrableExpSet_id_gaussianReal, interior_univ]
    trivial
  have h3 := iteratedDeriv_mgf_zero h0 3
  have h4 := iteratedDeriv_mgf_zero h0 4
  rw [hm] at h3 h4
  rw [(exp_derivs v).1] at h3
  rw [(exp_derivs v).2] at h4
  exact ⟨by simpa using h3.symm, by simpa using h4.symm⟩

/-- A normal variable with mean zero. -/
theorem normal_moments {T : Ω → ℝ} (h : HasGaussianLaw T P) (h0 : ∫ ω, T ω ∂P = 0) : ∫ ω, T ω ^ 3 ∂P = 0 ∧ ∫ ω, T ω ^ 4 ∂P = 3 * (∫ ω, T ω ^ 2 ∂P) ^ 2 := by
  have hT : AEMeasurable T P := h.aemeasurable
  have hl := h.map_eq_gaussianReal
  rw [h0] at hl
  have hv : Var[T; P] = ∫ ω, T ω ^ 2 ∂P := by
    rw [variance_eq_integral hT, h0]
    simp
  have hp : ∀ n : ℕ, ∫ ω, T ω ^ n ∂P = ∫ x, x ^ n ∂(gaussianReal 0 (Var[T; P]).toNNReal) := by
    intro n
    rw [← hl, integral_map hT (by fun_prop)]
  obtain ⟨g3, g4⟩ := gaussianReal_moments (Var[T; P]).toNNReal
  rw [hp 3, hp 4, g3, g4, Real.coe_toNNReal _ (variance_nonneg _ _), hv]
  exact ⟨rfl, rfl⟩

section vectors
variable [Fintype σ] {X : Ω → σ → ℝ} {m : σ → ℝ} {C : Matrix σ σ ℝ}

/-- Linear combinations of the deviations of some components of a Gaussian vector. -/
theorem combo_gaussian (h : HasGaussianLaw X P) (m : σ → ℝ) {j : ℕ} (i : Fin j → σ) (c : Fin j → ℝ) : HasGaussianLaw (fun ω => ∑ a, c a * (X ω (i a) - m (i a))) P := by
  let L : (σ → ℝ) →L[ℝ] ℝ := ∑ a, c a • ContinuousLinearMap.proj (R := ℝ) (φ := fun _ : σ => ℝ) (i a)
  have h1 := h.map L
  have h2 : HasGaussianLaw (fun _ : Ω => -∑ a, c a * m (i a)) P := by
    constructor
    rw [Measure.map_const, measure_univ, one_smul]
    infer_instance
  have h3 := (indepFun_const_left (μ := P) (-∑ a, c a * m (i a)) (L ∘ X)).hasGaussianLaw h2 h1
  have h4 := h3.map (ContinuousLinearMap.fst ℝ ℝ ℝ + ContinuousLinearMap.snd ℝ ℝ ℝ)
  have e : (fun ω => ∑ a, c a * (X ω (i a) - m (i a))) = (ContinuousLinearMap.fst ℝ ℝ ℝ + ContinuousLinearMap.snd ℝ ℝ ℝ) ∘ fun ω => (-∑ a, c a * m (i a), (L ∘ X) ω) := by
    funext ω
    simp [L, mul_sub, Finset.sum_sub_distrib]
    ring
  rw [e]
  exact h4

/-- All moments up to the fourth of a Gaussian vector. -/
theorem normal4_of_gaussian (h : HasGaussianLaw X P) (hm : ∀ s, ∫ ω, X ω s ∂P = m s) (hc : ∀ s t, cov[fun ω => X ω s, fun ω => X ω t; P] = C s t) : Normal4 P X m C := by
  have hp : ∀ (p : ENNReal), p ≠ ⊤ → ∀ s, MemLp (fun ω => X ω s) p P := fun p hp s => (h.map (ContinuousLinearMap.proj (R := ℝ) (φ := fun _ : σ => ℝ) s)).memLp hp
  have hd : ∀ (p : ENNReal), p ≠ ⊤ → ∀ s, MemLp (fun ω => X ω s - m s) p P := fun p h' s => (hp p h' s).sub (memLp_const _)
  have h2 : ∀ s t, ∫ ω, (X ω s - m s) * (X ω t - m t) ∂P = C s t := by
    intro s t
    rw [← hc]
    show _ = ∫ ω, _ ∂P
    rw [hm, hm]
  have h1 : ∀ s, ∫ ω, (X ω s - m s) ∂P = 0 := by
    intro s
    rw [integral_sub ((hp 1 (by simp) s).integrable le_rfl) (integrable_const _), hm]
    simp
  have i1 : ∀ s, Integrable (fun ω => X ω s - m s) P := fun s => (hd 1 (by simp) s).integrable le_rfl
  have i2 : ∀ s t, Integrable (fun ω => (X ω s - m s) * (X ω t - m t)) P := fun s t => (hd 2 (by simp) s).integrable_mul (hd 2 (by simp) t)
  -- combinations
  have hT0 : ∀ {j : ℕ} (i : Fin j → σ) (c : Fin j → ℝ), ∫ ω, ∑ a, c a * (X ω (i a) - m (i a)) ∂P = 0 := by
    intro j i c
    rw [integral_finsetSum _ fun a _ => (i1 (i a)).const_mul (c a)]
    exact Finset.sum_eq_zero fun a _ => by rw [integral_const_mul, h1, mul_zero]
  have hT2 : ∀ {j : ℕ} (i : Fin j → σ) (c : Fin j → ℝ), ∫ ω, (∑ a, c a * (X ω (i a) - m (i a))) ^ 2 ∂P = ∑ a, ∑ b, c a * c b * C (i a) (i b) := by
    intro j i c
    have e : (fun ω => (∑ a, c a * (X ω (i a) - m (i a))) ^ 2) = fun ω => ∑ a, ∑ b, c a * c b * ((X ω (i a) - m (i a)) * (X ω (i b) - m (i b))) := by
      funext ω
      rw [sq, Finset.sum_mul_sum]
      exact Finset.sum_congr rfl fun a _ => Finset.sum_congr rfl fun b _ => by ring
    rw [e, integral_finsetSum _ fun a _ => integrable_finsetSum _ fun b _ => (i2 _ _).const_mul _]
    refine Finset.sum_congr rfl fun a _ => ?_
    rw [integral_finsetSum _ fun b _ => (i2 _ _).const_mul _]
    exact Finset.sum_congr rfl fun b _ => by rw [integral_const_mul, h2]
  have hTp : ∀ {j : ℕ} (i : Fin j → σ) (c : Fin j → ℝ) (n : ℕ), Integrable (fun ω => (∑ a, c a * (X ω (i a) - m (i a))) ^ n) P := by
    intro j i c n
    have hg := (combo_gaussian h m i c).memLp (p := n) (by simp)
    exact hg.integrable_norm_pow'.mono' (hg.aestronglyMeasurable.pow n) (Filter.Eventually.of_forall fun ω => le_of_eq (norm_pow _ n))
  have hsym : ∀ s t, C s t = C t s := fun s t => by rw [← hc, ← hc, covariance_comm]
  refine ⟨⟨hp 3 (by simp), hm, h2, fun s t u => ?_⟩, hp 4 (by simp), fun s t u v => ?_⟩
  · let sg : Bool → ℝ := fun b => if b then 1 else -1
    let c : Bool × Bool → Fin 3 → ℝ := fun e => ![1, sg e.1, sg e.2]
    have key : ∀ ω, (X ω s - m s) * (X ω t - m t) * (X ω u - m u) = ∑ e : Bool × Bool, sg e.1 * sg e.2 / 24 * (∑ a, c e a * (X ω (![s, t, u] a) - m (![s, t, u] a))) ^ 3 := by
      intro ω
      simp only [Fintype.sum_prod_type, Fintype.sum_bool, Fin.sum_univ_three, c, sg]
      simp
      ring
    rw [integral_congr_ae (Filter.Eventually.of_forall key), integral_finsetSum _ fun e _ => (hTp _ _ 3).const_mul _]
    exact Finset.sum_eq_zero fun e _ => by rw [integral_const_mul, (normal_moments (combo_gaussian h m _ _) (hT0 _ _)).1, mul_zero]
  · let sg : Bool → ℝ := fun b => if b then 1 else -1
    let c : Bool × Bool × Bool → Fin 4 → ℝ := fun e => ![1, sg e.1, sg e.2.1, sg e.2.2]
    have key : ∀ ω, (X ω s - m s) * (X ω t - m t) * (X ω u - m u) * (X ω v - m v) =
        ∑ e : Bool × Bool × Bool, sg e.1 * sg e.2.1 * sg e.2.2 / 192 * (∑ a, c e a * (X ω (![s, t, u, v] a) - m (![s, t, u, v] a))) ^ 4 := by
      intro ω
      simp only [Fintype.sum_prod_type, Fintype.sum_bool, Fin.sum_univ_four, c, sg]
      simp
      ring
    rw [integral_congr_ae (Filter.Eventually.of_forall key), integral_finsetSum _ fun e _ => (hTp _ _ 4).const_mul _]
    have : ∀ e, ∫ ω, sg e.1 * sg e.2.1 * sg e.2.2 / 192 * (∑ a, c e a * (X ω (![s, t, u, v] a) - m (![s, t, u, v] a))) ^ 4 ∂P =
        sg e.1 * sg e.2.1 * sg e.2.2 / 192 * (3 * (∑ a, ∑ b, c e a * c e b * C (![s, t, u, v] a) (![s, t, u, v] b)) ^ 2) := by
      intro e
      rw [integral_const_mul, (normal_moments (combo_gaussian h m _ _) (hT0 _ _)).2, hT2]
    rw [Finset.sum_congr rfl fun e _ => this e]
    simp only [Fintype.sum_prod_type, Fintype.sum_bool, Fin.sum_univ_four, c, sg]
    simp
    rw [hsym t s, hsym u s, hsym v s, hsym u t, hsym v t, hsym v u]
    ring

end vectors

/-- Independent standard normal numbers. -/
theorem standard_normal (σ : Type) [Fintype σ] [DecidableEq σ] : Normal4 (Measure.pi fun _ : σ => gaussianReal 0 1) (fun ω => ω) 0 (1 : Matrix σ σ ℝ) := by
  have law : ∀ i : σ, (Measure.pi fun _ : σ => gaussianReal 0 1).map (fun ω => ω i) = gaussianReal 0 1 := fun i => (measurePreserving_eval (fun _ : σ => gaussianReal 0 1) i).map_eq
  have hg : ∀ i : σ, HasGaussianLaw (fun ω : σ → ℝ => ω i) (Measure.pi fun _ : σ => gaussianReal 0 1) := by
    intro i
    constructor
    rw [law]
    infer_instance
  have hind : iIndepFun (fun (i : σ) (ω : σ → ℝ) => ω i) (Measure.pi fun _ : σ => gaussianReal 0 1) :=
    iIndepFun_pi (μ := fun _ : σ => gaussianReal 0 1) (X := fun _ (t : ℝ) => t) fun i => aemeasurable_id
  have hX : HasGaussianLaw (fun ω : σ → ℝ => ω) (Measure.pi fun _ : σ => gaussianReal 0 1) := hind.hasGaussianLaw hg
  refine normal4_of_gaussian hX (fun i => ?_) fun i j => ?_
  · have h := integral_map (μ := Measure.pi fun _ : σ => gaussianReal 0 1) (φ := fun ω : σ → ℝ => ω i) (measurable_pi_apply i).aemeasurable (f := id) aestronglyMeasurable_id
    rw [law] at h
    refine h.symm.trans ?_
    exact integral_id_gaussianReal
  · by_cases h : i = j
    · subst h
      rw [Matrix.one_apply_eq, covariance_self (measurable_pi_apply i).aemeasurable]
      have h := variance_map (μ := Measure.pi fun _ : σ => gaussianReal 0 1) (Y := fun ω : σ → ℝ => ω i) (X := id) aemeasurable_id (measurable_pi_apply i).aemeasurable
      rw [law, variance_id_gaussianReal] at h
      exact h.symm
    · rw [Matrix.one_apply_ne h]
      exact (hind.indepFun h).covariance_eq_zero (hg i).memLp_two (hg j).memLp_two

end OpenKalman.Moments
