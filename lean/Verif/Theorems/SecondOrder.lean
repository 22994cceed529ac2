import Verif.Proof.SecondOrder

/-!
# C134: the second-order linearised transform of quadratic functions of normal variables
-/

set_option linter.unusedSectionVars false

namespace OpenKalman.SecondOrder
open OpenKalman.Kalman OpenKalman.FiniteDiff OpenKalman.Moments MeasureTheory ProbabilityTheory Matrix

variable {Ω : Type} [MeasurableSpace Ω] {P : Measure Ω} [IsProbabilityMeasure P] {b q : ℕ} (k : Fin (b + 1) → ℕ)

/-- The result is what it should be: the expectation and the covariance of the transformed vector, and its covariance with the input. -/
structure Exact (P : Measure Ω) (X : Ω → ((i : Fin (b + 1)) × Fin (k i)) → ℝ) (g : (((i : Fin (b + 1)) × Fin (k i)) → ℝ) → Fin q → ℝ) (mean : Fin q → ℝ) (C : Matrix (Fin q) (Fin q) ℝ)
    (cross : Matrix (Fin (k 0)) (Fin q) ℝ) : Prop where
  mean : ∀ a, mean a = ∫ ω, g (X ω) a ∂P
  cov : ∀ a a', C a a' = cov[fun ω => g (X ω) a, fun ω => g (X ω) a'; P]
  cross : ∀ x a, cross x a = cov[fun ω => X ω ⟨0, x⟩, fun ω => g (X ω) a; P]

/-- **C134** (exact derivatives): input and noise terms are uncorrelated and have the first four moments of a normal distribution (as every normal distribution has: `C133_normal`), and
the transformation is quadratic in the input and in each of the noise terms.  Then mean, covariance and cross-covariance that the second-order transform reports are exactly those
of the transformed variable.  Missing: products of a component of one term with a component of another (`C134_mixed_violated`). -/
theorem C134_exact_partial (lib : Lib ℝ) (d : (i : Fin (b + 1)) → Gauss ℝ (Fin (k i))) (hd : ∀ i, (d i).cov.PosSemidef) (X : Ω → ((i : Fin (b + 1)) × Fin (k i)) → ℝ)
    (hX : Normal4 P X (fun s => (d s.1).mean s.2) (blockDiagonal' fun i => (d i).cov)) (g : (((i : Fin (b + 1)) × Fin (k i)) → ℝ) → Fin q → ℝ)
    {c : Fin q → ℝ} {l : Fin q → ((i : Fin (b + 1)) × Fin (k i)) → ℝ} {A : Fin q → ((i : Fin (b + 1)) × Fin (k i)) → ((i : Fin (b + 1)) × Fin (k i)) → ℝ}
    (hg : ∀ a, IsQuadratic (fun x => g x a) (c a) (l a) (A a)) (hA : ∀ a s t, s.1 ≠ t.1 → A a s t = 0)
    (J : (i : Fin (b + 1)) → Matrix (Fin q) (Fin (k i)) ℝ) (H : (i : Fin (b + 1)) → Fin q → Matrix (Fin (k i)) (Fin (k i)) ℝ)
    (hJ : ∀ i a x, HasPartial (fun v => g v a) ⟨i, x⟩ (fun s => (d s.1).mean s.2) (J i a x))
    (hH : ∀ i a x y, HasPartial₂ (fun v => g v a) ⟨i, x⟩ ⟨i, y⟩ (fun s => (d s.1).mean s.2) (H i a x y)) :
    ∃ out : Gauss ℝ (Fin q) × Matrix (Fin (k 0)) (Fin q) ℝ, combine k lib (g fun s => (d s.1).mean s.2) J H d = some out ∧ Exact k P X g out.1.mean out.1.cov out.2 := by
  set m : ((i : Fin (b + 1)) × Fin (k i)) → ℝ := fun s => (d s.1).mean s.2 with hm
  have eJ : ∀ i a x, J i a x = l a ⟨i, x⟩ + ∑ t, (A a ⟨i, x⟩ t + A a t ⟨i, x⟩) * m t := fun i a x => (hJ i a x).unique (quadratic_partial (hg a) m ⟨i, x⟩)
  have eH : ∀ i a x y, H i a x y = A a ⟨i, x⟩ ⟨i, y⟩ + A a ⟨i, y⟩ ⟨i, x⟩ := by
    intro i a x y
    obtain ⟨g1, h1, h2⟩ := hH i a x y
    obtain ⟨g2, h3, h4⟩ := quadratic_partial₂ (hg a) m ⟨i, x⟩ ⟨i, y⟩
    have : g1 = g2 := funext fun v => (h1 v).unique (h3 v)
    subst this
    exact h2.unique h4
  have hH' : ∀ i a, (H i a).IsHermitian := fun i a => Matrix.IsHermitian.ext fun x y => by
    rw [star_trivial, eH, eH, add_comm]
  refine ⟨_, combine_eq k lib _ J H d hd hH', ?_⟩
  have hq : ∀ a v, g v a = quadratic m (g m a) (fun s => J s.1 a s.2) (blockDiagonal' fun i => H i a) v := by
    intro a v
    rw [quadratic_around (hg a) m v]
    congr 1
    · funext s
      exact (eJ s.1 a s.2).symm
    · ext s t
      obtain ⟨i, x⟩ := s
      obtain ⟨j, y⟩ := t
      rw [Matrix.of_apply]
      by_cases h : i = j
      · subst h
        rw [blockDiagonal'_apply_eq, eH]
      · rw [blockDiagonal'_apply_ne _ _ _ h, hA a _ _ h, hA a _ _ (Ne.symm h), add_zero]
  obtain ⟨q1, q2, q3⟩ := quadratic_moments hX (fun a => g m a) (fun a s => J s.1 a s.2) (fun a => blockDiagonal' fun i => H i a) (fun a => by
    rw [Matrix.IsHermitian, blockDiagonal'_conjTranspose]
    congr 1
    funext i
    exact hH' i a)
  simp only [← hq] at q1 q2 q3
  refine ⟨fun a => ?_, fun a a' => ?_, fun x a => ?_⟩
  · rw [q1, block_mean]
    dsimp only
    rw [Pi.add_apply, Finset.sum_apply]
  · rw [q2, block_cov]
    dsimp only
    rw [Matrix.add_apply, ← block_first, Matrix.sum_apply]
  · rw [q3, block_cross]

/-- **C134** (finite differences): the same if the derivatives are found by finite differences, for all nonzero steps; the means that were perturbed are as before. -/
theorem C134_finite_partial (lib : Lib ℝ) (d : (i : Fin (b + 1)) → Gauss ℝ (Fin (k i))) (hd : ∀ i, (d i).cov.PosSemidef) (X : Ω → ((i : Fin (b + 1)) × Fin (k i)) → ℝ)
    (hX : Normal4 P X (fun s => (d s.1).mean s.2) (blockDiagonal' fun i => (d i).cov)) (g : (((i : Fin (b + 1)) × Fin (k i)) → ℝ) → Fin q → ℝ)
    {c : Fin q → ℝ} {l : Fin q → ((i : Fin (b + 1)) × Fin (k i)) → ℝ} {A : Fin q → ((i : Fin (b + 1)) × Fin (k i)) → ((i : Fin (b + 1)) × Fin (k i)) → ℝ}
    (hg : ∀ a, IsQuadratic (fun x => g x a) (c a) (l a) (A a)) (hA : ∀ a s t, s.1 ≠ t.1 → A a s t = 0) (δ : Inputs ⟨b + 1, k⟩) (hδ : ∀ p, δ p ≠ 0) :
    ∃ out : Gauss ℝ (Fin q) × Matrix (Fin (k 0)) (Fin q) ℝ,
      (transform k lib (fun x => some (g x)) δ d).run (fun s => (d s.1).mean s.2) = (fun s => (d s.1).mean s.2, some (some out)) ∧ Exact k P X g out.1.mean out.1.cov out.2 := by
  set m : ((i : Fin (b + 1)) × Fin (k i)) → ℝ := fun s => (d s.1).mean s.2 with hm
  obtain ⟨J, rJ, hJ⟩ := C62_jacobian_quadratic (S := ⟨b + 1, k⟩) g hg δ m hδ
  obtain ⟨H, rH, hH⟩ := C62_hessian_quadratic (S := ⟨b + 1, k⟩) g hg δ m hδ
  have rC : (call (S := ⟨b + 1, k⟩) id fun x => some (g x)).run m = (m, some (g m)) := rfl
  obtain ⟨out, e, h⟩ := C134_exact_partial k lib d hd X hX g hg hA J H (fun i a x => (hJ i a x).1) fun i a x y => (hH i a x y).1
  refine ⟨out, ?_, h⟩
  unfold transform
  rw [Act.bind_some rC, Act.bind_some rJ, Act.bind_some rH, e]
  rfl

/-! ## Where the code fails -/

/-- Two terms of one dimension. -/
abbrev two : Fin 2 → ℕ := fun _ => 1

/-- The product of the two terms. -/
def product (x : ((i : Fin 2) × Fin (two i)) → ℝ) (_ : Fin 1) : ℝ := x ⟨0, 0⟩ * x ⟨1, 0⟩

/-- Standard normal terms. -/
noncomputable def standard (i : Fin 2) : Gauss ℝ (Fin (two i)) := ⟨0, 1⟩

theorem standard_law : Normal4 (Measure.pi fun _ : (i : Fin 2) × Fin (two i) => gaussianReal 0 1) (fun ω => ω) (fun s => (standard s.1).mean s.2) (blockDiagonal' fun i => (standard i).cov) := by
  have h := standard_normal ((i : Fin 2) × Fin (two i))
  have e : (blockDiagonal' fun i => (standard i).cov) = (1 : Matrix ((i : Fin 2) × Fin (two i)) _ ℝ) := by
    show (blockDiagonal' fun i => (1 : Matrix (Fin (two i)) (Fin (two i)) ℝ)) = 1
    exact blockDiagonal'_one
  rw [e]
  exact h

/-- C134 fails for products of the input with noise: for independent standard normal numbers, the reported variance of their product is 0; it is 1. -/
theorem C134_mixed_violated (lib : Lib ℝ) : ∃ out : Gauss ℝ (Fin 1) × Matrix (Fin 1) (Fin 1) ℝ,
    (transform two lib (fun x => some (product x)) (fun _ => 1) standard).run (fun s => (standard s.1).mean s.2) = (fun s => (standard s.1).mean s.2, some (some out)) ∧
    out.1.cov 0 0 = 0 ∧ cov[fun ω => product ω 0, fun ω => product ω 0; Measure.pi fun _ : (i : Fin 2) × Fin (two i) => gaussianReal 0 1] = 1 := by
  have hg : ∀ a, IsQuadratic (fun x => product x a) 0 (fun _ => 0) (fun s t => if s = ⟨0, 0⟩ ∧ t = ⟨1, 0⟩ then 1 else 0) := by
    intro a x
    show x ⟨0, 0⟩ * x ⟨1, 0⟩ = _
    simp [Fintype.sum_sigma, Fin.sum_univ_two]
  have hδ : ∀ p : (i : Fin 2) × Fin (two i), (fun _ => (1 : ℝ)) p ≠ 0 := fun _ => one_ne_zero
  obtain ⟨J, rJ, hJ⟩ := C62_jacobian_quadratic (S := ⟨1 + 1, two⟩) product hg (fun _ => 1) (fun s => (standard s.1).mean s.2) hδ
  obtain ⟨H, rH, hH⟩ := C62_hessian_quadratic (S := ⟨1 + 1, two⟩) product hg (fun _ => 1) (fun s => (standard s.1).mean s.2) hδ
  have rC : (call (S := ⟨1 + 1, two⟩) id fun x => some (product x)).run (fun s => (standard s.1).mean s.2) = (fun s => (standard s.1).mean s.2, some (product fun s => (standard s.1).mean s.2)) := rfl
  have J0 : ∀ i, J i = 0 := by
    intro i
    ext a x
    rw [(hJ i a x).2]
    simp [standard]
  have H0 : ∀ i, H i = fun _ => 0 := by
    intro i
    funext a
    ext x y
    rw [(hH i a x y).2]
    have h : ∀ x y : Fin (two i), ¬((⟨i, x⟩ : (i : Fin 2) × Fin (two i)) = ⟨0, 0⟩ ∧ (⟨i, y⟩ : (i : Fin 2) × Fin (two i)) = ⟨1, 0⟩) := by
      rintro x y ⟨h1, h2⟩
      have h1 := congrArg Sigma.fst h1
      have h2 := congrArg Sigma.fst h2
      exact absurd (h1.symm.trans h2) (by decide)
    rw [if_neg (h x y), if_neg (h y x), add_zero]
    rfl
  have e := combine_eq (b := 1) two lib (product fun s => (standard s.1).mean s.2) J H standard (fun i => Matrix.PosSemidef.one) (by
    intro i a
    rw [H0]
    exact Matrix.isHermitian_zero)
  have hrun : (transform two lib (fun x => some (product x)) (fun _ => 1) standard).run (fun s => (standard s.1).mean s.2) =
      (fun s => (standard s.1).mean s.2, some (combine (b := 1) two lib (product fun s => (standard s.1).mean s.2) J H standard)) := by
    unfold transform
    rw [Act.bind_some rC, Act.bind_some rJ, Act.bind_some rH]
    rfl
  refine ⟨_, hrun.trans (by rw [e]), ?_, ?_⟩
  · dsimp only
    simp only [J0, H0, (C55_zero _).2]
    simp
  · have h := standard_law
    have hb : (blockDiagonal' fun i => (standard i).cov) = (1 : Matrix ((i : Fin 2) × Fin (two i)) _ ℝ) := blockDiagonal'_one
    rw [hb] at h
    have h2 := h.second ⟨0, 0⟩ ⟨1, 0⟩
    have h4 := h.fourth ⟨0, 0⟩ ⟨1, 0⟩ ⟨0, 0⟩ ⟨1, 0⟩
    have ne : (⟨0, 0⟩ : (i : Fin 2) × Fin (two i)) ≠ ⟨1, 0⟩ := by decide
    rw [Matrix.one_apply_ne ne] at h2
    rw [Matrix.one_apply_ne ne, Matrix.one_apply_ne ne.symm, Matrix.one_apply_eq, Matrix.one_apply_eq] at h4
    simp only [standard, Pi.zero_apply, sub_zero] at h2 h4
    have e0 : ∫ ω : ((i : Fin 2) × Fin (two i)) → ℝ, product ω 0 ∂(Measure.pi fun _ => gaussianReal 0 1) = 0 := h2
    show ∫ ω : ((i : Fin 2) × Fin (two i)) → ℝ, (product ω 0 - ∫ ω, product ω 0 ∂_) * (product ω 0 - ∫ ω, product ω 0 ∂_) ∂_ = 1
    rw [e0]
    refine Eq.trans (integral_congr_ae (Filter.Eventually.of_forall fun ω => ?_)) (h4.trans (by norm_num))
    simp only [product]
    ring

/-! ## The hypotheses can be met -/

/-- The square of the input plus the square of the noise, and the input itself. -/
def squares (x : ((i : Fin 2) × Fin (two i)) → ℝ) : Fin 2 → ℝ := ![x ⟨0, 0⟩ ^ 2 + x ⟨1, 0⟩ ^ 2, x ⟨0, 0⟩]

theorem squares_quadratic (a : Fin 2) : IsQuadratic (fun x => squares x a) (0 : ℝ) (![fun _ => 0, fun s => if s.1 = 0 then 1 else 0] a) (![fun s t => if s = t then 1 else 0, fun _ _ => 0] a) := by
  intro x
  fin_cases a <;> simp [squares, Fintype.sum_sigma, Fin.sum_univ_two, pow_two]

/-- The reported moments of the squares are exact. -/
example (lib : Lib ℝ) : ∃ out : Gauss ℝ (Fin 2) × Matrix (Fin 1) (Fin 2) ℝ,
    (transform two lib (fun x => some (squares x)) (fun _ => 1) standard).run (fun s => (standard s.1).mean s.2) = (fun s => (standard s.1).mean s.2, some (some out)) ∧
    Exact two (Measure.pi fun _ : (i : Fin 2) × Fin (two i) => gaussianReal 0 1) (fun ω => ω) squares out.1.mean out.1.cov out.2 :=
  C134_finite_partial two lib standard (fun i => Matrix.PosSemidef.one) _ standard_law squares squares_quadratic (by
    intro a s t h
    have : s ≠ t := fun e => h (by rw [e])
    fin_cases a
    · simp [this]
    · simp) _ fun _ => one_ne_zero

end OpenKalman.SecondOrder
