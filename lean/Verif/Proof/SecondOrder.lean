import Verif.Model.SecondOrder
import Verif.Proof.Moments
import Verif.Theorems.KalmanTransforms
import Verif.Theorems.FiniteDiff
import Mathlib.Data.Matrix.Block
import Mathlib.LinearAlgebra.Basis.VectorSpace

/-! # Lemmas for the second-order linearised transform -/

set_option linter.unusedSectionVars false

namespace OpenKalman.SecondOrder
open OpenKalman.Kalman OpenKalman.FiniteDiff OpenKalman.Moments MeasureTheory ProbabilityTheory Matrix

variable {Ω : Type} [MeasurableSpace Ω] {P : Measure Ω} [IsProbabilityMeasure P]

/-! ## Expectation as a linear functional -/

/-- The integral of functions of a random vector is part of a linear functional on all functions. -/
theorem exists_functional {σ : Type} (X : Ω → σ → ℝ) : ∃ E : ((σ → ℝ) → ℝ) →ₗ[ℝ] ℝ, ∀ f, Integrable (fun ω => f (X ω)) P → E f = ∫ ω, f (X ω) ∂P := by
  let V : Submodule ℝ ((σ → ℝ) → ℝ) :=
    { carrier := {f | Integrable (fun ω => f (X ω)) P}
      add_mem' := fun ha hb => Integrable.add ha hb
      zero_mem' := integrable_zero _ _ _
      smul_mem' := fun c _ hf => Integrable.smul c hf }
  let I : V →ₗ[ℝ] ℝ :=
    { toFun := fun f => ∫ ω, f.1 (X ω) ∂P
      map_add' := fun f g => integral_add f.2 g.2
      map_smul' := fun c f => integral_smul c fun ω => f.1 (X ω) }
  obtain ⟨E, hE⟩ := LinearMap.exists_extend I
  refine ⟨E, fun f hf => ?_⟩
  have := LinearMap.congr_fun hE ⟨f, hf⟩
  exact this

variable {σ : Type} [Fintype σ] {X : Ω → σ → ℝ} {m : σ → ℝ} {C : Matrix σ σ ℝ}

theorem dev4 (h : Normal4 P X m C) (s : σ) : MemLp (fun ω => X ω s - m s) 4 P := (h.power4 s).sub (memLp_const _)

/-- Products of two deviations are square integrable. -/
theorem dev_pair (h : Normal4 P X m C) (s t : σ) : MemLp (fun ω => (X ω s - m s) * (X ω t - m t)) 2 P := by
  haveI : ENNReal.HolderTriple 4 4 2 := ⟨by
    rw [← two_mul, show (4 : ENNReal) = 2 * 2 by norm_num, ENNReal.mul_inv (by norm_num) (by norm_num), ← mul_assoc, ENNReal.mul_inv_cancel (by norm_num) (by norm_num), one_mul]⟩
  exact (dev4 h t).mul (dev4 h s)

theorem dev_one (h : Normal4 P X m C) (s : σ) : MemLp (fun ω => X ω s - m s) 2 P := (dev4 h s).mono_exponent (by norm_num)

/-- Quadratic functions of the vector are square integrable. -/
theorem quadratic_memLp (h : Normal4 P X m C) (c : ℝ) (b : σ → ℝ) (Q : Matrix σ σ ℝ) : MemLp (fun ω => quadratic m c b Q (X ω)) 2 P := by
  have e : (fun ω => quadratic m c b Q (X ω)) = fun ω => c + ∑ s, b s * (X ω s - m s) + 1 / 2 * ∑ s, ∑ t, Q s t * ((X ω s - m s) * (X ω t - m t)) := by
    funext ω
    simp only [quadratic, dotProduct, mulVec, Pi.sub_apply, Finset.mul_sum]
    congr 1
    exact Finset.sum_congr rfl fun s _ => Finset.sum_congr rfl fun t _ => by ring
  rw [e]
  refine ((memLp_const c).add (memLp_finset_sum _ fun s _ => (dev_one h s).const_mul (b s))).add (MemLp.const_mul ?_ _)
  exact memLp_finset_sum _ fun s _ => memLp_finset_sum _ fun t _ => (dev_pair h s t).const_mul (Q s t)

theorem functional_moments (h : Normal4 P X m C) {E : ((σ → ℝ) → ℝ) →ₗ[ℝ] ℝ} (hE : ∀ f, Integrable (fun ω => f (X ω)) P → E f = ∫ ω, f (X ω) ∂P) : NormalMoments E m C where
  one := by rw [hE _ (integrable_const _)]; simp
  first i := by rw [hE _ (h.toBalanced.int1 i)]; exact h.toBalanced.first i
  second i j := by rw [hE _ (h.toBalanced.int2 i j)]; exact h.second i j
  third i j k := by rw [hE _ (h.toBalanced.int3 i j k)]; exact h.third i j k
  fourth i j k l := by
    rw [hE, h.fourth]
    have := (dev_pair h i j).integrable_mul (dev_pair h k l)
    refine this.congr (Filter.Eventually.of_forall fun ω => ?_)
    simp only [Pi.mul_apply]
    ring

/-- Mean, covariance and covariance with the vector itself, of quadratic functions. -/
theorem quadratic_moments (h : Normal4 P X m C) {q : ℕ} (c : Fin q → ℝ) (b : Fin q → σ → ℝ) (Q : Fin q → Matrix σ σ ℝ) (hs : ∀ a, (Q a).IsHermitian) :
    (∀ a, ∫ ω, quadratic m (c a) (b a) (Q a) (X ω) ∂P = c a + secondOrderMean Q C a) ∧
    (∀ a a', cov[fun ω => quadratic m (c a) (b a) (Q a) (X ω), fun ω => quadratic m (c a') (b a') (Q a') (X ω); P] = (Matrix.of b * C * (Matrix.of b)ᵀ) a a' + secondOrderCov Q C a a') ∧
    (∀ s a, cov[fun ω => X ω s, fun ω => quadratic m (c a) (b a) (Q a) (X ω); P] = (C * (Matrix.of b)ᵀ) s a) := by
  classical
  obtain ⟨E, hE⟩ := exists_functional (P := P) X
  have hN := functional_moments h hE
  have hI : ∀ a, Integrable (fun ω => quadratic m (c a) (b a) (Q a) (X ω)) P := fun a => (quadratic_memLp h _ _ _).integrable (by norm_num)
  have h1 : ∀ a, ∫ ω, quadratic m (c a) (b a) (Q a) (X ω) ∂P = c a + secondOrderMean Q C a := by
    intro a
    rw [← hE _ (hI a), C55_mean E m C hN.toExpect c b Q a]
    simp [quadratic]
  have h2 : ∀ (c c' : Fin q → ℝ) (b b' : Fin q → σ → ℝ) (Q Q' : Fin q → Matrix σ σ ℝ) (a a' : Fin q),
      cov[fun ω => quadratic m (c a) (b a) (Q a) (X ω), fun ω => quadratic m (c' a') (b' a') (Q' a') (X ω); P] =
      E (fun x => (quadratic m (c a) (b a) (Q a) x - E (quadratic m (c a) (b a) (Q a))) * (quadratic m (c' a') (b' a') (Q' a') x - E (quadratic m (c' a') (b' a') (Q' a')))) := by
    intro c c' b b' Q Q' a a'
    rw [hE, hE _ ((quadratic_memLp h (c a) (b a) (Q a)).integrable (by norm_num)), hE _ ((quadratic_memLp h (c' a') (b' a') (Q' a')).integrable (by norm_num))]
    · rfl
    · exact ((quadratic_memLp h _ _ _).sub (memLp_const _)).integrable_mul ((quadratic_memLp h _ _ _).sub (memLp_const _))
  refine ⟨h1, fun a a' => ?_, fun s a => ?_⟩
  · rw [h2, C55_covariance E m C hN c b Q hs a a']
  · -- the coordinate is a quadratic function, too
    have e : (fun ω => X ω s) = fun ω => quadratic m (m s) (Pi.single s 1) 0 (X ω) := by
      funext ω
      simp [quadratic]
    have hN2 := C55_covariance (q := Fin 2) E m C hN ![m s, c a] ![Pi.single s 1, b a] ![0, Q a] (by
      intro i
      fin_cases i
      · exact Matrix.isHermitian_zero
      · exact hs a) 0 1
    have := h2 (fun _ => m s) c (fun _ => Pi.single s 1) b (fun _ => 0) Q a a
    rw [e, this]
    refine Eq.trans hN2 ?_
    simp only [secondOrderCov, Matrix.cons_val_zero, Matrix.cons_val_one, mul_zero, zero_mul, Matrix.trace_zero, add_zero]
    rw [Matrix.mul_apply, Matrix.mul_apply]
    refine Finset.sum_congr rfl fun t _ => ?_
    have : (Matrix.of (![Pi.single s 1, b a] : Fin 2 → σ → ℝ) * C) 0 t = C s t := by
      rw [Matrix.mul_apply]
      simp [Pi.single_apply]
    rw [this]
    rfl

/-! ## Sums over the terms -/

variable {b q : ℕ} (k : Fin (b + 1) → ℕ)

theorem sum_ofFn {M : Type} [AddCommMonoid M] {α : Type*} {n : ℕ} (f : Fin n → α) (g : α → M) : ((List.ofFn f).map g).sum = ∑ i, g (f i) := by
  rw [List.map_ofFn, List.sum_ofFn]
  rfl

/-- The parts of the result, with sums over the terms. -/
theorem combine_eq (lib : Lib ℝ) (value : Fin q → ℝ) (J : (i : Fin (b + 1)) → Matrix (Fin q) (Fin (k i)) ℝ) (H : (i : Fin (b + 1)) → Fin q → Matrix (Fin (k i)) (Fin (k i)) ℝ)
    (d : (i : Fin (b + 1)) → Gauss ℝ (Fin (k i))) (hd : ∀ i, (d i).cov.PosSemidef) (hH : ∀ i a, (H i a).IsHermitian) :
    combine k lib value J H d = some (⟨value + ∑ i, secondOrderMean (H i) (d i).cov, (∑ i, J i * (d i).cov * (J i)ᵀ) + ∑ i, secondOrderCov (H i) (d i).cov⟩, (d 0).cov * (J 0)ᵀ) := by
  have hc := C55_total (q := Fin q) lib ⟨k 0, H 0, (d 0).cov⟩ (List.ofFn fun i : Fin b => ⟨k i.succ, H i.succ, (d i.succ).cov⟩) (by
    intro s hs
    rcases List.mem_cons.1 hs with rfl | hs
    · exact ⟨hH 0, hd 0⟩
    · obtain ⟨i, rfl⟩ := List.mem_ofFn.1 hs
      exact ⟨hH i.succ, hd i.succ⟩)
  obtain ⟨g, e, e1, e2, -⟩ := hc
  rw [List.map_cons, List.sum_cons, sum_ofFn] at e1 e2
  unfold combine
  rw [List.ofFn_succ, e, sumNoiseCross_eq lib _ _ _ (hd 0).1 (by
    intro t ht
    obtain ⟨i, rfl⟩ := List.mem_ofFn.1 ht
    exact (hd i.succ).1), Option.map_some]
  rw [noiseCov, sum_ofFn, e1, e2]
  simp only [Fin.sum_univ_succ, Matrix.conjTranspose_eq_transpose_of_trivial]

theorem block_mean (H : (i : Fin (b + 1)) → Fin q → Matrix (Fin (k i)) (Fin (k i)) ℝ) (C : (i : Fin (b + 1)) → Matrix (Fin (k i)) (Fin (k i)) ℝ) (a : Fin q) :
    secondOrderMean (fun a => blockDiagonal' fun i => H i a) (blockDiagonal' C) a = ∑ i, secondOrderMean (H i) (C i) a := by
  simp only [secondOrderMean, ← blockDiagonal'_mul, trace_blockDiagonal', Finset.mul_sum]

theorem block_cov (H : (i : Fin (b + 1)) → Fin q → Matrix (Fin (k i)) (Fin (k i)) ℝ) (C : (i : Fin (b + 1)) → Matrix (Fin (k i)) (Fin (k i)) ℝ) (a a' : Fin q) :
    secondOrderCov (fun a => blockDiagonal' fun i => H i a) (blockDiagonal' C) a a' = ∑ i, secondOrderCov (H i) (C i) a a' := by
  simp only [secondOrderCov, ← blockDiagonal'_mul, trace_blockDiagonal', Finset.mul_sum]

theorem block_cross (J : (i : Fin (b + 1)) → Matrix (Fin q) (Fin (k i)) ℝ) (C : (i : Fin (b + 1)) → Matrix (Fin (k i)) (Fin (k i)) ℝ) (s : (i : Fin (b + 1)) × Fin (k i)) (a : Fin q) :
    (blockDiagonal' C * (Matrix.of fun a (s : (i : Fin (b + 1)) × Fin (k i)) => J s.1 a s.2)ᵀ) s a = (C s.1 * (J s.1)ᵀ) s.2 a := by
  obtain ⟨i, x⟩ := s
  rw [Matrix.mul_apply, Fintype.sum_sigma, Finset.sum_eq_single i]
  · rw [Matrix.mul_apply]
    exact Finset.sum_congr rfl fun y _ => by rw [blockDiagonal'_apply_eq]; rfl
  · intro j _ hj
    exact Finset.sum_eq_zero fun y _ => by rw [blockDiagonal'_apply_ne _ _ _ (Ne.symm hj), zero_mul]
  · intro h
    exact absurd (Finset.mem_univ _) h

theorem block_first (J : (i : Fin (b + 1)) → Matrix (Fin q) (Fin (k i)) ℝ) (C : (i : Fin (b + 1)) → Matrix (Fin (k i)) (Fin (k i)) ℝ) (a a' : Fin q) :
    (Matrix.of (fun a (s : (i : Fin (b + 1)) × Fin (k i)) => J s.1 a s.2) * blockDiagonal' C * (Matrix.of fun a (s : (i : Fin (b + 1)) × Fin (k i)) => J s.1 a s.2)ᵀ) a a' =
      (∑ i, J i * C i * (J i)ᵀ) a a' := by
  rw [Matrix.mul_assoc, Matrix.mul_apply, Fintype.sum_sigma, Matrix.sum_apply]
  refine Finset.sum_congr rfl fun i _ => ?_
  rw [Matrix.mul_assoc, Matrix.mul_apply]
  refine Finset.sum_congr rfl fun x _ => ?_
  rw [block_cross]
  rfl

/-- A quadratic function around another point. -/
theorem quadratic_around {g : (σ → ℝ) → ℝ} {c : ℝ} {l : σ → ℝ} {A : σ → σ → ℝ} (hg : IsQuadratic g c l A) (m v : σ → ℝ) :
    g v = quadratic m (g m) (fun s => l s + ∑ t, (A s t + A t s) * m t) (Matrix.of fun s t => A s t + A t s) v := by
  have e1 : ∑ s, ∑ t, A s t * v s * v t = ∑ s, ∑ t, A s t * m s * m t + (∑ s, ∑ t, A s t * (v s - m s) * m t + ∑ s, ∑ t, A s t * m s * (v t - m t)) +
      ∑ s, ∑ t, A s t * (v s - m s) * (v t - m t) := by
    simp only [← Finset.sum_add_distrib]
    exact Finset.sum_congr rfl fun s _ => Finset.sum_congr rfl fun t _ => by ring
  have e2 : ∑ s, ∑ t, A s t * m s * (v t - m t) = ∑ s, ∑ t, A t s * (v s - m s) * m t := by
    rw [Finset.sum_comm]
    exact Finset.sum_congr rfl fun s _ => Finset.sum_congr rfl fun t _ => by ring
  have e3 : ∑ s, ∑ t, A s t * (v s - m s) * (v t - m t) = 1 / 2 * ∑ s, ∑ t, (A s t + A t s) * (v s - m s) * (v t - m t) := by
    have : ∑ s, ∑ t, (A s t + A t s) * (v s - m s) * (v t - m t) = ∑ s, ∑ t, A s t * (v s - m s) * (v t - m t) + ∑ s, ∑ t, A t s * (v s - m s) * (v t - m t) := by
      simp only [← Finset.sum_add_distrib]
      exact Finset.sum_congr rfl fun s _ => Finset.sum_congr rfl fun t _ => by ring
    rw [this]
    have : ∑ s, ∑ t, A t s * (v s - m s) * (v t - m t) = ∑ s, ∑ t, A s t * (v s - m s) * (v t - m t) := by
      rw [Finset.sum_comm]
      exact Finset.sum_congr rfl fun s _ => Finset.sum_congr rfl fun t _ => by ring
    rw [this]
    ring
  have e4 : ∑ s, l s * v s = ∑ s, l s * m s + ∑ s, l s * (v s - m s) := by
    rw [← Finset.sum_add_distrib]
    exact Finset.sum_congr rfl fun s _ => by ring
  have e5 : (fun s => l s + ∑ t, (A s t + A t s) * m t) ⬝ᵥ (v - m) = ∑ s, l s * (v s - m s) + (∑ s, ∑ t, A s t * (v s - m s) * m t + ∑ s, ∑ t, A t s * (v s - m s) * m t) := by
    simp only [dotProduct, Pi.sub_apply, ← Finset.sum_add_distrib]
    refine Finset.sum_congr rfl fun s _ => ?_
    rw [add_mul, Finset.sum_mul]
    congr 1
    exact Finset.sum_congr rfl fun t _ => by ring
  have e6 : (v - m) ⬝ᵥ (Matrix.of fun s t => A s t + A t s) *ᵥ (v - m) = ∑ s, ∑ t, (A s t + A t s) * (v s - m s) * (v t - m t) := by
    simp only [dotProduct, mulVec, Pi.sub_apply, Matrix.of_apply, Finset.mul_sum]
    exact Finset.sum_congr rfl fun s _ => Finset.sum_congr rfl fun t _ => by ring
  unfold quadratic
  rw [hg v, hg m, e5, e6, e1, e2, e3, e4]
  ring

end OpenKalman.SecondOrder
