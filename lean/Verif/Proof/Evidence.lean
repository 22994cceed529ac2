import Verif.Spec.Evidence
import Verif.Model.Evidence
import Verif.Proof.LinSys
import Verif.Theorems.LinSys
import Verif.Proof.GaussianDensity
import Verif.Theorems.Gaussian
import Mathlib.LinearAlgebra.Matrix.SchurComplement

/-!
# Lemmas: densities of stacked vectors, and of all measurements of a system
-/

set_option linter.unusedSectionVars false

namespace OpenKalman.LinSys
open MeasureTheory ProbabilityTheory Matrix OpenKalman.Kalman OpenKalman.Gaussian

/-! ## Stacked vectors -/

/-- Stacked blocks. -/
def stack {m k : ℕ} (S : Matrix (Fin m) (Fin m) ℝ) (B : Matrix (Fin m) (Fin k) ℝ) (C : Matrix (Fin k) (Fin m) ℝ) (D : Matrix (Fin k) (Fin k) ℝ) :
    Matrix (Fin (m + k)) (Fin (m + k)) ℝ := (fromBlocks S B C D).submatrix finSumFinEquiv.symm finSumFinEquiv.symm

theorem append_eq {m k : ℕ} (u : Fin m → ℝ) (v : Fin k → ℝ) : Fin.append u v = Sum.elim u v ∘ finSumFinEquiv.symm := by
  funext i
  refine Fin.addCases (fun i => ?_) (fun i => ?_) i <;> simp

theorem append_sub {m k : ℕ} (u u' : Fin m → ℝ) (v v' : Fin k → ℝ) : Fin.append u v - Fin.append u' v' = Fin.append (u - u') (v - v') := by
  funext i
  refine Fin.addCases (fun i => ?_) (fun i => ?_) i <;> simp

theorem append_add {m k : ℕ} (u u' : Fin m → ℝ) (v v' : Fin k → ℝ) : Fin.append u v + Fin.append u' v' = Fin.append (u + u') (v + v') := by
  funext i
  refine Fin.addCases (fun i => ?_) (fun i => ?_) i <;> simp

theorem append_dot {m k : ℕ} (u u' : Fin m → ℝ) (v v' : Fin k → ℝ) : Fin.append u v ⬝ᵥ Fin.append u' v' = u ⬝ᵥ u' + v ⬝ᵥ v' := by
  simp [dotProduct, Fin.sum_univ_add]

theorem stack_mulVec {m k : ℕ} (S : Matrix (Fin m) (Fin m) ℝ) (B : Matrix (Fin m) (Fin k) ℝ) (C : Matrix (Fin k) (Fin m) ℝ) (D : Matrix (Fin k) (Fin k) ℝ) (u : Fin m → ℝ)
    (v : Fin k → ℝ) : stack S B C D *ᵥ Fin.append u v = Fin.append (S *ᵥ u + B *ᵥ v) (C *ᵥ u + D *ᵥ v) := by
  rw [append_eq, append_eq, stack, submatrix_mulVec_equiv, Function.comp_assoc]
  simp [fromBlocks_mulVec, Function.comp_def]

theorem stack_det {m k : ℕ} {S : Matrix (Fin m) (Fin m) ℝ} (hS : IsUnit S.det) (B : Matrix (Fin m) (Fin k) ℝ) (C : Matrix (Fin k) (Fin m) ℝ) (D : Matrix (Fin k) (Fin k) ℝ) :
    (stack S B C D).det = S.det * (D - C * S⁻¹ * B).det := by
  rw [stack, det_submatrix_equiv_self]
  letI := S.invertibleOfIsUnitDet hS
  rw [det_fromBlocks₁₁, invOf_eq_nonsing_inv]

/-- The density of a stacked Gaussian vector is that of its first part times the conditional density of the second. -/
theorem log_density_append {m k : ℕ} (a : Fin m → ℝ) (b : Fin k → ℝ) {S : Matrix (Fin m) (Fin m) ℝ} (C : Matrix (Fin k) (Fin m) ℝ) (D : Matrix (Fin k) (Fin k) ℝ)
    (hS : S.PosDef) (hT : (D - C * S⁻¹ * Cᵀ).PosDef) (hM : (stack S Cᵀ C D).PosDef) (u : Fin m → ℝ) (v : Fin k → ℝ) :
    Real.log (density (Fin.append a b) (stack S Cᵀ C D) (Fin.append u v)) =
      Real.log (density a S u) + Real.log (density (b + (C * S⁻¹) *ᵥ (u - a)) (D - C * S⁻¹ * Cᵀ) v) := by
  have uS : IsUnit S.det := isUnit_iff_ne_zero.mpr hS.det_pos.ne'
  have uT : IsUnit (D - C * S⁻¹ * Cᵀ).det := isUnit_iff_ne_zero.mpr hT.det_pos.ne'
  have uM : IsUnit (stack S Cᵀ C D).det := isUnit_iff_ne_zero.mpr hM.det_pos.ne'
  rw [log_density hM, log_density hS, log_density hT, stack_det uS, Real.log_mul hS.det_pos.ne' hT.det_pos.ne', append_sub, Nat.cast_add]
  have hv : v - (b + (C * S⁻¹) *ᵥ (u - a)) = (v - b) - (C * S⁻¹) *ᵥ (u - a) := by abel
  rw [hv]
  generalize u - a = d
  generalize v - b = e
  set T := D - C * S⁻¹ * Cᵀ with hTd
  set f := e - (C * S⁻¹) *ᵥ d with hf
  have hD : D = T + C * S⁻¹ * Cᵀ := by rw [hTd]; abel
  have hsym : (S⁻¹)ᵀ = S⁻¹ := by
    have := hS.isHermitian.inv
    rwa [IsHermitian, conjTranspose_eq_transpose_of_trivial] at this
  -- the solution of the stacked equations
  have hsol : (stack S Cᵀ C D)⁻¹ *ᵥ Fin.append d e = Fin.append (S⁻¹ *ᵥ d - (S⁻¹ * Cᵀ) *ᵥ (T⁻¹ *ᵥ f)) (T⁻¹ *ᵥ f) := by
    have h1 : stack S Cᵀ C D *ᵥ Fin.append (S⁻¹ *ᵥ d - (S⁻¹ * Cᵀ) *ᵥ (T⁻¹ *ᵥ f)) (T⁻¹ *ᵥ f) = Fin.append d e := by
      rw [stack_mulVec]
      congr 1
      · rw [mulVec_sub, mulVec_mulVec, mul_nonsing_inv _ uS, one_mulVec, mulVec_mulVec, ← Matrix.mul_assoc, mul_nonsing_inv _ uS, Matrix.one_mul]
        abel
      · have hTf : T *ᵥ (T⁻¹ *ᵥ f) = f := by rw [mulVec_mulVec, mul_nonsing_inv _ uT, one_mulVec]
        rw [hD, add_mulVec, hTf, mulVec_sub, mulVec_mulVec, mulVec_mulVec, ← Matrix.mul_assoc, hf]
        abel
    rw [← h1, mulVec_mulVec, nonsing_inv_mul _ uM, one_mulVec]
  rw [hsol, append_dot]
  have h2 : d ⬝ᵥ ((S⁻¹ * Cᵀ) *ᵥ (T⁻¹ *ᵥ f)) = ((C * S⁻¹) *ᵥ d) ⬝ᵥ (T⁻¹ *ᵥ f) := by
    rw [dotProduct_mulVec, ← mulVec_transpose, transpose_mul, transpose_transpose, hsym]
  rw [dotProduct_sub, h2]
  have h3 : f ⬝ᵥ (T⁻¹ *ᵥ f) = e ⬝ᵥ (T⁻¹ *ᵥ f) - ((C * S⁻¹) *ᵥ d) ⬝ᵥ (T⁻¹ *ᵥ f) := by
    rw [← sub_dotProduct]
  rw [h3]
  ring

/-! ## How the measurements depend on the initial state -/

variable {Ω : Type} [MeasurableSpace Ω]

/-- The matrix by which the initial state enters the measurements. -/
noncomputable def System.look : {n l : ℕ} → (s : System Ω n l) → Matrix (Fin s.count) (Fin n) ℝ
  | _, _, .done => Matrix.of fun i _ => i.elim0
  | _, _, .move A _ s => s.look * A
  | _, _, .measure _ C _ s => Matrix.of (Fin.append C s.look)

/-- What the noises add to the measurements. -/
noncomputable def System.stir : {n l : ℕ} → (s : System Ω n l) → Ω → Fin s.count → ℝ
  | _, _, .done, _ => Fin.elim0
  | _, _, .move _ ns s, ω => s.look *ᵥ noiseSum ns ω + s.stir ω
  | _, _, .measure _ _ ns s, ω => Fin.append (noiseSum ns ω) (s.stir ω)

theorem of_append_mulVec {m k n : ℕ} (A : Matrix (Fin m) (Fin n) ℝ) (B : Matrix (Fin k) (Fin n) ℝ) (x : Fin n → ℝ) :
    Matrix.of (Fin.append A B) *ᵥ x = Fin.append (A *ᵥ x) (B *ᵥ x) := by
  funext i
  refine Fin.addCases (fun i => ?_) (fun i => ?_) i
  · rw [Fin.append_left]
    exact congrArg (· ⬝ᵥ x) (Fin.append_left (α := Fin n → ℝ) A B i)
  · rw [Fin.append_right]
    exact congrArg (· ⬝ᵥ x) (Fin.append_right (α := Fin n → ℝ) A B i)

theorem append_mul_append {m k n : ℕ} (A : Matrix (Fin m) (Fin n) ℝ) (B : Matrix (Fin k) (Fin n) ℝ) (C : Matrix (Fin n) (Fin n) ℝ) :
    Matrix.of (Fin.append A B) * C * (Matrix.of (Fin.append A B))ᵀ = stack (A * C * Aᵀ) (A * C * Bᵀ) (B * C * Aᵀ) (B * C * Bᵀ) := by
  have h : Matrix.of (Fin.append A B) = (fromRows A B).submatrix finSumFinEquiv.symm (Equiv.refl (Fin n)) := by
    ext i j
    refine Fin.addCases (fun i => ?_) (fun i => ?_) i
    · simpa using congrFun (Fin.append_left (α := Fin n → ℝ) A B i) j
    · simpa using congrFun (Fin.append_right (α := Fin n → ℝ) A B i) j
  have hC : C = C.submatrix (Equiv.refl (Fin n)) (Equiv.refl (Fin n)) := rfl
  rw [h, transpose_submatrix, hC, submatrix_mul_equiv, submatrix_mul_equiv, stack, transpose_fromRows, fromRows_mul, fromRows_mul_fromCols]
  rfl

theorem stack_add {m k : ℕ} (S S' : Matrix (Fin m) (Fin m) ℝ) (B B' : Matrix (Fin m) (Fin k) ℝ) (C C' : Matrix (Fin k) (Fin m) ℝ) (D D' : Matrix (Fin k) (Fin k) ℝ) :
    stack S B C D + stack S' B' C' D' = stack (S + S') (B + B') (C + C') (D + D') := by
  rw [stack, stack, stack, ← fromBlocks_add]
  rfl

theorem readings_eq {n l : ℕ} (s : System Ω n l) : ∀ (x : Ω → Fin n → ℝ) (ω : Ω), s.readings x ω = s.look *ᵥ x ω + s.stir ω := by
  induction s with
  | done => exact fun x ω => funext fun i => i.elim0
  | @move n k l A ns s ih =>
    intro x ω
    show s.readings (moved A ns x) ω = (s.look * A) *ᵥ x ω + (s.look *ᵥ noiseSum ns ω + s.stir ω)
    rw [ih, moved, mulVec_add, mulVec_mulVec, add_assoc]
  | @measure n l m C ns s ih =>
    intro x ω
    show Fin.append (moved C ns x ω) (s.readings x ω) = Matrix.of (Fin.append C s.look) *ᵥ x ω + Fin.append (noiseSum ns ω) (s.stir ω)
    rw [ih, of_append_mulVec, append_add]
    rfl

/-- The expectation of what the noises add. -/
noncomputable def System.stirMean (P : Measure Ω) : {n l : ℕ} → (s : System Ω n l) → Fin s.count → ℝ
  | _, _, .done => Fin.elim0
  | _, _, .move _ ns s => s.look *ᵥ meanVec P (noiseSum ns) + s.stirMean P
  | _, _, .measure _ _ ns s => Fin.append (meanVec P (noiseSum ns)) (s.stirMean P)

/-- Its covariance. -/
noncomputable def System.stirCov (P : Measure Ω) : {n l : ℕ} → (s : System Ω n l) → Matrix (Fin s.count) (Fin s.count) ℝ
  | _, _, .done => Matrix.of fun i _ => i.elim0
  | _, _, .move _ ns s => s.look * covMat P (noiseSum ns) (noiseSum ns) * s.lookᵀ + s.stirCov P
  | _, _, .measure _ _ ns s => stack (covMat P (noiseSum ns) (noiseSum ns)) 0 0 (s.stirCov P)

variable {P : Measure Ω} [IsProbabilityMeasure P]

theorem square_append {m k : ℕ} {X : Ω → Fin m → ℝ} {Y : Ω → Fin k → ℝ} (hX : Square P X) (hY : Square P Y) : Square P fun ω => Fin.append (X ω) (Y ω) := by
  intro i
  refine Fin.addCases (fun i => ?_) (fun i => ?_) i
  · simpa using hX i
  · simpa using hY i

theorem meanVec_append {m k : ℕ} (X : Ω → Fin m → ℝ) (Y : Ω → Fin k → ℝ) : meanVec P (fun ω => Fin.append (X ω) (Y ω)) = Fin.append (meanVec P X) (meanVec P Y) := by
  funext i
  refine Fin.addCases (fun i => ?_) (fun i => ?_) i <;> simp [meanVec]

theorem covMat_append {m k : ℕ} (X : Ω → Fin m → ℝ) (Y : Ω → Fin k → ℝ) :
    covMat P (fun ω => Fin.append (X ω) (Y ω)) (fun ω => Fin.append (X ω) (Y ω)) = stack (covMat P X X) (covMat P X Y) (covMat P Y X) (covMat P Y Y) := by
  ext i j
  refine Fin.addCases (fun i => ?_) (fun i => ?_) i <;> refine Fin.addCases (fun j => ?_) (fun j => ?_) j <;> simp [covMat, stack]

theorem covMat_append_left {m k n : ℕ} {X : Ω → Fin m → ℝ} {Y : Ω → Fin k → ℝ} {Z : Ω → Fin n → ℝ} (h1 : covMat P X Z = 0) (h2 : covMat P Y Z = 0) :
    covMat P (fun ω => Fin.append (X ω) (Y ω)) Z = 0 := by
  ext i j
  refine Fin.addCases (fun i => ?_) (fun i => ?_) i
  · have := congrFun (congrFun h1 i) j
    simpa [covMat] using this
  · have := congrFun (congrFun h2 i) j
    simpa [covMat] using this

theorem stir_square {n l : ℕ} (s : System Ω n l) : (∀ w ∈ s.noises, Square P w.2) → Square P s.stir := by
  induction s with
  | done => exact fun _ i => i.elim0
  | @move n k l A ns s ih =>
    intro hw
    have h1 : Square P (noiseSum ns) := square_noiseSum fun v hv => hw ⟨k, v.value⟩ (List.mem_append_left _ (List.mem_map_of_mem hv))
    exact (h1.mulVec s.look).add (ih fun w h => hw w (List.mem_append_right _ h))
  | @measure n l m C ns s ih =>
    intro hw
    have h1 : Square P (noiseSum ns) := square_noiseSum fun v hv => hw ⟨m, v.value⟩ (List.mem_append_left _ (List.mem_map_of_mem hv))
    exact square_append h1 (ih fun w h => hw w (List.mem_append_right _ h))

/-- What is not correlated with the noises is not correlated with what they add. -/
theorem stir_uncorrelated {n l : ℕ} (s : System Ω n l) {k : ℕ} {Z : Ω → Fin k → ℝ} (hZ : Square P Z) :
    (∀ w ∈ s.noises, Square P w.2) → (∀ w ∈ s.noises, covMat P w.2 Z = 0) → covMat P s.stir Z = 0 := by
  induction s with
  | done => exact fun _ _ => Matrix.ext fun i => i.elim0
  | @move n k l A ns s ih =>
    intro hw h0
    have m1 : ∀ v ∈ ns, (⟨k, v.value⟩ : AnyVec Ω) ∈ (System.move A ns s).noises := fun v hv => List.mem_append_left _ (List.mem_map_of_mem hv)
    have m2 : ∀ w ∈ s.noises, w ∈ (System.move A ns s).noises := fun w h => List.mem_append_right _ h
    have h1 : Square P (noiseSum ns) := square_noiseSum fun v hv => hw _ (m1 v hv)
    have h2 : covMat P (noiseSum ns) Z = 0 := covMat_noiseSum_left (fun v hv => hw _ (m1 v hv)) hZ fun v hv => h0 _ (m1 v hv)
    show covMat P (fun ω => s.look *ᵥ noiseSum ns ω + s.stir ω) Z = 0
    rw [covMat_add_left (h1.mulVec s.look) (stir_square s fun w h => hw w (m2 w h)) hZ, covMat_mulVec_left h1 hZ, h2, ih (fun w h => hw w (m2 w h)) fun w h => h0 w (m2 w h)]
    simp
  | @measure n l m C ns s ih =>
    intro hw h0
    have m1 : ∀ v ∈ ns, (⟨m, v.value⟩ : AnyVec Ω) ∈ (System.measure m C ns s).noises := fun v hv => List.mem_append_left _ (List.mem_map_of_mem hv)
    have m2 : ∀ w ∈ s.noises, w ∈ (System.measure m C ns s).noises := fun w h => List.mem_append_right _ h
    exact covMat_append_left (covMat_noiseSum_left (fun v hv => hw _ (m1 v hv)) hZ fun v hv => h0 _ (m1 v hv)) (ih (fun w h => hw w (m2 w h)) fun w h => h0 w (m2 w h))

theorem stir_moments {n l : ℕ} (s : System Ω n l) : (∀ w ∈ s.noises, Square P w.2) → s.noises.Pairwise (Uncorrelated P) →
    meanVec P s.stir = s.stirMean P ∧ covMat P s.stir s.stir = s.stirCov P := by
  induction s with
  | done => exact fun _ _ => ⟨funext fun i => i.elim0, Matrix.ext fun i => i.elim0⟩
  | @move n k l A ns s ih =>
    intro hw hp
    obtain ⟨hp1, hp2, hp3⟩ := List.pairwise_append.1 hp
    have m1 : ∀ v ∈ ns, (⟨k, v.value⟩ : AnyVec Ω) ∈ (System.move A ns s).noises := fun v hv => List.mem_append_left _ (List.mem_map_of_mem hv)
    have m2 : ∀ w ∈ s.noises, w ∈ (System.move A ns s).noises := fun w h => List.mem_append_right _ h
    have h1 : Square P (noiseSum ns) := square_noiseSum fun v hv => hw _ (m1 v hv)
    have h2 := stir_square s fun w h => hw w (m2 w h)
    have h3 : covMat P s.stir (noiseSum ns) = 0 := stir_uncorrelated s h1 (fun w h => hw w (m2 w h)) fun w h => by
      rw [covMat_swap, covMat_noiseSum_left (fun v hv => hw _ (m1 v hv)) (hw w (m2 w h)) fun v hv => hp3 ⟨k, v.value⟩ (List.mem_map_of_mem hv) w h, transpose_zero]
    obtain ⟨i1, i2⟩ := ih (fun w h => hw w (m2 w h)) hp2
    constructor
    · show meanVec P (fun ω => s.look *ᵥ noiseSum ns ω + s.stir ω) = s.look *ᵥ meanVec P (noiseSum ns) + s.stirMean P
      rw [meanVec_add (h1.mulVec s.look) h2, meanVec_mulVec h1, i1]
    · show covMat P (fun ω => s.look *ᵥ noiseSum ns ω + s.stir ω) (fun ω => s.look *ᵥ noiseSum ns ω + s.stir ω) = s.look * covMat P (noiseSum ns) (noiseSum ns) * s.lookᵀ + s.stirCov P
      have h4 : covMat P (noiseSum ns) s.stir = 0 := by rw [covMat_swap, h3, transpose_zero]
      rw [covMat_add_left (h1.mulVec s.look) h2 ((h1.mulVec s.look).add h2), covMat_add_right (h1.mulVec s.look) h2 (h1.mulVec s.look), covMat_add_right (h1.mulVec s.look) h2 h2,
        covMat_mulVec_left h1 (h1.mulVec s.look), covMat_mulVec_right h1 h1, covMat_mulVec_left h1 h2, covMat_mulVec_right h1 h2, h3, h4, i2]
      simp [Matrix.mul_assoc]
  | @measure n l m C ns s ih =>
    intro hw hp
    obtain ⟨hp1, hp2, hp3⟩ := List.pairwise_append.1 hp
    have m1 : ∀ v ∈ ns, (⟨m, v.value⟩ : AnyVec Ω) ∈ (System.measure m C ns s).noises := fun v hv => List.mem_append_left _ (List.mem_map_of_mem hv)
    have m2 : ∀ w ∈ s.noises, w ∈ (System.measure m C ns s).noises := fun w h => List.mem_append_right _ h
    have h1 : Square P (noiseSum ns) := square_noiseSum fun v hv => hw _ (m1 v hv)
    have h3 : covMat P s.stir (noiseSum ns) = 0 := stir_uncorrelated s h1 (fun w h => hw w (m2 w h)) fun w h => by
      rw [covMat_swap, covMat_noiseSum_left (fun v hv => hw _ (m1 v hv)) (hw w (m2 w h)) fun v hv => hp3 ⟨m, v.value⟩ (List.mem_map_of_mem hv) w h, transpose_zero]
    have h4 : covMat P (noiseSum ns) s.stir = 0 := by rw [covMat_swap, h3, transpose_zero]
    obtain ⟨i1, i2⟩ := ih (fun w h => hw w (m2 w h)) hp2
    constructor
    · refine (meanVec_append _ _).trans ?_
      rw [i1]
      rfl
    · refine (covMat_append _ _).trans ?_
      rw [h3, h4, i2]
      rfl

theorem stack_posDef {m k : ℕ} {S : Matrix (Fin m) (Fin m) ℝ} {D : Matrix (Fin k) (Fin k) ℝ} (hS : S.PosDef) (hD : D.PosDef) : (stack S 0 0 D).PosDef := by
  refine PosDef.of_dotProduct_mulVec_pos ?_ fun x hx => ?_
  · have h1 : (fromBlocks S 0 0 D).IsHermitian := by
      rw [IsHermitian, fromBlocks_conjTranspose, hS.1.eq, hD.1.eq]
      simp
    exact h1.submatrix _
  · obtain ⟨u, v, rfl⟩ : ∃ u v, x = Fin.append u v := ⟨_, _, (Fin.append_castAdd_natAdd (f := x)).symm⟩
    rw [stack_mulVec, star_trivial, append_dot]
    simp only [zero_mulVec, add_zero, zero_add]
    by_cases hu : u = 0
    · have hv : v ≠ 0 := by
        rintro rfl
        apply hx
        funext i
        refine Fin.addCases (fun i => ?_) (fun i => ?_) i <;> simp [hu]
      have := hD.dotProduct_mulVec_pos hv
      rw [star_trivial] at this
      simpa [hu] using this
    · have h1 := hS.dotProduct_mulVec_pos hu
      have h2 := hD.posSemidef.dotProduct_mulVec_nonneg v
      rw [star_trivial] at h1 h2
      exact add_pos_of_pos_of_nonneg h1 h2

theorem stirCov_posDef {n l : ℕ} (s : System Ω n l) : (∀ w ∈ s.noises, Square P w.2) → s.Sound P → (s.stirCov P).PosDef := by
  induction s with
  | done => exact fun _ _ => PosDef.of_dotProduct_mulVec_pos (Matrix.ext fun i => i.elim0) fun x hx => absurd (funext fun i => i.elim0) hx
  | @move n k l A ns s ih =>
    intro hw hs
    have h1 : Square P (noiseSum ns) := square_noiseSum fun v hv => hw ⟨k, v.value⟩ (List.mem_append_left _ (List.mem_map_of_mem hv))
    have h2 := (covMat_posSemidef h1).mul_mul_conjTranspose_same s.look
    rw [conjTranspose_eq_transpose_of_trivial] at h2
    exact PosDef.posSemidef_add h2 (ih (fun w h => hw w (List.mem_append_right _ h)) hs.2)
  | @measure n l m C ns s ih =>
    intro hw hs
    exact stack_posDef hs.2.1 (ih (fun w h => hw w (List.mem_append_right _ h)) hs.2.2)

/-! ## The filter -/

/-- The calls of the filter for given numbers measured. -/
noncomputable def System.calls (P : Measure Ω) : {n l : ℕ} → (s : System Ω n l) → (Fin s.count → ℝ) → Hist ℝ n l
  | _, _, .done, _ => .nil
  | _, _, .move A ns s, z => .cons (.predict ⟨A, ns.map Noise.gain⟩ (ns.map (told P))) (s.calls P z)
  | _, _, .measure m C ns s, z => .cons (.update m ⟨C, ns.map Noise.gain⟩ (ns.map (told P)) fun i => z (Fin.castAdd s.count i)) (s.calls P fun j => z (Fin.natAdd m j))

omit [IsProbabilityMeasure P] in
/-- They are those of `System.hist`. -/
theorem calls_readings {n l : ℕ} (s : System Ω n l) : ∀ (x : Ω → Fin n → ℝ) (ω : Ω), s.calls P (s.readings x ω) = s.hist P x ω := by
  induction s with
  | done => exact fun _ _ => rfl
  | @move n k l A ns s ih => exact fun x ω => congrArg _ (ih (moved A ns x) ω)
  | @measure n l m C ns s ih =>
    intro x ω
    have h1 : (fun i => Fin.append (moved C ns x ω) (s.readings x ω) (Fin.castAdd s.count i)) = moved C ns x ω := funext fun i => Fin.append_left _ _ i
    have h2 : (fun j => Fin.append (moved C ns x ω) (s.readings x ω) (Fin.natAdd m j)) = s.readings x ω := funext fun j => Fin.append_right _ _ j
    show Hist.cons (.update m _ _ fun i => Fin.append (moved C ns x ω) (s.readings x ω) (Fin.castAdd s.count i))
      (s.calls P fun j => Fin.append (moved C ns x ω) (s.readings x ω) (Fin.natAdd m j)) = _
    rw [h1, h2, ih]
    rfl

/-- The log-likelihood of a stored distribution is the logarithm of the density. -/
theorem logLikelihood_one (lib : Lib ℝ) {n : ℕ} (d : Dist n) (hr : d.cov.root = false) (hf : d.cov.form ≠ .cdiag) {S : Matrix (Fin n) (Fin n) ℝ} (hS : S.PosDef)
    (h : d.cov.Represents S) (z : Fin n → ℝ) : d.logLikelihood lib.solveVec [z] = Real.log (density d.mean S z) := by
  have uS : IsUnit S.det := isUnit_iff_ne_zero.mpr hS.det_pos.ne'
  have hq : ∀ b, lib.solveVec S b = S⁻¹ *ᵥ b := by
    intro b
    have h1 := congrArg (fun M => S⁻¹ * M) (lib.solve_spec S (Matrix.of fun j (_ : Fin 1) => b j) uS)
    simp only [← Matrix.mul_assoc, nonsing_inv_mul _ uS, Matrix.one_mul] at h1
    funext i
    exact congrFun (congrFun h1 i) 0
  unfold Dist.logLikelihood
  rw [covDet_eq hr hf h, CovArith.selfAdjointNested_eq hr h, log_density hS, List.map_singleton, List.sum_singleton, hq]
  simp

theorem log_density_zero (a : Fin 0 → ℝ) (S : Matrix (Fin 0) (Fin 0) ℝ) (z : Fin 0 → ℝ) : Real.log (density a S z) = 0 := by
  simp [density]

/-- The logarithm of the density of all measurements is what the filter adds up. -/
theorem evidence_density (lib : Lib ℝ) {n l : ℕ} (s : System Ω n l) : ∀ {m : Fin n → ℝ} {C : Matrix (Fin n) (Fin n) ℝ} (z : Fin s.count → ℝ), C.PosSemidef →
    (∀ w ∈ s.noises, Square P w.2) → s.noises.Pairwise (Uncorrelated P) → s.Sound P →
    Real.log (density (s.look *ᵥ m + s.stirMean P) (s.look * C * s.lookᵀ + s.stirCov P) z) = (s.calls P z).evidence lib ⟨m, C⟩ := by
  induction s with
  | done =>
    intro m C z _ _ _ _
    exact log_density_zero _ _ z
  | @move n k l A ns s ih =>
    intro m C z hC hw hu hs
    obtain ⟨hp1, hp2, hp3⟩ := List.pairwise_append.1 hu
    have hsq : ∀ v ∈ ns, Square P v.value := fun v hv => hw ⟨k, v.value⟩ (List.mem_append_left _ (List.mem_map_of_mem hv))
    obtain ⟨t1, t2⟩ := told_total hsq (List.pairwise_map.1 hp1) hs.1 A
    have hC' : (A * C * Aᵀ + covMat P (noiseSum ns) (noiseSum ns)).PosSemidef := by
      have h2 := hC.mul_mul_conjTranspose_same A
      rw [conjTranspose_eq_transpose_of_trivial] at h2
      exact h2.add (covMat_posSemidef (square_noiseSum hsq))
    show _ = 0 + (s.calls P z).evidence lib (linearTransform lib ⟨A, ns.map Noise.gain⟩ ⟨m, C⟩ ((ns.map (told P)).map GaussChol.toGauss))
    have e : linearTransform lib ⟨A, ns.map Noise.gain⟩ ⟨m, C⟩ ((ns.map (told P)).map GaussChol.toGauss) =
        ⟨A *ᵥ m + meanVec P (noiseSum ns), A * C * Aᵀ + covMat P (noiseSum ns) (noiseSum ns)⟩ := by
      rw [linearTransform_eq lib _ _ _ hC.1 fun d hd => (toGauss_mem_hermitian _ d hd).1, ← noiseTotal_eq, t1, apply_eq]
      congr 1
      show A *ᵥ m + _ = _
      rw [← t2, List.zipIdx_map, List.map_map]
      rfl
    rw [e, zero_add, ← ih z hC' (fun w h => hw w (List.mem_append_right _ h)) hp2 hs.2]
    congr 2
    · show (s.look * A) *ᵥ m + (s.look *ᵥ meanVec P (noiseSum ns) + s.stirMean P) = _
      rw [mulVec_add, mulVec_mulVec, add_assoc]
    · show (s.look * A) * C * (s.look * A)ᵀ + (s.look * covMat P (noiseSum ns) (noiseSum ns) * s.lookᵀ + s.stirCov P) = _
      rw [transpose_mul, Matrix.mul_add, Matrix.add_mul, add_assoc]
      simp only [Matrix.mul_assoc]
  | @measure n l k H ns s ih =>
    intro m C z hC hw hu hs
    obtain ⟨hs1, hR, hs2⟩ := hs
    obtain ⟨hp1, hp2, hp3⟩ := List.pairwise_append.1 hu
    have hsq : ∀ v ∈ ns, Square P v.value := fun v hv => hw ⟨k, v.value⟩ (List.mem_append_left _ (List.mem_map_of_mem hv))
    have hw2 : ∀ w ∈ s.noises, Square P w.2 := fun w h => hw w (List.mem_append_right _ h)
    obtain ⟨t1, t2⟩ := told_total hsq (List.pairwise_map.1 hp1) hs1 H
    set R := covMat P (noiseSum ns) (noiseSum ns) with hRd
    set r := meanVec P (noiseSum ns) with hrd
    obtain ⟨u, v, rfl⟩ : ∃ u v, z = Fin.append u v := ⟨_, _, (Fin.append_castAdd_natAdd (f := z)).symm⟩
    have zu : (fun i => Fin.append u v (Fin.castAdd s.count i)) = u := funext fun i => Fin.append_left _ _ i
    have zv : (fun j => Fin.append u v (Fin.natAdd k j)) = v := funext fun j => Fin.append_right _ _ j
    have hS : (H * C * Hᵀ + R).PosDef := by
      have h2 := hC.mul_mul_conjTranspose_same H
      rw [conjTranspose_eq_transpose_of_trivial] at h2
      exact PosDef.posSemidef_add h2 hR
    have uS : IsUnit (H * C * Hᵀ + R).det := isUnit_iff_ne_zero.mpr hS.det_pos.ne'
    have hCt : Cᵀ = C := by
      have := hC.1
      rwa [IsHermitian, conjTranspose_eq_transpose_of_trivial] at this
    -- the distribution of the measurement and the update
    have e1 : linearTransform lib ⟨H, ns.map Noise.gain⟩ ⟨m, C⟩ ((ns.map (told P)).map GaussChol.toGauss) = ⟨H *ᵥ m + r, H * C * Hᵀ + R⟩ := by
      rw [linearTransform_eq lib _ _ _ hC.1 fun d hd => (toGauss_mem_hermitian _ d hd).1, ← noiseTotal_eq, t1, apply_eq]
      congr 1
      show H *ᵥ m + _ = _
      rw [← t2, List.zipIdx_map, List.map_map]
      rfl
    have e2 : Kalman.update lib ⟨H, ns.map Noise.gain⟩ ((ns.map (told P)).map GaussChol.toGauss) u ⟨m, C⟩ =
        ⟨m + (C * Hᵀ * (H * C * Hᵀ + R)⁻¹) *ᵥ (u - (H *ᵥ m + r)), C - C * Hᵀ * (H * C * Hᵀ + R)⁻¹ * (H * C)⟩ := by
      have f := C51_update_form lib ⟨H, ns.map Noise.gain⟩ ((ns.map (told P)).map GaussChol.toGauss) u ⟨m, C⟩ hC (toGauss_mem_hermitian (ns.map (told P)))
      rw [t1, t2] at f
      rw [f, linUpdate_eq lib H R r u ⟨m, C⟩ hC.1 hR.1 (by rw [conjTranspose_eq_transpose_of_trivial]; exact uS)]
      rfl
    have hC' : (C - C * Hᵀ * (H * C * Hᵀ + R)⁻¹ * (H * C)).PosSemidef := by
      have := (C49_update lib ⟨H, ns.map Noise.gain⟩ _ u ⟨m, C⟩ hC (toGauss_mem_hermitian (ns.map (told P))) (by rw [t1]; exact hR)).1
      rwa [e2] at this
    show _ = (linearTransform lib ⟨H, ns.map Noise.gain⟩ ⟨m, C⟩ ((ns.map (told P)).map GaussChol.toGauss)).store.logLikelihood lib.solveVec
        [fun i => Fin.append u v (Fin.castAdd s.count i)] +
      (s.calls P fun j => Fin.append u v (Fin.natAdd k j)).evidence lib
        (Kalman.update lib ⟨H, ns.map Noise.gain⟩ ((ns.map (told P)).map GaussChol.toGauss) (fun i => Fin.append u v (Fin.castAdd s.count i)) ⟨m, C⟩)
    have e3 : (Gauss.store ⟨H *ᵥ m + r, H * C * Hᵀ + R⟩).logLikelihood lib.solveVec [u] = Real.log (density (H *ᵥ m + r) (H * C * Hᵀ + R) u) :=
      logLikelihood_one lib (Gauss.store ⟨H *ᵥ m + r, H * C * Hᵀ + R⟩) rfl (by simp [Gauss.store]) hS rfl u
    rw [zu, zv, e1, e2, e3, ← ih v hC' hw2 hp2 hs2]
    have c1 : (System.measure k H ns s).look *ᵥ m + (System.measure k H ns s).stirMean P = Fin.append (H *ᵥ m + r) (s.look *ᵥ m + s.stirMean P) := by
      show Matrix.of (Fin.append H s.look) *ᵥ m + Fin.append r (s.stirMean P) = _
      rw [of_append_mulVec, append_add]
    have c2 : (System.measure k H ns s).look * C * (System.measure k H ns s).lookᵀ + (System.measure k H ns s).stirCov P =
        stack (H * C * Hᵀ + R) (s.look * C * Hᵀ)ᵀ (s.look * C * Hᵀ) (s.look * C * s.lookᵀ + s.stirCov P) := by
      show Matrix.of (Fin.append H s.look) * C * (Matrix.of (Fin.append H s.look))ᵀ + stack R 0 0 (s.stirCov P) = _
      rw [append_mul_append, stack_add, transpose_mul, transpose_mul, transpose_transpose, hCt]
      simp only [add_zero, Matrix.mul_assoc]
    have hN := stirCov_posDef s hw2 hs2
    have hT : (s.look * C * s.lookᵀ + s.stirCov P - (s.look * C * Hᵀ) * (H * C * Hᵀ + R)⁻¹ * (s.look * C * Hᵀ)ᵀ) =
        s.look * (C - C * Hᵀ * (H * C * Hᵀ + R)⁻¹ * (H * C)) * s.lookᵀ + s.stirCov P := by
      rw [transpose_mul, transpose_mul, transpose_transpose, hCt, Matrix.mul_sub, Matrix.sub_mul]
      simp only [Matrix.mul_assoc]
      abel
    have hTp : (s.look * (C - C * Hᵀ * (H * C * Hᵀ + R)⁻¹ * (H * C)) * s.lookᵀ + s.stirCov P).PosDef := by
      have h2 := hC'.mul_mul_conjTranspose_same s.look
      rw [conjTranspose_eq_transpose_of_trivial] at h2
      exact PosDef.posSemidef_add h2 hN
    have hM : (stack (H * C * Hᵀ + R) (s.look * C * Hᵀ)ᵀ (s.look * C * Hᵀ) (s.look * C * s.lookᵀ + s.stirCov P)).PosDef := by
      rw [← c2]
      have h2 := hC.mul_mul_conjTranspose_same (System.measure k H ns s).look
      rw [conjTranspose_eq_transpose_of_trivial] at h2
      exact PosDef.posSemidef_add h2 (stirCov_posDef (System.measure k H ns s) hw ⟨hs1, hR, hs2⟩)
    rw [c1, c2]
    refine (log_density_append (H *ᵥ m + r) (s.look *ᵥ m + s.stirMean P) (s.look * C * Hᵀ) _ hS (by rw [hT]; exact hTp) hM u v).trans ?_
    rw [hT]
    congr 3
    rw [mulVec_add, mulVec_mulVec]
    simp only [Matrix.mul_assoc]
    abel

end OpenKalman.LinSys
