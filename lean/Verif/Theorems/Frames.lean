import Verif.Theorems.KalmanBayes
import Verif.Theorems.KalmanTransforms
import Verif.Spec.Frames

/-!
# C160, C161: the filter in other coordinates, and as a method of least squares

The filter is the `Kalman.Hist.run` of `Model/Kalman.lean`.
-/

set_option linter.unusedSectionVars false

namespace OpenKalman.Frames
open Matrix OpenKalman.Kalman
open scoped ComplexOrder

variable {𝕜 : Type} [RCLike 𝕜] (lib : Lib 𝕜)

/-- The mean and the covariance of the noise terms given to a transformation. -/
abbrev offset {n k : ℕ} (F : LinTrans 𝕜 n k) (q : List (GaussChol 𝕜 (Fin k))) : Fin k → 𝕜 := noiseMean F (q.map GaussChol.toGauss)
abbrev noise {n k : ℕ} (F : LinTrans 𝕜 n k) (q : List (GaussChol 𝕜 (Fin k))) : Matrix (Fin k) (Fin k) 𝕜 := noiseTotal F (q.map GaussChol.toGauss)

/-- The distribution in other coordinates. -/
def Affine.dist {n k : ℕ} (f : Affine 𝕜 n k) (x : Gauss 𝕜 (Fin n)) : Gauss 𝕜 (Fin k) := ⟨f.point x.mean, f.spread x.cov⟩

/-- Two histories say the same, the second in other coordinates: `f` for the states in the beginning, `g` for those in the end.  Each call may use coordinates of its own for the states,
and for the measurements, which must be invertible there.  How noise is split into terms does not matter. -/
inductive Recoded : {n k n' k' : ℕ} → Affine 𝕜 n n' → Affine 𝕜 k k' → Hist 𝕜 n k → Hist 𝕜 n' k' → Prop
  | nil {n n' : ℕ} {f : Affine 𝕜 n n'} : Recoded f f .nil .nil
  | predict {n k l n' k' l' : ℕ} {f : Affine 𝕜 n n'} (g : Affine 𝕜 k k') {h : Affine 𝕜 l l'} {F : LinTrans 𝕜 n k} {q : List (GaussChol 𝕜 (Fin k))} {F' : LinTrans 𝕜 n' k'}
      {q' : List (GaussChol 𝕜 (Fin k'))} {rest : Hist 𝕜 k l} {rest' : Hist 𝕜 k' l'} (moves : ∀ x, F'.A *ᵥ f.point x + offset F' q' = g.point (F.A *ᵥ x + offset F q))
      (spreads : noise F' q' = g.spread (noise F q)) (r : Recoded g h rest rest') : Recoded f h (.cons (.predict F q) rest) (.cons (.predict F' q') rest')
  | update {n l n' l' m : ℕ} {f : Affine 𝕜 n n'} (g : Affine 𝕜 m m) {h : Affine 𝕜 l l'} {H : LinTrans 𝕜 n m} {r : List (GaussChol 𝕜 (Fin m))} {H' : LinTrans 𝕜 n' m}
      {r' : List (GaussChol 𝕜 (Fin m))} {z z' : Fin m → 𝕜} {rest : Hist 𝕜 n l} {rest' : Hist 𝕜 n' l'} (inv : g.Invertible)
      (measures : ∀ x, H'.A *ᵥ f.point x + offset H' r' = g.point (H.A *ᵥ x + offset H r)) (spreads : noise H' r' = g.spread (noise H r)) (reads : z' = g.point z)
      (rc : Recoded f h rest rest') : Recoded f h (.cons (.update m H r z) rest) (.cons (.update m H' r' z') rest')

theorem intertwine {n k n' k' : ℕ} {f : Affine 𝕜 n n'} {g : Affine 𝕜 k k'} {A : Matrix (Fin k) (Fin n) 𝕜} {b : Fin k → 𝕜} {A' : Matrix (Fin k') (Fin n') 𝕜} {b' : Fin k' → 𝕜}
    (h : ∀ x, A' *ᵥ f.point x + b' = g.point (A *ᵥ x + b)) : A' * f.T = g.T * A := by
  have h0 := h 0
  simp only [Affine.point, mulVec_zero, zero_add] at h0
  refine Matrix.ext_of_mulVec_single fun i => ?_
  have hi := h (Pi.single i 1)
  simp only [Affine.point, mulVec_add, mulVec_mulVec] at hi
  have e : (A' * f.T) *ᵥ Pi.single i 1 + (A' *ᵥ f.c + b') = (g.T * A) *ᵥ Pi.single i 1 + (g.T *ᵥ b + g.c) := by
    rw [← add_assoc, hi]
    abel
  rw [h0] at e
  exact add_right_cancel e

theorem noise_psd {n k : ℕ} (F : LinTrans 𝕜 n k) (q : List (GaussChol 𝕜 (Fin k))) : (noise F q).PosSemidef := by
  unfold noise
  rw [noiseTotal_eq]
  exact noiseCov_posSemidef _ (mem_noiseTerms (P := fun d => d.cov.PosSemidef) (toGauss_mem_hermitian q))

theorem spread_psd {n k : ℕ} (f : Affine 𝕜 n k) {P : Matrix (Fin n) (Fin n) 𝕜} (h : P.PosSemidef) : (f.spread P).PosSemidef := h.mul_mul_conjTranspose_same _

/-- What a predict does. -/
theorem predict_form {n k : ℕ} (F : LinTrans 𝕜 n k) (q : List (GaussChol 𝕜 (Fin k))) (x : Gauss 𝕜 (Fin n)) (hx : x.cov.PosSemidef) :
    (Op.predict F q).run lib x = ⟨F.A *ᵥ x.mean + offset F q, F.A * x.cov * F.Aᴴ + noise F q⟩ :=
  (C53_moments lib F x _ hx.1 fun d hd => (toGauss_mem_hermitian q d hd).1).1

/-- What an update does. -/
theorem update_form {n m : ℕ} (H : LinTrans 𝕜 n m) (r : List (GaussChol 𝕜 (Fin m))) (z : Fin m → 𝕜) (x : Gauss 𝕜 (Fin n)) (hx : x.cov.PosSemidef) :
    (Op.update m H r z).run lib x = linUpdate lib H.A (noise H r) (offset H r) z x :=
  C51_update_form lib H _ z x hx (toGauss_mem_hermitian r)

/-- An update in other coordinates. -/
theorem update_recoded {n n' m : ℕ} {f : Affine 𝕜 n n'} {g : Affine 𝕜 m m} (inv : g.Invertible) {H : Matrix (Fin m) (Fin n) 𝕜} {H' : Matrix (Fin m) (Fin n') 𝕜}
    {b b' : Fin m → 𝕜} {R : Matrix (Fin m) (Fin m) 𝕜} (hR : R.PosDef) (h : ∀ x, H' *ᵥ f.point x + b' = g.point (H *ᵥ x + b)) (z : Fin m → 𝕜) (x : Gauss 𝕜 (Fin n))
    (hx : x.cov.PosSemidef) : linUpdate lib H' (g.spread R) b' (g.point z) (f.dist x) = f.dist (linUpdate lib H R b z x) := by
  have hi := intertwine h
  have hS := measCov_unit hx H hR
  have hg : g.Tᴴ.det = star g.T.det := det_conjTranspose _
  have hgu : IsUnit g.Tᴴ.det := by rw [hg]; exact inv.star
  have e : H' * (f.T * x.cov * f.Tᴴ) * H'ᴴ + g.spread R = g.T * (H * x.cov * Hᴴ + R) * g.Tᴴ := by
    have : H' * (f.T * x.cov * f.Tᴴ) * H'ᴴ = (H' * f.T) * x.cov * (H' * f.T)ᴴ := by rw [conjTranspose_mul]; simp only [Matrix.mul_assoc]
    rw [this, hi, conjTranspose_mul, Affine.spread]
    simp only [Matrix.mul_add, Matrix.add_mul, Matrix.mul_assoc]
  have hu : IsUnit (H' * (f.T * x.cov * f.Tᴴ) * H'ᴴ + g.spread R).det := by
    rw [e, det_mul, det_mul]
    exact (inv.mul hS).mul hgu
  have hRh : (g.spread R).IsHermitian := (spread_psd g hR.posSemidef).1
  have hk : f.T * x.cov * f.Tᴴ * H'ᴴ * (H' * (f.T * x.cov * f.Tᴴ) * H'ᴴ + g.spread R)⁻¹ * g.T = f.T * (x.cov * Hᴴ * (H * x.cov * Hᴴ + R)⁻¹) := by
    rw [e, Matrix.mul_inv_rev, Matrix.mul_inv_rev]
    have e2 : f.T * x.cov * f.Tᴴ * H'ᴴ = f.T * x.cov * Hᴴ * g.Tᴴ := by
      have := congrArg conjTranspose hi
      rw [conjTranspose_mul, conjTranspose_mul] at this
      rw [Matrix.mul_assoc, this]
      simp only [Matrix.mul_assoc]
    rw [e2]
    calc f.T * x.cov * Hᴴ * g.Tᴴ * (g.Tᴴ⁻¹ * ((H * x.cov * Hᴴ + R)⁻¹ * g.T⁻¹)) * g.T
        = f.T * x.cov * Hᴴ * (g.Tᴴ * g.Tᴴ⁻¹) * (H * x.cov * Hᴴ + R)⁻¹ * (g.T⁻¹ * g.T) := by simp only [Matrix.mul_assoc]
      _ = _ := by rw [mul_nonsing_inv _ hgu, nonsing_inv_mul _ inv]; simp only [Matrix.mul_assoc, Matrix.mul_one]
  rw [linUpdate_eq lib H R b z x hx.1 hR.1 hS, linUpdate_eq lib H' (g.spread R) b' (g.point z) (f.dist x) (spread_psd f hx).1 hRh hu]
  refine Gauss.ext ?_ ?_
  · show f.point x.mean + (f.T * x.cov * f.Tᴴ * H'ᴴ * (H' * (f.T * x.cov * f.Tᴴ) * H'ᴴ + g.spread R)⁻¹) *ᵥ (g.point z - (H' *ᵥ f.point x.mean + b')) =
      f.point (x.mean + (x.cov * Hᴴ * (H * x.cov * Hᴴ + R)⁻¹) *ᵥ (z - (H *ᵥ x.mean + b)))
    have hd : g.point z - (H' *ᵥ f.point x.mean + b') = g.T *ᵥ (z - (H *ᵥ x.mean + b)) := by
      rw [h, Affine.point, Affine.point, mulVec_sub]
      abel
    rw [hd, mulVec_mulVec, hk, ← mulVec_mulVec]
    simp only [Affine.point, mulVec_add]
    abel
  · show f.T * x.cov * f.Tᴴ - f.T * x.cov * f.Tᴴ * H'ᴴ * (H' * (f.T * x.cov * f.Tᴴ) * H'ᴴ + g.spread R)⁻¹ * (H' * (f.T * x.cov * f.Tᴴ)) =
      f.T * (x.cov - x.cov * Hᴴ * (H * x.cov * Hᴴ + R)⁻¹ * (H * x.cov)) * f.Tᴴ
    have e3 : H' * (f.T * x.cov * f.Tᴴ) = g.T * (H * x.cov * f.Tᴴ) := by
      rw [← Matrix.mul_assoc, ← Matrix.mul_assoc, hi]
      simp only [Matrix.mul_assoc]
    rw [show f.T * x.cov * f.Tᴴ * H'ᴴ * (H' * (f.T * x.cov * f.Tᴴ) * H'ᴴ + g.spread R)⁻¹ * (H' * (f.T * x.cov * f.Tᴴ)) =
      (f.T * x.cov * f.Tᴴ * H'ᴴ * (H' * (f.T * x.cov * f.Tᴴ) * H'ᴴ + g.spread R)⁻¹ * g.T) * (H * x.cov * f.Tᴴ) from by
        conv_lhs => rw [e3]
        rw [e3]
        simp only [Matrix.mul_assoc], hk]
    simp only [Matrix.mul_sub, Matrix.sub_mul, Matrix.mul_assoc]

/-! ## C160 -/

/-- **C160**: a filter that is told the same in other coordinates reports the same in other coordinates. -/
theorem C160_covariant {n k n' k' : ℕ} {f : Affine 𝕜 n n'} {g : Affine 𝕜 k k'} {h : Hist 𝕜 n k} {h' : Hist 𝕜 n' k'} (r : Recoded f g h h') (hv : h.Valid)
    (x : Gauss 𝕜 (Fin n)) (hx : x.cov.PosSemidef) : h'.run lib (f.dist x) = g.dist (h.run lib x) := by
  induction r with
  | nil => rfl
  | @predict n k l n' k' l' f g j F q F' q' rest rest' moves spreads r ih =>
    have e : (Op.predict F' q').run lib (f.dist x) = g.dist ((Op.predict F q).run lib x) := by
      rw [predict_form lib F q x hx, predict_form lib F' q' (f.dist x) (spread_psd f hx)]
      refine Gauss.ext (moves x.mean) ?_
      show F'.A * (f.T * x.cov * f.Tᴴ) * F'.Aᴴ + noise F' q' = g.T * (F.A * x.cov * F.Aᴴ + noise F q) * g.Tᴴ
      have : F'.A * (f.T * x.cov * f.Tᴴ) * F'.Aᴴ = (F'.A * f.T) * x.cov * (F'.A * f.T)ᴴ := by rw [conjTranspose_mul]; simp only [Matrix.mul_assoc]
      rw [this, intertwine moves, conjTranspose_mul, spreads, Affine.spread]
      simp only [Matrix.mul_add, Matrix.add_mul, Matrix.mul_assoc]
    show rest'.run lib ((Op.predict F' q').run lib (f.dist x)) = j.dist (rest.run lib ((Op.predict F q).run lib x))
    rw [e]
    exact ih hv.2 _ (predict_posSemidef lib F x _ hx (toGauss_mem_hermitian q))
  | @update n l n' l' m f g j H r H' r' z z' rest rest' inv measures spreads reads rc ih =>
    have e : (Op.update m H' r' z').run lib (f.dist x) = f.dist ((Op.update m H r z).run lib x) := by
      rw [update_form lib H r z x hx, update_form lib H' r' z' (f.dist x) (spread_psd f hx), spreads, reads]
      exact update_recoded lib inv hv.1 measures z x hx
    show rest'.run lib ((Op.update m H' r' z').run lib (f.dist x)) = j.dist (rest.run lib ((Op.update m H r z).run lib x))
    rw [e]
    exact ih hv.2 _ (C49_update lib H _ z x hx (toGauss_mem_hermitian r) hv.1).1

/-- The second history is valid if the first is. -/
theorem recoded_valid {n k n' k' : ℕ} {f : Affine 𝕜 n n'} {g : Affine 𝕜 k k'} {h : Hist 𝕜 n k} {h' : Hist 𝕜 n' k'} (r : Recoded f g h h') (hv : h.Valid) : h'.Valid := by
  induction r with
  | nil => trivial
  | predict g moves spreads r ih => exact ⟨trivial, ih hv.2⟩
  | @update n l n' l' m f g j H r H' r' z z' rest rest' inv measures spreads reads rc ih =>
    refine ⟨?_, ih hv.2⟩
    show (noise H' r').PosDef
    rw [spreads]
    have hR : (noise H r).PosDef := hv.1
    exact hR.mul_mul_conjTranspose_same (B := g.T) (Matrix.vecMul_injective_of_isUnit ((isUnit_iff_isUnit_det _).2 inv))

/-- **C160** (square roots): so does the filter that keeps factors of covariances, whichever factors it is given. -/
theorem C160_square_root {n k n' k' : ℕ} {f : Affine 𝕜 n n'} {g : Affine 𝕜 k k'} {h : Hist 𝕜 n k} {h' : Hist 𝕜 n' k'} (r : Recoded f g h h') (hv : h.Valid)
    (x : GaussChol 𝕜 (Fin n)) (x' : GaussChol 𝕜 (Fin n')) (hx : x'.toGauss = f.dist x.toGauss) : (h'.runChol lib x').toGauss = g.dist (h.runChol lib x).toGauss := by
  rw [C50_square_root lib h hv x, C50_square_root lib h' (recoded_valid r hv) x', hx]
  exact C160_covariant lib r hv x.toGauss (toGauss_posSemidef x)

/-! ### Cases

A position and a velocity; the position is measured.  First in metres, then in feet, the origin moved, and the clock of the velocity running in minutes. -/

noncomputable def metres : Hist ℝ 2 2 :=
  .cons (.predict ⟨!![1, 1; 0, 1], []⟩ [⟨![0, 1], !![1, 0; 0, 2]⟩]) (.cons (.update 1 ⟨!![1, 0], []⟩ [⟨fun _ => 0, !![3]⟩] ![7]) .nil)

noncomputable def feet : Hist ℝ 2 2 :=
  .cons (.predict ⟨!![1, 1 / 60; 0, 1], []⟩ [⟨![0, 180], !![3, 0; 0, 360]⟩]) (.cons (.update 1 ⟨!![1, 0], []⟩ [⟨fun _ => 0, !![9]⟩] ![31]) .nil)

/-- Three feet to the metre, the origin ten feet away, sixty seconds to the minute. -/
noncomputable def toFeet : Affine ℝ 2 2 := ⟨!![3, 0; 0, 180], ![10, 0]⟩

theorem case_recoded : Recoded toFeet toFeet metres feet := by
  refine .predict toFeet (fun x => ?_) ?_ (.update ⟨!![3], ![10]⟩ ?_ (fun x => ?_) ?_ ?_ .nil)
  · ext i
    fin_cases i <;> simp [toFeet, Affine.point, offset, noiseMean, GaussChol.toGauss] <;> ring
  · ext i j
    fin_cases i <;> fin_cases j <;> norm_num [toFeet, Affine.spread, noise, noiseTotal, GaussChol.toGauss, Matrix.mul_apply, Matrix.vecMul, dotProduct, Fin.sum_univ_two]
  · simp [Affine.Invertible]
  · ext i
    fin_cases i
    simp [toFeet, Affine.point, offset, noiseMean, GaussChol.toGauss, mul_comm]
  · ext i j
    fin_cases i
    fin_cases j
    norm_num [Affine.spread, noise, noiseTotal, GaussChol.toGauss, Matrix.mul_apply, Matrix.vecMul, dotProduct]
  · ext i
    fin_cases i
    norm_num [Affine.point]

theorem metres_valid : metres.Valid := by
  refine ⟨trivial, ?_, trivial⟩
  show (noiseTotal _ _).PosDef
  have : noiseTotal (⟨!![1, 0], []⟩ : LinTrans ℝ 2 1) ([(⟨fun _ => 0, !![3]⟩ : GaussChol ℝ (Fin 1))].map GaussChol.toGauss) = (9 : ℝ) • 1 := by
    ext i j
    fin_cases i
    fin_cases j
    norm_num [noiseTotal, GaussChol.toGauss, Matrix.mul_apply, Matrix.vecMul, dotProduct]
  rw [this]
  exact PosDef.one.smul (by norm_num)

example : feet.run someLib (toFeet.dist ⟨![1, 2], 1⟩) = toFeet.dist (metres.run someLib ⟨![1, 2], 1⟩) :=
  C160_covariant someLib case_recoded metres_valid _ PosSemidef.one

/-- A part of the state that moves by itself, and alone is measured: the filter of the whole says of it what the filter of the part says. -/
noncomputable def whole : Hist ℝ 2 2 :=
  .cons (.predict ⟨!![2, 0; 1, 1], []⟩ [⟨![0, 1], !![1, 0; 0, 2]⟩]) (.cons (.update 1 ⟨!![1, 0], []⟩ [⟨fun _ => 0, !![3]⟩] ![7]) .nil)

noncomputable def part : Hist ℝ 1 1 :=
  .cons (.predict ⟨!![2], []⟩ [⟨![0], !![1]⟩]) (.cons (.update 1 ⟨!![1], []⟩ [⟨fun _ => 0, !![3]⟩] ![7]) .nil)

noncomputable def firstOnly : Affine ℝ 2 1 := ⟨!![1, 0], 0⟩

theorem case_part : Recoded firstOnly firstOnly whole part := by
  refine .predict firstOnly (fun x => ?_) ?_ (.update ⟨!![1], 0⟩ ?_ (fun x => ?_) ?_ ?_ .nil)
  · ext i
    fin_cases i
    simp [firstOnly, Affine.point, offset, noiseMean, GaussChol.toGauss, mul_comm]
  · ext i j
    fin_cases i
    fin_cases j
    norm_num [firstOnly, Affine.spread, noise, noiseTotal, GaussChol.toGauss, Matrix.mul_apply, Matrix.vecMul, dotProduct, Fin.sum_univ_two]
  · simp [Affine.Invertible]
  · ext i
    fin_cases i
    simp [firstOnly, Affine.point, offset, noiseMean, GaussChol.toGauss, mul_comm]
  · ext i j
    fin_cases i
    fin_cases j
    norm_num [Affine.spread, noise, noiseTotal, GaussChol.toGauss, Matrix.mul_apply, Matrix.vecMul, dotProduct]
  · ext i
    fin_cases i
    norm_num [Affine.point]

/-! ## C161 -/

/-- A record describes a history: the noise of a move has the covariance `G G*`, that of a measurement is not degenerate. -/
inductive Describes : {n l : ℕ} → Hist 𝕜 n l → Record 𝕜 n l → Prop
  | nil {n : ℕ} : Describes (.nil : Hist 𝕜 n n) .nil
  | move {n k l j : ℕ} {F : LinTrans 𝕜 n k} {q : List (GaussChol 𝕜 (Fin k))} {G : Matrix (Fin k) (Fin j) 𝕜} {rest : Hist 𝕜 k l} {r : Record 𝕜 k l} (noises : G * Gᴴ = noise F q)
      (d : Describes rest r) : Describes (.cons (.predict F q) rest) (.move j F.A (offset F q) G r)
  | look {n l m : ℕ} {H : LinTrans 𝕜 n m} {ns : List (GaussChol 𝕜 (Fin m))} {z : Fin m → 𝕜} {rest : Hist 𝕜 n l} {r : Record 𝕜 n l} (noises : (noise H ns).PosDef)
      (d : Describes rest r) : Describes (.cons (.update m H ns z) rest) (.look m H.A (offset H ns) (noise H ns) z r)

section algebra
variable {K J n : Type} [Fintype K] [DecidableEq K] [Fintype J] [DecidableEq J] [Fintype n] [DecidableEq n]

/-- What a factor takes out of a square. -/
theorem quad_factor {C M : Matrix K K 𝕜} (hM : M * Mᴴ = C) (hC : C.PosDef) (v : K → 𝕜) : quad C⁻¹ (M *ᵥ v) = star v ⬝ᵥ v := by
  have hu : IsUnit (M * Mᴴ).det := by rw [hM]; exact unit_of_posDef hC
  rw [det_mul] at hu
  have hm := isUnit_of_mul_isUnit_left hu
  have hm' := isUnit_of_mul_isUnit_right hu
  rw [quad_mul, ← hM, Matrix.mul_inv_rev]
  have : Mᴴ * (Mᴴ⁻¹ * M⁻¹) * M = 1 := by
    rw [← Matrix.mul_assoc, mul_nonsing_inv _ hm', Matrix.one_mul, nonsing_inv_mul _ hm]
  rw [this, quad, one_mulVec]

theorem factor_unit {C M : Matrix K K 𝕜} (hM : M * Mᴴ = C) (hC : C.PosDef) : IsUnit M.det := by
  have hu : IsUnit (M * Mᴴ).det := by rw [hM]; exact unit_of_posDef hC
  rw [det_mul] at hu
  exact isUnit_of_mul_isUnit_left hu

/-- The part of a vector that a factor sees. -/
theorem seen (L : Matrix n K 𝕜) (h : (L * Lᴴ).PosDef) (v : K → 𝕜) :
    star v ⬝ᵥ v = quad (L * Lᴴ)⁻¹ (L *ᵥ v) + star (v - (Lᴴ * (L * Lᴴ)⁻¹ * L) *ᵥ v) ⬝ᵥ (v - (Lᴴ * (L * Lᴴ)⁻¹ * L) *ᵥ v) := by
  have hu := unit_of_posDef h
  set E := Lᴴ * (L * Lᴴ)⁻¹ * L with hE
  have hh : Eᴴ = E := by
    rw [hE, conjTranspose_mul, conjTranspose_mul, conjTranspose_conjTranspose, h.1.inv.eq, Matrix.mul_assoc]
  have hi : E * E = E := by
    rw [hE]
    calc Lᴴ * (L * Lᴴ)⁻¹ * L * (Lᴴ * (L * Lᴴ)⁻¹ * L) = Lᴴ * ((L * Lᴴ)⁻¹ * (L * Lᴴ)) * (L * Lᴴ)⁻¹ * L := by simp only [Matrix.mul_assoc]
      _ = _ := by rw [nonsing_inv_mul _ hu, Matrix.mul_one]
  have e : star (v - E *ᵥ v) ⬝ᵥ (v - E *ᵥ v) = star v ⬝ᵥ v - star v ⬝ᵥ E *ᵥ v := by
    have a : star (E *ᵥ v) ⬝ᵥ v = star v ⬝ᵥ E *ᵥ v := by rw [star_mulVec, hh, dotProduct_mulVec]
    have b : star (E *ᵥ v) ⬝ᵥ E *ᵥ v = star v ⬝ᵥ E *ᵥ v := by rw [star_mulVec, hh, ← dotProduct_mulVec, mulVec_mulVec, hi]
    simp only [star_sub, sub_dotProduct, dotProduct_sub, a, b]
    ring
  rw [e, quad_mul, quad]
  ring

end algebra

/-- Every story, with the deviation of the first state, can be told in variables whose squares add up to the cost, and in which the last state is what the filter reports plus a factor
of the covariance it reports. -/
theorem explained {n l : ℕ} {h : Hist 𝕜 n l} {r : Record 𝕜 n l} (d : Describes h r) : ∀ (K : Type) [Fintype K] [DecidableEq K] (L : Matrix (Fin n) K 𝕜) (x : Gauss 𝕜 (Fin n)),
    x.cov = L * Lᴴ → ∃ (K' : Type) (_ : Fintype K') (_ : DecidableEq K') (L' : Matrix (Fin l) K' 𝕜) (c : 𝕜) (e : (K → 𝕜) × Story r ≃ (K' → 𝕜)),
      (h.run lib x).cov = L' * L'ᴴ ∧ ∀ u s, star u ⬝ᵥ u + cost r (x.mean + L *ᵥ u) s = star (e (u, s)) ⬝ᵥ e (u, s) + c ∧
        ending r (x.mean + L *ᵥ u) s = (h.run lib x).mean + L' *ᵥ e (u, s) := by
  induction d with
  | nil => exact fun K i1 i2 L x hx => ⟨K, i1, i2, L, 0, Equiv.prodPUnit _, hx, fun u s => ⟨rfl, rfl⟩⟩
  | @move n k l j F q G rest r noises d ih =>
    intro K _ _ L x hx
    have hp : x.cov.PosSemidef := by rw [hx]; exact posSemidef_self_mul_conjTranspose _
    have hf := predict_form lib F q x hp
    have hc : ((Op.predict F q).run lib x).cov = fromCols (F.A * L) G * (fromCols (F.A * L) G)ᴴ := by
      rw [hf, conjTranspose_fromCols_eq_fromRows_conjTranspose, fromCols_mul_fromRows, noises, conjTranspose_mul, hx]
      simp only [Matrix.mul_assoc]
    obtain ⟨K', i1, i2, L', c, e, h1, h2⟩ := ih (K ⊕ Fin j) (fromCols (F.A * L) G) _ hc
    refine ⟨K', i1, i2, L', c,
      ((Equiv.prodAssoc _ _ _).symm.trans (Equiv.prodCongr (Equiv.sumArrowEquivProdArrow K (Fin j) 𝕜).symm (Equiv.refl _))).trans e, h1, fun u s => ?_⟩
    obtain ⟨w, s⟩ := s
    obtain ⟨a, b⟩ := h2 (Sum.elim u w) s
    have hpt : ((Op.predict F q).run lib x).mean + fromCols (F.A * L) G *ᵥ Sum.elim u w = F.A *ᵥ (x.mean + L *ᵥ u) + offset F q + G *ᵥ w := by
      rw [hf, fromCols_mulVec_sumElim, mulVec_add, mulVec_mulVec]
      simp only []
      abel
    have hsq : star (Sum.elim u w) ⬝ᵥ Sum.elim u w = star u ⬝ᵥ u + star w ⬝ᵥ w := by
      rw [show star (Sum.elim u w) = Sum.elim (star u) (star w) from by ext (i | i) <;> rfl, sumElim_dotProduct_sumElim]
    rw [hpt] at a b
    rw [hsq] at a
    refine ⟨?_, b⟩
    show star u ⬝ᵥ u + (star w ⬝ᵥ w + cost r (F.A *ᵥ (x.mean + L *ᵥ u) + offset F q + G *ᵥ w) s) = star (e (Sum.elim u w, s)) ⬝ᵥ e (Sum.elim u w, s) + c
    rw [← a]
    ring
  | @look n l m H ns z rest r noises d ih =>
    intro K _ _ L x hx
    have hp : x.cov.PosSemidef := by rw [hx]; exact posSemidef_self_mul_conjTranspose _
    have hf := update_form lib H ns z x hp
    have hS := measCov_unit hp H.A noises
    rw [linUpdate_eq lib H.A _ _ z x hp.1 noises.1 hS] at hf
    set o : Gauss 𝕜 K := ⟨0, 1⟩ with ho
    have hone : o.cov.PosDef := PosDef.one
    set y := linUpdate lib (H.A * L) (noise H ns) (H.A *ᵥ x.mean + offset H ns) z o with hy
    have hye := linUpdate_eq lib (H.A * L) (noise H ns) (H.A *ᵥ x.mean + offset H ns) z o hone.1 noises.1 (measCov_unit hone.posSemidef _ noises)
    have hyp : y.cov.PosDef := linUpdate_posDef lib _ _ _ z o hone noises
    have hSe : H.A * L * o.cov * (H.A * L)ᴴ + noise H ns = H.A * x.cov * H.Aᴴ + noise H ns := by
      rw [ho, Matrix.mul_one, conjTranspose_mul, hx]
      simp only [Matrix.mul_assoc]
    obtain ⟨M, hM⟩ := exists_factor hyp.posSemidef
    have hMu := factor_unit hM hyp
    have hmean : ((Op.update m H ns z).run lib x).mean = x.mean + L *ᵥ y.mean := by
      rw [hf, hy, hye, hSe]
      simp only [ho, mulVec_zero, zero_add, Matrix.one_mul, mulVec_mulVec, hx, conjTranspose_mul, Matrix.mul_assoc]
    have hcov : ((Op.update m H ns z).run lib x).cov = (L * M) * (L * M)ᴴ := by
      have : (L * M) * (L * M)ᴴ = L * y.cov * Lᴴ := by rw [conjTranspose_mul, ← hM]; simp only [Matrix.mul_assoc]
      rw [this, hf, hy, hye, hSe]
      simp only [ho, Matrix.one_mul, Matrix.mul_one, hx, conjTranspose_mul, Matrix.mul_assoc, Matrix.mul_sub, Matrix.sub_mul]
    obtain ⟨K', i1, i2, L', c, e, h1, h2⟩ := ih K (L * M) _ hcov
    let e0 : (K → 𝕜) ≃ (K → 𝕜) :=
      ⟨fun u => M⁻¹ *ᵥ (u - y.mean), fun v => y.mean + M *ᵥ v, fun u => by
        show y.mean + M *ᵥ (M⁻¹ *ᵥ (u - y.mean)) = u
        rw [mulVec_mulVec, mul_nonsing_inv _ hMu, one_mulVec]; abel, fun v => by
        show M⁻¹ *ᵥ (y.mean + M *ᵥ v - y.mean) = v
        rw [add_sub_cancel_left, mulVec_mulVec, nonsing_inv_mul _ hMu, one_mulVec]⟩
    refine ⟨K', i1, i2, L', quad (H.A * L * o.cov * (H.A * L)ᴴ + noise H ns)⁻¹ (z - ((H.A * L) *ᵥ o.mean + (H.A *ᵥ x.mean + offset H ns))) + c,
      (Equiv.prodCongr e0 (Equiv.refl _)).trans e, h1, fun u s => ?_⟩
    obtain ⟨a, b⟩ := h2 (e0 u) s
    have hu : M *ᵥ e0 u = u - y.mean := by
      show M *ᵥ (M⁻¹ *ᵥ (u - y.mean)) = _
      rw [mulVec_mulVec, mul_nonsing_inv _ hMu, one_mulVec]
    have hpt : ((Op.update m H ns z).run lib x).mean + (L * M) *ᵥ e0 u = x.mean + L *ᵥ u := by
      rw [hmean, ← mulVec_mulVec, hu, mulVec_sub]
      abel
    rw [hpt] at a b
    refine ⟨?_, b⟩
    have sq := C52_square lib (H.A * L) (noise H ns) (H.A *ᵥ x.mean + offset H ns) z o hone noises u
    have s1 : quad o.cov⁻¹ (u - o.mean) = star u ⬝ᵥ u := by simp [ho, quad]
    have s2 : z - ((H.A * L) *ᵥ u + (H.A *ᵥ x.mean + offset H ns)) = z - (H.A *ᵥ (x.mean + L *ᵥ u) + offset H ns) := by
      rw [mulVec_add, mulVec_mulVec]; abel
    have s3 : quad y.cov⁻¹ (u - y.mean) = star (e0 u) ⬝ᵥ e0 u := by rw [← hu, quad_factor hM hyp]
    simp only [] at sq
    rw [s1, s2] at sq
    show star u ⬝ᵥ u + (quad (noise H ns)⁻¹ (z - (H.A *ᵥ (x.mean + L *ᵥ u) + offset H ns)) + cost r (x.mean + L *ᵥ u) s) = star (e (e0 u, s)) ⬝ᵥ e (e0 u, s) + _
    rw [← add_assoc, sq]
    have sq' : quad (linUpdate lib (H.A * L) (noise H ns) (H.A *ᵥ x.mean + offset H ns) z o).cov⁻¹
        (u - (linUpdate lib (H.A * L) (noise H ns) (H.A *ᵥ x.mean + offset H ns) z o).mean) = star (e0 u) ⬝ᵥ e0 u := s3
    rw [sq']
    calc _ = (star (e0 u) ⬝ᵥ e0 u + cost r (x.mean + L *ᵥ u) s) + quad (H.A * L * o.cov * (H.A * L)ᴴ + noise H ns)⁻¹ (z - ((H.A * L) *ᵥ o.mean + (H.A *ᵥ x.mean + offset H ns))) := by ring
      _ = _ := by rw [a]; ring

/-- The cost of a first state that deviates from its mean by `L u`, and of the disturbances that follow. -/
noncomputable def total {n l k : ℕ} (r : Record 𝕜 n l) (mean : Fin n → 𝕜) (L : Matrix (Fin n) (Fin k) 𝕜) (p : (Fin k → 𝕜) × Story r) : 𝕜 :=
  star p.1 ⬝ᵥ p.1 + cost r (mean + L *ᵥ p.1) p.2

/-- **C161** (least squares): among all explanations of what was measured there is one that costs less than every other, and it ends in the mean that the filter reports.  Neither the
first covariance nor the disturbances need have full rank. -/
theorem C161_least_squares {n l k : ℕ} {h : Hist 𝕜 n l} {r : Record 𝕜 n l} (d : Describes h r) (x : Gauss 𝕜 (Fin n)) (L : Matrix (Fin n) (Fin k) 𝕜) (hx : x.cov = L * Lᴴ) :
    ∃ p, ending r (x.mean + L *ᵥ p.1) p.2 = (h.run lib x).mean ∧ ∀ p', p' ≠ p → total r x.mean L p < total r x.mean L p' := by
  obtain ⟨K', i1, i2, L', c, e, -, h2⟩ := explained lib d (Fin k) L x hx
  refine ⟨e.symm 0, ?_, fun p' hp => ?_⟩
  · obtain ⟨-, b⟩ := h2 (e.symm 0).1 (e.symm 0).2
    rw [b]
    show _ + L' *ᵥ e (e.symm 0) = _
    rw [Equiv.apply_symm_apply, mulVec_zero, add_zero]
  · obtain ⟨a, -⟩ := h2 (e.symm 0).1 (e.symm 0).2
    obtain ⟨a', -⟩ := h2 p'.1 p'.2
    unfold total
    rw [a, a']
    show star (e (e.symm 0)) ⬝ᵥ e (e.symm 0) + c < star (e p') ⬝ᵥ e p' + c
    rw [Equiv.apply_symm_apply, dotProduct_zero]
    have hne : e p' ≠ 0 := fun h0 => hp (by rw [← h0, Equiv.symm_apply_apply])
    exact (add_lt_add_iff_right c).mpr (dotProduct_star_self_pos_iff.2 hne)

/-- **C161** (what the covariance says): to end in `y` costs more than to end in the mean by the square of the distance, weighted by the inverse of the covariance that the filter reports. -/
theorem C161_profile {n l k : ℕ} {h : Hist 𝕜 n l} {r : Record 𝕜 n l} (d : Describes h r) (x : Gauss 𝕜 (Fin n)) (L : Matrix (Fin n) (Fin k) 𝕜) (hx : x.cov = L * Lᴴ)
    (hP : (h.run lib x).cov.PosDef) : ∃ c : 𝕜,
      (∀ p, quad (h.run lib x).cov⁻¹ (ending r (x.mean + L *ᵥ p.1) p.2 - (h.run lib x).mean) + c ≤ total r x.mean L p) ∧
      ∀ y, ∃ p, ending r (x.mean + L *ᵥ p.1) p.2 = y ∧ total r x.mean L p = quad (h.run lib x).cov⁻¹ (y - (h.run lib x).mean) + c := by
  obtain ⟨K', i1, i2, L', c, e, h1, h2⟩ := explained lib d (Fin k) L x hx
  rw [h1] at hP ⊢
  refine ⟨c, fun p => ?_, fun y => ?_⟩
  · obtain ⟨a, b⟩ := h2 p.1 p.2
    unfold total
    rw [a, b, add_sub_cancel_left, seen L' hP (e (p.1, p.2))]
    refine (add_le_add_iff_right c).mpr (le_add_of_nonneg_right ?_)
    exact dotProduct_star_self_nonneg _
  · set v := (L'ᴴ * (L' * L'ᴴ)⁻¹) *ᵥ (y - (h.run lib x).mean) with hv
    have hl : L' *ᵥ v = y - (h.run lib x).mean := by
      rw [hv, mulVec_mulVec, ← Matrix.mul_assoc, mul_nonsing_inv _ (unit_of_posDef hP), one_mulVec]
    have hz : v - (L'ᴴ * (L' * L'ᴴ)⁻¹ * L') *ᵥ v = 0 := by
      rw [← mulVec_mulVec, hl, hv, sub_self]
    obtain ⟨a, b⟩ := h2 (e.symm v).1 (e.symm v).2
    have he : e ((e.symm v).1, (e.symm v).2) = v := e.apply_symm_apply v
    rw [he] at a b
    refine ⟨e.symm v, ?_, ?_⟩
    · rw [b, hl]; abel
    · unfold total
      rw [a, seen L' hP v, hz, hl, dotProduct_zero, add_zero]

/-- **C161** (square roots): the filter that keeps factors reports the same end. -/
theorem C161_square_root {n l : ℕ} {h : Hist 𝕜 n l} {r : Record 𝕜 n l} (d : Describes h r) (hv : h.Valid) (x : GaussChol 𝕜 (Fin n)) :
    ∃ p, ending r (x.mean + x.fac *ᵥ p.1) p.2 = (h.runChol lib x).mean ∧ ∀ p', p' ≠ p → total r x.mean x.fac p < total r x.mean x.fac p' := by
  have e : (h.runChol lib x).mean = (h.run lib x.toGauss).mean := congrArg Gauss.mean (C50_square_root lib h hv x)
  rw [e]
  exact C161_least_squares lib d x.toGauss x.fac rfl

/-! ### A case

The move of `metres`, where only the velocity is disturbed, by two independent causes; it is known where the state was in the beginning, but not how fast. -/

noncomputable def pushed : Hist ℝ 2 2 :=
  .cons (.predict ⟨!![1, 1; 0, 1], []⟩ [⟨![0, 1], !![0, 0; 0, 3]⟩, ⟨0, !![0, 0; 0, 4]⟩]) (.cons (.update 1 ⟨!![1, 0], []⟩ [⟨fun _ => 0, !![1]⟩] ![7]) .nil)

noncomputable def pushedRecord : Record ℝ 2 2 :=
  .move 2 !![1, 1; 0, 1] (offset (⟨!![1, 1; 0, 1], []⟩ : LinTrans ℝ 2 2) [⟨![0, 1], !![0, 0; 0, 3]⟩, ⟨0, !![0, 0; 0, 4]⟩]) !![0, 0; 3, 4]
    (.look 1 !![1, 0] (offset (⟨!![1, 0], []⟩ : LinTrans ℝ 2 1) [⟨fun _ => 0, !![1]⟩]) (noise (⟨!![1, 0], []⟩ : LinTrans ℝ 2 1) [⟨fun _ => 0, !![1]⟩]) ![7] .nil)

theorem pushed_described : Describes pushed pushedRecord := by
  refine .move (F := ⟨!![1, 1; 0, 1], []⟩) ?_ (.look (H := ⟨!![1, 0], []⟩) ?_ .nil)
  · ext i j
    fin_cases i <;> fin_cases j <;> norm_num [noise, noiseTotal, GaussChol.toGauss, Matrix.mul_apply, Matrix.vecMul, dotProduct, Fin.sum_univ_two]
  · have : noise (⟨!![1, 0], []⟩ : LinTrans ℝ 2 1) [⟨fun _ => 0, !![1]⟩] = 1 := by
      ext i j
      fin_cases i
      fin_cases j
      norm_num [noise, noiseTotal, GaussChol.toGauss, Matrix.mul_apply, Matrix.vecMul, dotProduct]
    rw [this]
    exact PosDef.one

/-- The velocity alone is uncertain in the beginning. -/
def pushedFactor : Matrix (Fin 2) (Fin 1) ℝ := !![0; 1]

noncomputable def pushedStart : Gauss ℝ (Fin 2) := ⟨![1, 2], pushedFactor * pushedFactorᴴ⟩

example : ∃ p, ending pushedRecord (pushedStart.mean + pushedFactor *ᵥ p.1) p.2 = (pushed.run someLib pushedStart).mean ∧
    ∀ p', p' ≠ p → total pushedRecord pushedStart.mean pushedFactor p < total pushedRecord pushedStart.mean pushedFactor p' :=
  C161_least_squares someLib pushed_described pushedStart pushedFactor rfl

end OpenKalman.Frames
