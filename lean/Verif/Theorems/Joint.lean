import Verif.Theorems.Frames
import Verif.Theorems.Gaussian
import Verif.Spec.Joint

/-!
# C168: two systems that do not interact

The filter is the `Kalman.Hist.run` of `Model/Kalman.lean`.
-/

set_option linter.unusedSectionVars false

namespace OpenKalman.Joint
open Matrix OpenKalman.Kalman OpenKalman.Frames
open scoped ComplexOrder

variable {𝕜 : Type} [RCLike 𝕜] (lib : Lib 𝕜)

/-! ## Algebra of blocks -/

section blocks
variable {a b c d e f : ℕ}

/-- The columns that belong to the first, or the second, system. -/
def tall (d : ℕ) (A : Matrix (Fin b) (Fin a) 𝕜) : Matrix (Fin (b + d)) (Fin a) 𝕜 := Matrix.of fun i j => Fin.append (fun i => A i j) 0 i
def low (b : ℕ) (A : Matrix (Fin d) (Fin a) 𝕜) : Matrix (Fin (b + d)) (Fin a) 𝕜 := Matrix.of fun i j => Fin.append 0 (fun i => A i j) i

macro "blocks" : tactic => `(tactic| (ext i j; refine Fin.addCases (fun i => ?_) (fun i => ?_) i <;> refine Fin.addCases (fun j => ?_) (fun j => ?_) j <;>
  simp [side, first, second, tall, low, Matrix.mul_apply, Fin.sum_univ_add, Matrix.conjTranspose_apply]))
macro "blockrows" : tactic => `(tactic| (ext i j; refine Fin.addCases (fun i => ?_) (fun i => ?_) i <;>
  simp [side, first, second, tall, low, Matrix.mul_apply, Fin.sum_univ_add, Matrix.conjTranspose_apply]))
macro "blockcols" : tactic => `(tactic| (ext i j; refine Fin.addCases (fun j => ?_) (fun j => ?_) j <;>
  simp [side, first, second, tall, low, Matrix.mul_apply, Fin.sum_univ_add, Matrix.conjTranspose_apply]))
macro "blockvec" : tactic => `(tactic| (ext i; refine Fin.addCases (fun i => ?_) (fun i => ?_) i <;>
  simp [side, first, second, tall, low, Matrix.mulVec, dotProduct, Fin.sum_univ_add]))

theorem side_mul (A : Matrix (Fin a) (Fin b) 𝕜) (B : Matrix (Fin c) (Fin d) 𝕜) (C : Matrix (Fin b) (Fin e) 𝕜) (D : Matrix (Fin d) (Fin f) 𝕜) :
    side A B * side C D = side (A * C) (B * D) := by blocks
theorem side_star (A : Matrix (Fin a) (Fin b) 𝕜) (B : Matrix (Fin c) (Fin d) 𝕜) : (side A B)ᴴ = side Aᴴ Bᴴ := by blocks
theorem side_add (A C : Matrix (Fin a) (Fin b) 𝕜) (B D : Matrix (Fin c) (Fin d) 𝕜) : side A B + side C D = side (A + C) (B + D) := by blocks
theorem side_sub (A C : Matrix (Fin a) (Fin b) 𝕜) (B D : Matrix (Fin c) (Fin d) 𝕜) : side A B - side C D = side (A - C) (B - D) := by blocks
theorem side_zero : side (0 : Matrix (Fin a) (Fin b) 𝕜) (0 : Matrix (Fin c) (Fin d) 𝕜) = 0 := by blocks
theorem side_one : side (1 : Matrix (Fin a) (Fin a) 𝕜) (1 : Matrix (Fin c) (Fin c) 𝕜) = 1 := by
  ext i j
  refine Fin.addCases (fun i => ?_) (fun i => ?_) i <;> refine Fin.addCases (fun j => ?_) (fun j => ?_) j <;> simp [side, Matrix.one_apply, Fin.ext_iff] <;> omega

theorem first_side (H : Matrix (Fin e) (Fin a) 𝕜) (A : Matrix (Fin a) (Fin b) 𝕜) (B : Matrix (Fin c) (Fin d) 𝕜) : first c H * side A B = first d (H * A) := by blockcols
theorem second_side (H : Matrix (Fin e) (Fin c) 𝕜) (A : Matrix (Fin a) (Fin b) 𝕜) (B : Matrix (Fin c) (Fin d) 𝕜) : second a H * side A B = second b (H * B) := by blockcols
theorem first_star (H : Matrix (Fin e) (Fin a) 𝕜) : (first d H)ᴴ = tall d Hᴴ := by blockrows
theorem second_star (H : Matrix (Fin e) (Fin a) 𝕜) : (second d H)ᴴ = low d Hᴴ := by blockrows
theorem side_tall (A : Matrix (Fin a) (Fin b) 𝕜) (B : Matrix (Fin c) (Fin d) 𝕜) (T : Matrix (Fin b) (Fin e) 𝕜) : side A B * tall d T = tall c (A * T) := by blockrows
theorem side_low (A : Matrix (Fin a) (Fin b) 𝕜) (B : Matrix (Fin c) (Fin d) 𝕜) (T : Matrix (Fin d) (Fin e) 𝕜) : side A B * low b T = low a (B * T) := by blockrows
theorem tall_mul (T : Matrix (Fin a) (Fin b) 𝕜) (M : Matrix (Fin b) (Fin c) 𝕜) : tall d T * M = tall d (T * M) := by blockrows
theorem low_mul (T : Matrix (Fin a) (Fin b) 𝕜) (M : Matrix (Fin b) (Fin c) 𝕜) : low d T * M = low d (T * M) := by blockrows
theorem tall_first (T : Matrix (Fin a) (Fin b) 𝕜) (M : Matrix (Fin b) (Fin c) 𝕜) : tall d T * first e M = side (T * M) 0 := by blocks
theorem low_second (T : Matrix (Fin a) (Fin b) 𝕜) (M : Matrix (Fin b) (Fin c) 𝕜) : low d T * second e M = side 0 (T * M) := by blocks
theorem first_tall (H : Matrix (Fin e) (Fin a) 𝕜) (T : Matrix (Fin a) (Fin b) 𝕜) : first d H * tall d T = H * T := by
  ext i j
  simp [first, tall, Matrix.mul_apply, Fin.sum_univ_add]
theorem second_low (H : Matrix (Fin e) (Fin a) 𝕜) (T : Matrix (Fin a) (Fin b) 𝕜) : second d H * low d T = H * T := by
  ext i j
  simp [second, low, Matrix.mul_apply, Fin.sum_univ_add]

theorem side_vec (A : Matrix (Fin a) (Fin b) 𝕜) (B : Matrix (Fin c) (Fin d) 𝕜) (u : Fin b → 𝕜) (v : Fin d → 𝕜) :
    side A B *ᵥ Fin.append u v = Fin.append (A *ᵥ u) (B *ᵥ v) := by blockvec
theorem first_vec (H : Matrix (Fin e) (Fin a) 𝕜) (u : Fin a → 𝕜) (v : Fin d → 𝕜) : first d H *ᵥ Fin.append u v = H *ᵥ u := by
  ext i
  simp [first, Matrix.mulVec, dotProduct, Fin.sum_univ_add]
theorem second_vec (H : Matrix (Fin e) (Fin d) 𝕜) (u : Fin a → 𝕜) (v : Fin d → 𝕜) : second a H *ᵥ Fin.append u v = H *ᵥ v := by
  ext i
  simp [second, Matrix.mulVec, dotProduct, Fin.sum_univ_add]
theorem tall_vec (T : Matrix (Fin a) (Fin b) 𝕜) (v : Fin b → 𝕜) : tall d T *ᵥ v = Fin.append (T *ᵥ v) 0 := by blockvec
theorem low_vec (T : Matrix (Fin a) (Fin b) 𝕜) (v : Fin b → 𝕜) : low d T *ᵥ v = Fin.append 0 (T *ᵥ v) := by blockvec
theorem append_add (u u' : Fin a → 𝕜) (v v' : Fin b → 𝕜) : Fin.append u v + Fin.append u' v' = Fin.append (u + u') (v + v') := by blockvec
theorem append_sub (u u' : Fin a → 𝕜) (v v' : Fin b → 𝕜) : Fin.append u v - Fin.append u' v' = Fin.append (u - u') (v - v') := by blockvec
theorem append_zero : Fin.append (0 : Fin a → 𝕜) (0 : Fin b → 𝕜) = 0 := by blockvec

theorem side_inverse {A : Matrix (Fin a) (Fin a) 𝕜} {B : Matrix (Fin c) (Fin c) 𝕜} (hA : IsUnit A.det) (hB : IsUnit B.det) :
    IsUnit (side A B).det ∧ (side A B)⁻¹ = side A⁻¹ B⁻¹ := by
  have h : side A B * side A⁻¹ B⁻¹ = 1 := by rw [side_mul, mul_nonsing_inv _ hA, mul_nonsing_inv _ hB, side_one]
  exact ⟨isUnit_det_of_right_inverse h, inv_eq_right_inv h⟩

theorem side_psd {A : Matrix (Fin a) (Fin a) 𝕜} {B : Matrix (Fin c) (Fin c) 𝕜} (hA : A.PosSemidef) (hB : B.PosSemidef) : (side A B).PosSemidef := by
  have h1 : side A (0 : Matrix (Fin c) (Fin c) 𝕜) = tall c (1 : Matrix (Fin a) (Fin a) 𝕜) * A * (tall c (1 : Matrix (Fin a) (Fin a) 𝕜))ᴴ := by
    have : (tall c (1 : Matrix (Fin a) (Fin a) 𝕜))ᴴ = first c 1 := by rw [← conjTranspose_conjTranspose (first c (1 : Matrix (Fin a) (Fin a) 𝕜)), first_star, conjTranspose_one]
    rw [this, tall_mul, tall_first, Matrix.one_mul, Matrix.mul_one]
  have h2 : side (0 : Matrix (Fin a) (Fin a) 𝕜) B = low a (1 : Matrix (Fin c) (Fin c) 𝕜) * B * (low a (1 : Matrix (Fin c) (Fin c) 𝕜))ᴴ := by
    have : (low a (1 : Matrix (Fin c) (Fin c) 𝕜))ᴴ = second a 1 := by rw [← conjTranspose_conjTranspose (second a (1 : Matrix (Fin c) (Fin c) 𝕜)), second_star, conjTranspose_one]
    rw [this, low_mul, low_second, Matrix.one_mul, Matrix.mul_one]
  have h : side A B = side A 0 + side 0 B := by rw [side_add, add_zero, zero_add]
  rw [h, h1, h2]
  exact (hA.mul_mul_conjTranspose_same _).add (hB.mul_mul_conjTranspose_same _)

theorem side_pd {A : Matrix (Fin a) (Fin a) 𝕜} {B : Matrix (Fin c) (Fin c) 𝕜} (hA : A.PosDef) (hB : B.PosDef) : (side A B).PosDef :=
  (side_psd hA.posSemidef hB.posSemidef).posDef_iff_isUnit.2
    ((isUnit_iff_isUnit_det _).2 (side_inverse ((isUnit_iff_isUnit_det _).1 hA.isUnit) ((isUnit_iff_isUnit_det _).1 hB.isUnit)).1)

end blocks

/-! ## Histories -/

/-- Two independent distributions as one. -/
def both {n m : ℕ} (x : Gauss 𝕜 (Fin n)) (y : Gauss 𝕜 (Fin m)) : Gauss 𝕜 (Fin (n + m)) := ⟨Fin.append x.mean y.mean, side x.cov y.cov⟩

theorem both_cross {n m : ℕ} (x : Gauss 𝕜 (Fin n)) (y : Gauss 𝕜 (Fin m)) (i : Fin n) (j : Fin m) : (both x y).cov (Fin.castAdd m i) (Fin.natAdd n j) = 0 := by
  simp [both, side]

/-- The third history is told about both systems what the first two are told about one each.  The systems move together; they are measured together or one at a time, in any order.
How noise is split into terms does not matter. -/
inductive Beside : {n k m l : ℕ} → Hist 𝕜 n k → Hist 𝕜 m l → Hist 𝕜 (n + m) (k + l) → Prop
  | nil {n m : ℕ} : Beside (.nil : Hist 𝕜 n n) (.nil : Hist 𝕜 m m) .nil
  | predict {n k l n' k' l' : ℕ} {F : LinTrans 𝕜 n k} {q : List (GaussChol 𝕜 (Fin k))} {F' : LinTrans 𝕜 n' k'} {q' : List (GaussChol 𝕜 (Fin k'))}
      {G : LinTrans 𝕜 (n + n') (k + k')} {p : List (GaussChol 𝕜 (Fin (k + k')))} {h : Hist 𝕜 k l} {h' : Hist 𝕜 k' l'} {j : Hist 𝕜 (k + k') (l + l')}
      (moves : G.A = side F.A F'.A) (shifts : offset G p = Fin.append (offset F q) (offset F' q')) (spreads : noise G p = side (noise F q) (noise F' q')) (r : Beside h h' j) :
      Beside (.cons (.predict F q) h) (.cons (.predict F' q') h') (.cons (.predict G p) j)
  | measure {n l n' l' a b : ℕ} {H : LinTrans 𝕜 n a} {q : List (GaussChol 𝕜 (Fin a))} {H' : LinTrans 𝕜 n' b} {q' : List (GaussChol 𝕜 (Fin b))} {z : Fin a → 𝕜} {z' : Fin b → 𝕜}
      {G : LinTrans 𝕜 (n + n') (a + b)} {p : List (GaussChol 𝕜 (Fin (a + b)))} {h : Hist 𝕜 n l} {h' : Hist 𝕜 n' l'} {j : Hist 𝕜 (n + n') (l + l')}
      (looks : G.A = side H.A H'.A) (shifts : offset G p = Fin.append (offset H q) (offset H' q')) (spreads : noise G p = side (noise H q) (noise H' q')) (r : Beside h h' j) :
      Beside (.cons (.update a H q z) h) (.cons (.update b H' q' z') h') (.cons (.update (a + b) G p (Fin.append z z')) j)
  | measureFirst {n l n' l' a : ℕ} {H : LinTrans 𝕜 n a} {q : List (GaussChol 𝕜 (Fin a))} {z : Fin a → 𝕜} {G : LinTrans 𝕜 (n + n') a} {p : List (GaussChol 𝕜 (Fin a))}
      {h : Hist 𝕜 n l} {h' : Hist 𝕜 n' l'} {j : Hist 𝕜 (n + n') (l + l')} (looks : G.A = first n' H.A) (shifts : offset G p = offset H q) (spreads : noise G p = noise H q)
      (r : Beside h h' j) : Beside (.cons (.update a H q z) h) h' (.cons (.update a G p z) j)
  | measureSecond {n l n' l' a : ℕ} {H : LinTrans 𝕜 n' a} {q : List (GaussChol 𝕜 (Fin a))} {z : Fin a → 𝕜} {G : LinTrans 𝕜 (n + n') a} {p : List (GaussChol 𝕜 (Fin a))}
      {h : Hist 𝕜 n l} {h' : Hist 𝕜 n' l'} {j : Hist 𝕜 (n + n') (l + l')} (looks : G.A = second n H.A) (shifts : offset G p = offset H q) (spreads : noise G p = noise H q)
      (r : Beside h h' j) : Beside h (.cons (.update a H q z) h') (.cons (.update a G p z) j)

/-- The history of both is valid if those of each are. -/
theorem beside_valid {n k m l : ℕ} {h : Hist 𝕜 n k} {h' : Hist 𝕜 m l} {j : Hist 𝕜 (n + m) (k + l)} (r : Beside h h' j) (hv : h.Valid) (hv' : h'.Valid) : j.Valid := by
  induction r with
  | nil => trivial
  | predict _ _ _ _ ih => exact ⟨trivial, ih hv.2 hv'.2⟩
  | @measure n l n' l' a b H q H' q' z z' G p h h' j looks shifts spreads r ih =>
    refine ⟨?_, ih hv.2 hv'.2⟩
    show (noise G p).PosDef
    rw [spreads]
    exact side_pd hv.1 hv'.1
  | @measureFirst n l n' l' a H q z G p h h' j looks shifts spreads r ih =>
    refine ⟨?_, ih hv.2 hv'⟩
    show (noise G p).PosDef
    rw [spreads]
    exact hv.1
  | @measureSecond n l n' l' a H q z G p h h' j looks shifts spreads r ih =>
    refine ⟨?_, ih hv hv'.2⟩
    show (noise G p).PosDef
    rw [spreads]
    exact hv'.1

theorem update_psd {n m : ℕ} (H : LinTrans 𝕜 n m) (q : List (GaussChol 𝕜 (Fin m))) (z : Fin m → 𝕜) (x : Gauss 𝕜 (Fin n)) (hx : x.cov.PosSemidef) (hR : (noise H q).PosDef) :
    ((Op.update m H q z).run lib x).cov.PosSemidef := (C49_update lib H _ z x hx (toGauss_mem_hermitian q) hR).1

theorem update_both {n n' a b : ℕ} (H : Matrix (Fin a) (Fin n) 𝕜) (R : Matrix (Fin a) (Fin a) 𝕜) (c z : Fin a → 𝕜) (H' : Matrix (Fin b) (Fin n') 𝕜)
    (R' : Matrix (Fin b) (Fin b) 𝕜) (c' z' : Fin b → 𝕜) (x : Gauss 𝕜 (Fin n)) (y : Gauss 𝕜 (Fin n')) (hx : x.cov.PosSemidef) (hy : y.cov.PosSemidef) (hR : R.PosDef) (hR' : R'.PosDef) :
    linUpdate lib (side H H') (side R R') (Fin.append c c') (Fin.append z z') (both x y) = both (linUpdate lib H R c z x) (linUpdate lib H' R' c' z' y) := by
  have hu := measCov_unit hx H hR
  have hu' := measCov_unit hy H' hR'
  have e : side H H' * (both x y).cov * (side H H')ᴴ + side R R' = side (H * x.cov * Hᴴ + R) (H' * y.cov * H'ᴴ + R') := by
    rw [both, side_star, side_mul, side_mul, side_add]
  rw [linUpdate_eq lib H R c z x hx.1 hR.1 hu, linUpdate_eq lib H' R' c' z' y hy.1 hR'.1 hu',
    linUpdate_eq lib _ _ _ _ (both x y) (side_psd hx hy).1 (side_pd hR hR').1 (by rw [e]; exact (side_inverse hu hu').1), e, (side_inverse hu hu').2]
  refine Gauss.ext ?_ ?_
  · simp only [both, side_star, side_mul, side_vec, append_add, append_sub]
  · simp only [both, side_star, side_mul, side_sub]

theorem update_first {n n' a : ℕ} (H : Matrix (Fin a) (Fin n) 𝕜) (R : Matrix (Fin a) (Fin a) 𝕜) (c z : Fin a → 𝕜) (x : Gauss 𝕜 (Fin n)) (y : Gauss 𝕜 (Fin n'))
    (hx : x.cov.PosSemidef) (hy : y.cov.PosSemidef) (hR : R.PosDef) : linUpdate lib (first n' H) R c z (both x y) = both (linUpdate lib H R c z x) y := by
  have hu := measCov_unit hx H hR
  have e : first n' H * (both x y).cov * (first n' H)ᴴ + R = H * x.cov * Hᴴ + R := by rw [both, first_star, first_side, first_tall]
  rw [linUpdate_eq lib H R c z x hx.1 hR.1 hu, linUpdate_eq lib _ _ _ _ (both x y) (side_psd hx hy).1 hR.1 (by rw [e]; exact hu), e]
  refine Gauss.ext ?_ ?_
  · simp only [both, first_star, side_tall, tall_mul, tall_vec, first_vec, append_add, add_zero]
  · show side x.cov y.cov - side x.cov y.cov * (first n' H)ᴴ * (H * x.cov * Hᴴ + R)⁻¹ * (first n' H * side x.cov y.cov) = side _ y.cov
    rw [first_star, side_tall, tall_mul, first_side, tall_first, side_sub, sub_zero]

theorem update_second {n n' a : ℕ} (H : Matrix (Fin a) (Fin n') 𝕜) (R : Matrix (Fin a) (Fin a) 𝕜) (c z : Fin a → 𝕜) (x : Gauss 𝕜 (Fin n)) (y : Gauss 𝕜 (Fin n'))
    (hx : x.cov.PosSemidef) (hy : y.cov.PosSemidef) (hR : R.PosDef) : linUpdate lib (second n H) R c z (both x y) = both x (linUpdate lib H R c z y) := by
  have hu := measCov_unit hy H hR
  have e : second n H * (both x y).cov * (second n H)ᴴ + R = H * y.cov * Hᴴ + R := by rw [both, second_star, second_side, second_low]
  rw [linUpdate_eq lib H R c z y hy.1 hR.1 hu, linUpdate_eq lib _ _ _ _ (both x y) (side_psd hx hy).1 hR.1 (by rw [e]; exact hu), e]
  refine Gauss.ext ?_ ?_
  · simp only [both, second_star, side_low, low_mul, low_vec, second_vec, append_add, add_zero]
  · show side x.cov y.cov - side x.cov y.cov * (second n H)ᴴ * (H * y.cov * Hᴴ + R)⁻¹ * (second n H * side x.cov y.cov) = side x.cov _
    rw [second_star, side_low, low_mul, second_side, low_second, side_sub, sub_zero]

/-! ## C168 -/

/-- **C168**: one filter for two systems that do not interact reports what a filter for each would report; in particular it never invents a correlation between them, and a measurement
of one system leaves the other's distribution as it is. -/
theorem C168_independent {n k m l : ℕ} {h : Hist 𝕜 n k} {h' : Hist 𝕜 m l} {j : Hist 𝕜 (n + m) (k + l)} (r : Beside h h' j) (hv : h.Valid) (hv' : h'.Valid)
    (x : Gauss 𝕜 (Fin n)) (y : Gauss 𝕜 (Fin m)) (hx : x.cov.PosSemidef) (hy : y.cov.PosSemidef) : j.run lib (both x y) = both (h.run lib x) (h'.run lib y) := by
  induction r with
  | nil => rfl
  | @predict n k l n' k' l' F q F' q' G p h h' j moves shifts spreads r ih =>
    have e : (Op.predict G p).run lib (both x y) = both ((Op.predict F q).run lib x) ((Op.predict F' q').run lib y) := by
      rw [predict_form lib F q x hx, predict_form lib F' q' y hy, predict_form lib G p (both x y) (side_psd hx hy), moves, shifts, spreads]
      simp only [both, side_vec, append_add, side_star, side_mul, side_add]
    show j.run lib ((Op.predict G p).run lib (both x y)) = _
    rw [e]
    exact ih hv.2 hv'.2 _ _ (predict_posSemidef lib F x _ hx (toGauss_mem_hermitian q)) (predict_posSemidef lib F' y _ hy (toGauss_mem_hermitian q'))
  | @measure n l n' l' a b H q H' q' z z' G p h h' j looks shifts spreads r ih =>
    have e : (Op.update (a + b) G p (Fin.append z z')).run lib (both x y) = both ((Op.update a H q z).run lib x) ((Op.update b H' q' z').run lib y) := by
      rw [update_form lib H q z x hx, update_form lib H' q' z' y hy, update_form lib G p _ (both x y) (side_psd hx hy), looks, shifts, spreads]
      exact update_both lib _ _ _ _ _ _ _ _ x y hx hy hv.1 hv'.1
    show j.run lib ((Op.update (a + b) G p (Fin.append z z')).run lib (both x y)) = _
    rw [e]
    exact ih hv.2 hv'.2 _ _ (update_psd lib H q z x hx hv.1) (update_psd lib H' q' z' y hy hv'.1)
  | @measureFirst n l n' l' a H q z G p h h' j looks shifts spreads r ih =>
    have e : (Op.update a G p z).run lib (both x y) = both ((Op.update a H q z).run lib x) y := by
      rw [update_form lib H q z x hx, update_form lib G p _ (both x y) (side_psd hx hy), looks, shifts, spreads]
      exact update_first lib _ _ _ _ x y hx hy hv.1
    show j.run lib ((Op.update a G p z).run lib (both x y)) = _
    rw [e]
    exact ih hv.2 hv' _ _ (update_psd lib H q z x hx hv.1) hy
  | @measureSecond n l n' l' a H q z G p h h' j looks shifts spreads r ih =>
    have e : (Op.update a G p z).run lib (both x y) = both x ((Op.update a H q z).run lib y) := by
      rw [update_form lib H q z y hy, update_form lib G p _ (both x y) (side_psd hx hy), looks, shifts, spreads]
      exact update_second lib _ _ _ _ x y hx hy hv'.1
    show j.run lib ((Op.update a G p z).run lib (both x y)) = _
    rw [e]
    exact ih hv hv'.2 _ _ hx (update_psd lib H q z y hy hv'.1)

/-- **C168** (square roots): so does the filter that keeps factors of covariances, whichever factor of the joint covariance it is given. -/
theorem C168_square_root {n k m l : ℕ} {h : Hist 𝕜 n k} {h' : Hist 𝕜 m l} {j : Hist 𝕜 (n + m) (k + l)} (r : Beside h h' j) (hv : h.Valid) (hv' : h'.Valid)
    (x : GaussChol 𝕜 (Fin n)) (y : GaussChol 𝕜 (Fin m)) (w : GaussChol 𝕜 (Fin (n + m))) (hw : w.toGauss = both x.toGauss y.toGauss) :
    (j.runChol lib w).toGauss = both (h.runChol lib x).toGauss (h'.runChol lib y).toGauss := by
  rw [C50_square_root lib h hv x, C50_square_root lib h' hv' y, C50_square_root lib j (beside_valid r hv hv') w, hw]
  exact C168_independent lib r hv hv' x.toGauss y.toGauss (toGauss_posSemidef x) (toGauss_posSemidef y)

theorem sum_append {ι : Type} {a b : ℕ} (l : List ι) (f : ι → Fin a → 𝕜) (g : ι → Fin b → 𝕜) :
    (l.map fun v => Fin.append (f v) (g v)).sum = Fin.append (l.map f).sum (l.map g).sum := by
  induction l with
  | nil => exact append_zero.symm
  | cons v l ih => simp only [List.map_cons, List.sum_cons, ih, append_add]

theorem sum_side {ι : Type} {a b : ℕ} (l : List ι) (f : ι → Matrix (Fin a) (Fin a) 𝕜) (g : ι → Matrix (Fin b) (Fin b) 𝕜) :
    (l.map fun v => side (f v) (g v)).sum = side (l.map f).sum (l.map g).sum := by
  induction l with
  | nil => exact side_zero.symm
  | cons v l ih => simp only [List.map_cons, List.sum_cons, ih, side_add]

/-- Two noise terms, by their factors, as one. -/
def bothChol {n m : ℕ} (x : GaussChol 𝕜 (Fin n)) (y : GaussChol 𝕜 (Fin m)) : GaussChol 𝕜 (Fin (n + m)) := ⟨Fin.append x.mean y.mean, side x.fac y.fac⟩

theorem bothChol_toGauss {n m : ℕ} (x : GaussChol 𝕜 (Fin n)) (y : GaussChol 𝕜 (Fin m)) : (bothChol x y).toGauss = both x.toGauss y.toGauss := by
  simp only [bothChol, both, GaussChol.toGauss, side_star, side_mul]

theorem gain_side {a b : ℕ} (gs : List (Matrix (Fin a) (Fin a) 𝕜 × Matrix (Fin b) (Fin b) 𝕜)) (i : ℕ) :
    (gs.map fun g => side g.1 g.2).getD i 1 = side ((gs.map Prod.fst).getD i 1) ((gs.map Prod.snd).getD i 1) := by
  simp only [List.getD_eq_getElem?_getD, List.getElem?_map]
  cases gs[i]? with
  | none => exact side_one.symm
  | some g => rfl

/-- **C168** (calls): calls whose matrices, whose matrices for the noise and whose noise terms are put side by side meet what `Beside` asks for, for any number of noise terms and any
number of matrices for them. -/
theorem C168_paired {n k n' k' : ℕ} (A : Matrix (Fin k) (Fin n) 𝕜) (A' : Matrix (Fin k') (Fin n') 𝕜) (gs : List (Matrix (Fin k) (Fin k) 𝕜 × Matrix (Fin k') (Fin k') 𝕜))
    (ns : List (GaussChol 𝕜 (Fin k) × GaussChol 𝕜 (Fin k'))) :
    offset (⟨side A A', gs.map fun g => side g.1 g.2⟩ : LinTrans 𝕜 (n + n') (k + k')) (ns.map fun d => bothChol d.1 d.2) =
      Fin.append (offset (⟨A, gs.map Prod.fst⟩ : LinTrans 𝕜 n k) (ns.map Prod.fst)) (offset (⟨A', gs.map Prod.snd⟩ : LinTrans 𝕜 n' k') (ns.map Prod.snd)) ∧
    noise (⟨side A A', gs.map fun g => side g.1 g.2⟩ : LinTrans 𝕜 (n + n') (k + k')) (ns.map fun d => bothChol d.1 d.2) =
      side (noise (⟨A, gs.map Prod.fst⟩ : LinTrans 𝕜 n k) (ns.map Prod.fst)) (noise (⟨A', gs.map Prod.snd⟩ : LinTrans 𝕜 n' k') (ns.map Prod.snd)) := by
  constructor
  · simp only [offset, noiseMean, List.zipIdx_map, List.map_map]
    rw [← sum_append]
    refine congrArg List.sum (List.map_congr_left fun v _ => ?_)
    show (gs.map fun g => side g.1 g.2).getD v.2 1 *ᵥ (bothChol v.1.1 v.1.2).toGauss.mean = _
    rw [gain_side, bothChol_toGauss]
    exact side_vec _ _ _ _
  · simp only [noise, noiseTotal, List.zipIdx_map, List.map_map]
    rw [← sum_side]
    refine congrArg List.sum (List.map_congr_left fun v _ => ?_)
    show (gs.map fun g => side g.1 g.2).getD v.2 1 * (bothChol v.1.1 v.1.2).toGauss.cov * ((gs.map fun g => side g.1 g.2).getD v.2 1)ᴴ = _
    rw [gain_side, bothChol_toGauss, side_star]
    simp only [both, side_mul]
    rfl

/-- **C168** (objects): the joint distribution is the one that `concatenate` makes of the two, wherever that is well formed (`C63_concatenate_defined`). -/
theorem C168_concatenate {n m : ℕ} {d : Gaussian.Dist n} {e : Gaussian.Dist m} (hd : d.Valid) (he : e.Valid) {P : Matrix (Fin n) (Fin n) ℝ} {Q : Matrix (Fin m) (Fin m) ℝ}
    (hP : d.cov.Represents P) (hQ : e.cov.Represents Q) {r : Gaussian.Dist (n + m)} (h : d.concat id e = some r) :
    r.mean = (both ⟨d.mean, P⟩ ⟨e.mean, Q⟩).mean ∧ r.cov.Represents (both ⟨d.mean, P⟩ ⟨e.mean, Q⟩).cov := by
  unfold Gaussian.Dist.concat at h
  obtain ⟨c, hc, hr⟩ := Option.bind_eq_some_iff.1 h
  have hs := CovArith.concat_sound hd.1 he.1 ⟨hd.2.1.trans he.2.1.symm, fun _ _ _ _ => .inr ⟨hd.2.1, fun _ => rfl⟩⟩ hP hQ hc
  have hroot : c.root = false := hs.2.1.trans hd.2.1
  simp only [Gaussian.make, hroot, id] at hr
  obtain rfl := Option.some.inj hr
  refine ⟨rfl, ?_⟩
  have e : (both ⟨d.mean, P⟩ ⟨e.mean, Q⟩ : Gauss ℝ (Fin (n + m))).cov = CovArith.catMat P Q := by
    ext i j
    refine Fin.addCases (fun i => ?_) (fun i => ?_) i <;> refine Fin.addCases (fun j => ?_) (fun j => ?_) j <;> simp [both, side, CovArith.catMat]
  rw [e]
  exact hs.2.2

/-! ### Cases

A position with a velocity beside a temperature.  They move together, then the position is measured, then the temperature, then both. -/

noncomputable def ride : Hist ℝ 2 2 :=
  .cons (.predict ⟨!![1, 1; 0, 1], []⟩ [⟨![0, 1], !![1, 0; 0, 2]⟩]) (.cons (.update 1 ⟨!![1, 0], []⟩ [⟨fun _ => 0, !![3]⟩] ![7])
    (.cons (.update 1 ⟨!![0, 1], [!![2]]⟩ [⟨fun _ => 1, !![1]⟩] ![4]) .nil))

noncomputable def warmth : Hist ℝ 1 1 :=
  .cons (.predict ⟨!![5], []⟩ [⟨![2], !![1]⟩]) (.cons (.update 1 ⟨!![2], []⟩ [⟨fun _ => 0, !![1]⟩] ![9]) (.cons (.update 1 ⟨!![1], [!![3]]⟩ [⟨fun _ => 0, !![2]⟩] ![8]) .nil))

noncomputable def rideAndWarmth : Hist ℝ (2 + 1) (2 + 1) :=
  .cons (.predict ⟨side !![1, 1; 0, 1] !![5], []⟩ [bothChol ⟨![0, 1], !![1, 0; 0, 2]⟩ ⟨![2], !![1]⟩])
    (.cons (.update 1 ⟨first 1 !![1, 0], []⟩ [⟨fun _ => 0, !![3]⟩] ![7])
    (.cons (.update 1 ⟨second 2 !![2], []⟩ [⟨fun _ => 0, !![1]⟩] ![9])
    (.cons (.update (1 + 1) ⟨side !![0, 1] !![1], [side !![2] !![3]]⟩ [bothChol ⟨fun _ => 1, !![1]⟩ ⟨fun _ => 0, !![2]⟩] (Fin.append ![4] ![8])) .nil)))

theorem case_beside : Beside ride warmth rideAndWarmth :=
  .predict rfl (C168_paired _ _ [] [(_, _)]).1 (C168_paired _ _ [] [(_, _)]).2
    (.measureFirst rfl rfl rfl (.measureSecond rfl rfl rfl (.measure rfl (C168_paired _ _ [(_, _)] [(_, _)]).1 (C168_paired _ _ [(_, _)] [(_, _)]).2 .nil)))

theorem one_pd {r : ℝ} (h : 0 < r) {M : Matrix (Fin 1) (Fin 1) ℝ} (e : M 0 0 = r) : M.PosDef := by
  have : M = r • 1 := by
    ext i j
    fin_cases i
    fin_cases j
    simpa using e
  rw [this]
  exact PosDef.one.smul h

theorem ride_valid : ride.Valid := by
  refine ⟨trivial, one_pd (r := 9) (by norm_num) ?_, one_pd (r := 4) (by norm_num) ?_, trivial⟩ <;>
    norm_num [noiseTotal, GaussChol.toGauss, Matrix.mul_apply, Matrix.vecMul, dotProduct]

theorem warmth_valid : warmth.Valid := by
  refine ⟨trivial, one_pd (r := 1) (by norm_num) ?_, one_pd (r := 36) (by norm_num) ?_, trivial⟩ <;>
    norm_num [noiseTotal, GaussChol.toGauss, Matrix.mul_apply, Matrix.vecMul, dotProduct]

/-- No correlation between position and temperature is reported in the end. -/
example (lib : Lib ℝ) : (rideAndWarmth.run lib (both ⟨![1, 2], 1⟩ ⟨![3], 1⟩)).cov 0 2 = 0 := by
  rw [C168_independent lib case_beside ride_valid warmth_valid ⟨![1, 2], 1⟩ ⟨![3], 1⟩ PosSemidef.one PosSemidef.one]
  exact both_cross _ _ (0 : Fin 2) (0 : Fin 1)

example (lib : Lib ℝ) (x : GaussChol ℝ (Fin 2)) (y : GaussChol ℝ (Fin 1)) :
    (rideAndWarmth.runChol lib (bothChol x y)).toGauss = both (ride.runChol lib x).toGauss (warmth.runChol lib y).toGauss :=
  C168_square_root lib case_beside ride_valid warmth_valid x y _ (bothChol_toGauss x y)

end OpenKalman.Joint
