import Verif.Spec.Kalman
import Verif.Model.Kalman
import Mathlib.Analysis.Matrix.Order
import Mathlib.Analysis.CStarAlgebra.Matrix
import Mathlib.LinearAlgebra.Matrix.ToLin
import Mathlib.Data.List.GetD

/-!
# Lemmas for the Kalman filter and linear transforms
-/

set_option linter.unusedSectionVars false

namespace OpenKalman.Kalman
open Matrix
open scoped ComplexOrder

variable {𝕜 : Type} [RCLike 𝕜] (lib : Lib 𝕜) {n m p : Type} [Fintype n] [DecidableEq n] [Fintype m] [DecidableEq m] [Fintype p] [DecidableEq p]

/-! ## Gains -/

theorem errorCov_eq (P : Matrix n n 𝕜) (Pxy : Matrix n m 𝕜) (Pyy : Matrix m m 𝕜) (G : Matrix n m 𝕜) :
    errorCov P Pxy Pyy G = P - G * Pxyᴴ - (Pxy - G * Pyy) * Gᴴ := by
  unfold errorCov jointCov
  rw [fromCols_mul_fromBlocks, conjTranspose_fromCols_eq_fromRows_conjTranspose, fromCols_mul_fromRows]
  simp [Matrix.mul_neg, Matrix.neg_mul, sub_eq_add_neg]

theorem errorCov_posSemidef {P : Matrix n n 𝕜} {Pxy : Matrix n m 𝕜} {Pyy : Matrix m m 𝕜} (h : (jointCov P Pxy Pyy).PosSemidef) (G : Matrix n m 𝕜) :
    (errorCov P Pxy Pyy G).PosSemidef :=
  h.mul_mul_conjTranspose_same _

theorem joint_hermitian {P : Matrix n n 𝕜} {Pxy : Matrix n m 𝕜} {Pyy : Matrix m m 𝕜} (h : (jointCov P Pxy Pyy).PosSemidef) :
    P.IsHermitian ∧ Pyy.IsHermitian := by
  have := h.1
  unfold jointCov at this
  rw [isHermitian_fromBlocks_iff] at this
  exact ⟨this.1, this.2.2.2⟩

theorem joint_yy {P : Matrix n n 𝕜} {Pxy : Matrix n m 𝕜} {Pyy : Matrix m m 𝕜} (h : (jointCov P Pxy Pyy).PosSemidef) : Pyy.PosSemidef :=
  h.submatrix Sum.inr

theorem joint_xx {P : Matrix n n 𝕜} {Pxy : Matrix n m 𝕜} {Pyy : Matrix m m 𝕜} (h : (jointCov P Pxy Pyy).PosSemidef) : P.PosSemidef :=
  h.submatrix Sum.inl

/-- A gain solving `K Pyy = Pxy`. -/
theorem gain_facts {P : Matrix n n 𝕜} {Pxy : Matrix n m 𝕜} {Pyy : Matrix m m 𝕜} (hy : Pyy.IsHermitian) {Kadj : Matrix m n 𝕜}
    (hK : Pyyᴴ * Kadj = Pxyᴴ) :
    Kadjᴴ * Pyy = Pxy ∧ Pxy * Kadj = Kadjᴴ * Pyy * Kadj ∧ (Pxy * Kadj).IsHermitian ∧
    (∀ G, errorCov P Pxy Pyy G - (P - Pxy * Kadj) = (G - Kadjᴴ) * Pyy * (G - Kadjᴴ)ᴴ) := by
  have h1 : Kadjᴴ * Pyy = Pxy := by
    have := congrArg conjTranspose hK
    simpa [conjTranspose_mul] using this
  have h2 : Pxy * Kadj = Kadjᴴ * Pyy * Kadj := by rw [h1]
  have hK' : Pyy * Kadj = Pxyᴴ := by rw [← hK, hy.eq]
  refine ⟨h1, h2, ?_, ?_⟩
  · rw [h2]
    unfold IsHermitian
    simp only [conjTranspose_mul, conjTranspose_conjTranspose, hy.eq, Matrix.mul_assoc]
  · intro G
    rw [errorCov_eq]
    simp only [conjTranspose_sub, conjTranspose_conjTranspose, Matrix.sub_mul, Matrix.mul_sub, Matrix.mul_assoc, hK']
    rw [← Matrix.mul_assoc Kadjᴴ Pyy, h1]
    have : Kadjᴴ * Pxyᴴ = Pxy * Kadj := by rw [← hK', h2, Matrix.mul_assoc]
    rw [this]
    abel

/-- The equation for the gain is solvable whenever the joint covariance is positive semidefinite, whether or not `Pyy` is invertible. -/
theorem gain_exists {P : Matrix n n 𝕜} {Pxy : Matrix n m 𝕜} {Pyy : Matrix m m 𝕜} (h : (jointCov P Pxy Pyy).PosSemidef) :
    ∃ X : Matrix m n 𝕜, Pyyᴴ * X = Pxyᴴ := by
  -- the kernel of `Pyy` is contained in that of `Pxy`
  have hker : LinearMap.ker (toLin' Pyy) ≤ LinearMap.ker (toLin' Pxy) := by
    intro v hv
    rw [LinearMap.mem_ker, toLin'_apply] at hv ⊢
    have h0 : star (Sum.elim 0 v : n ⊕ m → 𝕜) ⬝ᵥ jointCov P Pxy Pyy *ᵥ (Sum.elim 0 v) = 0 := by
      unfold jointCov
      rw [fromBlocks_mulVec]
      simp [hv, dotProduct, Fintype.sum_sum_type]
    have := (h.dotProduct_mulVec_zero_iff _).mp h0
    unfold jointCov at this
    rw [fromBlocks_mulVec] at this
    have := congrFun this
    funext i
    simpa using this (Sum.inl i)
  let S := toLin' Pyy
  let T := toLin' Pxy
  obtain ⟨g, hg⟩ := LinearMap.exists_extend (((LinearMap.ker S).liftQ T hker).comp S.quotKerEquivRange.symm.toLinearMap)
  have hgS : g.comp S = T := by
    apply LinearMap.ext
    intro v
    have h1 := LinearMap.congr_fun hg ⟨S v, LinearMap.mem_range_self S v⟩
    simp only [LinearMap.comp_apply, Submodule.subtype_apply, LinearEquiv.coe_coe] at h1
    rw [LinearMap.comp_apply, h1]
    have : S.quotKerEquivRange.symm ⟨S v, LinearMap.mem_range_self S v⟩ = Submodule.Quotient.mk v := by
      rw [LinearEquiv.symm_apply_eq]
      rfl
    rw [this]
    exact Submodule.liftQ_apply _ _ _
  refine ⟨(LinearMap.toMatrix' g)ᴴ, ?_⟩
  rw [← conjTranspose_mul]
  congr 1
  have := congrArg LinearMap.toMatrix' hgS
  rw [LinearMap.toMatrix'_comp] at this
  simpa [S, T] using this

/-! ## Concatenation and noise terms -/

theorem hcat_sq_aux {a b : ℕ} (A : Matrix p (Fin a) 𝕜) (B : Matrix p (Fin b) 𝕜) :
    (of fun i => (Fin.addCases (A i) (B i) : Fin (a + b) → 𝕜)) * (of fun i => (Fin.addCases (A i) (B i) : Fin (a + b) → 𝕜))ᴴ = A * Aᴴ + B * Bᴴ := by
  ext i j
  simp only [Matrix.mul_apply, Matrix.add_apply, conjTranspose_apply, of_apply]
  rw [Fin.sum_univ_add]
  simp

theorem hcat_sq (A B : Blk 𝕜 p) : (hcat A B).2 * (hcat A B).2ᴴ = A.2 * A.2ᴴ + B.2 * B.2ᴴ := hcat_sq_aux A.2 B.2

theorem hcatList_sq (A : Blk 𝕜 p) (Bs : List (Blk 𝕜 p)) :
    (hcatList A Bs).2 * (hcatList A Bs).2ᴴ = A.2 * A.2ᴴ + (Bs.map fun B => B.2 * B.2ᴴ).sum := by
  unfold hcatList
  induction Bs generalizing A with
  | nil => rw [List.map_nil, List.sum_nil, add_zero]; rfl
  | cons B Bs ih => rw [List.foldl_cons, ih, hcat_sq, List.map_cons, List.sum_cons, add_assoc]

theorem noise_fold (ts : List (Term 𝕜 p)) (X : Matrix p p 𝕜) :
    ts.foldl (fun acc t => acc + t.J * (t.d.cov * t.Jᴴ)) X = X + (ts.map fun t => t.J * t.d.cov * t.Jᴴ).sum := by
  induction ts generalizing X with
  | nil => simp
  | cons t ts ih => rw [List.foldl_cons, ih, List.map_cons, List.sum_cons, add_assoc, Matrix.mul_assoc]

theorem list_sum_hermitian (l : List (Matrix p p 𝕜)) (h : ∀ A ∈ l, A.IsHermitian) : l.sum.IsHermitian := by
  induction l with
  | nil => exact isHermitian_zero
  | cons A l ih => rw [List.sum_cons]; exact (h A (by simp)).add (ih fun B hB => h B (by simp [hB]))

theorem list_sum_posSemidef (l : List (Matrix p p 𝕜)) (h : ∀ A ∈ l, A.PosSemidef) : l.sum.PosSemidef := by
  induction l with
  | nil => exact PosSemidef.zero
  | cons A l ih => rw [List.sum_cons]; exact (h A (by simp)).add (ih fun B hB => h B (by simp [hB]))

theorem isHermitian_conj {A : Matrix n n 𝕜} (h : A.IsHermitian) (J : Matrix p n 𝕜) : (J * A * Jᴴ).IsHermitian :=
  isHermitian_mul_mul_conjTranspose J h

/-- What the noise terms add. -/
def noiseCov (ts : List (Term 𝕜 p)) : Matrix p p 𝕜 := (ts.map fun t => t.J * t.d.cov * t.Jᴴ).sum

theorem noiseCov_hermitian (ts : List (Term 𝕜 p)) (h : ∀ t ∈ ts, t.d.cov.IsHermitian) : (noiseCov ts).IsHermitian :=
  list_sum_hermitian _ (by
    intro A hA
    obtain ⟨t, ht, rfl⟩ := List.mem_map.mp hA
    exact isHermitian_conj (h t ht) _)

theorem noiseCov_posSemidef (ts : List (Term 𝕜 p)) (h : ∀ t ∈ ts, t.d.cov.PosSemidef) : (noiseCov ts).PosSemidef :=
  list_sum_posSemidef _ (by
    intro A hA
    obtain ⟨t, ht, rfl⟩ := List.mem_map.mp hA
    exact (h t ht).mul_mul_conjTranspose_same _)

theorem sumNoise_eq (J0 : Matrix p n 𝕜) (d0 : Gauss 𝕜 n) (ts : List (Term 𝕜 p)) (h0 : d0.cov.IsHermitian) (h : ∀ t ∈ ts, t.d.cov.IsHermitian) :
    sumNoise lib J0 d0 ts = J0 * d0.cov * J0ᴴ + noiseCov ts := by
  unfold sumNoise
  rw [noise_fold, ← noiseCov]
  exact lib.herm_spec _ ((isHermitian_conj h0 J0).add (noiseCov_hermitian ts h))

theorem sumNoiseCross_eq (J0 : Matrix p n 𝕜) (d0 : Gauss 𝕜 n) (ts : List (Term 𝕜 p)) (h0 : d0.cov.IsHermitian) (h : ∀ t ∈ ts, t.d.cov.IsHermitian) :
    sumNoiseCross lib J0 d0 ts = (J0 * d0.cov * J0ᴴ + noiseCov ts, d0.cov * J0ᴴ) := by
  unfold sumNoiseCross
  simp only []
  rw [noise_fold, ← noiseCov, ← Matrix.mul_assoc]
  rw [lib.herm_spec _ ((isHermitian_conj h0 J0).add (noiseCov_hermitian ts h))]

/-- A noise term in Cholesky form as a noise term. -/
def TermChol.toTerm (t : TermChol 𝕜 p) : Term 𝕜 p := ⟨t.k, t.J, t.d.toGauss⟩

theorem sumNoiseChol_sq {n : ℕ} (J0 : Matrix p (Fin n) 𝕜) (d0 : GaussChol 𝕜 (Fin n)) (ts : List (TermChol 𝕜 p)) :
    sumNoiseChol lib J0 d0 ts * (sumNoiseChol lib J0 d0 ts)ᴴ = J0 * d0.toGauss.cov * J0ᴴ + noiseCov (ts.map TermChol.toTerm) := by
  unfold sumNoiseChol
  rw [lib.lq_spec, hcatList_sq]
  simp only [noiseCov, List.map_map, GaussChol.toGauss, conjTranspose_mul]
  congr 1
  · simp only [Matrix.mul_assoc]
  · congr 1
    apply List.map_congr_left
    intro t _
    show (t.J * t.d.fac) * (t.J * t.d.fac)ᴴ = t.J * (t.d.fac * t.d.facᴴ) * t.Jᴴ
    rw [conjTranspose_mul]
    simp only [Matrix.mul_assoc]

theorem sumNoiseCrossChol_eq {n : ℕ} (J0 : Matrix p (Fin n) 𝕜) (d0 : GaussChol 𝕜 (Fin n)) (ts : List (TermChol 𝕜 p)) :
    sumNoiseCrossChol lib J0 d0 ts = (sumNoiseChol lib J0 d0 ts, d0.toGauss.cov * J0ᴴ) := by
  unfold sumNoiseCrossChol sumNoiseChol
  simp [GaussChol.toGauss, conjTranspose_mul, Matrix.mul_assoc]

theorem toGauss_posSemidef (d : GaussChol 𝕜 n) : d.toGauss.cov.PosSemidef := posSemidef_self_mul_conjTranspose _

/-! ## Linear transformations -/

/-- The `i`-th perturbation matrix: the one given, or the identity. -/
def pertMatrix {n p : ℕ} (g : LinTrans 𝕜 n p) (i : ℕ) : Matrix (Fin p) (Fin p) 𝕜 := g.Bs.getD i 1

theorem jacobian_spec {n p : ℕ} (g : LinTrans 𝕜 n p) (k : ℕ) : g.jacobian k = (g.A, (List.range k).map (pertMatrix g)) := by
  unfold LinTrans.jacobian pertMatrix
  split_ifs with h
  · congr 1
    apply List.ext_getElem
    · simp; omega
    · intro i h1 h2
      simp only [List.getElem_map, List.getElem_range]
      by_cases hi : i < g.Bs.length
      · rw [List.getElem_append_left hi, List.getD_eq_getElem _ _ hi]
      · rw [List.getElem_append_right (by omega), List.getElem_replicate, List.getD_eq_default _ _ (by omega)]
  · congr 1
    apply List.ext_getElem
    · simp; omega
    · intro i h1 h2
      simp only [List.getElem_map, List.getElem_range, List.getElem_take]
      rw [List.getD_eq_getElem]

theorem zipWith_range {α β γ : Type} (f : α → β → γ) (q : ℕ → α) (l : List β) :
    List.zipWith f ((List.range l.length).map q) l = l.zipIdx.map fun x => f (q x.2) x.1 := by
  apply List.ext_getElem
  · simp
  · intro i h1 h2
    simp

theorem go_eq {p : ℕ} (ts : List (Fin p → 𝕜)) : (LinTrans.apply.go ts).getD 0 = ts.sum := by
  induction ts with
  | nil => rfl
  | cons t ts ih =>
    unfold LinTrans.apply.go
    cases h : LinTrans.apply.go ts
    · rw [h] at ih; simp at ih; simp [← ih]
    · rw [h] at ih; simp at ih; simp [← ih]

theorem apply_eq {n p : ℕ} (g : LinTrans 𝕜 n p) (x : Fin n → 𝕜) (ns : List (Fin p → 𝕜)) :
    g.apply x ns = g.A *ᵥ x + (ns.zipIdx.map fun v => pertMatrix g v.2 *ᵥ v.1).sum := by
  unfold LinTrans.apply
  rw [go_eq, jacobian_spec, zipWith_range, List.sum_cons]

/-- The noise terms of a linear transform. -/
def noiseTerms {n p : ℕ} (g : LinTrans 𝕜 n p) (ns : List (Gauss 𝕜 (Fin p))) : List (Term 𝕜 (Fin p)) :=
  ns.zipIdx.map fun v => ⟨p, pertMatrix g v.2, v.1⟩

def noiseTermsChol {n p : ℕ} (g : LinTrans 𝕜 n p) (ns : List (GaussChol 𝕜 (Fin p))) : List (TermChol 𝕜 (Fin p)) :=
  ns.zipIdx.map fun v => ⟨p, pertMatrix g v.2, v.1⟩

theorem mem_noiseTerms {n p : ℕ} {g : LinTrans 𝕜 n p} {ns : List (Gauss 𝕜 (Fin p))} {P : ∀ {k}, Gauss 𝕜 (Fin k) → Prop}
    (h : ∀ d ∈ ns, P d) : ∀ t ∈ noiseTerms g ns, P t.d := by
  intro t ht
  obtain ⟨v, hv, rfl⟩ := List.mem_map.mp ht
  exact h _ (List.fst_mem_of_mem_zipIdx hv)

theorem linearTransform_eq {n p : ℕ} (g : LinTrans 𝕜 n p) (x : Gauss 𝕜 (Fin n)) (ns : List (Gauss 𝕜 (Fin p))) (hx : x.cov.IsHermitian)
    (hn : ∀ d ∈ ns, d.cov.IsHermitian) :
    linearTransform lib g x ns = ⟨g.apply x.mean (ns.map Gauss.mean), g.A * x.cov * g.Aᴴ + noiseCov (noiseTerms g ns)⟩ := by
  unfold linearTransform
  simp only [jacobian_spec]
  rw [zipWith_range, ← noiseTerms, sumNoise_eq lib _ _ _ hx (mem_noiseTerms (P := fun d => d.cov.IsHermitian) hn)]

theorem linearTransformCross_eq {n p : ℕ} (g : LinTrans 𝕜 n p) (x : Gauss 𝕜 (Fin n)) (ns : List (Gauss 𝕜 (Fin p))) (hx : x.cov.IsHermitian)
    (hn : ∀ d ∈ ns, d.cov.IsHermitian) :
    linearTransformCross lib g x ns = (linearTransform lib g x ns, x.cov * g.Aᴴ) := by
  rw [linearTransform_eq lib g x ns hx hn]
  unfold linearTransformCross
  simp only [jacobian_spec]
  rw [zipWith_range, ← noiseTerms, sumNoiseCross_eq lib _ _ _ hx (mem_noiseTerms (P := fun d => d.cov.IsHermitian) hn)]

theorem noiseTermsChol_toTerm {n p : ℕ} (g : LinTrans 𝕜 n p) (ns : List (GaussChol 𝕜 (Fin p))) :
    (noiseTermsChol g ns).map TermChol.toTerm = noiseTerms g (ns.map GaussChol.toGauss) := by
  unfold noiseTermsChol noiseTerms
  rw [List.zipIdx_map, List.map_map, List.map_map]
  rfl

theorem toGauss_mem_hermitian {p : ℕ} (ns : List (GaussChol 𝕜 (Fin p))) : ∀ d ∈ ns.map GaussChol.toGauss, d.cov.PosSemidef := by
  intro d hd
  obtain ⟨c, -, rfl⟩ := List.mem_map.mp hd
  exact toGauss_posSemidef c

theorem linearTransformChol_toGauss {n p : ℕ} (g : LinTrans 𝕜 n p) (x : GaussChol 𝕜 (Fin n)) (ns : List (GaussChol 𝕜 (Fin p))) :
    (linearTransformChol lib g x ns).toGauss = linearTransform lib g x.toGauss (ns.map GaussChol.toGauss) := by
  rw [linearTransform_eq lib g _ _ (toGauss_posSemidef x).1 fun d hd => (toGauss_mem_hermitian ns d hd).1]
  unfold linearTransformChol
  simp only [jacobian_spec]
  rw [zipWith_range, GaussChol.toGauss]
  congr 1
  · simp [List.map_map, Function.comp_def, GaussChol.toGauss]
  · rw [sumNoiseChol_sq, ← noiseTermsChol, noiseTermsChol_toTerm]

theorem linearTransformCrossChol_eq {n p : ℕ} (g : LinTrans 𝕜 n p) (x : GaussChol 𝕜 (Fin n)) (ns : List (GaussChol 𝕜 (Fin p))) :
    linearTransformCrossChol lib g x ns = (linearTransformChol lib g x ns, x.toGauss.cov * g.Aᴴ) := by
  unfold linearTransformCrossChol linearTransformChol
  simp only [jacobian_spec, sumNoiseCrossChol_eq]

/-! ## The update -/

/-- The covariance of a linear measurement. -/
def measCov {n m : ℕ} (H : LinTrans 𝕜 n m) (ns : List (Gauss 𝕜 (Fin m))) (P : Matrix (Fin n) (Fin n) 𝕜) : Matrix (Fin m) (Fin m) 𝕜 :=
  H.A * P * H.Aᴴ + noiseCov (noiseTerms H ns)

theorem linear_joint {n m : Type} [Fintype n] [Fintype m] [DecidableEq n] [DecidableEq m] {P : Matrix n n 𝕜} (hP : P.PosSemidef) (H : Matrix m n 𝕜)
    {R : Matrix m m 𝕜} (hR : R.PosSemidef) :
    (jointCov P (P * Hᴴ) (H * P * Hᴴ + R)).PosSemidef := by
  have h1 : jointCov P (P * Hᴴ) (H * P * Hᴴ + R) = fromRows 1 H * P * (fromRows 1 H)ᴴ + fromBlocks 0 0 0 R := by
    unfold jointCov
    rw [conjTranspose_fromRows_eq_fromCols_conjTranspose, fromRows_mul, fromRows_mul_fromCols]
    simp [fromBlocks_add, conjTranspose_mul, hP.1.eq]
  rw [h1]
  refine (hP.mul_mul_conjTranspose_same _).add ?_
  have : (fromBlocks 0 0 0 R : Matrix (n ⊕ m) (n ⊕ m) 𝕜) = fromRows (0 : Matrix n m 𝕜) (1 : Matrix m m 𝕜) * R * (fromRows (0 : Matrix n m 𝕜) (1 : Matrix m m 𝕜))ᴴ := by
    rw [conjTranspose_fromRows_eq_fromCols_conjTranspose, fromRows_mul, fromRows_mul_fromCols]
    simp
  rw [this]
  exact hR.mul_mul_conjTranspose_same _

theorem updateStep_cov (wx : (n → 𝕜) → n → 𝕜) (wy : (m → 𝕜) → m → 𝕜) (Nx : Gauss 𝕜 n) (Ny : Gauss 𝕜 m) (Pxy : Matrix n m 𝕜) (z : m → 𝕜)
    (hy : Ny.cov.IsHermitian) (hK : Ny.covᴴ * lib.solve Ny.covᴴ Pxyᴴ = Pxyᴴ) :
    (updateStep lib wx wy Nx Ny Pxy z).cov = Nx.cov - Pxy * lib.solve Ny.covᴴ Pxyᴴ := by
  unfold updateStep
  simp only []
  rw [lib.herm_spec _ (gain_facts (P := Nx.cov) hy hK).2.2.1]

theorem updateStep_errorCov (wx : (n → 𝕜) → n → 𝕜) (wy : (m → 𝕜) → m → 𝕜) (Nx : Gauss 𝕜 n) (Ny : Gauss 𝕜 m) (Pxy : Matrix n m 𝕜) (z : m → 𝕜)
    (hy : Ny.cov.IsHermitian) (hK : Ny.covᴴ * lib.solve Ny.covᴴ Pxyᴴ = Pxyᴴ) :
    (updateStep lib wx wy Nx Ny Pxy z).cov = errorCov Nx.cov Pxy Ny.cov (lib.solve Ny.covᴴ Pxyᴴ)ᴴ := by
  have := (gain_facts (P := Nx.cov) hy hK).2.2.2 (lib.solve Ny.covᴴ Pxyᴴ)ᴴ
  simp only [sub_self, Matrix.zero_mul] at this
  rw [updateStep_cov lib _ _ _ _ _ _ hy hK]
  exact (sub_eq_zero.mp this).symm

/-- Cholesky and self-adjoint updates agree. -/
theorem updateStepChol_toGauss (wx : (n → 𝕜) → n → 𝕜) (wy : (m → 𝕜) → m → 𝕜) (Nx : GaussChol 𝕜 n) (Ny : GaussChol 𝕜 m) (Pxy : Matrix n m 𝕜)
    (z : m → 𝕜) (hj : (jointCov Nx.toGauss.cov Pxy Ny.toGauss.cov).PosSemidef)
    (hK : Ny.toGauss.covᴴ * lib.solve Ny.toGauss.covᴴ Pxyᴴ = Pxyᴴ) :
    (updateStepChol lib wx wy Nx Ny Pxy z).toGauss = updateStep lib wx wy Nx.toGauss Ny.toGauss Pxy z := by
  have hy := (joint_hermitian hj).2
  obtain ⟨g1, g2, g3, g4⟩ := gain_facts (P := Nx.toGauss.cov) hy hK
  have hcov := updateStep_cov lib wx wy Nx.toGauss Ny.toGauss Pxy z hy hK
  have herr := updateStep_errorCov lib wx wy Nx.toGauss Ny.toGauss Pxy z hy hK
  refine Gauss.ext rfl ?_
  rw [hcov]
  set X := lib.solve Ny.toGauss.covᴴ Pxyᴴ with hX
  have hU : lib.lq (Xᴴ * Ny.fac) * (lib.lq (Xᴴ * Ny.fac))ᴴ = Pxy * X := by
    rw [lib.lq_spec, g2]
    simp only [GaussChol.toGauss, conjTranspose_mul, conjTranspose_conjTranspose, Matrix.mul_assoc]
  have hps : (Nx.fac * Nx.facᴴ - lib.lq (Xᴴ * Ny.fac) * (lib.lq (Xᴴ * Ny.fac))ᴴ).PosSemidef := by
    rw [hU]
    have : Nx.toGauss.cov - Pxy * X = errorCov Nx.toGauss.cov Pxy Ny.toGauss.cov Xᴴ := by rw [← hcov, herr]
    have h2 := errorCov_posSemidef hj Xᴴ
    rw [← this] at h2
    exact h2
  have := lib.downdate_spec _ _ hps
  rw [hU] at this
  exact this

/-- The noise of an update makes the covariance of the measurement invertible. -/
theorem measCov_unit {n m : Type} [Fintype n] [Fintype m] [DecidableEq m] {P : Matrix n n 𝕜} (hP : P.PosSemidef) (H : Matrix m n 𝕜)
    {R : Matrix m m 𝕜} (hR : R.PosDef) : IsUnit (H * P * Hᴴ + R).det := by
  have : (H * P * Hᴴ + R).PosDef := PosDef.posSemidef_add (hP.mul_mul_conjTranspose_same H) hR
  exact (Matrix.isUnit_iff_isUnit_det _).mp this.isUnit

theorem solve_ok {A : Matrix m m 𝕜} (B : Matrix n m 𝕜) (hA : IsUnit A.det) : Aᴴ * lib.solve Aᴴ Bᴴ = Bᴴ :=
  lib.solve_spec _ _ (by rw [det_conjTranspose]; exact hA.star)

theorem solve_unique {A : Matrix m m 𝕜} {B X Y : Matrix m n 𝕜} (hA : IsUnit A.det) (hX : A * X = B) (hY : A * Y = B) : X = Y := by
  have : A⁻¹ * (A * X) = A⁻¹ * (A * Y) := by rw [hX, hY]
  rwa [← Matrix.mul_assoc, ← Matrix.mul_assoc, nonsing_inv_mul _ hA, Matrix.one_mul, Matrix.one_mul] at this

/-- The update with an invertible measurement covariance, spelled out. -/
theorem updateStep_eq (wx : (n → 𝕜) → n → 𝕜) (wy : (m → 𝕜) → m → 𝕜) (Nx : Gauss 𝕜 n) (Ny : Gauss 𝕜 m) (Pxy : Matrix n m 𝕜) (z : m → 𝕜)
    (hy : Ny.cov.IsHermitian) (hu : IsUnit Ny.cov.det) :
    updateStep lib wx wy Nx Ny Pxy z = ⟨wx (Nx.mean + (Pxy * Ny.cov⁻¹) *ᵥ (wy z - Ny.mean)), Nx.cov - Pxy * Ny.cov⁻¹ * Pxyᴴ⟩ := by
  have hX : lib.solve Ny.covᴴ Pxyᴴ = Ny.cov⁻¹ * Pxyᴴ := by
    refine solve_unique (A := Ny.cov) hu ?_ ?_ (B := Pxyᴴ)
    · have := solve_ok lib Pxy hu
      rwa [hy.eq] at this ⊢
    · rw [← Matrix.mul_assoc, mul_nonsing_inv _ hu, Matrix.one_mul]
  have hi : (Ny.cov⁻¹)ᴴ = Ny.cov⁻¹ := by rw [conjTranspose_nonsing_inv, hy.eq]
  refine Gauss.ext ?_ ?_
  · unfold updateStep
    simp only [hX, conjTranspose_mul, conjTranspose_conjTranspose, hi]
  · rw [updateStep_cov lib _ _ _ _ _ _ hy (solve_ok lib Pxy hu), hX, Matrix.mul_assoc]

theorem update_eq {n m : ℕ} (H : LinTrans 𝕜 n m) (ns : List (Gauss 𝕜 (Fin m))) (z : Fin m → 𝕜) (x : Gauss 𝕜 (Fin n)) (hx : x.cov.IsHermitian)
    (hn : ∀ d ∈ ns, d.cov.IsHermitian) (hu : IsUnit (measCov H ns x.cov).det) :
    update lib H ns z x = ⟨x.mean + (x.cov * H.Aᴴ * (measCov H ns x.cov)⁻¹) *ᵥ (z - H.apply x.mean (ns.map Gauss.mean)),
      x.cov - x.cov * H.Aᴴ * (measCov H ns x.cov)⁻¹ * (H.A * x.cov)⟩ := by
  unfold update
  simp only [linearTransformCross_eq lib H x ns hx hn, linearTransform_eq lib H x ns hx hn]
  rw [updateStep_eq]
  · simp only [id_eq, conjTranspose_mul, conjTranspose_conjTranspose, hx.eq, measCov]
  · exact (isHermitian_conj hx H.A).add (noiseCov_hermitian _ (mem_noiseTerms (P := fun d => d.cov.IsHermitian) hn))
  · exact hu

end OpenKalman.Kalman
