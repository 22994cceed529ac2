import Verif.Spec.Gaussian
import Verif.Model.Gaussian
import Verif.Proof.CovBlocks
import Mathlib.Probability.Independence.CharacteristicFunction

/-!
# Lemmas: Gaussian random vectors and distributions
-/

set_option linter.unusedSectionVars false

namespace OpenKalman.Gaussian
open MeasureTheory ProbabilityTheory Matrix OpenKalman.CovArith
open scoped RealInnerProductSpace

variable {Ω : Type*} [MeasurableSpace Ω] {μ : Measure Ω} [IsProbabilityMeasure μ] {n k m : ℕ}

theorem inner_eq (x y : Vec n) : ⟪x, y⟫ = x.ofLp ⬝ᵥ y.ofLp := by
  simp [EuclideanSpace.inner_eq_star_dotProduct, dotProduct_comm]

theorem inner_act (A : Matrix (Fin k) (Fin n) ℝ) (x : Vec n) (t : Vec k) : ⟪act A x, t⟫ = ⟪x, act Aᵀ t⟫ := by
  rw [inner_eq, inner_eq]
  show (A *ᵥ x.ofLp) ⬝ᵥ t.ofLp = x.ofLp ⬝ᵥ (Aᵀ *ᵥ t.ofLp)
  rw [mulVec_transpose, dotProduct_comm, dotProduct_mulVec, dotProduct_comm]

theorem measurable_act (A : Matrix (Fin k) (Fin n) ℝ) : Measurable (act A : Vec n → Vec k) := by
  have : Continuous (act A : Vec n → Vec k) := by
    unfold act
    fun_prop
  exact this.measurable

/-- Gaussian laws are those with a Gaussian characteristic function. -/
theorem law_iff {X : Ω → Vec n} (hX : AEMeasurable X μ) {a : Fin n → ℝ} {P : Matrix (Fin n) (Fin n) ℝ} (hP : P.PosSemidef) :
    Law μ X a P ↔ ∀ t : Vec n, charFun (μ.map X) t = Complex.exp ((t.ofLp ⬝ᵥ a : ℝ) * Complex.I - (t.ofLp ⬝ᵥ (P *ᵥ t.ofLp) : ℝ) / 2) := by
  have key : ∀ t : Vec n, charFun (multivariateGaussian (WithLp.toLp 2 a) P) t = Complex.exp ((t.ofLp ⬝ᵥ a : ℝ) * Complex.I - (t.ofLp ⬝ᵥ (P *ᵥ t.ofLp) : ℝ) / 2) := by
    intro t
    rw [charFun_multivariateGaussian hP, inner_eq]
  constructor
  · intro h t
    rw [h.map, key]
  · intro h
    refine ⟨hX, hP, ?_⟩
    have : IsProbabilityMeasure (μ.map X) := Measure.isProbabilityMeasure_map hX
    apply Measure.ext_of_charFun
    funext t
    rw [h, key]

theorem charFun_act {X : Ω → Vec n} (hX : AEMeasurable X μ) (A : Matrix (Fin k) (Fin n) ℝ) (t : Vec k) :
    charFun (μ.map fun ω => act A (X ω)) t = charFun (μ.map X) (act Aᵀ t) := by
  have h1 : AEMeasurable (fun ω => act A (X ω)) μ := (measurable_act A).comp_aemeasurable hX
  rw [charFun_apply, charFun_apply, integral_map h1 (by fun_prop), integral_map hX (by fun_prop)]
  simp_rw [inner_act]

/-- A linear image. -/
theorem law_act {X : Ω → Vec n} {a : Fin n → ℝ} {P : Matrix (Fin n) (Fin n) ℝ} (h : Law μ X a P) (A : Matrix (Fin k) (Fin n) ℝ) :
    Law μ (fun ω => act A (X ω)) (A *ᵥ a) (A * P * Aᵀ) := by
  have hP : (A * P * Aᵀ).PosSemidef := by
    have := h.psd.mul_mul_conjTranspose_same A
    rwa [conjTranspose_eq_transpose_of_trivial] at this
  have h1 : AEMeasurable (fun ω => act A (X ω)) μ := (measurable_act A).comp_aemeasurable h.meas
  refine (law_iff h1 hP).mpr fun t => ?_
  rw [charFun_act h.meas, (law_iff h.meas h.psd).mp h]
  congr 2
  · congr 2
    show (Aᵀ *ᵥ t.ofLp) ⬝ᵥ a = t.ofLp ⬝ᵥ (A *ᵥ a)
    rw [dotProduct_mulVec, mulVec_transpose]
  · congr 2
    show (Aᵀ *ᵥ t.ofLp) ⬝ᵥ (P *ᵥ (Aᵀ *ᵥ t.ofLp)) = t.ofLp ⬝ᵥ ((A * P * Aᵀ) *ᵥ t.ofLp)
    rw [← mulVec_mulVec, ← mulVec_mulVec, dotProduct_mulVec (t.ofLp) A, mulVec_transpose]

/-- The sum of independent vectors. -/
theorem law_add {X Y : Ω → Vec n} {a b : Fin n → ℝ} {P Q : Matrix (Fin n) (Fin n) ℝ} (hX : Law μ X a P) (hY : Law μ Y b Q) (hi : X ⟂ᵢ[μ] Y) :
    Law μ (fun ω => X ω + Y ω) (a + b) (P + Q) := by
  have h1 : AEMeasurable (fun ω => X ω + Y ω) μ := hX.meas.add hY.meas
  refine (law_iff h1 (hX.psd.add hY.psd)).mpr fun t => ?_
  rw [hi.charFun_map_fun_add_eq_mul hX.meas hY.meas, Pi.mul_apply, (law_iff hX.meas hX.psd).mp hX, (law_iff hY.meas hY.psd).mp hY, ← Complex.exp_add]
  congr 1
  rw [dotProduct_add, add_mulVec, dotProduct_add]
  push_cast
  ring

/-- A shift. -/
theorem law_shift {X : Ω → Vec n} {a : Fin n → ℝ} {P : Matrix (Fin n) (Fin n) ℝ} (h : Law μ X a P) (c : Fin n → ℝ) :
    Law μ (fun ω => WithLp.toLp 2 c + X ω) (c + a) P := by
  refine (law_iff (h.meas.const_add _) h.psd).mpr fun t => ?_
  have e : μ.map (fun ω => WithLp.toLp 2 c + X ω) = (μ.map X).map (fun x => WithLp.toLp 2 c + x) := by
    rw [AEMeasurable.map_map_of_aemeasurable (by fun_prop) h.meas]; rfl
  rw [e, charFun_map_const_add, (law_iff h.meas h.psd).mp h, ← Complex.exp_add]
  congr 1
  rw [inner_eq, dotProduct_add, dotProduct_comm c]
  push_cast
  ring

theorem act_indep {X : Ω → Vec n} {Y : Ω → Vec m} (hi : X ⟂ᵢ[μ] Y) {k' : ℕ} (A : Matrix (Fin k) (Fin n) ℝ) (B : Matrix (Fin k') (Fin m) ℝ) :
    (fun ω => act A (X ω)) ⟂ᵢ[μ] (fun ω => act B (Y ω)) :=
  hi.comp (measurable_act A) (measurable_act B)

/-- The law determines mean and covariance. -/
theorem law_unique {X : Ω → Vec n} {a b : Fin n → ℝ} {P Q : Matrix (Fin n) (Fin n) ℝ} (h : Law μ X a P) (h' : Law μ X b Q) : a = b ∧ P = Q := by
  have e := h.map.symm.trans h'.map
  constructor
  · have := congrArg (fun ν => ∫ x, x ∂ν) e
    simp only [integral_id_multivariateGaussian] at this
    exact (WithLp.toLp_injective 2) this
  · ext i j
    have := congrArg (fun ν => cov[fun x => x i, fun x => x j; ν]) e
    simp only [covariance_eval_multivariateGaussian h.psd, covariance_eval_multivariateGaussian h'.psd] at this
    exact this

/-! ### Distributions -/

theorem definite_of_not_root {c : Cov ℝ n} (h : c.root = false) : c.Definite := fun h' => absurd (h.symm.trans h') (by simp)

theorem toNestable_hermitian {lib : Lib ℝ} {c : Cov ℝ n} (hr : c.root = false) (hf : c.form ≠ .cdiag) : ((Opd.cov c).toNestable lib).hermitian = true := by
  obtain ⟨r, f, N, z, i⟩ := c
  obtain rfl : r = false := hr
  cases f with
  | herm up => rfl
  | diag => rfl
  | cdiag => exact absurd rfl hf
  | tri up => rfl

theorem wrap_cov {r : Nest ℝ n} (h : r.hermitian = true) : ∃ c, wrap r = .cov c ∧ c.root = false ∧ c.form ≠ .cdiag := by
  unfold wrap
  rw [if_pos h]
  refine ⟨_, rfl, rfl, ?_⟩
  show (if (r.lower && r.upper) = true then Form.diag else .herm false) ≠ .cdiag
  split_ifs <;> simp

theorem choleskySelfAdjoint_some {c c' : Cov ℝ n} (h : (Opd.cov c).choleskySelfAdjoint = some c') : c' = c := by
  have h : (if (c.choleskyForm && !c.root) = true then some c else none) = some c' := h
  split_ifs at h
  exact (Option.some.inj h).symm

theorem addCholesky_kind (lib : Lib ℝ) (c d : Cov ℝ n) : (addCholesky lib c d).root = false ∧ (addCholesky lib c d).form ≠ .cdiag := by
  unfold addCholesky
  split_ifs <;> exact ⟨rfl, by simp⟩

theorem add_kind (lib : Lib ℝ) {c d : Cov ℝ n} (hc : c.root = false ∧ c.form ≠ .cdiag) (hd : d.root = false ∧ d.form ≠ .cdiag) :
    ∃ r, CovArith.add lib (.cov c) (.cov d) = .cov r ∧ r.root = false ∧ r.form ≠ .cdiag := by
  unfold CovArith.add
  split_ifs
  · exact ⟨d, rfl, hd⟩
  · exact ⟨c, rfl, hc⟩
  · split
    · exact ⟨_, rfl, addCholesky_kind lib _ _⟩
    · refine wrap_cov ?_
      show (((Opd.cov c).toNestable lib).hermitian && ((Opd.cov d).toNestable lib).hermitian) = true
      rw [toNestable_hermitian hc.1 hc.2, toNestable_hermitian hd.1 hd.2]; rfl

theorem sub_kind (lib : Lib ℝ) {c d : Cov ℝ n} (hc : c.root = false ∧ c.form ≠ .cdiag) (hd : d.root = false ∧ d.form ≠ .cdiag) {o : Opd ℝ n}
    (h : CovArith.sub lib (.cov c) (.cov d) = some o) : ∃ r, o = .cov r ∧ r.root = false ∧ r.form ≠ .cdiag := by
  unfold CovArith.sub at h
  split_ifs at h
  · exact ⟨c, (Option.some.inj h).symm, hc⟩
  · split at h
    · obtain ⟨r, h', rfl⟩ := Option.map_eq_some_iff.mp h
      obtain ⟨N, _, rfl⟩ := Option.map_eq_some_iff.mp h'
      exact ⟨_, rfl, rfl, by simp⟩
    · obtain rfl := Option.some.inj h
      refine wrap_cov ?_
      show (((Opd.cov c).toNestable lib).hermitian && ((Opd.cov d).toNestable lib).hermitian) = true
      rw [toNestable_hermitian hc.1 hc.2, toNestable_hermitian hd.1 hd.2]; rfl

theorem make_cov {w : (Fin n → ℝ) → Fin n → ℝ} {a : Fin n → ℝ} {c : Cov ℝ n} (hr : c.root = false) : make w a (.cov c) = some ⟨w a, c⟩ := by
  show some (⟨w a, if c.root = true then squareCov c else c⟩ : Dist n) = _
  rw [if_neg (by rw [hr]; simp)]

theorem smul_eq_act (s : ℝ) (x : Vec n) : s • x = act (s • (1 : Matrix (Fin n) (Fin n) ℝ)) x := by
  ext i
  simp [act, smul_mulVec]

/-- Embeddings and projections as matrices. -/
noncomputable def inl (n m : ℕ) : Matrix (Fin (n + m)) (Fin n) ℝ := Matrix.of fun i j => if i = Fin.castAdd m j then 1 else 0
noncomputable def inr (n m : ℕ) : Matrix (Fin (n + m)) (Fin m) ℝ := Matrix.of fun i j => if i = Fin.natAdd n j then 1 else 0
noncomputable def proj (n off k : ℕ) (h : off + k ≤ n) : Matrix (Fin k) (Fin n) ℝ := Matrix.of fun i j => if j = ⟨off + i, by omega⟩ then 1 else 0

theorem join_eq (x : Vec n) (y : Vec m) : join x y = act (inl n m) x + act (inr n m) y := by
  ext i
  refine Fin.addCases (fun i => ?_) (fun i => ?_) i
  · simp [join, act, inl, inr, mulVec, dotProduct, Fin.ext_iff, ite_mul]
    rw [Finset.sum_eq_single i (by intro b _ hb; rw [if_neg (fun h => hb (Fin.ext h.symm))]) (by simp), if_pos rfl]
    rw [Finset.sum_eq_zero]
    · simp
    · intro b _; rw [if_neg (by omega)]
  · simp [join, act, inl, inr, mulVec, dotProduct, Fin.ext_iff, ite_mul]
    rw [Finset.sum_eq_zero (fun b _ => if_neg (by omega)), Finset.sum_eq_single i (by intro b _ hb; rw [if_neg (fun h => hb (Fin.ext h.symm))]) (by simp), if_pos rfl, zero_add]

theorem append_eq (x : Fin n → ℝ) (y : Fin m → ℝ) : Fin.append x y = inl n m *ᵥ x + inr n m *ᵥ y := by
  have := congrArg WithLp.ofLp (join_eq (WithLp.toLp 2 x) (WithLp.toLp 2 y))
  exact this

theorem catMat_eq (P : Mat ℝ n) (Q : Mat ℝ m) : catMat P Q = inl n m * P * (inl n m)ᵀ + inr n m * Q * (inr n m)ᵀ := by
  symm
  have e1 : ∀ (M : Matrix (Fin n) (Fin n) ℝ) (i j), (inl n m * M * (inl n m)ᵀ) i j = ∑ a, ∑ b, (if i = Fin.castAdd m b then (1 : ℝ) else 0) * M b a * (if j = Fin.castAdd m a then 1 else 0) := by
    intro M i j; simp [Matrix.mul_apply, inl]
  have e2 : ∀ (M : Matrix (Fin m) (Fin m) ℝ) (i j), (inr n m * M * (inr n m)ᵀ) i j = ∑ a, ∑ b, (if i = Fin.natAdd n b then (1 : ℝ) else 0) * M b a * (if j = Fin.natAdd n a then 1 else 0) := by
    intro M i j; simp [Matrix.mul_apply, inr]
  have ne1 : ∀ (x : Fin n) (y : Fin m), Fin.castAdd m x ≠ Fin.natAdd n y := fun x y h => by have := congrArg Fin.val h; simp at this; omega
  have ne2 : ∀ (x : Fin n) (y : Fin m), Fin.natAdd n y ≠ Fin.castAdd m x := fun x y h => ne1 x y h.symm
  refine block_unique ⟨fun i j => ?_, fun i j => ?_, fun i j => ?_, fun i j => ?_⟩ <;> rw [Matrix.add_apply, e1, e2] <;>
    simp [ne1, ne2]

theorem part_eq (off k : ℕ) (h : off + k ≤ n) (x : Vec n) : part off k h x = act (proj n off k h) x := by
  ext i
  simp [part, act, proj, mulVec, dotProduct]

theorem blockOf_eq (off k : ℕ) (h : off + k ≤ n) (P : Mat ℝ n) : blockOf P off k h = proj n off k h * P * (proj n off k h)ᵀ := by
  ext i j
  simp [blockOf, proj, Matrix.mul_apply]

theorem scaleMat_kind {lib : Lib ℝ} {c : Cov ℝ n} (A : Matrix (Fin k) (Fin n) ℝ) : (scaleMat lib c A).form ≠ .cdiag := by
  unfold scaleMat
  split_ifs <;> simp

theorem scale_kind {c : Cov ℝ n} (h : c.form ≠ .cdiag) (s : ℝ) : (scale c s).form ≠ .cdiag := by
  unfold scale
  split_ifs <;> exact h

theorem concat_kind {c : Cov ℝ n} {d : Cov ℝ m} {r : Cov ℝ (n + m)} (h : c.concat d = some r) : r.form ≠ .cdiag := by
  unfold Cov.concat at h
  split_ifs at h
  · obtain rfl := Option.some.inj h; simp
  · split at h
    · split_ifs at h; obtain rfl := Option.some.inj h; simp
    · obtain rfl := Option.some.inj h; simp
    · exact absurd h (by simp)

theorem splitBlock_kind {lib : Lib ℝ} {c : Cov ℝ n} (hf : c.form ≠ .cdiag) (off k : ℕ) (h : off + k ≤ n) : (c.splitBlock lib off k h).form ≠ .cdiag := by
  unfold Cov.splitBlock
  simp only
  split_ifs
  · simp
  · simp
  · exact hf

theorem represents_unique {c : Cov ℝ n} (hr : c.root = false) {A B : Mat ℝ n} (hA : c.Represents A) (hB : c.Represents B) : A = B :=
  (selfAdjointNested_eq hr hA).symm.trans (selfAdjointNested_eq hr hB)

/-- What `square_root` returns: a factor on the side that its type says. -/
theorem squareRoot_sound {lib : Lib ℝ} (ok : lib.Ok) {c : Cov ℝ n} (hw : c.WF) (hr : c.root = false) (hf : c.form ≠ .cdiag) {P : Mat ℝ n} (hP : c.Represents P) (hd : (∃ up, c.form = .herm up) → P.PosDef)
    (hs : P.PosSemidef) : gram (squareRoot lib c).2 (squareRoot lib c).1 = P := by
  obtain ⟨r, f, N, z, i⟩ := c
  obtain rfl : r = false := hr
  cases f with
  | herm up =>
    obtain rfl : P = N := hP
    exact (ok.chol _ up (hd ⟨up, rfl⟩)).2.1
  | cdiag => exact absurd rfl hf
  | tri up => exact Eq.symm hP
  | diag =>
    obtain rfl : P = N := hP
    have hg : ∀ A : Mat ℝ n, gram true A = Aᴴ * A := fun _ => rfl
    by_cases h : (i || z) = true
    · have e : squareRoot lib ⟨false, .diag, P, z, i⟩ = (P, true) := if_pos h
      rw [e, hg]
      rw [Bool.or_eq_true] at h
      rcases h with h | h
      · have := (hw.2.2 h).2
        simp only at this
        subst this
        simp
      · have := (hw.2.1 h).2
        simp only at this
        subst this
        simp
    · have e : squareRoot lib ⟨false, .diag, P, z, i⟩ = (diagonal fun i => Real.sqrt (P i i), true) := if_neg h
      rw [e, hg, diagonal_conjTranspose, diagonal_mul_diagonal]
      ext a b
      by_cases hab : a = b
      · subst hab
        simp [Real.mul_self_sqrt (hs.diag_nonneg)]
      · rw [diagonal_apply_ne _ hab]
        exact (hw.1.1 hab).symm

end OpenKalman.Gaussian
