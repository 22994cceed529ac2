import Verif.Proof.EigenHooks
import Verif.Theorems.Kalman

/-!
# C139 to C143: decompositions, rank updates, solvers and the square-root filter on top of Eigen

Every theorem holds for every library that meets the contract of `EigenLib`; `someLib` shows that there is one.
-/

namespace OpenKalman.EigenHooks
open Matrix
open scoped ComplexOrder

set_option linter.unusedSectionVars false

variable {𝕜 : Type} [RCLike 𝕜] {m n k : ℕ} (E : EigenLib 𝕜)

/-! ## C139: `cholesky_factor` -/

/-- **C139** (positive definite): the factor of a positive definite matrix is a triangle of the kind asked for that stands for the matrix and has a real
diagonal, whichever triangle stores the matrix and whatever the other triangle holds. -/
theorem C139_definite_partial (static : Bool) (t tri : Tri) (N A : Matrix (Fin n) (Fin n) 𝕜) (hs : Stores t N A) (hA : A.PosDef)
    (hst : static = true ∨ tri = t) : ∃ F, E.choleskyFactor static t tri N = .ok F ∧ Stands tri F A ∧ RealDiag F := by
  rcases llt_cases E t A hA.1 with ⟨_, M, hM, hg⟩ | ⟨h, _⟩
  · unfold EigenLib.choleskyFactor
    rw [selfAdj_eq hs, hM]
    by_cases h : tri = t
    · subst h
      exact ⟨part tri M, by simp, ⟨isTri_part _ _, hg⟩, realDiag_part _ _ (E.llt_diag tri A M hA.1 hM)⟩
    · have hst' : static = true := hst.resolve_right h
      have h1 := isTri_conjTranspose' t tri h _ (isTri_part t M)
      refine ⟨(part t M)ᴴ, ?_, ⟨h1, ?_⟩, fun i j hij => ?_⟩
      · simp only [if_neg h, EigenLib.intoView, hst', if_true, part_eq _ _ h1]
      · rw [gram_conjTranspose t tri h, hg]
      · have := realDiag_part t M (E.llt_diag t A M hA.1 hM) j i hij.symm
        simp [conjTranspose_apply, this]
  · exact absurd hA h

/-- **C139** (semidefinite): the factor of a semidefinite matrix stored in the lower triangle stands for the matrix if Eigen's exchange of rows and columns leaves
the matrix unchanged (as for a zero matrix). -/
theorem C139_semidefinite_partial (tri : Tri) (N A : Matrix (Fin n) (Fin n) 𝕜) (hs : Stores .lower N A) (hA : A.PosSemidef) (hn : ¬ A.PosDef)
    (hσ : A.submatrix (E.ldlt A).perm (E.ldlt A).perm = A) : ∃ F, E.choleskyFactor true .lower tri N = .ok F ∧ Stands tri F A := by
  have h := selfAdj_eq hs
  obtain ⟨F, h1, h2⟩ := cholesky_ldlt E tri N A .lower (by rwa [h]) (by rw [h]; exact hA.1) h hA
  exact ⟨F, h1, by rwa [hσ] at h2⟩

/-- **C139** (indefinite): a matrix that is neither positive nor negative semidefinite is rejected, if it is stored in the lower triangle and its diagonal is
not zero. -/
theorem C139_rejects_partial (static : Bool) (tri : Tri) (N A : Matrix (Fin n) (Fin n) 𝕜) (hs : Stores .lower N A) (hp : ¬ A.PosSemidef)
    (hq : ¬ (-A).PosSemidef) (hd : ∃ i, A i i ≠ 0) : E.choleskyFactor static .lower tri N = .error .runtimeError := by
  rcases llt_cases E .lower A hs.herm with ⟨h, _⟩ | ⟨_, h⟩
  · exact absurd h.posSemidef hp
  · unfold EigenLib.choleskyFactor
    rw [selfAdj_eq hs, h]
    simp only []
    have hz : ¬ ((E.ldlt A).pos = true ∧ (E.ldlt A).neg = true) := by
      rw [E.ldlt_zero A hs.herm]
      obtain ⟨i, hi⟩ := hd
      exact fun h => hi (h i)
    have hf : ((E.ldlt A).pos = false ∧ (E.ldlt A).neg = false) ∨ (E.ldlt A).ok = false := by
      by_cases hok : (E.ldlt A).ok = true
      · left
        constructor
        · by_contra h; exact hp (ldlt_pos_semidef E A hs.herm hok (by simpa using h))
        · by_contra h; exact hq (ldlt_neg_semidef E A hs.herm hok (by simpa using h))
      · right; simpa using hok
    rw [if_pos hf, if_neg hz]

theorem first_pivot (A : Matrix (Fin (n + 1)) (Fin (n + 1)) 𝕜) (hA : A.IsHermitian) (hok : (E.ldlt A).ok = true) :
    A ((E.ldlt A).perm 0) ((E.ldlt A).perm 0) = ((E.ldlt A).d 0 : 𝕜) := by
  have h3 := congrFun (congrFun (E.ldlt_eq A hA hok) 0) 0
  obtain ⟨hL, h1⟩ := E.ldlt_lower A hA hok
  rw [submatrix_apply, Matrix.mul_apply, Finset.sum_eq_single 0] at h3
  · simpa [Matrix.mul_diagonal, h1] using h3
  · intro j _ hj
    rw [Matrix.mul_diagonal, hL 0 j (fun h => hj (Fin.ext (by simpa [Tri.Has] using h))), zero_mul, zero_mul]
  · intro h; exact absurd (Finset.mem_univ _) h

/-- A variance of zero followed by a variance of one. -/
def zeroOne : Matrix (Fin 2) (Fin 2) ℝ := diagonal ![0, 1]

theorem zeroOne_posSemidef : zeroOne.PosSemidef := PosSemidef.diagonal fun i => by fin_cases i <;> simp

theorem zeroOne_not_posDef : ¬ zeroOne.PosDef := fun h => by
  have := h.diag_pos (i := 0)
  simp [zeroOne] at this

/-- **C139** (violated: exchanges): the factor of the covariance `diag(0, 1)` stands for another matrix, because the exchange of rows and columns is not undone. -/
theorem C139_pivot_violated (E : EigenLib ℝ) (tri : Tri) : ∃ N A : Matrix (Fin 2) (Fin 2) ℝ, Stores .lower N A ∧ A.PosSemidef ∧
    ∃ F, E.choleskyFactor true .lower tri N = .ok F ∧ ¬ Stands tri F A := by
  have hs := stores_self .lower zeroOne zeroOne_posSemidef.1
  refine ⟨zeroOne, zeroOne, hs, zeroOne_posSemidef, ?_⟩
  have h := selfAdj_eq hs
  obtain ⟨F, h1, h2⟩ := cholesky_ldlt E tri zeroOne zeroOne .lower (by rw [h]; exact zeroOne_not_posDef) (by rw [h]; exact zeroOne_posSemidef.1) h
    zeroOne_posSemidef
  refine ⟨F, h1, fun h3 => ?_⟩
  have h4 := congrFun (congrFun (h2.sq.symm.trans h3.sq) 0) 0
  have hok := E.ldlt_semidef zeroOne (Or.inl zeroOne_posSemidef)
  have h5 := first_pivot E zeroOne zeroOne_posSemidef.1 hok
  have h6 := E.ldlt_pivot zeroOne zeroOne_posSemidef.1 hok 1
  rw [submatrix_apply, h5] at h4
  have h7 : (E.ldlt zeroOne).d 0 = 0 := by simpa [zeroOne] using h4
  rw [h7] at h6
  norm_num [zeroOne] at h6

/-- **C139** (violated: negative): the matrix `[-1]` has no factor, but the code takes square roots of negative numbers instead of rejecting it. -/
theorem C139_negative_violated (E : EigenLib ℝ) (tri : Tri) : ∃ N A : Matrix (Fin 1) (Fin 1) ℝ, Stores .lower N A ∧ ¬ A.PosSemidef ∧
    E.choleskyFactor true .lower tri N = .error .nonFinite := by
  have hherm : (-1 : Matrix (Fin 1) (Fin 1) ℝ).IsHermitian := isHermitian_one.neg
  have hs := stores_self .lower (-1 : Matrix (Fin 1) (Fin 1) ℝ) hherm
  have hn : ¬ (-1 : Matrix (Fin 1) (Fin 1) ℝ).PosSemidef := fun h => by
    have := h.diag_nonneg (i := 0)
    norm_num at this
  have hneg : (-(-1) : Matrix (Fin 1) (Fin 1) ℝ).PosSemidef := by rw [neg_neg]; exact PosSemidef.one
  refine ⟨-1, -1, hs, hn, ?_⟩
  rcases llt_cases E .lower (-1) hherm with ⟨h, _⟩ | ⟨_, h⟩
  · exact absurd h.posSemidef hn
  · unfold EigenLib.choleskyFactor
    rw [selfAdj_eq hs, h]
    simp only []
    have hok := E.ldlt_semidef (-1 : Matrix (Fin 1) (Fin 1) ℝ) (Or.inr hneg)
    have h5 := first_pivot E (-1 : Matrix (Fin 1) (Fin 1) ℝ) hherm hok
    have h6 : (E.ldlt (-1 : Matrix (Fin 1) (Fin 1) ℝ)).d 0 = -1 := by
      rw [Subsingleton.elim ((E.ldlt (-1 : Matrix (Fin 1) (Fin 1) ℝ)).perm 0) 0] at h5
      simpa using h5.symm
    rw [if_neg (semidef_flags E _ (Or.inr hneg)), if_pos ⟨0, by rw [h6]; norm_num⟩]
    rfl

/-- Two quantities with correlation but no variance: not a covariance. -/
def offDiag : Matrix (Fin 2) (Fin 2) ℝ := !![0, 1; 1, 0]

theorem offDiag_herm : offDiag.IsHermitian := by ext i j; fin_cases i <;> fin_cases j <;> simp [offDiag]

theorem offDiag_diag (i : Fin 2) : offDiag i i = 0 := by fin_cases i <;> simp [offDiag]

theorem offDiag_not_semidef : ¬ (offDiag.PosSemidef ∨ (-offDiag).PosSemidef) := by
  rintro (h | h)
  · have := posSemidef_zero_col _ h 0 1 (by simp [offDiag])
    simp [offDiag] at this
  · have := posSemidef_zero_col _ h 0 1 (by simp [offDiag])
    simp [offDiag] at this

theorem offDiag_fails (E : EigenLib ℝ) : (E.ldlt offDiag).ok = false := by
  by_contra h
  have hok : (E.ldlt offDiag).ok = true := by simpa using h
  exact offDiag_not_semidef (Or.inl (ldlt_pos_semidef E _ offDiag_herm hok ((E.ldlt_zero _ offDiag_herm).mpr offDiag_diag).1))

/-- **C139** (violated: zero diagonal): `[[0, 1], [1, 0]]` is indefinite, but is taken for zero. -/
theorem C139_zero_diagonal_violated (E : EigenLib ℝ) (tri : Tri) : ∃ N A : Matrix (Fin 2) (Fin 2) ℝ, Stores .lower N A ∧ ¬ A.PosSemidef ∧
    E.choleskyFactor true .lower tri N = .ok 0 := by
  have hs := stores_self .lower offDiag offDiag_herm
  refine ⟨offDiag, offDiag, hs, fun h => offDiag_not_semidef (Or.inl h), ?_⟩
  rcases llt_cases E .lower offDiag offDiag_herm with ⟨h, _⟩ | ⟨_, h⟩
  · exact absurd (Or.inl h.posSemidef) offDiag_not_semidef
  · unfold EigenLib.choleskyFactor
    rw [selfAdj_eq hs, h]
    simp only []
    rw [if_pos (Or.inr (offDiag_fails E)), if_pos ((E.ldlt_zero _ offDiag_herm).mpr offDiag_diag), EigenLib.intoView, if_pos rfl]

/-- **C139** (violated: upper storage): of a semidefinite matrix stored in the upper triangle, the lower triangle is decomposed. -/
theorem C139_upper_storage_violated (E : EigenLib ℝ) (tri : Tri) : ∃ N A : Matrix (Fin 2) (Fin 2) ℝ, Stores .upper N A ∧ A.PosSemidef ∧
    ∃ F, E.choleskyFactor true .upper tri N = .ok F ∧ ¬ Stands tri F A := by
  let A : Matrix (Fin 2) (Fin 2) ℝ := !![1, 1; 1, 1]
  let N : Matrix (Fin 2) (Fin 2) ℝ := !![1, 1; 0, 1]
  have hA : A.PosSemidef := by
    have : A = (Matrix.of fun _ _ => 1 : Matrix (Fin 2) (Fin 1) ℝ) * (Matrix.of fun _ _ => 1 : Matrix (Fin 2) (Fin 1) ℝ)ᴴ := by
      ext i j; fin_cases i <;> fin_cases j <;> simp [A, Matrix.mul_apply]
    rw [this]; exact posSemidef_self_mul_conjTranspose _
  have hs : Stores .upper N A := ⟨hA.1, fun i j h => by fin_cases i <;> fin_cases j <;> simp_all [A, N, Tri.Has]⟩
  have hnp : ¬ A.PosDef := fun h => by
    have := h.det_pos
    simp [A, det_fin_two] at this
  have h1 : selfAdj .lower N = 1 := by
    ext i j; fin_cases i <;> fin_cases j <;> simp [selfAdj, N, Tri.Has]
  obtain ⟨F, e1, e2⟩ := cholesky_ldlt E tri N 1 .upper (by rw [selfAdj_eq hs]; exact hnp) (by rw [selfAdj_eq hs]; exact hA.1) h1 PosSemidef.one
  refine ⟨N, A, hs, hA, F, e1, fun h => ?_⟩
  have h3 := h.sq
  rw [e2.sq] at h3
  have h4 := congrFun (congrFun h3 0) 1
  rw [submatrix_apply, one_apply_ne (by simp)] at h4
  simp [A] at h4

/-- **C139** (violated: dynamic size): if the dimension is known only at run time, the result for the other triangle is written into an empty matrix. -/
theorem C139_dynamic_violated (t tri : Tri) (h : tri ≠ t) (N A : Matrix (Fin n) (Fin n) 𝕜) (hs : Stores t N A) (hA : A.PosDef) :
    E.choleskyFactor false t tri N = .error .undefinedBehaviour := by
  rcases llt_cases E t A hA.1 with ⟨_, M, hM, _⟩ | ⟨h, _⟩
  · unfold EigenLib.choleskyFactor
    rw [selfAdj_eq hs, hM]
    simp [h, EigenLib.intoView]
  · exact absurd hA h

/-- Two correlated quantities, stored in the upper triangle; the lower one holds something else. -/
def sampleA : Matrix (Fin 2) (Fin 2) ℝ := !![4, 2; 2, 2]

theorem sampleA_posDef : sampleA.PosDef := by
  have h : sampleA = !![1, 1; 1, 0] * diagonal ![2, 2] * (!![1, 1; 1, 0] : Matrix (Fin 2) (Fin 2) ℝ)ᴴ := by
    ext i j
    rw [Matrix.mul_apply, Fin.sum_univ_two, Matrix.mul_diagonal, Matrix.mul_diagonal]
    fin_cases i <;> fin_cases j <;> norm_num [sampleA]
  rw [h]
  refine PosDef.mul_mul_conjTranspose_same (PosDef.diagonal fun i => by fin_cases i <;> norm_num) ?_
  refine Matrix.vecMul_injective_of_isUnit ?_
  rw [Matrix.isUnit_iff_isUnit_det]
  norm_num [det_fin_two]

example : ∃ F, (someLib : EigenLib ℝ).choleskyFactor true .upper .lower !![4, 2; 7, 2] = .ok F ∧ Stands .lower F sampleA ∧ RealDiag F :=
  C139_definite_partial someLib true .upper .lower _ _
    ⟨sampleA_posDef.1, fun i j h => by fin_cases i <;> fin_cases j <;> simp_all [sampleA, Tri.Has]⟩ sampleA_posDef (Or.inl rfl)

example : ∃ F, (someLib : EigenLib ℝ).choleskyFactor true .lower .upper (0 : Matrix (Fin 2) (Fin 2) ℝ) = .ok F ∧ Stands .upper F 0 :=
  C139_semidefinite_partial someLib .upper 0 0 (stores_self _ _ isHermitian_zero) PosSemidef.zero
    (fun h => by have := h.diag_pos (i := 0); simp at this) rfl

example : (someLib : EigenLib ℝ).choleskyFactor false .lower .lower (diagonal ![1, -1]) = .error .runtimeError :=
  C139_rejects_partial someLib false .lower _ _ (stores_self _ _ (isHermitian_diagonal _))
    (fun h => by have := h.diag_nonneg (i := 1); norm_num at this) (fun h => by have := h.diag_nonneg (i := 0); norm_num at this) ⟨0, by simp⟩

/-! ## C140: rank updates -/

/-- **C140** (Hermitian): the triangle that stores `A` stores `A + α U U*` afterwards; the other triangle is not touched. -/
theorem C140_hermitian (t : Tri) (N A : Matrix (Fin n) (Fin n) 𝕜) (U : Matrix (Fin n) (Fin k) 𝕜) (α : ℝ) (hs : Stores t N A) :
    Stores t (EigenLib.rankUpdateHermitian t N U α) (A + (α : 𝕜) • (U * Uᴴ)) ∧
      ∀ i j, ¬ t.Has i.1 j.1 → EigenLib.rankUpdateHermitian t N U α i j = N i j := by
  refine ⟨⟨hs.herm.add ?_, fun i j h => ?_⟩, fun i j h => ?_⟩
  · have := (isHermitian_mul_conjTranspose_self U)
    ext i j
    rw [conjTranspose_apply, Matrix.smul_apply, Matrix.smul_apply, smul_eq_mul, smul_eq_mul, star_mul', this.apply, RCLike.star_def, RCLike.conj_ofReal]
  · simp [EigenLib.rankUpdateHermitian, h, hs.eq i j h, RCLike.real_smul_eq_coe_mul]
  · simp [EigenLib.rankUpdateHermitian, h]

/-- **C140** (update): with a positive factor nothing is thrown, and the result stands for `A + α U U*`, even if `A` is singular. -/
theorem C140_update (t : Tri) (M A : Matrix (Fin n) (Fin n) 𝕜) (hM : RealDiag M) (hA : Stands t (part t M) A) (U : Matrix (Fin n) (Fin k) 𝕜) (α : ℝ)
    (hα : 0 < α) : ∃ G, E.rankUpdateTriangular t M U α = .ok G ∧ RealDiag G ∧ Stands t (part t G) (A + (α : 𝕜) • (U * Uᴴ)) := by
  obtain ⟨G, h1, h2, h3⟩ := loop_ok E t α (List.ofFn fun j i => U i j) M hM (Or.inl hα)
  rw [columns_sum, hA.sq] at h3
  exact ⟨G, h1, h2, isTri_part _ _, h3⟩

/-- **C140** (downdate): if the result is positive definite, nothing is thrown, however many columns there are, and the result stands for `A + α U U*`. -/
theorem C140_downdate_partial (t : Tri) (M A : Matrix (Fin n) (Fin n) 𝕜) (hM : RealDiag M) (hA : Stands t (part t M) A) (U : Matrix (Fin n) (Fin k) 𝕜)
    (α : ℝ) (hp : (A + (α : 𝕜) • (U * Uᴴ)).PosDef) :
    ∃ G, E.rankUpdateTriangular t M U α = .ok G ∧ RealDiag G ∧ Stands t (part t G) (A + (α : 𝕜) • (U * Uᴴ)) := by
  obtain ⟨G, h1, h2, h3⟩ := loop_ok E t α (List.ofFn fun j i => U i j) M hM (Or.inr (by rw [columns_sum, hA.sq]; exact hp))
  rw [columns_sum, hA.sq] at h3
  exact ⟨G, h1, h2, isTri_part _ _, h3⟩

/-- **C140** (exceptions): a downdate by at least one column throws `std::runtime_error` if and only if the result is not positive definite. -/
theorem C140_throws (t : Tri) (M A : Matrix (Fin n) (Fin n) 𝕜) (hM : RealDiag M) (hA : Stands t (part t M) A) (U : Matrix (Fin n) (Fin k) 𝕜)
    (α : ℝ) (hα : α ≤ 0) (hk : 0 < k) :
    E.rankUpdateTriangular t M U α = .error .runtimeError ↔ ¬ (A + (α : 𝕜) • (U * Uᴴ)).PosDef := by
  constructor
  · intro h hp
    obtain ⟨G, h1, _⟩ := C140_downdate_partial E t M A hM hA U α hp
    rw [h] at h1
    cases h1
  · intro hp
    cases h : E.rankUpdateTriangular t M U α with
    | error e => rw [loop_error E t α _ M e h]
    | ok G =>
      refine absurd (loop_fail E t α hα _ M G hM ?_ h) ?_
      · intro h0
        have := congrArg List.length h0
        simp at this
        omega
      · rw [columns_sum, hA.sq]; exact hp

/-- **C140** (violated): a result that is singular but has a factor makes a downdate throw; so does an update by nothing (`α = 0`) of a singular factor. -/
theorem C140_semidefinite_violated (E : EigenLib ℝ) (t : Tri) :
    (E.rankUpdateTriangular t (1 : Matrix (Fin 2) (Fin 2) ℝ) (1 : Matrix (Fin 2) (Fin 2) ℝ) (-1) = .error .runtimeError ∧
      Stands t (0 : Matrix (Fin 2) (Fin 2) ℝ) (1 + ((-1 : ℝ) : ℝ) • (1 * 1ᴴ))) ∧
    E.rankUpdateTriangular t (0 : Matrix (Fin 2) (Fin 2) ℝ) (1 : Matrix (Fin 2) (Fin 2) ℝ) 0 = .error .runtimeError := by
  have hnot : ¬ (0 : Matrix (Fin 2) (Fin 2) ℝ).PosDef := fun h => by have := h.diag_pos (i := 0); simp at this
  have h1 : IsTri t (1 : Matrix (Fin 2) (Fin 2) ℝ) := fun i j h => by
    refine one_apply_ne fun e => h ?_
    subst e
    cases t <;> exact le_refl _
  have h0 : IsTri t (0 : Matrix (Fin 2) (Fin 2) ℝ) := fun i j _ => rfl
  have hr : ∀ M : Matrix (Fin 2) (Fin 2) ℝ, RealDiag M := fun M i j _ => by simp
  refine ⟨⟨?_, ⟨h0, ?_⟩⟩, ?_⟩
  · refine (C140_throws E t 1 1 (hr _) ⟨isTri_part _ _, ?_⟩ 1 (-1) (by norm_num) (by norm_num)).mpr ?_
    · rw [part_eq _ _ h1]; cases t <;> simp [gram]
    · simpa using hnot
  · cases t <;> simp [gram]
  · refine (C140_throws E t 0 0 (hr _) ⟨isTri_part _ _, ?_⟩ 1 0 le_rfl (by norm_num)).mpr ?_
    · rw [part_eq _ _ h0]; cases t <;> simp [gram]
    · simpa using hnot

example : ∃ G, (someLib : EigenLib ℝ).rankUpdateTriangular .lower (diagonal ![2, 3]) (!![1; 2] : Matrix (Fin 2) (Fin 1) ℝ) 5 = .ok G ∧
    part .lower G * (part .lower G)ᴴ = !![9, 10; 10, 29] := by
  have ht : IsTri .lower (diagonal ![2, 3] : Matrix (Fin 2) (Fin 2) ℝ) := fun i j h => by
    fin_cases i <;> fin_cases j <;> simp_all [Tri.Has]
  obtain ⟨G, h1, _, h2⟩ := C140_update someLib .lower (diagonal ![2, 3] : Matrix (Fin 2) (Fin 2) ℝ) (diagonal ![4, 9]) (fun i j _ => by simp)
    ⟨isTri_part _ _, by
      rw [part_eq _ _ ht]
      ext i j; fin_cases i <;> fin_cases j <;> norm_num [gram, Matrix.mul_apply, Fin.sum_univ_two]⟩ (!![1; 2] : Matrix (Fin 2) (Fin 1) ℝ) 5 (by norm_num)
  refine ⟨G, h1, ?_⟩
  have := h2.sq
  rw [gram] at this
  rw [this]
  ext i j
  rw [Matrix.add_apply, Matrix.smul_apply, Matrix.mul_apply, Fin.sum_univ_one]
  fin_cases i <;> fin_cases j <;> norm_num

/-! ## C141: `solve` -/

/-- **C141** (definite): a system with a positive definite matrix is solved, whichever triangle stores it. -/
theorem C141_definite (u e : Bool) (t : Tri) (N A : Matrix (Fin n) (Fin n) 𝕜) (hs : Stores t N A) (hA : A.PosDef) (B : Matrix (Fin n) (Fin k) 𝕜) :
    ∃ X, E.solveSelfAdjoint u e t N B = .ok X ∧ A * X = B :=
  solve_definite E u e t N A hs hA B

/-- **C141** (semidefinite): a system with a positive or negative semidefinite matrix is solved if it has a solution. -/
theorem C141_semidefinite_partial (u e : Bool) (t : Tri) (N A : Matrix (Fin n) (Fin n) 𝕜) (hs : Stores t N A) (hA : A.PosSemidef ∨ (-A).PosSemidef)
    (B Y : Matrix (Fin n) (Fin k) 𝕜) (hY : A * Y = B) : ∃ X, E.solveSelfAdjoint u e t N B = .ok X ∧ A * X = B := by
  rcases llt_cases E t A hs.herm with ⟨h, _⟩ | ⟨_, h⟩
  · exact solve_definite E u e t N A hs h B
  · refine ⟨_, ?_, solve_ldlt_ok E A hs.herm (E.ldlt_semidef A hA) B Y hY⟩
    unfold EigenLib.solveSelfAdjoint
    rw [selfAdj_eq hs, h]
    simp only []
    rw [if_neg (semidef_flags E A hA)]

/-- **C141** (triangles): a triangular system without a zero on the diagonal is solved. -/
theorem C141_triangular (u e : Bool) (t : Tri) (N : Matrix (Fin n) (Fin n) 𝕜) (hd : ∀ i, N i i ≠ 0) (B : Matrix (Fin n) (Fin k) 𝕜) :
    ∃ X, EigenLib.solveTriangular u e t N B = .ok X ∧ part t N * X = B := by
  have hu := unit_of_tri t (part t N) (isTri_part _ _) fun i => by
    have : t.Has i.1 i.1 := by cases t <;> exact le_refl _
    simpa [part, this] using hd i
  refine ⟨(part t N)⁻¹ * B, ?_, ?_⟩
  · simp only [EigenLib.solveTriangular]
    rw [if_neg (by push Not; exact hd)]
  · rw [← Matrix.mul_assoc, mul_nonsing_inv _ hu, Matrix.one_mul]

/-- **C141** (general, unique): if a unique solution is asked for, an exception is thrown whenever the columns are dependent. -/
theorem C141_unique (e : Bool) (A : Matrix (Fin m) (Fin n) 𝕜) (B : Matrix (Fin m) (Fin k) 𝕜) (h : ¬ Unique A) :
    E.solveGeneral true e A B = .error .runtimeError := by
  simp only [EigenLib.solveGeneral, or_true, if_true, true_and, E.rank_eq]
  rw [if_pos ((rank_lt_iff A).mpr h)]

/-- **C141** (general, exact): if an exact solution is asked for and there is one, and only one if that is asked for too, an exact solution is returned. -/
theorem C141_exact (u : Bool) (A : Matrix (Fin m) (Fin n) 𝕜) (B : Matrix (Fin m) (Fin k) 𝕜) (Y : Matrix (Fin n) (Fin k) 𝕜) (hY : A * Y = B)
    (hu : u = true → Unique A) : ∃ X, E.solveGeneral u true A B = .ok X ∧ A * X = B := by
  have h1 := ls_exact A B _ Y (E.cpSolve_ls A B) hY
  refine ⟨E.cpSolve A B, ?_, h1⟩
  simp only [EigenLib.solveGeneral, true_or, if_true, E.rank_eq]
  rw [if_neg (by rintro ⟨h, h2⟩; exact (rank_lt_iff A).mp h2 (hu h)), if_pos]
  simp only [isApprox, decide_eq_true_eq, h1, sub_self, sqNorm_zero]
  exact mul_nonneg (by positivity) (le_min (sqNorm_nonneg _) (sqNorm_nonneg _))

/-- **C141** (general, exact): what is returned as exact is a least-squares solution whose residual is at most `n ε` of the right side. -/
theorem C141_exact_bound (u : Bool) (A : Matrix (Fin m) (Fin n) 𝕜) (B : Matrix (Fin m) (Fin k) 𝕜) (X : Matrix (Fin n) (Fin k) 𝕜)
    (h : E.solveGeneral u true A B = .ok X) : LeastSquares A B X ∧ sqNorm (A * X - B) ≤ (n * E.eps) ^ 2 * sqNorm B := by
  simp only [EigenLib.solveGeneral, true_or, if_true] at h
  split at h
  · cases h
  · split at h
    · rename_i h2
      cases h
      refine ⟨E.cpSolve_ls A B, ?_⟩
      simp only [isApprox, decide_eq_true_eq] at h2
      exact h2.trans (mul_le_mul_of_nonneg_left (min_le_right _ _) (by positivity))
    · cases h

/-- **C141** (general, unique only): independent columns give the least-squares solution. -/
theorem C141_unique_only (A : Matrix (Fin m) (Fin n) 𝕜) (B : Matrix (Fin m) (Fin k) 𝕜) (h : Unique A) :
    ∃ X, E.solveGeneral true false A B = .ok X ∧ LeastSquares A B X := by
  refine ⟨E.cpSolve A B, ?_, E.cpSolve_ls A B⟩
  simp only [EigenLib.solveGeneral, or_true, if_true, true_and, E.rank_eq]
  rw [if_neg (fun h2 => (rank_lt_iff A).mp h2 h)]
  simp

/-- **C141** (general, neither): independent columns give a least-squares solution. -/
theorem C141_neither_partial (A : Matrix (Fin m) (Fin n) 𝕜) (B : Matrix (Fin m) (Fin k) 𝕜) (hle : n ≤ m) (h : Unique A) :
    ∃ X, E.solveGeneral false false A B = .ok X ∧ LeastSquares A B X := by
  obtain ⟨X, h1, h2⟩ := E.qrSolve_some A B (qr_diag_ne E A hle h)
  refine ⟨X, ?_, h2⟩
  simp [EigenLib.solveGeneral, h1]

/-- **C141** (violated: indefinite): `[[0, 1], [1, 0]]` is its own inverse, but a system with it is rejected. -/
theorem C141_indefinite_violated (E : EigenLib ℝ) (u e : Bool) (t : Tri) : ∃ A : Matrix (Fin 2) (Fin 2) ℝ, A.IsHermitian ∧ A * A = 1 ∧
    ∀ B : Matrix (Fin 2) (Fin 1) ℝ, E.solveSelfAdjoint u e t A B = .error .runtimeError := by
  refine ⟨offDiag, offDiag_herm, ?_, fun B => ?_⟩
  · ext i j; fin_cases i <;> fin_cases j <;> simp [offDiag, Matrix.mul_apply]
  · rcases llt_cases E t offDiag offDiag_herm with ⟨h, _⟩ | ⟨_, h⟩
    · exact absurd (Or.inl h.posSemidef) offDiag_not_semidef
    · unfold EigenLib.solveSelfAdjoint
      rw [selfAdj_eq (stores_self t offDiag offDiag_herm), h]
      simp only []
      rw [if_pos (Or.inr (offDiag_fails E))]

/-- **C141** (violated: flags): with a Hermitian matrix, asking for a unique or exact solution has no effect: the system `0 X = 1` gets an answer. -/
theorem C141_flags_violated (E : EigenLib ℝ) (t : Tri) : ∃ (A : Matrix (Fin 1) (Fin 1) ℝ) (B : Matrix (Fin 1) (Fin 1) ℝ), ¬ Unique A ∧ (∀ X, A * X ≠ B) ∧
    ∃ X, E.solveSelfAdjoint true true t A B = .ok X := by
  refine ⟨0, 1, fun h => ?_, fun X h => ?_, ?_⟩
  · have := congrFun (h (fun _ => 0) (fun _ => 1) (by simp)) 0
    norm_num at this
  · have := congrFun (congrFun h 0) 0
    simp at this
  · have hs := stores_self t (0 : Matrix (Fin 1) (Fin 1) ℝ) isHermitian_zero
    rcases llt_cases E t (0 : Matrix (Fin 1) (Fin 1) ℝ) isHermitian_zero with ⟨h, _⟩ | ⟨_, h⟩
    · have := h.diag_pos (i := 0); simp at this
    · unfold EigenLib.solveSelfAdjoint
      rw [selfAdj_eq hs, h]
      simp only []
      rw [if_neg (semidef_flags E _ (Or.inl PosSemidef.zero))]
      exact ⟨_, rfl⟩

/-- **C141** (violated: neither): without flags, `x₂ = 1` as one equation in two unknowns is not solved, although it has solutions. -/
theorem C141_neither_violated (E : EigenLib ℝ) : ∃ (A : Matrix (Fin 1) (Fin 2) ℝ) (B : Matrix (Fin 1) (Fin 1) ℝ), (∃ Y, A * Y = B) ∧
    ∀ X, E.solveGeneral false false A B = .ok X → ¬ LeastSquares A B X := by
  refine ⟨!![0, 1], !![1], ⟨!![0; 1], by ext i j; fin_cases i; fin_cases j; simp [Matrix.mul_apply]⟩, fun X h hX => ?_⟩
  have h1 := ls_exact _ _ X !![0; 1] hX (by ext i j; fin_cases i; fin_cases j; simp [Matrix.mul_apply])
  have h2 : X 1 0 = 0 := by
    simp only [EigenLib.solveGeneral, Bool.false_eq_true, or_self, if_false] at h
    split at h
    · rename_i Z hZ
      cases h
      exact E.qrSolve_tail _ _ X hZ 1 0 (by simp)
    · cases h
  have h3 := congrFun (congrFun h1 0) 0
  simp [Matrix.mul_apply, h2] at h3

example : ∃ X, (someLib : EigenLib ℝ).solveSelfAdjoint false false .upper sampleA (!![6; 4] : Matrix (Fin 2) (Fin 1) ℝ) = .ok X ∧
    sampleA * X = !![6; 4] := C141_definite someLib false false .upper _ _ (stores_self _ _ sampleA_posDef.1) sampleA_posDef _

example : ∃ X, (someLib : EigenLib ℝ).solveSelfAdjoint false false .lower zeroOne (!![0; 5] : Matrix (Fin 2) (Fin 1) ℝ) = .ok X ∧
    zeroOne * X = !![0; 5] :=
  C141_semidefinite_partial someLib false false .lower _ _ (stores_self _ _ zeroOne_posSemidef.1) (Or.inl zeroOne_posSemidef) _ !![7; 5]
    (by ext i j; fin_cases i <;> fin_cases j <;> simp [zeroOne, Matrix.mul_apply])

example : ∃ X, (someLib : EigenLib ℝ).solveGeneral false false (!![1; 1] : Matrix (Fin 2) (Fin 1) ℝ) (!![0; 2] : Matrix (Fin 2) (Fin 1) ℝ) = .ok X ∧
    LeastSquares !![1; 1] !![0; 2] X :=
  C141_neither_partial someLib _ _ (by norm_num) fun x y h => by
    have := congrFun h 0
    ext i
    fin_cases i
    simpa [Matrix.mulVec, dotProduct] using this

/-! ## C142: LQ and QR decompositions -/

/-- **C142** (QR): for every shape, the result is a square upper triangle `R` with `R* R = A* A`, and its diagonal is real. -/
theorem C142_qr (A : Matrix (Fin m) (Fin n) 𝕜) : Stands .upper (E.qrDecomposition A) (Aᴴ * A) ∧ RealDiag (E.qrDecomposition A) :=
  ⟨⟨isTri_part _ _, qrImpl_sq E A⟩, realDiag_part _ _ (qrImpl_diag E A)⟩

/-- **C142** (LQ): for every shape, the result is a square lower triangle `L` with `L L* = A A*`, and its diagonal is real. -/
theorem C142_lq (A : Matrix (Fin m) (Fin n) 𝕜) : Stands .lower (E.lq A) (A * Aᴴ) ∧ RealDiag (E.lq A) :=
  ⟨⟨lq_tri E A, lq_sq E A⟩, lq_diag E A⟩

/-- **C142** (relation): the LQ decomposition is the conjugate transpose of the QR decomposition of the conjugate transpose. -/
theorem C142_adjoint (A : Matrix (Fin m) (Fin n) 𝕜) : E.lq A = (E.qrDecomposition Aᴴ)ᴴ := part_conj _

example : Stands .lower ((someLib : EigenLib ℝ).lq (!![1, 2, 3] : Matrix (Fin 1) (Fin 3) ℝ)) (!![14] : Matrix (Fin 1) (Fin 1) ℝ) := by
  have h := (C142_lq (someLib : EigenLib ℝ) (!![1, 2, 3] : Matrix (Fin 1) (Fin 3) ℝ)).1
  have e : (!![1, 2, 3] : Matrix (Fin 1) (Fin 3) ℝ) * (!![1, 2, 3] : Matrix (Fin 1) (Fin 3) ℝ)ᴴ = !![14] := by
    ext i j
    rw [Matrix.mul_apply, Fin.sum_univ_three]
    fin_cases i; fin_cases j
    simp [Matrix.cons_val]
    norm_num
  rwa [e] at h

/-! ## C143: the square-root filter -/

section Filter
open Kalman (GaussChol Gauss LinTrans Op Hist noiseTotal)

theorem transform_toGauss {n p : ℕ} (lib : Kalman.Lib 𝕜) (g : LinTrans 𝕜 n p) (x : GaussChol 𝕜 (Fin n)) (ns : List (GaussChol 𝕜 (Fin p))) :
    (E.transform g x ns).toGauss = Kalman.linearTransform lib g x.toGauss (ns.map GaussChol.toGauss) := by
  rw [Kalman.linearTransform_eq lib g _ _ (Kalman.toGauss_posSemidef x).1 fun d hd => (Kalman.toGauss_mem_hermitian ns d hd).1]
  refine Gauss.ext ?_ ?_
  · simp [EigenLib.transform, List.map_map, Function.comp_def, GaussChol.toGauss]
  · simp only [EigenLib.transform, GaussChol.toGauss]
    rw [lq_sq, Kalman.hcatList_sq]
    simp only [Kalman.jacobian_spec]
    rw [Kalman.zipWith_range, ← Kalman.noiseTermsChol_toTerm]
    simp only [Kalman.noiseCov, Kalman.noiseTermsChol, List.map_map, conjTranspose_mul]
    congr 1
    · simp only [Matrix.mul_assoc]
    · congr 1
      apply List.map_congr_left
      intro t _
      simp only [Function.comp_apply, Kalman.TermChol.toTerm, GaussChol.toGauss, conjTranspose_mul, Matrix.mul_assoc]
      exact congrArg _ (Matrix.mul_assoc _ _ _).symm

theorem posDef_add_of_cover (P : Matrix (Fin n) (Fin n) 𝕜) (R : Matrix (Fin m) (Fin m) 𝕜) (C : Matrix (Fin n) (Fin n) 𝕜) (K : Matrix (Fin n) (Fin m) 𝕜)
    (H : Matrix (Fin m) (Fin n) 𝕜) (hP : P.PosDef) (hR : R.PosDef) (h : C + K * H = 1) : (C * P * Cᴴ + K * R * Kᴴ).PosDef := by
  have h1 := hP.posSemidef.mul_mul_conjTranspose_same C
  have h2 := hR.posSemidef.mul_mul_conjTranspose_same K
  have e1 : ∀ v : Fin n → 𝕜, star v ⬝ᵥ (C * P * Cᴴ) *ᵥ v = star (Cᴴ *ᵥ v) ⬝ᵥ P *ᵥ (Cᴴ *ᵥ v) := fun v => by
    rw [star_mulVec, conjTranspose_conjTranspose, ← dotProduct_mulVec, mulVec_mulVec, mulVec_mulVec, Matrix.mul_assoc]
  have e2 : ∀ v : Fin n → 𝕜, star v ⬝ᵥ (K * R * Kᴴ) *ᵥ v = star (Kᴴ *ᵥ v) ⬝ᵥ R *ᵥ (Kᴴ *ᵥ v) := fun v => by
    rw [star_mulVec, conjTranspose_conjTranspose, ← dotProduct_mulVec, mulVec_mulVec, mulVec_mulVec, Matrix.mul_assoc]
  refine PosDef.of_dotProduct_mulVec_pos (h1.1.add h2.1) fun {v} hv => ?_
  rw [add_mulVec, dotProduct_add]
  by_cases hc : Cᴴ *ᵥ v = 0
  · have hk : Kᴴ *ᵥ v ≠ 0 := by
      intro hk
      apply hv
      have h3 : (C + K * H)ᴴ *ᵥ v = v := by rw [h, conjTranspose_one, one_mulVec]
      rw [← h3, conjTranspose_add, conjTranspose_mul, add_mulVec, hc, ← mulVec_mulVec, hk, mulVec_zero, add_zero]
    refine add_pos_of_nonneg_of_pos (h1.dotProduct_mulVec_nonneg v) ?_
    rw [e2]
    exact hR.dotProduct_mulVec_pos hk
  · refine add_pos_of_pos_of_nonneg ?_ (h2.dotProduct_mulVec_nonneg v)
    rw [e1]
    exact hP.dotProduct_mulVec_pos hc

/-- The posterior covariance stays positive definite. -/
theorem posterior_posDef (P : Matrix (Fin n) (Fin n) 𝕜) (R : Matrix (Fin m) (Fin m) 𝕜) (H : Matrix (Fin m) (Fin n) 𝕜) (hP : P.PosDef) (hR : R.PosDef)
    (X : Matrix (Fin m) (Fin n) 𝕜) (hX : (H * P * Hᴴ + R) * X = H * P) : (P - P * Hᴴ * X).PosDef := by
  have hS : (H * P * Hᴴ + R).IsHermitian := (hP.posSemidef.mul_mul_conjTranspose_same H).1.add hR.1
  have hK : Xᴴ * (H * P * Hᴴ + R) = P * Hᴴ := by
    have := congrArg conjTranspose hX
    rwa [conjTranspose_mul, hS.eq, conjTranspose_mul, hP.1.eq] at this
  have h1 := posDef_add_of_cover P R (1 - Xᴴ * H) Xᴴ H hP hR (by rw [sub_add_cancel])
  have h2 : (1 - Xᴴ * H) * P * (1 - Xᴴ * H)ᴴ + Xᴴ * R * Xᴴᴴ = P - Xᴴ * (H * P) - P * Hᴴ * X + Xᴴ * (H * P * Hᴴ + R) * X := by
    simp only [conjTranspose_sub, conjTranspose_one, conjTranspose_mul, conjTranspose_conjTranspose, Matrix.sub_mul, Matrix.mul_sub, Matrix.one_mul,
      Matrix.mul_one, Matrix.mul_add, Matrix.add_mul, Matrix.mul_assoc]
    abel
  have h3 : Xᴴ * (H * P) = P * Hᴴ * X := by rw [← hX, ← Matrix.mul_assoc, hK]
  rw [h2, hK, h3] at h1
  simpa using h1

/-- A call is regular if a predict has non-degenerate noise or a matrix with independent rows, and an update has non-degenerate noise. -/
def Regular {n k : ℕ} : Op 𝕜 n k → Prop
  | .predict F ns => (noiseTotal F (ns.map GaussChol.toGauss)).PosDef ∨ Function.Injective fun v => v ᵥ* F.A
  | .update _ H ns _ => (noiseTotal H (ns.map GaussChol.toGauss)).PosDef

def AllRegular {n k : ℕ} : Hist 𝕜 n k → Prop
  | .nil => True
  | .cons op h => Regular op ∧ AllRegular h

/-- A prior in Cholesky form: a lower triangle with a real diagonal whose square is positive definite. -/
structure Prior {n : ℕ} (x : GaussChol 𝕜 (Fin n)) : Prop where
  tri : IsTri .lower x.fac
  real : RealDiag x.fac
  pos : x.toGauss.cov.PosDef

theorem predict_prior {n p : ℕ} (lib : Kalman.Lib 𝕜) (F : LinTrans 𝕜 n p) (ns : List (GaussChol 𝕜 (Fin p))) (x : GaussChol 𝕜 (Fin n)) (hx : Prior x)
    (hr : Regular (.predict F ns)) : Prior (E.transform F x ns) := by
  refine ⟨lq_tri E _, lq_diag E _, ?_⟩
  rw [transform_toGauss E lib, Kalman.linearTransform_eq lib F _ _ hx.pos.1 fun d hd => (Kalman.toGauss_mem_hermitian ns d hd).1]
  have hns := Kalman.noiseCov_posSemidef _ (Kalman.mem_noiseTerms (g := F) (P := fun d => d.cov.PosSemidef) (Kalman.toGauss_mem_hermitian ns))
  rcases hr with h | h
  · rw [Kalman.noiseTotal_eq] at h
    exact PosDef.posSemidef_add (hx.pos.posSemidef.mul_mul_conjTranspose_same _) h
  · exact (hx.pos.mul_mul_conjTranspose_same h).add_posSemidef hns

theorem update_prior {n m : ℕ} (lib : Kalman.Lib 𝕜) (H : LinTrans 𝕜 n m) (ns : List (GaussChol 𝕜 (Fin m))) (z : Fin m → 𝕜) (x : GaussChol 𝕜 (Fin n))
    (hx : Prior x) (hr : (noiseTotal H (ns.map GaussChol.toGauss)).PosDef) :
    ∃ y, E.update H ns z x = .ok y ∧ y.toGauss = Kalman.update lib H (ns.map GaussChol.toGauss) z x.toGauss ∧ Prior y := by
  have hn := Kalman.toGauss_mem_hermitian ns
  have hps := hx.pos.posSemidef
  have hT := transform_toGauss E lib H x ns
  have hL := Kalman.linearTransform_eq lib H x.toGauss (ns.map GaussChol.toGauss) hps.1 fun d hd => (hn d hd).1
  have hu := Kalman.update_unit lib H _ x.toGauss hps hn hr
  have hyc : (E.transform H x ns).fac * (E.transform H x ns).facᴴ = H.A * x.toGauss.cov * H.Aᴴ + noiseTotal H (ns.map GaussChol.toGauss) := by
    have := congrArg Gauss.cov hT
    rw [hL, ← Kalman.noiseTotal_eq] at this
    exact this
  have hym : (E.transform H x ns).mean = (Kalman.linearTransform lib H x.toGauss (ns.map GaussChol.toGauss)).mean := congrArg Gauss.mean hT
  have hyp : (H.A * x.toGauss.cov * H.Aᴴ + noiseTotal H (ns.map GaussChol.toGauss)).PosDef :=
    PosDef.posSemidef_add (hps.mul_mul_conjTranspose_same H.A) hr
  have hcross : EigenLib.cross H x = x.toGauss.cov * H.Aᴴ := by
    simp only [EigenLib.cross, GaussChol.toGauss, conjTranspose_mul, Matrix.mul_assoc]
  obtain ⟨X, hX1, hX2⟩ := solve_definite E false false .lower _ _ (stores_self .lower _ hyp.1) hyp (EigenLib.cross H x)ᴴ
  have hX2' : (H.A * x.toGauss.cov * H.Aᴴ + noiseTotal H (ns.map GaussChol.toGauss)) * X = H.A * x.toGauss.cov := by
    rw [hX2, hcross, conjTranspose_mul, conjTranspose_conjTranspose, hx.pos.1.eq]
  have hpost := posterior_posDef _ _ _ hx.pos hr X hX2'
  have hU : E.lq (Xᴴ * (E.transform H x ns).fac) * (E.lq (Xᴴ * (E.transform H x ns).fac))ᴴ = x.toGauss.cov * H.Aᴴ * X := by
    rw [lq_sq, conjTranspose_mul, conjTranspose_conjTranspose, Matrix.mul_assoc, ← Matrix.mul_assoc (E.transform H x ns).fac, hyc, ← Matrix.mul_assoc]
    congr 1
    have := congrArg conjTranspose hX2'
    rwa [conjTranspose_mul, hyp.1.eq, conjTranspose_mul, hx.pos.1.eq] at this
  have hst : Stands .lower (part .lower x.fac) x.toGauss.cov := ⟨isTri_part _ _, by rw [part_eq _ _ hx.tri]; rfl⟩
  have hcov : x.toGauss.cov + ((-1 : ℝ) : 𝕜) • (E.lq (Xᴴ * (E.transform H x ns).fac) * (E.lq (Xᴴ * (E.transform H x ns).fac))ᴴ) =
      x.toGauss.cov - x.toGauss.cov * H.Aᴴ * X := by
    rw [hU]; simp [sub_eq_add_neg]
  obtain ⟨G, hG1, hG2, hG3⟩ := C140_downdate_partial E .lower x.fac x.toGauss.cov hx.real hst (E.lq (Xᴴ * (E.transform H x ns).fac)) (-1)
    (by rw [hcov]; exact hpost)
  rw [hcov] at hG3
  have hres : (⟨x.mean + Xᴴ *ᵥ (z - (E.transform H x ns).mean), part .lower G⟩ : GaussChol 𝕜 (Fin n)).toGauss =
      ⟨x.mean + Xᴴ *ᵥ (z - (E.transform H x ns).mean), x.toGauss.cov - x.toGauss.cov * H.Aᴴ * X⟩ := Gauss.ext rfl hG3.sq
  refine ⟨⟨x.mean + Xᴴ *ᵥ (z - (E.transform H x ns).mean), part .lower G⟩, ?_, ?_, ⟨isTri_part _ _, realDiag_part _ _ hG2, ?_⟩⟩
  · unfold EigenLib.update
    simp only []
    rw [hyc, hyp.1.eq, hX1]
    simp only [bind, Except.bind]
    rw [hG1]
  · rw [hres, Kalman.update_step_form lib H _ z _ hps hn, Kalman.updateStep_eq]
    · have hXe : X = (Kalman.linearTransform lib H x.toGauss (ns.map GaussChol.toGauss)).cov⁻¹ * (x.toGauss.cov * H.Aᴴ)ᴴ := by
        refine Kalman.solve_unique (B := (x.toGauss.cov * H.Aᴴ)ᴴ) hu ?_ (by rw [← Matrix.mul_assoc, mul_nonsing_inv _ hu, Matrix.one_mul])
        rw [hL, ← Kalman.noiseTotal_eq, hX2', conjTranspose_mul, conjTranspose_conjTranspose, hx.pos.1.eq]
      have hcL : (Kalman.linearTransform lib H x.toGauss (ns.map GaussChol.toGauss)).cov.IsHermitian := by
        rw [hL, ← Kalman.noiseTotal_eq]; exact hyp.1
      refine Gauss.ext ?_ ?_
      · dsimp only
        rw [hym, hXe, conjTranspose_mul, conjTranspose_conjTranspose, conjTranspose_nonsing_inv, hcL.eq]
        rfl
      · dsimp only
        rw [hXe, Matrix.mul_assoc (x.toGauss.cov * H.Aᴴ)]
    · rw [hL, ← Kalman.noiseTotal_eq]; exact hyp.1
    · exact hu
  · rw [hres]; exact hpost

/-- **C143**: over every history of regular calls, the square-root filter never throws, agrees with the filter on covariances and keeps a lower triangle with a
real diagonal and a positive definite square. -/
theorem C143_filter_partial {n k : ℕ} (lib : Kalman.Lib 𝕜) (h : Hist 𝕜 n k) (hr : AllRegular h) (x : GaussChol 𝕜 (Fin n)) (hx : Prior x) :
    ∃ y, E.run h x = .ok y ∧ y.toGauss = h.run lib x.toGauss ∧ Prior y := by
  induction h with
  | nil => exact ⟨x, rfl, rfl, hx⟩
  | cons op h ih =>
    cases op with
    | predict F ns =>
      obtain ⟨y, h1, h2, h3⟩ := ih hr.2 _ (predict_prior E lib F ns x hx hr.1)
      refine ⟨y, h1, ?_, h3⟩
      rw [h2, transform_toGauss E lib]
      rfl
    | update m H ns z =>
      obtain ⟨w, h1, h2, h3⟩ := update_prior E lib H ns z x hx hr.1
      obtain ⟨y, e1, e2, e3⟩ := ih hr.2 w h3
      refine ⟨y, ?_, ?_, e3⟩
      · show (E.update H ns z x >>= fun y => E.run h y) = _
        rw [h1]
        exact e1
      · rw [e2, h2]
        rfl

/-- **C143** (start): a positive definite prior covariance of any mean can be brought into the form the filter needs by `cholesky_factor`. -/
theorem C143_start {n : ℕ} (t : Tri) (N : Matrix (Fin n) (Fin n) 𝕜) (g : Gauss 𝕜 (Fin n)) (hs : Stores t N g.cov) (hg : g.cov.PosDef) :
    ∃ F, E.choleskyFactor true t .lower N = .ok F ∧ GaussChol.toGauss ⟨g.mean, F⟩ = g ∧ Prior (⟨g.mean, F⟩ : GaussChol 𝕜 (Fin n)) := by
  obtain ⟨F, h1, h2, h3⟩ := C139_definite_partial E true t .lower N g.cov hs hg (Or.inl rfl)
  have e : GaussChol.toGauss ⟨g.mean, F⟩ = g := Gauss.ext rfl h2.sq
  exact ⟨F, h1, e, h2.tri, h3, by rw [e]; exact hg⟩

/-- **C143** (violated): if the prior is singular, as when the state is known exactly, an update that the filter on covariances performs makes the square-root
filter throw. -/
theorem C143_singular_violated (E : EigenLib ℝ) (lib : Kalman.Lib ℝ) : ∃ (h : Hist ℝ 2 2) (x : GaussChol ℝ (Fin 2)), h.Valid ∧ IsTri .lower x.fac ∧
    (h.run lib x.toGauss).cov.PosSemidef ∧ E.run h x = .error .runtimeError := by
  have hR : noiseTotal (⟨!![1, 0], []⟩ : LinTrans ℝ 2 1) ([(⟨0, 1⟩ : GaussChol ℝ (Fin 1))].map GaussChol.toGauss) = 1 := by
    simp [noiseTotal, GaussChol.toGauss]
  have hv : (Hist.cons (.update 1 ⟨!![1, 0], []⟩ [⟨0, 1⟩] fun _ => 3) .nil : Hist ℝ 2 2).Valid := by
    refine ⟨?_, trivial⟩
    show (noiseTotal _ _).PosDef
    rw [hR]
    exact PosDef.one
  refine ⟨.cons (.update 1 ⟨!![1, 0], []⟩ [⟨0, 1⟩] fun _ => 3) .nil, ⟨0, 0⟩, hv, fun _ _ _ => rfl, ?_, ?_⟩
  · exact (Kalman.C49_history lib _ hv _ (Kalman.toGauss_posSemidef _)).2
  · show (E.update _ _ _ _ >>= fun y => E.run .nil y) = _
    set x : GaussChol ℝ (Fin 2) := ⟨0, 0⟩ with hx
    set H : LinTrans ℝ 2 1 := ⟨!![1, 0], []⟩ with hH
    have hT := congrArg Gauss.cov (transform_toGauss E lib H x [⟨0, 1⟩])
    rw [Kalman.linearTransform_eq lib H _ _ (Kalman.toGauss_posSemidef x).1 fun d hd => (Kalman.toGauss_mem_hermitian _ d hd).1, ← Kalman.noiseTotal_eq,
      hR] at hT
    have hyc : (E.transform H x [⟨0, 1⟩]).fac * (E.transform H x [⟨0, 1⟩]).facᴴ = 1 := by
      have : x.toGauss.cov = 0 := by simp [hx, GaussChol.toGauss]
      rw [this, Matrix.mul_zero, Matrix.zero_mul, zero_add] at hT
      exact hT
    have hc : (EigenLib.cross H x)ᴴ = 0 := by simp [EigenLib.cross, hx]
    obtain ⟨X, h1, h2⟩ := solve_definite E false false .lower _ _ (stores_self .lower (1 : Matrix (Fin 1) (Fin 1) ℝ) isHermitian_one) PosDef.one
      (EigenLib.cross H x)ᴴ
    rw [Matrix.one_mul, hc] at h2
    have hup : E.update H [⟨0, 1⟩] (fun _ => 3) x = .error .runtimeError := by
      unfold EigenLib.update
      simp only []
      rw [hyc, conjTranspose_one, h1, h2]
      simp only [bind, Except.bind]
      have : E.rankUpdateTriangular .lower x.fac (E.lq ((0 : Matrix (Fin 1) (Fin 2) ℝ)ᴴ * (E.transform H x [⟨0, 1⟩]).fac)) (-1) = .error .runtimeError := by
        refine (C140_throws E .lower x.fac 0 (fun _ _ _ => by simp [hx]) ⟨isTri_part _ _, ?_⟩ _ (-1) (by norm_num) (by norm_num)).mpr ?_
        · rw [part_eq _ x.fac (fun _ _ _ => rfl)]; simp [gram, hx]
        · rw [lq_sq]
          intro h
          have := h.diag_pos (i := 0)
          simp at this
      rw [this]
    rw [hup]
    rfl

theorem sampleHist_regular : AllRegular Kalman.sampleHist := by
  refine ⟨Or.inl ?_, Kalman.sampleHist_valid.2.1, trivial⟩
  have : noiseTotal (⟨!![1; 2], []⟩ : LinTrans ℝ 1 2) ([(⟨0, 1⟩ : GaussChol ℝ (Fin 2))].map GaussChol.toGauss) = 1 := by
    simp [noiseTotal, GaussChol.toGauss]
  rw [this]
  exact PosDef.one

example : ∃ y, (someLib : EigenLib ℝ).run Kalman.sampleHist ⟨0, 1⟩ = .ok y ∧
    y.toGauss = Kalman.sampleHist.run Kalman.someLib (GaussChol.toGauss ⟨0, 1⟩) ∧ Prior y :=
  C143_filter_partial someLib Kalman.someLib _ sampleHist_regular _
    ⟨fun i j h => one_apply_ne fun e => h (by subst e; exact le_refl _), fun i j _ => by simp, by
      simpa [GaussChol.toGauss] using (PosDef.one : (1 : Matrix (Fin 1) (Fin 1) ℝ).PosDef)⟩

end Filter

end OpenKalman.EigenHooks
