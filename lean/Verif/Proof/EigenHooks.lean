import Verif.Proof.EigenExist
import Verif.Proof.Kalman

/-!
# Lemmas about the interface to Eigen
-/

namespace OpenKalman.EigenHooks
open Matrix
open scoped ComplexOrder

set_option linter.unusedSectionVars false

variable {𝕜 : Type} [RCLike 𝕜] {m n k : ℕ} (E : EigenLib 𝕜)

theorem selfAdj_eq {t : Tri} {N A : Matrix (Fin n) (Fin n) 𝕜} (h : Stores t N A) : selfAdj t N = A := by
  ext i j
  simp only [selfAdj]
  split
  · rename_i hij; exact h.eq i j hij
  · rename_i hij
    have : t.Has j.1 i.1 := by
      cases t <;> simp only [Tri.Has] at hij ⊢ <;> omega
    rw [h.eq j i this]
    exact h.herm.apply i j

theorem stores_self (t : Tri) (A : Matrix (Fin n) (Fin n) 𝕜) (h : A.IsHermitian) : Stores t A A := ⟨h, fun _ _ _ => rfl⟩

theorem isTri_conjTranspose' (t t' : Tri) (h : t' ≠ t) (F : Matrix (Fin m) (Fin n) 𝕜) (hF : IsTri t F) : IsTri t' Fᴴ := by
  intro i j hij
  have : ¬ t.Has j.1 i.1 := by
    cases t <;> cases t' <;> first | exact absurd rfl h | exact hij
  rw [conjTranspose_apply, hF j i this, star_zero]

theorem gram_conjTranspose (t t' : Tri) (h : t' ≠ t) (F : Matrix (Fin n) (Fin n) 𝕜) : gram t' Fᴴ = gram t F := by
  cases t <;> cases t' <;> first | exact absurd rfl h | simp [gram]

theorem unit_of_gram_posDef (t : Tri) (F : Matrix (Fin n) (Fin n) 𝕜) (h : (gram t F).PosDef) : IsUnit F.det := by
  have h1 := (Matrix.isUnit_iff_isUnit_det _).mp h.isUnit
  cases t
  · rw [gram, det_mul] at h1; exact isUnit_of_mul_isUnit_left h1
  · rw [gram, det_mul] at h1; exact isUnit_of_mul_isUnit_right h1

theorem unit_of_tri (t : Tri) (F : Matrix (Fin n) (Fin n) 𝕜) (h : IsTri t F) (hd : ∀ i, F i i ≠ 0) : IsUnit F.det := by
  rw [isUnit_iff_ne_zero]
  cases t
  · rw [Matrix.det_of_isLowerTriangular]
    · exact Finset.prod_ne_zero_iff.mpr fun i _ => hd i
    · intro i j hij
      exact h i j (by simpa [Tri.Has] using hij)
  · rw [Matrix.det_of_isUpperTriangular]
    · exact Finset.prod_ne_zero_iff.mpr fun i _ => hd i
    · intro i j hij
      exact h i j (by simpa [Tri.Has] using hij)

/-! ## Cholesky factors -/

theorem llt_cases (t : Tri) (A : Matrix (Fin n) (Fin n) 𝕜) (hA : A.IsHermitian) :
    (A.PosDef ∧ ∃ M, E.llt t A = some M ∧ gram t (part t M) = A) ∨ (¬ A.PosDef ∧ E.llt t A = none) := by
  have h := E.llt_iff t A hA
  cases hM : E.llt t A with
  | some M => exact Or.inl ⟨h.mp (by simp [hM]), M, rfl, E.llt_sq t A M hA hM⟩
  | none => exact Or.inr ⟨fun hp => by simpa [hM] using h.mpr hp, rfl⟩

theorem ldl_square (L : Matrix (Fin n) (Fin n) 𝕜) (d : Fin n → ℝ) (hd : ∀ i, 0 ≤ d i) :
    (L * diagonal fun i => (Real.sqrt (d i) : 𝕜)) * (L * diagonal fun i => (Real.sqrt (d i) : 𝕜))ᴴ = L * diagonal (fun i => (d i : 𝕜)) * Lᴴ := by
  have hsq : ∀ i, (Real.sqrt (d i) : 𝕜) * (Real.sqrt (d i) : 𝕜) = (d i : 𝕜) := fun i => by
    rw [← RCLike.ofReal_mul, Real.mul_self_sqrt (hd i)]
  simp only [conjTranspose_mul, diagonal_conjTranspose]
  rw [Matrix.mul_assoc, ← Matrix.mul_assoc (diagonal _), diagonal_mul_diagonal, ← Matrix.mul_assoc]
  congr 2
  ext i j
  simp only [diagonal_apply, Pi.star_apply, RCLike.star_def, RCLike.conj_ofReal, hsq]

theorem diag_sqrt_conj (d : Fin n → ℝ) : (diagonal fun i => (Real.sqrt (d i) : 𝕜))ᴴ = diagonal fun i => (Real.sqrt (d i) : 𝕜) := by
  rw [diagonal_conjTranspose]
  congr 1
  funext i
  simp

theorem isTri_mul_diag (L : Matrix (Fin n) (Fin n) 𝕜) (hL : IsTri .lower L) (v : Fin n → 𝕜) : IsTri .lower (L * diagonal v) := by
  intro i j hij
  rw [Matrix.mul_diagonal, hL i j hij, zero_mul]

/-- The factor that the code makes of a pivoted decomposition stands for the permuted matrix. -/
theorem ldl_stands (tri : Tri) (L : Matrix (Fin n) (Fin n) 𝕜) (d : Fin n → ℝ) (hL : IsTri .lower L) (hd : ∀ i, 0 ≤ d i) :
    Stands tri (match tri with
      | .lower => part .lower (L * diagonal fun i => (Real.sqrt (d i) : 𝕜))
      | .upper => part .upper (diagonal (fun i => (Real.sqrt (d i) : 𝕜)) * Lᴴ)) (L * diagonal (fun i => (d i : 𝕜)) * Lᴴ) := by
  have h1 := isTri_mul_diag L hL fun i => (Real.sqrt (d i) : 𝕜)
  cases tri with
  | lower =>
    simp only []
    rw [part_eq _ _ h1]
    exact ⟨h1, ldl_square L d hd⟩
  | upper =>
    have h2 : diagonal (fun i => (Real.sqrt (d i) : 𝕜)) * Lᴴ = (L * diagonal fun i => (Real.sqrt (d i) : 𝕜))ᴴ := by
      rw [conjTranspose_mul, diag_sqrt_conj]
    have h3 := isTri_conjTranspose _ h1
    simp only []
    rw [h2, part_eq _ _ h3]
    exact ⟨h3, by rw [gram, conjTranspose_conjTranspose]; exact ldl_square L d hd⟩

/-- The semidefinite case, when nothing is thrown. -/
theorem cholesky_ldlt (tri : Tri) (N A : Matrix (Fin n) (Fin n) 𝕜) (t : Tri) (hA : ¬ (selfAdj t N).PosDef) (ht : (selfAdj t N).IsHermitian)
    (hs : selfAdj .lower N = A) (hp : A.PosSemidef) : ∃ F, E.choleskyFactor true t tri N = .ok F ∧
      Stands tri F (A.submatrix (E.ldlt A).perm (E.ldlt A).perm) := by
  have hok := E.ldlt_semidef A (Or.inl hp)
  have heq := E.ldlt_eq A hp.1 hok
  obtain ⟨hL, h1⟩ := E.ldlt_lower A hp.1 hok
  have hd : ∀ i, 0 ≤ (E.ldlt A).d i := by
    intro i
    have hu := unit_of_tri .lower (E.ldlt A).L hL (fun i => by rw [h1 i]; exact one_ne_zero)
    have h2 : (diagonal fun i => ((E.ldlt A).d i : 𝕜)).PosSemidef := by
      have h3 := (hp.submatrix (E.ldlt A).perm).mul_mul_conjTranspose_same (E.ldlt A).L⁻¹
      rw [heq] at h3
      have h4 : (E.ldlt A).L⁻¹ * ((E.ldlt A).L * diagonal (fun i => ((E.ldlt A).d i : 𝕜)) * ((E.ldlt A).L)ᴴ) * ((E.ldlt A).L⁻¹)ᴴ =
          diagonal fun i => ((E.ldlt A).d i : 𝕜) := by
        rw [Matrix.mul_assoc (E.ldlt A).L, ← Matrix.mul_assoc (E.ldlt A).L⁻¹, nonsing_inv_mul _ hu, Matrix.one_mul, Matrix.mul_assoc,
          ← conjTranspose_mul, nonsing_inv_mul _ hu, conjTranspose_one, Matrix.mul_one]
      rwa [h4] at h3
    have h5 := h2.diag_nonneg (i := i)
    simpa using h5
  have hpos : (E.ldlt A).pos = true := (E.ldlt_pos A hp.1 hok).mpr hd
  rcases llt_cases E t _ ht with ⟨h, _⟩ | ⟨_, h⟩
  · exact absurd h hA
  refine ⟨_, ?_, heq ▸ ldl_stands tri _ _ hL hd⟩
  unfold EigenLib.choleskyFactor
  rw [h]
  simp only [hs]
  have hneg : ¬ ∃ i, (E.ldlt A).d i < 0 := fun ⟨i, hi⟩ => absurd (hd i) (not_le.mpr hi)
  rw [if_neg (by simp [hpos, hok]), EigenLib.intoView, if_pos rfl, if_neg hneg]
  cases tri <;> rfl

/-! ## Rank updates -/

theorem sum_outer (U : Matrix (Fin n) (Fin k) 𝕜) : ∀ l : List (Fin k), l.Nodup → (∀ j, j ∈ l) →
    (l.map fun j => vecMulVec (fun i => U i j) (star fun i => U i j)).sum = U * Uᴴ := by
  intro l hn hl
  ext a b
  have h1 : ∀ l : List (Fin k), (l.map fun j => vecMulVec (fun i => U i j) (star fun i => U i j)).sum a b =
      (l.map fun j => U a j * star (U b j)).sum := by
    intro l
    induction l with
    | nil => rfl
    | cons j l ih => rw [List.map_cons, List.sum_cons, Matrix.add_apply, ih, List.map_cons, List.sum_cons]; rfl
  rw [h1, Matrix.mul_apply, ← List.sum_toFinset _ hn]
  have : l.toFinset = Finset.univ := by ext j; simp [hl]
  rw [this]
  rfl

/-- The loop over columns, given as a list of vectors. -/
theorem loop_ok (t : Tri) (s : ℝ) : ∀ (l : List (Fin n → 𝕜)) (M : Matrix (Fin n) (Fin n) 𝕜), RealDiag M →
    (0 < s ∨ (gram t (part t M) + (s : 𝕜) • (l.map fun v => vecMulVec v (star v)).sum).PosDef) →
    ∃ G, l.foldlM (E.rankStep t s) M = .ok G ∧ RealDiag G ∧
      gram t (part t G) = gram t (part t M) + (s : 𝕜) • (l.map fun v => vecMulVec v (star v)).sum := by
  intro l
  induction l with
  | nil => intro M hM _; exact ⟨M, rfl, hM, by simp⟩
  | cons v l ih =>
    intro M hM h
    have hsome : (E.rank1 t M v s).isSome := by
      rcases lt_or_ge 0 s with hs | hs
      · exact E.rank1_up t M v s hs
      · rcases h with h | h
        · exact absurd h (not_lt.mpr hs)
        · rw [E.rank1_down t M v s hM hs]
          have h2 : gram t (part t M) + (s : 𝕜) • vecMulVec v (star v) =
              (gram t (part t M) + (s : 𝕜) • ((v :: l).map fun v => vecMulVec v (star v)).sum) +
                ((-s : ℝ) : 𝕜) • (l.map fun v => vecMulVec v (star v)).sum := by
            rw [List.map_cons, List.sum_cons]
            push_cast
            module
          rw [h2]
          refine h.add_posSemidef (PosSemidef.smul ?_ (RCLike.ofReal_nonneg.mpr (by linarith)))
          refine Kalman.list_sum_posSemidef _ ?_
          intro A hA
          obtain ⟨w, _, rfl⟩ := List.mem_map.mp hA
          exact outer_posSemidef w
    obtain ⟨G, hG⟩ := Option.isSome_iff_exists.mp hsome
    obtain ⟨h3, h4⟩ := E.rank1_sq t M G v s hM hG
    obtain ⟨G', e1, e2, e3⟩ := ih G h4 (by
      refine h.imp id fun h => ?_
      rw [h3]
      rw [List.map_cons, List.sum_cons, smul_add, ← add_assoc] at h
      exact h)
    refine ⟨G', ?_, e2, ?_⟩
    · rw [List.foldlM_cons]
      have : E.rankStep t s M v = .ok G := by simp only [EigenLib.rankStep, hG]
      rw [this]
      exact e1
    · rw [e3, h3, List.map_cons, List.sum_cons, smul_add, add_assoc]

/-- The loop throws nothing but `std::runtime_error`; if it ends after at least one column and the factor is not positive, the result is positive definite. -/
theorem loop_fail (t : Tri) (s : ℝ) (hs : s ≤ 0) : ∀ (l : List (Fin n → 𝕜)) (M G : Matrix (Fin n) (Fin n) 𝕜), RealDiag M → l ≠ [] →
    l.foldlM (E.rankStep t s) M = .ok G → (gram t (part t M) + (s : 𝕜) • (l.map fun v => vecMulVec v (star v)).sum).PosDef := by
  intro l
  induction l with
  | nil => intro M G _ h; exact absurd rfl h
  | cons v l ih =>
    intro M G hM _ h
    rw [List.foldlM_cons] at h
    cases hG : E.rank1 t M v s with
    | none =>
      have : E.rankStep t s M v = .error .runtimeError := by simp only [EigenLib.rankStep, hG]
      rw [this] at h
      exact absurd h (by intro h; cases h)
    | some M' =>
      have : E.rankStep t s M v = .ok M' := by simp only [EigenLib.rankStep, hG]
      rw [this] at h
      obtain ⟨h3, h4⟩ := E.rank1_sq t M M' v s hM hG
      rw [List.map_cons, List.sum_cons, smul_add, ← add_assoc, ← h3]
      by_cases hl : l = []
      · subst hl
        have := (E.rank1_down t M v s hM hs).mp (by simp [hG])
        rw [← h3] at this
        simpa using this
      · exact ih M' G h4 hl h

theorem loop_error (t : Tri) (s : ℝ) : ∀ (l : List (Fin n → 𝕜)) (M : Matrix (Fin n) (Fin n) 𝕜) (e : Err),
    l.foldlM (E.rankStep t s) M = .error e → e = .runtimeError := by
  intro l
  induction l with
  | nil => intro M e h; cases h
  | cons v l ih =>
    intro M e h
    rw [List.foldlM_cons] at h
    cases hG : E.rank1 t M v s with
    | none =>
      have : E.rankStep t s M v = .error .runtimeError := by simp only [EigenLib.rankStep, hG]
      rw [this] at h
      cases h; rfl
    | some M' =>
      have : E.rankStep t s M v = .ok M' := by simp only [EigenLib.rankStep, hG]
      rw [this] at h
      exact ih M' e h

theorem columns_sum (U : Matrix (Fin n) (Fin k) 𝕜) :
    ((List.ofFn fun j i => U i j).map fun v => vecMulVec v (star v)).sum = U * Uᴴ := by
  rw [List.map_ofFn, ← sum_outer U (List.finRange k) (List.nodup_finRange k) List.mem_finRange, List.ofFn_eq_map]
  rfl

/-! ## Solutions -/

theorem solve_definite (u e : Bool) (t : Tri) (N A : Matrix (Fin n) (Fin n) 𝕜) (hs : Stores t N A) (hA : A.PosDef) (B : Matrix (Fin n) (Fin k) 𝕜) :
    ∃ X, E.solveSelfAdjoint u e t N B = .ok X ∧ A * X = B := by
  rcases llt_cases E t A hA.1 with ⟨_, M, hM, hg⟩ | ⟨h, _⟩
  · have hu := unit_of_gram_posDef t (part t M) (by rw [hg]; exact hA)
    have hu' : IsUnit ((part t M)ᴴ).det := by rw [det_conjTranspose]; exact hu.star
    unfold EigenLib.solveSelfAdjoint
    rw [selfAdj_eq hs, hM]
    cases t with
    | lower =>
      refine ⟨_, rfl, ?_⟩
      rw [← hg, gram, Matrix.mul_assoc, ← Matrix.mul_assoc (part .lower M)ᴴ, mul_nonsing_inv _ hu', Matrix.one_mul, ← Matrix.mul_assoc,
        mul_nonsing_inv _ hu, Matrix.one_mul]
    | upper =>
      refine ⟨_, rfl, ?_⟩
      rw [← hg, gram, Matrix.mul_assoc, ← Matrix.mul_assoc (part .upper M), mul_nonsing_inv _ hu, Matrix.one_mul, ← Matrix.mul_assoc,
        mul_nonsing_inv _ hu', Matrix.one_mul]
  · exact absurd hA h

theorem d_dInv_d (d : Fin n → ℝ) : (diagonal fun i => (d i : 𝕜)) * dInv d * (diagonal fun i => (d i : 𝕜)) = diagonal fun i => (d i : 𝕜) := by
  rw [dInv, diagonal_mul_diagonal, diagonal_mul_diagonal]
  congr 1
  funext i
  split
  · rename_i h; simp [h]
  · rename_i h
    have : (d i : 𝕜) ≠ 0 := by exact_mod_cast h
    push_cast
    field_simp

theorem solve_ldlt_ok (A : Matrix (Fin n) (Fin n) 𝕜) (hA : A.IsHermitian) (hok : (E.ldlt A).ok = true) (B Y : Matrix (Fin n) (Fin k) 𝕜) (hY : A * Y = B) :
    A * (((E.ldlt A).Lᴴ)⁻¹ * (dInv (E.ldlt A).d * ((E.ldlt A).L⁻¹ * B.submatrix (E.ldlt A).perm id)) : Matrix (Fin n) (Fin k) 𝕜).submatrix
      (E.ldlt A).perm.symm id = B := by
  have heq := E.ldlt_eq A hA hok
  obtain ⟨hL, h1⟩ := E.ldlt_lower A hA hok
  have hu := unit_of_tri .lower (E.ldlt A).L hL (fun i => by rw [h1 i]; exact one_ne_zero)
  have hu' : IsUnit ((E.ldlt A).Lᴴ).det := by rw [det_conjTranspose]; exact hu.star
  set σ := (E.ldlt A).perm
  set L := (E.ldlt A).L
  set d := (E.ldlt A).d
  have key : ∀ Z : Matrix (Fin n) (Fin k) 𝕜, A * Z.submatrix σ.symm id = ((A.submatrix σ σ) * Z).submatrix σ.symm id := by
    intro Z
    ext i j
    simp only [Matrix.mul_apply, submatrix_apply, id, Equiv.apply_symm_apply]
    rw [← Equiv.sum_comp σ fun x => A i x * Z (σ.symm x) j]
    simp
  have hB : B.submatrix σ id = L * diagonal (fun i => (d i : 𝕜)) * Lᴴ * Y.submatrix σ id := by
    rw [← heq, ← hY]
    ext i j
    simp only [Matrix.mul_apply, submatrix_apply, id]
    rw [← Equiv.sum_comp σ fun x => A (σ i) x * Y x j]
  rw [key, heq]
  have h2 : L * diagonal (fun i => (d i : 𝕜)) * Lᴴ * ((Lᴴ)⁻¹ * (dInv d * (L⁻¹ * B.submatrix σ id)) : Matrix (Fin n) (Fin k) 𝕜) = B.submatrix σ id := by
    rw [hB]
    have e1 : L⁻¹ * (L * diagonal (fun i => (d i : 𝕜)) * Lᴴ * Y.submatrix σ id) = diagonal (fun i => (d i : 𝕜)) * (Lᴴ * Y.submatrix σ id) := by
      simp only [Matrix.mul_assoc]
      rw [← Matrix.mul_assoc L⁻¹, nonsing_inv_mul _ hu, Matrix.one_mul]
    rw [e1]
    have e2 : Lᴴ * ((Lᴴ)⁻¹ * (dInv d * (diagonal (fun i => (d i : 𝕜)) * (Lᴴ * Y.submatrix σ id))) : Matrix (Fin n) (Fin k) 𝕜) =
        dInv d * (diagonal (fun i => (d i : 𝕜)) * (Lᴴ * Y.submatrix σ id)) := by
      rw [← Matrix.mul_assoc, mul_nonsing_inv _ hu', Matrix.one_mul]
    rw [Matrix.mul_assoc (L * _), e2]
    have e3 := d_dInv_d (𝕜 := 𝕜) d
    rw [Matrix.mul_assoc L (diagonal _), ← Matrix.mul_assoc (diagonal _) (dInv d), ← Matrix.mul_assoc (diagonal _ * dInv d), e3]
    simp only [Matrix.mul_assoc]
  rw [h2]
  ext i j
  simp

/-- A decomposition that succeeds shows the signs of the matrix. -/
theorem ldlt_pos_semidef (A : Matrix (Fin n) (Fin n) 𝕜) (hA : A.IsHermitian) (hok : (E.ldlt A).ok = true) (h : (E.ldlt A).pos = true) :
    A.PosSemidef := by
  have hd := (E.ldlt_pos A hA hok).mp h
  have heq := E.ldlt_eq A hA hok
  have h1 : (A.submatrix (E.ldlt A).perm (E.ldlt A).perm).PosSemidef := by
    rw [heq]
    exact (PosSemidef.diagonal fun i => RCLike.ofReal_nonneg.mpr (hd i)).mul_mul_conjTranspose_same _
  have h2 := h1.submatrix (E.ldlt A).perm.symm
  simpa [submatrix_submatrix] using h2

theorem ldlt_neg_semidef (A : Matrix (Fin n) (Fin n) 𝕜) (hA : A.IsHermitian) (hok : (E.ldlt A).ok = true) (h : (E.ldlt A).neg = true) :
    (-A).PosSemidef := by
  have hd := (E.ldlt_neg A hA hok).mp h
  have heq := E.ldlt_eq A hA hok
  have h1 : ((-A).submatrix (E.ldlt A).perm (E.ldlt A).perm).PosSemidef := by
    have : (-A).submatrix (E.ldlt A).perm (E.ldlt A).perm = (E.ldlt A).L * diagonal (fun i => ((-(E.ldlt A).d i : ℝ) : 𝕜)) * ((E.ldlt A).L)ᴴ := by
      have e : (diagonal fun i => ((-(E.ldlt A).d i : ℝ) : 𝕜)) = -diagonal (fun i => ((E.ldlt A).d i : 𝕜)) := by
        ext i j; simp [diagonal_apply]; split <;> simp
      rw [e, Matrix.mul_neg, Matrix.neg_mul, ← heq]
      ext i j; simp
    rw [this]
    exact (PosSemidef.diagonal fun i => RCLike.ofReal_nonneg.mpr (by linarith [hd i])).mul_mul_conjTranspose_same _
  have h2 := h1.submatrix (E.ldlt A).perm.symm
  simpa [submatrix_submatrix] using h2

theorem semidef_flags (A : Matrix (Fin n) (Fin n) 𝕜) (h : A.PosSemidef ∨ (-A).PosSemidef) :
    ¬ (((E.ldlt A).pos = false ∧ (E.ldlt A).neg = false) ∨ (E.ldlt A).ok = false) := by
  have hok := E.ldlt_semidef A h
  have hA : A.IsHermitian := by
    rcases h with h | h
    · exact h.1
    · have := h.1.neg; rwa [neg_neg] at this
  rintro (⟨h1, h2⟩ | h1)
  · have heq := E.ldlt_eq A hA hok
    obtain ⟨hL, h3⟩ := E.ldlt_lower A hA hok
    have hu := unit_of_tri .lower (E.ldlt A).L hL (fun i => by rw [h3 i]; exact one_ne_zero)
    have hD : (diagonal fun i => ((E.ldlt A).d i : 𝕜)) = (E.ldlt A).L⁻¹ * (A.submatrix (E.ldlt A).perm (E.ldlt A).perm) * ((E.ldlt A).L⁻¹)ᴴ := by
      rw [heq, Matrix.mul_assoc (E.ldlt A).L, ← Matrix.mul_assoc (E.ldlt A).L⁻¹, nonsing_inv_mul _ hu, Matrix.one_mul, Matrix.mul_assoc,
        ← conjTranspose_mul, nonsing_inv_mul _ hu, conjTranspose_one, Matrix.mul_one]
    rcases h with h | h
    · have h4 : (E.ldlt A).pos = true := (E.ldlt_pos A hA hok).mpr fun i => by
        have h5 := (h.submatrix (E.ldlt A).perm).mul_mul_conjTranspose_same (E.ldlt A).L⁻¹
        rw [← hD] at h5
        simpa using h5.diag_nonneg (i := i)
      rw [h4] at h1; cases h1
    · have h4 : (E.ldlt A).neg = true := (E.ldlt_neg A hA hok).mpr fun i => by
        have h5 := (h.submatrix (E.ldlt A).perm).mul_mul_conjTranspose_same (E.ldlt A).L⁻¹
        have h6 : (-A).submatrix (E.ldlt A).perm (E.ldlt A).perm = -(A.submatrix (E.ldlt A).perm (E.ldlt A).perm) := by ext i j; simp
        rw [h6, Matrix.mul_neg, Matrix.neg_mul, ← hD] at h5
        have h7 := h5.diag_nonneg (i := i)
        have h8 : (0 : 𝕜) ≤ ((-(E.ldlt A).d i : ℝ) : 𝕜) := by simpa using h7
        have := RCLike.ofReal_nonneg.mp h8
        linarith
      rw [h4] at h2; cases h2
  · rw [hok] at h1; cases h1

/-! ## Least squares -/

theorem rank_lt_iff (A : Matrix (Fin m) (Fin n) 𝕜) : A.rank < n ↔ ¬ Unique A := by
  have h1 := LinearMap.finrank_range_add_finrank_ker A.mulVecLin
  have h2 : A.rank = Module.finrank 𝕜 (LinearMap.range A.mulVecLin) := rfl
  rw [← h2, Module.finrank_fin_fun] at h1
  have h3 : Unique A ↔ LinearMap.ker A.mulVecLin = ⊥ := by
    rw [LinearMap.ker_eq_bot]
    exact Iff.rfl
  rw [h3, ← Submodule.finrank_eq_zero (R := 𝕜)]
  omega

theorem ls_exact (A : Matrix (Fin m) (Fin n) 𝕜) (B : Matrix (Fin m) (Fin k) 𝕜) (X Y : Matrix (Fin n) (Fin k) 𝕜) (h : LeastSquares A B X)
    (hY : A * Y = B) : A * X = B := by
  have h1 := h Y
  rw [hY, sub_self, sqNorm_zero] at h1
  exact sub_eq_zero.mp (sqNorm_eq_zero _ (le_antisymm h1 (sqNorm_nonneg _)))

/-! ## QR -/

theorem qrImpl_sq (A : Matrix (Fin m) (Fin n) 𝕜) : (part .upper (E.qrImpl A))ᴴ * part .upper (E.qrImpl A) = Aᴴ * A := by
  rw [← E.qr_sq A]
  ext a b
  simp only [Matrix.mul_apply, conjTranspose_apply]
  by_cases h : m < n
  · symm
    refine Finset.sum_of_injOn (Fin.castLE h.le) (fun a _ b _ e => Fin.castLE_injective h.le e) (fun _ _ => Finset.mem_univ _) ?_ ?_
    · intro l _ hl
      have : ¬ l.1 < m := fun h => hl ⟨⟨l.1, h⟩, Finset.mem_univ _, rfl⟩
      simp [EigenLib.qrImpl, h, part, this]
    · intro l _
      simp [EigenLib.qrImpl, h, part]
  · have hle : n ≤ m := by omega
    refine Finset.sum_of_injOn (Fin.castLE hle) (fun a _ b _ e => Fin.castLE_injective hle e) (fun _ _ => Finset.mem_univ _) ?_ ?_
    · intro l _ hl
      have h2 : ¬ l.1 < n := fun h => hl ⟨⟨l.1, h⟩, Finset.mem_univ _, rfl⟩
      have h3 : ¬ l.1 ≤ b.1 := by have := b.2; omega
      simp [part, Tri.Has, h3]
    · intro l _
      simp only [EigenLib.qrImpl, of_apply, h, part, Fin.val_castLE, dite_false]
      rfl

theorem qrImpl_diag (A : Matrix (Fin m) (Fin n) 𝕜) : RealDiag (E.qrImpl A) := by
  intro i j hij
  simp only [EigenLib.qrImpl, of_apply]
  split
  · split
    · exact E.qr_diag A _ _ hij
    · simp
  · exact E.qr_diag A _ _ hij

theorem part_conj (M : Matrix (Fin n) (Fin n) 𝕜) : part .lower Mᴴ = (part .upper M)ᴴ := by
  ext i j
  simp only [part, conjTranspose_apply, Tri.Has]
  by_cases h : j.1 ≤ i.1 <;> simp [h]

theorem lq_sq (A : Matrix (Fin m) (Fin n) 𝕜) : E.lq A * (E.lq A)ᴴ = A * Aᴴ := by
  unfold EigenLib.lq
  rw [part_conj, conjTranspose_conjTranspose, qrImpl_sq, conjTranspose_conjTranspose]

theorem lq_tri (A : Matrix (Fin m) (Fin n) 𝕜) : IsTri .lower (E.lq A) := isTri_part _ _

theorem realDiag_part (t : Tri) (M : Matrix (Fin m) (Fin n) 𝕜) (h : RealDiag M) : RealDiag (part t M) := by
  intro i j hij
  simp only [part]
  split
  · exact h i j hij
  · simp

theorem lq_diag (A : Matrix (Fin m) (Fin n) 𝕜) : RealDiag (E.lq A) := by
  refine realDiag_part _ _ fun i j hij => ?_
  rw [conjTranspose_apply]
  have := qrImpl_diag E Aᴴ j i hij.symm
  simp [this]

/-- Independent columns leave no zero on the diagonal of the triangle. -/
theorem qr_diag_ne (A : Matrix (Fin m) (Fin n) 𝕜) (hle : n ≤ m) (hu : Unique A) (i : Fin m) (j : Fin n) (hij : i.1 = j.1) : E.qr A i j ≠ 0 := by
  have h1 : IsUnit (part .upper (E.qrImpl A)).det := by
    have h2 : (Aᴴ * A).PosDef := by
      refine PosDef.conjTranspose_mul_self A ?_
      intro x y h
      exact hu x y h
    refine unit_of_gram_posDef .upper _ ?_
    rw [gram, qrImpl_sq]
    exact h2
  have h3 : (part .upper (E.qrImpl A)).det = ∏ i, part .upper (E.qrImpl A) i i := by
    rw [Matrix.det_of_isUpperTriangular]
    intro a b hab
    exact isTri_part .upper (E.qrImpl A) a b (by simpa [Tri.Has] using hab)
  rw [h3, isUnit_iff_ne_zero, Finset.prod_ne_zero_iff] at h1
  have h4 := h1 j (Finset.mem_univ _)
  have h5 : ¬ m < n := by omega
  have h6 : E.qrImpl A j j = E.qr A i j := by
    simp only [EigenLib.qrImpl, of_apply, h5, dite_false]
    congr 1
    exact Fin.ext hij.symm
  simpa [part, Tri.Has, h6] using h4

end OpenKalman.EigenHooks
