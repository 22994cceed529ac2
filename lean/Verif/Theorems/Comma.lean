import Verif.Proof.Comma

/-!
# C146: a comma initialiser writes the tableau that it spells

`x << a, b, c, …` gives `x` the values of the matrix that the blocks form if they are laid out in rows of full width, and nothing else is accepted; a mean is wrapped, and a
diagonal matrix or covariance becomes the matrix of these values.
-/

namespace OpenKalman.Comma

variable {α : Type}

/-! ## Matrices -/

/-- Every tableau is accepted, and written as it stands. -/
theorem C146_fill {rows cols : ℕ} (M : ℕ → ℕ → α) (t : List (Row α)) (b : Block α) (bs : List (Block α)) (ht : Tableau rows cols t) (hb : blocksOf t = b :: bs)
    (hp : ∀ c ∈ b :: bs, c.Proper) :
    ∃ N, fill rows cols M b bs = .ok N ∧ ∀ i j, i < rows → j < cols → some (N i j) = tabVal t i j := by
  obtain ⟨N, h1, h2, _⟩ := fill_tableau M t b bs ht hb hp
  exact ⟨N, h1, h2⟩

/-- Nothing but a tableau is accepted. -/
theorem C146_only_tableaux {rows cols : ℕ} (M : ℕ → ℕ → α) (b : Block α) (bs : List (Block α)) (hcols : 0 < cols) (hp : ∀ c ∈ b :: bs, c.Proper) :
    (∃ N, fill rows cols M b bs = .ok N) ↔ ∃ t, Tableau rows cols t ∧ blocksOf t = b :: bs := by
  constructor
  · rintro ⟨N, h⟩
    exact fill_accepted hp hcols h
  · rintro ⟨t, ht, hb⟩
    obtain ⟨N, h, _⟩ := fill_tableau M t b bs ht hb hp
    exact ⟨N, h⟩

/-- What was in the matrix before does not matter. -/
theorem C146_overwrites {rows cols : ℕ} (M M' N N' : ℕ → ℕ → α) (b : Block α) (bs : List (Block α)) (hcols : 0 < cols) (hp : ∀ c ∈ b :: bs, c.Proper)
    (h : fill rows cols M b bs = .ok N) (h' : fill rows cols M' b bs = .ok N') : ∀ i j, i < rows → j < cols → N i j = N' i j := by
  obtain ⟨t, ht, hb⟩ := fill_accepted hp hcols h
  obtain ⟨K, h1, h2, _⟩ := fill_tableau M t b bs ht hb hp
  obtain ⟨K', h1', h2', _⟩ := fill_tableau M' t b bs ht hb hp
  rw [h] at h1
  rw [h'] at h1'
  cases h1
  cases h1'
  intro i j hi hj
  exact Option.some_injective _ ((h2 i j hi hj).trans (h2' i j hi hj).symm)

/-- The numbers `0, 1, 2, …` of a matrix of `cols` columns, as a tableau. -/
def numbers (rows cols : ℕ) (a : ℕ → ℕ → α) : List (Row α) := (List.range rows).map fun i => ⟨1, (List.range cols).map fun j => Block.num (a i j)⟩

theorem numbers_tableau (rows cols : ℕ) (a : ℕ → ℕ → α) (hc : 0 < cols) : Tableau rows cols (numbers rows cols a) := by
  constructor
  · intro r hr
    obtain ⟨i, _, rfl⟩ := List.mem_map.1 hr
    refine ⟨by simp; omega, fun b hb => ?_, ?_⟩
    · obtain ⟨j, _, rfl⟩ := List.mem_map.1 hb
      rfl
    · simp [width, Block.num, Function.comp_def]
  · simp [total, numbers, Function.comp_def]

/-- Two numbers over a block of one row and two columns, beside nothing else: `x << 1, 2, b`. -/
example : Tableau 2 2 [⟨1, [Block.num 1, Block.num 2]⟩, ⟨1, [⟨1, 2, fun _ j => 3 + j⟩]⟩] ∧ ∀ i j, i < 2 → j < 2 →
    tabVal [⟨1, [Block.num 1, Block.num 2]⟩, ⟨1, [⟨1, 2, fun _ j => 3 + j⟩]⟩] i j = some (1 + 2 * i + j) := by
  constructor
  · refine ⟨?_, rfl⟩
    intro r hr
    fin_cases hr
    · exact ⟨by simp, by simp [Block.num], rfl⟩
    · exact ⟨by simp, by simp, rfl⟩
  · intro i j hi hj
    interval_cases i <;> interval_cases j <;> rfl

/-- Three numbers do not fill a matrix of two rows and two columns. -/
example (M : ℕ → ℕ → ℕ) : fill 2 2 M (Block.num 1) [Block.num 2, Block.num 3] = .error .assertion := rfl

/-! ## Means -/

/-- A mean has the wrapped values. -/
theorem C146_mean {rows cols : ℕ} (wrap : (ℕ → ℕ → α) → ℕ → ℕ → α) (M : ℕ → ℕ → α) (t : List (Row α)) (b : Block α) (bs : List (Block α)) (ht : Tableau rows cols t)
    (hb : blocksOf t = b :: bs) (hp : ∀ c ∈ b :: bs, c.Proper) :
    ∃ N, (∀ i j, i < rows → j < cols → some (N i j) = tabVal t i j) ∧ meanFill wrap rows cols M b bs = .ok (wrap N) := by
  obtain ⟨N, h1, h2, _⟩ := fill_tableau M t b bs ht hb hp
  exact ⟨N, h2, by simp [meanFill, h1, Except.map]⟩

/-- The wrapping of the examples: every value modulo three. -/
def mod3 (N : ℕ → ℕ → ℕ) : ℕ → ℕ → ℕ := fun i j => N i j % 3

/-- `(x << a, b).finished()` does not have them. -/
theorem C146_finished_violated : ¬ ∀ (wrap : (ℕ → ℕ → ℕ) → ℕ → ℕ → ℕ) (rows cols : ℕ) (M : ℕ → ℕ → ℕ) (b : Block ℕ) (bs : List (Block ℕ)),
    meanFinished wrap rows cols M b bs = meanFill wrap rows cols M b bs := by
  intro h
  have h1 := h mod3 2 1 (fun _ _ => 0) (Block.num 1) [Block.num 5]
  have h2 : meanFinished mod3 2 1 (fun _ _ => 0) (Block.num 1) [Block.num 5] = .ok (write (write (fun _ _ => 0) 0 0 (Block.num 1)) 1 0 (Block.num 5)) := rfl
  have h3 : meanFill mod3 2 1 (fun _ _ => 0) (Block.num 1) [Block.num 5] = .ok (mod3 (write (write (fun _ _ => 0) 0 0 (Block.num 1)) 1 0 (Block.num 5))) := rfl
  rw [h2, h3] at h1
  have h4 := congrFun (congrFun (Except.ok.inj h1) 1) 0
  revert h4
  decide

/-- With a single block it has, and so it has if the values spelt need no wrapping. -/
theorem C146_finished_partial (wrap : (ℕ → ℕ → α) → ℕ → ℕ → α) (rows cols : ℕ) (M : ℕ → ℕ → α) (b : Block α) (bs : List (Block α))
    (h : bs = [] ∨ ∀ N, fill rows cols M b bs = .ok N → wrap N = N) : meanFinished wrap rows cols M b bs = meanFill wrap rows cols M b bs := by
  rcases h with rfl | h
  · rfl
  · cases bs with
    | nil => rfl
    | cons c bs =>
      simp only [meanFinished, meanFill]
      cases hf : fill rows cols M b (c :: bs) with
      | error e => rfl
      | ok N => simp [Except.map, h N hf]

/-- The numbers 1 and 2 need no wrapping. -/
example (N : ℕ → ℕ → ℕ) (h : fill 2 1 (fun _ _ => 0) (Block.num 1) [Block.num 2] = .ok N) : mod3 N = N := by
  have h2 : fill 2 1 (fun _ _ => 0) (Block.num 1) [Block.num 2] = .ok (write (write (fun _ _ => 0) 0 0 (Block.num 1)) 1 0 (Block.num 2)) := rfl
  rw [h2] at h
  cases h
  funext i j
  show write (write (fun _ _ => 0) 0 0 (Block.num 1)) 1 0 (Block.num 2) i j % 3 = write (write (fun _ _ => 0) 0 0 (Block.num 1)) 1 0 (Block.num 2) i j
  refine Nat.mod_eq_of_lt ?_
  unfold write
  split
  · show 2 < 3
    omega
  · split
    · show 1 < 3
      omega
    · show 0 < 3
      omega

/-- Nor does a mean whose initialiser is kept and continued. -/
theorem C146_kept_violated : ¬ ∀ (wrap : (ℕ → ℕ → ℕ) → ℕ → ℕ → ℕ) (rows cols : ℕ) (M : ℕ → ℕ → ℕ) (b : Block ℕ) (bs cs : List (Block ℕ)), bs ≠ [] →
    meanContinue wrap rows cols M b bs cs = meanFill wrap rows cols M b (bs ++ cs) := by
  intro h
  have h1 := h mod3 3 1 (fun _ _ => 0) (Block.num 1) [Block.num 4] [Block.num 5] (by simp)
  have h2 : meanContinue mod3 3 1 (fun _ _ => 0) (Block.num 1) [Block.num 4] [Block.num 5] =
      .ok (write (mod3 (write (write (fun _ _ => 0) 0 0 (Block.num 1)) 1 0 (Block.num 4))) 2 0 (Block.num 5)) := rfl
  have h3 : meanFill mod3 3 1 (fun _ _ => 0) (Block.num 1) ([Block.num 4] ++ [Block.num 5]) =
      .ok (mod3 (write (write (write (fun _ _ => 0) 0 0 (Block.num 1)) 1 0 (Block.num 4)) 2 0 (Block.num 5))) := rfl
  rw [h2, h3] at h1
  have h4 := congrFun (congrFun (Except.ok.inj h1) 2) 0
  revert h4
  decide

/-! ## Diagonal matrices -/

/-- The diagonal matrix of the values. -/
theorem C146_diagonal [Zero α] {n : ℕ} (M : ℕ → ℕ → α) (t : List (Row α)) (b : Block α) (bs : List (Block α)) (ht : Tableau n 1 t) (hb : blocksOf t = b :: bs)
    (hp : ∀ c ∈ b :: bs, c.Proper) :
    ∃ D, diagFill n M b bs = .ok D ∧ ∀ i j, i < n → j < n → some (D i j) = if i = j then tabVal t i 0 else some 0 := by
  obtain ⟨N, h1, h2, _⟩ := fill_tableau M t b bs ht hb hp
  refine ⟨_, by rw [diagFill, h1]; rfl, fun i j hi _ => ?_⟩
  by_cases h : i = j
  · dsimp only
    rw [if_pos h, if_pos h, h2 i 0 hi (by omega)]
  · dsimp only
    rw [if_neg h, if_neg h]

/-- An initialiser that is kept refers to a matrix that is gone. -/
theorem C146_kept_diagonal_violated : ¬ ∀ (n : ℕ) (M : ℕ → ℕ → ℕ) (b : Block ℕ) (bs cs : List (Block ℕ)), bs ≠ [] → diagContinue n M b bs cs = diagFill n M b (bs ++ cs) := by
  intro h
  have h1 := h 3 (fun _ _ => 0) (Block.num 1) [Block.num 4] [Block.num 5] (by simp)
  have h2 : diagContinue 3 (fun _ _ => 0) (Block.num 1) [Block.num 4] [Block.num 5] = .error .undefined := rfl
  have h3 : diagFill 3 (fun _ _ => 0) (Block.num 1) ([Block.num 4] ++ [Block.num 5]) = .ok _ := rfl
  rw [h2, h3] at h1
  cases h1

/-! ## Covariances -/

open CovArith Matrix
open scoped ComplexOrder

set_option linter.unusedSectionVars false

variable {𝕜 : Type} [RCLike 𝕜]

/-- The values spelt are those of the matrix `P`: all of them, or the diagonal if the covariance is stored as a diagonal. -/
def Spells {n : ℕ} (form : Form) (t : List (Row 𝕜)) (P : Mat 𝕜 n) : Prop :=
  match form with
  | .diag | .cdiag => Tableau n 1 t ∧ (∀ i : Fin n, tabVal t i 0 = some (P i i)) ∧ ∀ i j, i ≠ j → P i j = 0
  | .tri _ | .herm _ => Tableau n n t ∧ ∀ i j : Fin n, tabVal t i j = some (P i j)

theorem selfAdjoint_of_isHermitian {n : ℕ} (up : Bool) {P : Mat 𝕜 n} (h : P.IsHermitian) : selfAdjoint up P = P := by
  ext i j
  have := h.apply i j
  cases up <;> simp only [selfAdjoint, Matrix.of_apply, if_true, Bool.false_eq_true, if_false] <;> split <;> first | rfl | exact this

theorem triPart_of_isTri {n : ℕ} {up : Bool} {P : Mat 𝕜 n} (h : IsTri up P) : triPart up P = P := by
  ext i j
  cases up <;> simp only [triPart, Matrix.of_apply, if_true, Bool.false_eq_true, if_false] <;> split <;> first
    | rfl
    | exact (h i j (by rename_i hij; simpa using hij)).symm

theorem toMat_eq {n : ℕ} {N : ℕ → ℕ → 𝕜} {t : List (Row 𝕜)} {P : Mat 𝕜 n} (h : ∀ i j, i < n → j < n → some (N i j) = tabVal t i j) (hP : ∀ i j : Fin n, tabVal t i j = some (P i j)) :
    toMat n N = P := by
  ext i j
  exact Option.some_injective _ ((h i j i.2 j.2).trans (hP i j))

theorem diag_eq {n : ℕ} {N : ℕ → ℕ → 𝕜} {t : List (Row 𝕜)} {P : Mat 𝕜 n} (h : ∀ i j, i < n → j < 1 → some (N i j) = tabVal t i j) (hP : ∀ i : Fin n, tabVal t i 0 = some (P i i))
    (h0 : ∀ i j, i ≠ j → P i j = 0) : (diagonal fun i : Fin n => N i 0) = P := by
  ext i j
  by_cases hij : i = j
  · subst hij
    rw [diagonal_apply_eq]
    exact Option.some_injective _ ((h i 0 i.2 (by omega)).trans (hP i))
  · rw [diagonal_apply_ne _ hij, h0 i j hij]

/-- A covariance is the matrix spelt, if that is Hermitian, positive definite if a factor is stored; the covariance not a complex diagonal. -/
theorem C146_covariance_partial {n : ℕ} {lib : CovArith.Lib 𝕜} (hl : lib.Ok) (form : Form) (hform : form ≠ .cdiag) (M : ℕ → ℕ → 𝕜) (t : List (Row 𝕜)) (b : Block 𝕜) (bs : List (Block 𝕜))
    (P : Mat 𝕜 n) (ht : Spells form t P) (hb : blocksOf t = b :: bs) (hp : ∀ c ∈ b :: bs, c.Proper) (hP : P.IsHermitian) (hpd : ∀ up, form = .tri up → P.PosDef) :
    ∃ c, covFill lib false form n M b bs = .ok c ∧ c.Represents P := by
  cases form with
  | cdiag => exact absurd rfl hform
  | diag =>
    obtain ⟨ht, h1, h0⟩ := ht
    obtain ⟨N, k1, k2, _⟩ := fill_tableau M t b bs ht hb hp
    refine ⟨_, by rw [covFill, k1]; rfl, ?_⟩
    show P = _
    exact (diag_eq k2 h1 h0).symm
  | tri up =>
    obtain ⟨ht, h1⟩ := ht
    obtain ⟨N, k1, k2, _⟩ := fill_tableau M t b bs ht hb hp
    refine ⟨_, by rw [covFill, k1]; rfl, ?_⟩
    show P = gram up (lib.chol up (selfAdjoint up (toMat n N)))
    rw [toMat_eq k2 h1, selfAdjoint_of_isHermitian up hP]
    exact (hl.chol P up (hpd up rfl)).2.1.symm
  | herm up =>
    obtain ⟨ht, h1⟩ := ht
    obtain ⟨N, k1, k2, _⟩ := fill_tableau M t b bs ht hb hp
    refine ⟨_, by rw [covFill, k1]; rfl, ?_⟩
    show P = selfAdjoint up (toMat n N)
    rw [toMat_eq k2 h1, selfAdjoint_of_isHermitian up hP]

/-- A square-root covariance is the matrix spelt, if that is triangular, with a nonnegative diagonal if its square is stored. -/
theorem C146_square_root {n : ℕ} (lib : CovArith.Lib 𝕜) (form : Form) (M : ℕ → ℕ → 𝕜) (t : List (Row 𝕜)) (b : Block 𝕜) (bs : List (Block 𝕜))
    (L : Mat 𝕜 n) (ht : Spells form t L) (hb : blocksOf t = b :: bs) (hp : ∀ c ∈ b :: bs, c.Proper) (hL : ∀ up, form = .tri up ∨ form = .herm up → IsTri up L)
    (hnn : ∀ up, form = .herm up → ∀ i, 0 ≤ L i i) :
    ∃ c, covFill lib true form n M b bs = .ok c ∧ c.Represents L := by
  cases form with
  | cdiag =>
    obtain ⟨ht, h1, h0⟩ := ht
    obtain ⟨N, k1, k2, _⟩ := fill_tableau M t b bs ht hb hp
    refine ⟨_, by rw [covFill, k1]; rfl, ?_⟩
    show L = _
    exact (diag_eq k2 h1 h0).symm
  | diag =>
    obtain ⟨ht, h1, h0⟩ := ht
    obtain ⟨N, k1, k2, _⟩ := fill_tableau M t b bs ht hb hp
    refine ⟨_, by rw [covFill, k1]; rfl, ?_⟩
    show L = _
    exact (diag_eq k2 h1 h0).symm
  | tri up =>
    obtain ⟨ht, h1⟩ := ht
    obtain ⟨N, k1, k2, _⟩ := fill_tableau M t b bs ht hb hp
    refine ⟨_, by rw [covFill, k1]; rfl, ?_⟩
    show L = triPart up (toMat n N)
    rw [toMat_eq k2 h1, triPart_of_isTri (hL up (Or.inl rfl))]
  | herm up =>
    obtain ⟨ht, h1⟩ := ht
    obtain ⟨N, k1, k2, _⟩ := fill_tableau M t b bs ht hb hp
    refine ⟨_, by rw [covFill, k1]; rfl, ?_⟩
    show IsChol up (gram up (triPart up (toMat n N))) L
    rw [toMat_eq k2 h1, triPart_of_isTri (hL up (Or.inr rfl))]
    exact ⟨hL up (Or.inr rfl), rfl, hnn up rfl⟩

/-- The statement for covariances in full. -/
def C146_covariance_statement : Prop :=
  ∀ (n : ℕ) (lib : CovArith.Lib ℂ), lib.Ok → ∀ (form : Form) (M : ℕ → ℕ → ℂ) (t : List (Row ℂ)) (b : Block ℂ) (bs : List (Block ℂ)) (P : Mat ℂ n),
    Spells form t P → blocksOf t = b :: bs → (∀ c ∈ b :: bs, c.Proper) → P.PosDef → ∃ c, covFill lib false form n M b bs = .ok c ∧ c.Represents P

/-- A covariance stored as a complex diagonal is the square of what is spelt: `cov << 2` is the covariance 4. -/
theorem C146_complex_diagonal_violated : ¬ C146_covariance_statement := by
  intro h
  obtain ⟨lib, hl⟩ : ∃ lib : CovArith.Lib ℂ, lib.Ok := ⟨someLib, someLib_ok⟩
  have hpd : (diagonal fun _ => 2 : Mat ℂ 1).PosDef := PosDef.diagonal fun _ => by norm_num
  obtain ⟨c, h1, h2⟩ := h 1 lib hl .cdiag (fun _ _ => 0) [⟨1, [Block.num 2]⟩] (Block.num 2) [] (diagonal fun _ => 2)
    ⟨⟨by
        intro r hr
        rw [List.mem_singleton] at hr
        subst hr
        exact ⟨by simp, by simp [Block.num], rfl⟩, rfl⟩, fun i => by
        have : i = 0 := Subsingleton.elim _ _
        subst this
        simp [tabVal, rowVal, Block.num], fun i j hij => absurd (Subsingleton.elim i j) hij⟩ rfl
    (by simp [Block.num, Block.Proper]) hpd
  have h3 : covFill lib false .cdiag 1 (fun _ _ => 0) (Block.num 2) [] = .ok ⟨false, .cdiag, diagonal fun i : Fin 1 => write (fun _ _ => (0 : ℂ)) 0 0 (Block.num 2) i 0, false, false⟩ := rfl
  rw [h3] at h1
  cases h1
  have h4 : (diagonal fun _ => 2 : Mat ℂ 1) = (diagonal fun i : Fin 1 => write (fun _ _ => (0 : ℂ)) 0 0 (Block.num 2) i 0) * (diagonal fun i : Fin 1 => write (fun _ _ => (0 : ℂ)) 0 0 (Block.num 2) i 0)ᴴ := h2
  have h5 := congrFun (congrFun h4 0) 0
  rw [diagonal_conjTranspose, diagonal_mul_diagonal] at h5
  simp [write, Block.num] at h5

/-- The other triangle is not read: what is spelt there is lost. -/
theorem C146_other_triangle {n : ℕ} (lib : CovArith.Lib 𝕜) (root up : Bool) (M : ℕ → ℕ → 𝕜) (t t' : List (Row 𝕜)) (b b' : Block 𝕜) (bs bs' : List (Block 𝕜)) (form : Form)
    (hf : form = .tri up ∨ form = .herm up) (P P' : Mat 𝕜 n)
    (ht : Spells form t P) (hb : blocksOf t = b :: bs) (hp : ∀ c ∈ b :: bs, c.Proper) (ht' : Spells form t' P') (hb' : blocksOf t' = b' :: bs') (hp' : ∀ c ∈ b' :: bs', c.Proper)
    (heq : ∀ i j, (if up then i ≤ j else j ≤ i) → P i j = P' i j) : covFill lib root form n M b bs = covFill lib root form n M b' bs' := by
  have htri : triPart up P = triPart up P' := by
    ext i j
    have := heq i j
    cases up <;> simp only [triPart, Matrix.of_apply, if_true, Bool.false_eq_true, if_false] at this ⊢ <;> split <;> first
      | rfl
      | exact this ‹_›
  have hsa : selfAdjoint up P = selfAdjoint up P' := by
    ext i j
    have h1 := heq i j
    have h2 := heq j i
    cases up <;> simp only [selfAdjoint, Matrix.of_apply, if_true, Bool.false_eq_true, if_false] at h1 h2 ⊢ <;> split <;> first
      | exact h1 ‹_›
      | (rw [h2 (by rename_i h; exact (not_le.1 h).le)])
  rcases hf with rfl | rfl
  all_goals
    obtain ⟨ht, h1⟩ := ht
    obtain ⟨ht', h1'⟩ := ht'
    obtain ⟨N, k1, k2, _⟩ := fill_tableau M t b bs ht hb hp
    obtain ⟨N', k1', k2', _⟩ := fill_tableau M t' b' bs' ht' hb' hp'
    simp only [covFill, k1, k1', Except.map, toMat_eq k2 h1, toMat_eq k2' h1', htri, hsa]

/-- `cov << 4, 2, 2, 3` spells a positive definite matrix. -/
example : Spells (n := 2) (.tri true) (numbers 2 2 fun i j => if i = j then (if i = 0 then 4 else 3) else (2 : ℝ)) !![4, 2; 2, 3] ∧ (!![4, 2; 2, 3] : Mat ℝ 2).IsHermitian := by
  refine ⟨⟨numbers_tableau 2 2 _ (by omega), fun i j => ?_⟩, ?_⟩
  · fin_cases i <;> fin_cases j <;> simp [numbers, List.range_succ, tabVal, rowVal, Block.num]
  · ext i j
    fin_cases i <;> fin_cases j <;> simp

end OpenKalman.Comma
