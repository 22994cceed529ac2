import Verif.Proof.Solve
import Verif.Theorems.LinAlg

/-!
# C42: `solve`

`lib` is the linear-algebra library's solver.  `Obj.WF` says that the compile-time tags of an object describe its elements truthfully.
-/

namespace OpenKalman.LinAlg
open Finset Classical Obj

variable {F : Type} [Field F] [StarRing F] [CharZero F] {a b x : Obj F}

/-- C42.  The shortcuts: if the matrix `A` is one-dimensional, square and (constant-)diagonal, or constant with a constant right-hand side, and its diagonal
elements are not zero, `solve` returns a solution of the right shape, whatever the library does. -/
theorem C42_solve_shortcuts (lib : Obj F → Obj F → Except Err (Arr F)) (unique exact : Bool) (ha : a.WF) (hb : b.WF) (hr : a.rows = b.rows)
    (hreq : solveRequires unique exact a b) (hu : b.zero → unique = false) (hbsq : b.constDiag → ¬ b.constObj → b.rows = b.cols)
    (h0r : 0 < a.rows) (h0c : 0 < a.cols) (hdiv : ∀ i < min a.rows a.cols, a.get i i ≠ 0)
    (hshape : (a.colsIs 1 ∧ (a.rowsIs 1 ∨ b.rowsIs 1)) ∨ (a.diagonal ∧ a.square) ∨ (a.constObj ∧ b.constObj)) :
    ∃ x, solve lib unique exact a b = .ok x ∧ Solves a.toArr b.toArr x.toArr := by
  obtain ⟨x, hx⟩ := solve_accepts lib unique exact ha hb hr hreq hu hbsq h0r h0c hdiv hshape
  obtain ⟨x', hx'⟩ := solve_accepts (fun _ _ => .error .illFormed) unique exact ha hb hr hreq hu hbsq h0r h0c hdiv hshape
  have hnz : ¬ a.zero := fun hz => hdiv 0 (by omega) (ha.zero_get hz h0r h0c)
  have heq : x = x' := by
    have : solve lib unique exact a b = solve (fun _ _ => .error .illFormed) unique exact a b := solve_shortcut_lib _ _ unique exact hshape
    rw [hx, hx'] at this
    cases this; rfl
  subst heq
  refine ⟨x, hx, ?_⟩
  refine solve_sound (fun _ _ => .error .illFormed) unique exact ha hb (by simp) (fun hz => absurd hz hnz) ?_ hbsq (by simp) (fun _ _ => Or.inl hr) (by simp) hx'
  intro hc
  rcases hshape with h | h | h
  · exact Or.inr (Or.inr h)
  · exact Or.inr (Or.inl (Or.inr (Or.inr (const_diagonal_oneDim hc h.1 hnz))))
  · exact Or.inl h.2

/-- C42.  Whatever branch is taken, a returned `X` solves the equation, if the library's solver does.  What is missing, each shown to fail below or above: an
inexact constant equation (`C42_solve_least_squares_partial`); a zero `A` with a nonzero `B`; a rectangular constant-diagonal `B`; a singular triangular `A`; a
complex constant-diagonal operand beside a Hermitian one; a one-by-one `A` beside a `B` with more rows. -/
theorem C42_solve_partial (lib : Obj F → Obj F → Except Err (Arr F)) (unique exact : Bool) (ha : a.WF) (hb : b.WF)
    (hlib : ∀ x, lib a b = .ok x → Solves a.toArr b.toArr x ∧ ((a.cplx || b.cplx) = false → ∀ i < x.rows, ∀ j < x.cols, star (x.get i j) = x.get i j))
    (hz : a.zero → ∀ i < b.rows, ∀ j < b.cols, b.get i j = 0)
    (hinexact : a.constObj → b.constObj ∨ a.constDiag ∨ (a.colsIs 1 ∧ (a.rowsIs 1 ∨ b.rowsIs 1)))
    (hbsq : b.constDiag → ¬ b.constObj → b.rows = b.cols)
    (htri : commonTri [a, b] = .none ∨ (a.rows = a.cols ∧ ∀ i < a.rows, a.get i i ≠ 0))
    (hsing : a.diagonal → a.rows = b.rows ∨ a.rows ≠ 1)
    (h1 : a.constDiag → b.hermitian → star a.constVal = a.constVal ∧ a.constVal ≠ 0)
    (h2 : b.constDiag → a.hermitian → star b.constVal = b.constVal ∧ b.constVal ≠ 0)
    (h : solve lib unique exact a b = .ok x) : Solves a.toArr b.toArr x.toArr :=
  solve_sound lib unique exact ha hb hlib hz hinexact hbsq (fun _ _ => htri) (fun hd _ => hsing hd)
    (fun _ _ hs _ hh hx => wrapped_hermitian ha hb hs hx hh h1 h2) h

omit [CharZero F] in
/-- C42.  With a zero right-hand side and uniqueness required, `solve` throws exactly when every element of `A` is zero. -/
theorem C42_solve_unique (lib : Obj F → Obj F → Except Err (Arr F)) (exact : Bool) (ha : a.WF) (hr : a.rows = b.rows) (hb : b.zero)
    (hreq : solveRequires true exact a b) (hc : ¬ a.constObj ∧ ¬ a.constDiag) (h0r : 0 < a.rows) (h0c : 0 < a.cols) :
    (solve lib true exact a b = .error .runtimeError ↔ ∀ i < a.rows, ∀ j < a.cols, a.get i j = 0) ∧
    ((∃ i < a.rows, ∃ j < a.cols, a.get i j ≠ 0) → solve lib true exact a b = .ok (zeroSol a b)) := by
  obtain ⟨v, hv, hvz⟩ := reduceAll_nonZero ha h0r h0c
  have e : solve lib true exact a b = if v = 0 then .error .runtimeError else .ok (zeroSol a b) := by
    unfold solve
    rw [if_neg (not_not.2 hreq), if_neg (by omega), if_pos hb, rowsMatch, if_neg (by omega), if_pos ⟨rfl, hc⟩, hv]
    rfl
  rw [e]
  constructor
  · rw [← hvz]
    constructor
    · intro h; by_contra h0; rw [if_neg h0] at h; cases h
    · intro h; rw [if_pos h]
  · rintro ⟨i, hi, j, hj, hne⟩
    rw [if_neg]
    intro h0
    exact hne (hvz.1 h0 i hi j hj)

omit [CharZero F] in
/-- C42.  Operands with different numbers of rows are rejected, except by the diagonal branch and the library (`C42_solve_mismatch_violated`). -/
theorem C42_solve_mismatch (lib : Obj F → Obj F → Except Err (Arr F)) (unique exact : Bool) (hne : a.rows ≠ b.rows)
    (hbr : b.zero ∨ a.zero ∨ a.constDiag ∧ a.square ∨ (a.constObj ∧ exact = false ∧ unique = false)) :
    solve lib unique exact a b = .error .illFormed ∨ solve lib unique exact a b = .error .domainError := by
  by_cases c1 : solveRequires unique exact a b
  swap
  · left; unfold solve; rw [if_pos c1]
  by_cases c2 : a.statRows = true ∧ b.statRows = true ∧ a.rows ≠ b.rows
  · left; unfold solve; rw [if_neg (not_not.2 c1), if_pos c2]
  right
  have hrm : ∀ y, rowsMatch a b y = .error .domainError := by
    intro y
    unfold rowsMatch
    rw [if_pos]
    refine ⟨?_, hne⟩
    cases h2 : a.statRows <;> cases h3 : b.statRows <;> simp_all
  unfold solve
  rw [if_neg (not_not.2 c1), if_neg c2]
  simp only [hrm]
  by_cases c3 : b.zero
  · rw [if_pos c3]
  rw [if_neg c3]
  by_cases c4 : a.zero
  · rw [if_pos c4]
  rw [if_neg c4]
  by_cases c5 : a.colsIs 1 ∧ (a.rowsIs 1 ∨ b.rowsIs 1)
  · rw [if_pos c5]
  rw [if_neg c5]
  by_cases c6 : a.constDiag ∧ (a.square ∨ (a.statCols = true ∧ b.statRows = true ∧ a.cols = b.rows))
  · rw [if_pos c6]
  rw [if_neg c6]
  by_cases c7 : a.constObj ∧ b.constObj
  · rw [if_pos c7]
  rw [if_neg c7]
  rcases hbr with h | h | h | h
  · exact absurd h c3
  · exact absurd h c4
  · exact absurd ⟨h.1, Or.inl h.2⟩ c6
  · rw [if_pos ⟨h.1, Or.inr (Or.inr ⟨h.2.1, Or.inl h.2.2⟩)⟩]

/-- C42.  A square constant `A` (including zero) with any right-hand side, exactness and uniqueness not being required: a returned `X` is a least-squares solution
of the right shape.  What is missing: a rectangular constant `A` (`C42_solve_rectangular_violated`). -/
theorem C42_solve_least_squares_partial {𝕜 : Type} [RCLike 𝕜] {a b x : Obj 𝕜} (lib : Obj 𝕜 → Obj 𝕜 → Except Err (Arr 𝕜)) (ha : a.WF) (hb : b.WF)
    (hc : a.constObj) (hsq : a.rows = a.cols) (hbsq : b.constDiag → ¬ b.constObj → b.rows = b.cols) (h : solve lib false false a b = .ok x) :
    LeastSquares a.toArr b.toArr x.toArr := solve_leastSquares lib ha hb hc hsq hbsq h

/-! ## Concrete cases -/

/-- A dense matrix of dynamic or static shape. -/
def exDense (r c : ℕ) (st : Bool) (g : ℕ → ℕ → ℝ) : Obj ℝ := dense ⟨r, c, g⟩ st st false

theorem exDense_wf (r c : ℕ) (st : Bool) (g : ℕ → ℕ → ℝ) : (exDense r c st g).WF := dense_wf (by simp)

theorem exDense_plain {r c : ℕ} {st : Bool} {g : ℕ → ℕ → ℝ} (h : 2 ≤ r ∨ 2 ≤ c) : ¬ (exDense r c st g).zero ∧ ¬ (exDense r c st g).oneDim ∧
    ¬ (exDense r c st g).constObj ∧ ¬ (exDense r c st g).constDiag := by
  have h1 : ¬ (exDense r c st g).zero := dense_not_zero
  have h2 : ¬ (exDense r c st g).oneDim := by
    unfold exDense; rw [dense_oneDim]; simp only; omega
  refine ⟨h1, h2, ?_, ?_⟩
  · rintro (h | h | h)
    · simp [exDense, dense] at h
    · exact h1 h
    · exact h2 h
  · rintro (h | h | h)
    · simp [exDense, dense] at h
    · exact h1 h
    · exact h2 h

/-- A three-by-three diagonal equation with a dense right-hand side. -/
example : ∃ x, solve (fun _ _ => .error .illFormed) false true (exDiag 3 3 fun i => i + 2) (exDense 3 2 true fun i j => i + j) = .ok x ∧
    Solves (exDiag 3 3 fun i => i + 2).toArr (exDense 3 2 true fun i j => i + j).toArr x.toArr := by
  refine C42_solve_shortcuts _ false true (exDiag_wf _ _ _) (exDense_wf _ _ _ _) rfl ?_ (fun h => absurd h (exDense_plain (r := 3) (c := 2) (by omega)).1)
    (fun h => absurd h (exDense_plain (r := 3) (c := 2) (by omega)).2.2.2) (by simp [exDiag]) (by simp [exDiag]) ?_ (Or.inr (Or.inl ⟨exDiag_diagonal _ _ _, ?_⟩))
  · exact ⟨Or.inl (exDiag_zero _ _ _), Or.inl (exDiag_zero _ _ _), Or.inl (exDiag_const (by omega))⟩
  · intro i hi
    simp only [exDiag, if_true]
    positivity
  · simp [square, exDiag]

/-- A constant `A` and a constant `B`, rectangular. -/
example : ∃ x, solve (fun _ _ => .error .illFormed) false false (mkConst (2 : ℝ) true 2 true 3 false false) (mkConst (12 : ℝ) true 2 true 4 true false) = .ok x ∧
    Solves (mkConst (2 : ℝ) true 2 true 3 false false).toArr (mkConst (12 : ℝ) true 2 true 4 true false).toArr x.toArr := by
  have hz : ¬ (mkConst (2 : ℝ) true 2 true 3 false false).zero := by simp [zero, mkConst]
  refine C42_solve_shortcuts _ false false (mkConst_wf (by simp)) (mkConst_wf (by simp)) rfl ?_ (fun _ => rfl)
    (fun _ h => absurd (mkConst_constObj ..) h) (by simp [mkConst]) (by simp [mkConst]) (by simp [mkConst]) (Or.inr (Or.inr ⟨mkConst_constObj .., mkConst_constObj ..⟩))
  refine ⟨Or.inl hz, Or.inl hz, ?_⟩
  right; right; right; right; right; right; rfl

/-- A lower triangular equation left to the library, whose solution is declared lower triangular. -/
example {x : Obj ℝ} (h : solve (fun _ _ => .ok ⟨2, 2, fun i j => if i = j then 1 else 0⟩) false true (exTri 2 true none) (exTri 2 true none) = .ok x) :
    Solves (exTri 2 true none).toArr (exTri 2 true none).toArr x.toArr := by
  have hw := exTri_wf 2 true none (by simp)
  have hcd : ¬ (exTri 2 true none).constDiag := by simp [constDiag, exTri, zero, oneDim, rowsIs, colsIs]
  refine C42_solve_partial _ false true hw hw ?_ (by simp [exTri, zero]) ?_ (fun h => absurd h hcd) ?_ (fun _ => Or.inl rfl) (fun h => absurd h hcd)
    (fun h => absurd h hcd) h
  · intro x hx
    cases hx
    refine ⟨⟨rfl, rfl, rfl, rfl, ?_⟩, by simp⟩
    intro i hi j hj
    simp only [exTri, Arr.mul] at hi hj ⊢
    interval_cases i <;> interval_cases j <;> simp
  · intro h; simp [constObj, exTri, zero, oneDim, rowsIs, colsIs] at h
  · right
    refine ⟨rfl, fun i hi => ?_⟩
    simp [exTri]

/-- A zero right-hand side with uniqueness required, for a matrix that is not zero. -/
example (lib : Obj ℝ → Obj ℝ → Except Err (Arr ℝ)) : solve lib true false (exDense 2 2 true fun i j => if i = 1 ∧ j = 0 then 7 else 0)
    (mkConst 0 true 2 true 3 true false) = .ok (zeroSol (exDense 2 2 true fun i j => if i = 1 ∧ j = 0 then 7 else 0) (mkConst 0 true 2 true 3 true false)) := by
  have hp := exDense_plain (r := 2) (c := 2) (st := true) (g := fun i j => if i = 1 ∧ j = 0 then 7 else 0) (by omega)
  refine (C42_solve_unique (a := exDense 2 2 true fun i j => if i = 1 ∧ j = 0 then 7 else 0) (b := mkConst 0 true 2 true 3 true false) lib false
    (exDense_wf _ _ _ _) rfl (by simp [zero, mkConst]) ⟨Or.inl hp.1, Or.inl hp.1, Or.inl hp.2.2.1⟩ ⟨hp.2.2.1, hp.2.2.2⟩
    (by simp [exDense, dense]) (by simp [exDense, dense])).2 ⟨1, by simp [exDense, dense], 0, by simp [exDense, dense], by simp [exDense, dense]⟩

/-- Different row counts. -/
example (lib : Obj ℝ → Obj ℝ → Except Err (Arr ℝ)) : solve lib false false (mkConst (0 : ℝ) true 2 false 3 false false) (exDense 4 2 false fun i j => i + j) =
    .error .illFormed ∨ solve lib false false (mkConst (0 : ℝ) true 2 false 3 false false) (exDense 4 2 false fun i j => i + j) = .error .domainError :=
  C42_solve_mismatch lib false false (by simp [mkConst, exDense, dense]) (Or.inr (Or.inl (by simp [zero, mkConst])))

theorem exConst_facts {m n : ℕ} {sn : Bool} (hm : 2 ≤ m) : ¬ (mkConst (2 : ℝ) true m true n sn false).zero ∧ ¬ (mkConst (2 : ℝ) true m true n sn false).constDiag ∧
    ¬ ((mkConst (2 : ℝ) true m true n sn false).rowsIs 1) ∧ (sn = false ∨ n ≠ 1 → (mkConst (2 : ℝ) true m true n sn false).triOf = .none) := by
  have h1 : ¬ (mkConst (2 : ℝ) true m true n sn false).zero := by simp [zero, mkConst]
  have h2 : ¬ (mkConst (2 : ℝ) true m true n sn false).oneDim := by
    simp only [oneDim, rowsIs, colsIs, square, mkConst]
    rintro (⟨⟨-, h⟩, -⟩ | ⟨h | ⟨-, -, h⟩, ⟨-, h'⟩ | ⟨-, h'⟩⟩)
    · omega
    · cases h
    · cases h
    · omega
    · omega
  have h3 : ¬ (mkConst (2 : ℝ) true m true n sn false).rowsIs 1 := by simp only [rowsIs, mkConst]; omega
  refine ⟨h1, ?_, h3, ?_⟩
  · rintro (⟨-, h⟩ | h | h)
    · unfold diagonal triOf at h
      rw [if_neg (by rintro (h | h | h); exacts [h1 h, h2 h, by simp [mkConst] at h])] at h
      split_ifs at h
      simp [mkConst] at h
    · exact h1 h
    · exact h2 h
  · intro hn
    unfold triOf
    rw [if_neg (by rintro (h | h | h); exacts [h1 h, h2 h, by simp [mkConst] at h]), if_neg (by simp only [colsIs, mkConst]; rintro ⟨h, h'⟩; rcases hn with g | g; exacts [by simp [g] at h, g h']),
      if_neg h3]
    rfl

/-- An inexact constant equation with a square matrix: `X` exists and is a least-squares solution. -/
example (lib : Obj ℝ → Obj ℝ → Except Err (Arr ℝ)) {x : Obj ℝ} (h : solve lib false false (mkConst (2 : ℝ) true 3 true 3 true false)
    (exDense 3 2 true fun i j => i + j) = .ok x) : LeastSquares (mkConst (2 : ℝ) true 3 true 3 true false).toArr (exDense 3 2 true fun i j => i + j).toArr x.toArr :=
  C42_solve_least_squares_partial lib (mkConst_wf (by simp)) (exDense_wf _ _ _ _) (mkConst_constObj ..) rfl
    (fun h => absurd h (exDense_plain (r := 3) (c := 2) (by omega)).2.2.2) h

/-! ## Violations -/

/-- C42.  A constant `m × n` matrix with a right-hand side that is not constant: `X` has `m` rows instead of `n` if the width is dynamic, and the call does not
compile if it is static. -/
theorem C42_solve_rectangular_violated (lib : Obj ℝ → Obj ℝ → Except Err (Arr ℝ)) (m n k : ℕ) (hm : 2 ≤ m) (hn : 2 ≤ n) (hmn : m ≠ n) (hk : 2 ≤ k)
    (g : ℕ → ℕ → ℝ) :
    (∃ x, solve lib false false (mkConst 2 true m true n false false) (exDense m k true g) = .ok x ∧ x.rows = m) ∧
    solve lib false false (mkConst 2 true m true n true false) (exDense m k true g) = .error .illFormed := by
  have hp := exDense_plain (r := m) (c := k) (st := true) (g := g) (by omega)
  have key : ∀ sn : Bool, solve lib false false (mkConst 2 true m true n sn false) (exDense m k true g) =
      fixRows n sn (dense ((exDense m k true g).toArr.map (· / ((n : ℝ) * 2))) true true false) := by
    intro sn
    obtain ⟨h1, h2, h3, h4⟩ := exConst_facts (m := m) (n := n) (sn := sn) hm
    have hrm : ∀ y, rowsMatch (mkConst 2 true m true n sn false) (exDense m k true g) y = y := by
      intro y; unfold rowsMatch; rw [if_neg (by simp [mkConst, exDense, dense])]
    unfold solve
    rw [if_neg (not_not.2 ⟨Or.inl h1, Or.inl h1, by right; right; right; right; right; right; rfl⟩), if_neg (by simp [mkConst, exDense, dense]), if_neg hp.1,
      if_neg h1, if_neg (by simp only [colsIs, mkConst]; omega), if_neg (fun h => h2 h.1), if_neg (fun h => hp.2.2.1 h.2),
      if_pos ⟨mkConst_constObj .., Or.inr (Or.inr ⟨rfl, Or.inl rfl⟩)⟩, hrm]
    have hne : ((mkConst (2 : ℝ) true m true n sn false).cols : ℝ) * (mkConst (2 : ℝ) true m true n sn false).constVal ≠ 0 := by
      simp [mkConst, constVal]; omega
    unfold divE
    rw [if_neg hne]
    have hq : (exDense m k true g).scalarQuotient (((mkConst (2 : ℝ) true m true n sn false).cols : ℝ) * (mkConst (2 : ℝ) true m true n sn false).constVal)
        ((mkConst (2 : ℝ) true m true n sn false).valFixed && (mkConst (2 : ℝ) true m true n sn false).statCols) (mkConst (2 : ℝ) true m true n sn false).cplx =
        .ok (dense ((exDense m k true g).toArr.map (· / ((n : ℝ) * 2))) true true false) := by
      unfold scalarQuotient
      rw [if_neg hp.1, if_neg hp.2.2.1, if_neg hp.2.2.2, if_neg]
      · rfl
      · rintro ⟨-, h⟩
        have h' : (n : ℝ) * 2 = 1 := h
        have : n * 2 = 1 := by exact_mod_cast h'
        omega
    rw [hq]
    simp only [bind, Except.bind]
    have hbt : (exDense m k true g).triOf = .none := by
      unfold triOf
      rw [if_neg (by rintro (h | h | h); exacts [hp.1 h, hp.2.1 h, by simp [exDense, dense] at h]), if_neg (by simp only [colsIs, exDense, dense]; omega),
        if_neg (by simp only [rowsIs, exDense, dense]; omega)]
      rfl
    unfold wrapSolve
    rw [if_neg, if_neg]
    · rfl
    · rintro (h | h)
      · exact h2 h.1
      · exact hp.2.2.2 h.1
    · rw [not_not]
      unfold commonTri
      rw [if_neg, if_neg, if_neg]
      all_goals
        intro h
        have := h (exDense m k true g) (by simp)
        rw [hbt] at this
        simp at this
  refine ⟨⟨dense ((exDense m k true g).toArr.map (· / ((n : ℝ) * 2))) true true false, ?_, rfl⟩, ?_⟩
  · rw [key]
    unfold fixRows
    rw [if_neg (by simp)]
    rfl
  · rw [key]
    unfold fixRows
    rw [if_pos ⟨rfl, hmn⟩]
    rfl

/-- C42.  An exact solution is demanded of `0 X = B` with a nonzero `B` that is not constant: the zero matrix is returned, although no solution exists. -/
theorem C42_solve_exact_zero_violated (lib : Obj ℝ → Obj ℝ → Except Err (Arr ℝ)) : ∃ a b x : Obj ℝ, a.WF ∧ b.WF ∧ solve lib false true a b = .ok x ∧
    ∀ y, ¬ Solves a.toArr b.toArr y := by
  refine ⟨mkConst 0 true 2 true 2 true false, exDense 2 2 true fun i j => i + j, zeroSol (mkConst 0 true 2 true 2 true false) (exDense 2 2 true fun i j => i + j),
    mkConst_wf (by simp), exDense_wf _ _ _ _, ?_, ?_⟩
  · have hp := exDense_plain (r := 2) (c := 2) (st := true) (g := fun i j => (i + j : ℝ)) (by omega)
    unfold solve
    rw [if_neg (not_not.2 ⟨Or.inr (Or.inr rfl), Or.inr (Or.inl (by rintro (h | h); exacts [hp.2.2.1 h, hp.2.2.2 h])), Or.inr (Or.inl hp.2.2.2)⟩),
      if_neg (by simp [mkConst, exDense, dense]), if_neg hp.1, if_pos (by simp [zero, mkConst])]
    unfold rowsMatch
    rw [if_neg (by simp [mkConst, exDense, dense])]
  · intro y h
    have := h.2.2.2.2 1 (by simp [Arr.mul, mkConst]) 0 (by have := h.2.1; simp only [Arr.mul]; rw [this]; simp [exDense, dense])
    simp [Arr.mul, mkConst, exDense, dense] at this

/-- A Hermitian matrix with complex elements. -/
noncomputable def exHerm : Obj ℂ :=
  { rows := 2, cols := 2, get := fun i j => if i = j then 2 else 1, statRows := true, statCols := true, sq := false, cplx := true, herm := true, tri := .none,
    cst := none, cstFixed := false }

theorem exHerm_wf : exHerm.WF where
  sq := by simp [exHerm]
  lower := by simp [exHerm]
  upper := by simp [exHerm]
  diag := by simp [exHerm]
  cst := by simp [exHerm]
  herm := by
    intro _
    refine ⟨rfl, fun i _ j _ => ?_⟩
    simp only [exHerm]
    by_cases h : i = j
    · simp [h]
    · rw [if_neg h, if_neg (Ne.symm h)]; simp
  real := by simp [exHerm]
  realc := by simp [exHerm]
  vec0 := by simp [exHerm]
  vec1 := by simp [exHerm]

/-- The imaginary unit times the identity. -/
noncomputable def exIdI : Obj ℂ :=
  { rows := 2, cols := 2, get := fun i j => if i = j then Complex.I else 0, statRows := true, statCols := true, sq := false, cplx := true, herm := false,
    tri := .diagonal, cst := some Complex.I, cstFixed := true }

theorem exIdI_eq : exIdI = mkConstDiag Complex.I true 2 true 2 true true := by
  unfold mkConstDiag toDiagonalP
  rw [if_neg (by simp), if_neg (by simp [zero, mkConst]), if_pos (mkConst_constObj ..)]
  rfl

/-- The exact solution of `exHerm X = exIdI`. -/
noncomputable def exSol : Arr ℂ := ⟨2, 2, fun i j => if i = j then 2 * Complex.I / 3 else -Complex.I / 3⟩

/-- C42.  A complex Hermitian matrix and an imaginary multiple of the identity: the library's exact solution is not Hermitian, but is wrapped as if it were, which
spoils it. -/
theorem C42_solve_hermitian_complex_violated : exHerm.WF ∧ exIdI.WF ∧ Solves exHerm.toArr exIdI.toArr exSol ∧
    ∃ x, solve (fun _ _ => .ok exSol) false true exHerm exIdI = .ok x ∧ ¬ Solves exHerm.toArr exIdI.toArr x.toArr := by
  refine ⟨exHerm_wf, by rw [exIdI_eq]; exact mkConstDiag_wf (by simp), ⟨rfl, rfl, rfl, rfl, ?_⟩, ?_⟩
  · intro i hi j hj
    simp only [Arr.mul, exHerm, exIdI, exSol] at hi hj ⊢
    interval_cases i <;> interval_cases j <;> simp [Finset.sum_range_succ] <;> ring
  · have h1 : ¬ exHerm.zero := by simp [zero, exHerm]
    have h2 : ¬ exHerm.oneDim := by simp [oneDim, exHerm, rowsIs, colsIs]
    have h3 : ¬ exHerm.constObj := by rintro (h | h | h); exacts [by simp [exHerm] at h, h1 h, h2 h]
    have h4 : ¬ exHerm.constDiag := by rintro (h | h | h); exacts [by simp [exHerm] at h, h1 h, h2 h]
    have h5 : exHerm.triOf = .none := by
      unfold triOf
      rw [if_neg (by rintro (h | h | h); exacts [h1 h, h2 h, by simp [exHerm] at h]), if_neg (by simp [colsIs, exHerm]), if_neg (by simp [rowsIs, exHerm])]
      rfl
    have h6 : ¬ exIdI.zero := by simp [zero, exIdI]
    have key : ∃ x, solve (fun _ _ => .ok exSol) false true exHerm exIdI = .ok x ∧ x.rows = 2 ∧ x.cols = 2 ∧
        x.get = fun i j => if j ≤ i then exSol.get i j else star (exSol.get j i) := by
      unfold solve
      rw [if_neg (not_not.2 ⟨Or.inl h1, Or.inl h1, Or.inl h3⟩), if_neg (by simp [exHerm, exIdI]), if_neg h6, if_neg h1, if_neg (by simp [exHerm, colsIs]),
        if_neg (fun h => h4 h.1), if_neg (fun h => h3 h.1), if_neg (fun h => h3 h.1), if_neg (fun h => by have h' := h.1; unfold diagonal at h'; rw [h5] at h'; cases h')]
      simp only [bind, Except.bind]
      unfold wrapSolve
      have hd : exIdI.constDiag := Or.inl ⟨rfl, by simp [diagonal, triOf, exIdI]⟩
      have hh : exHerm.hermitian := ⟨Or.inr ⟨rfl, rfl, rfl⟩, Or.inl rfl⟩
      rw [if_neg, if_pos (Or.inr ⟨hd, hh⟩)]
      · unfold toHermitian
        rw [if_neg, if_neg]
        · simp only [bind, Except.bind]
          unfold fixRows
          rw [if_neg (by simp [exSol, dense, exHerm])]
          exact ⟨_, rfl, rfl, rfl, rfl⟩
        · simp [dense, exSol]
        · rintro ⟨-, h | ⟨-, h⟩⟩
          · simp [dense] at h
          · simp [dense, exHerm] at h
      · rw [not_not]
        unfold commonTri
        rw [if_neg, if_neg, if_neg]
        all_goals
          intro h
          have := h exHerm (by simp)
          rw [h5] at this
          simp at this
    obtain ⟨x, hx, hr, hc, hg⟩ := key
    refine ⟨x, hx, fun h => ?_⟩
    have := h.2.2.2.2 0 (by simp [Arr.mul, exHerm]) 1 (by simp only [Arr.mul]; omega)
    simp [Arr.mul, hg, exSol, exHerm, exIdI, Finset.sum_range_succ] at this
    have h' := congrArg Complex.im this
    rw [show (starRingEnd ℂ) 3 = 3 from Complex.conj_eq_iff_real.2 ⟨3, by norm_num⟩] at h'
    simp at h'
    norm_num at h'

/-- A diagonal matrix known to be square, of dynamic size. -/
def exDyn (n : ℕ) (d : ℕ → ℝ) : Obj ℝ := { exDiag n n d with statRows := false, statCols := false, sq := true }

/-- C42.  A diagonal matrix of dynamic size that turns out to be `1 × 1` is accepted beside a right-hand side with any number of rows: the equation `d X = B` has no
meaning, and the quotient of `B` by `d` is returned. -/
theorem C42_solve_mismatch_violated (lib : Obj ℝ → Obj ℝ → Except Err (Arr ℝ)) (m k : ℕ) (hm : 2 ≤ m) (g : ℕ → ℕ → ℝ) :
    ∃ x, solve lib false true (exDyn 1 fun _ => 2) (exDense m k false g) = .ok x ∧ x.rows = m := by
  have hp := exDense_plain (r := m) (c := k) (st := false) (g := g) (by omega)
  have h1 : ¬ (exDyn 1 fun _ => 2).zero := by simp [zero, exDyn, exDiag]
  have h2 : ¬ (exDyn 1 fun _ => 2).oneDim := by simp [oneDim, exDyn, rowsIs, colsIs]
  have h3 : ¬ (exDyn 1 fun _ => 2).constObj := by rintro (h | h | h); exacts [by simp [exDyn, exDiag] at h, h1 h, h2 h]
  have h4 : ¬ (exDyn 1 fun _ => 2).constDiag := by rintro (h | h | h); exacts [by simp [exDyn, exDiag] at h, h1 h, h2 h]
  have h5 : (exDyn 1 fun _ => 2).triOf = .diagonal := by simp [triOf, exDyn, exDiag]
  have h6 : (exDyn 1 fun _ => 2).diagonalOf = .ok (dense (exDyn 1 fun _ => 2).diagVec false true false) := by
    unfold diagonalOf
    rw [if_neg (by simp [exDyn, rowsIs]), if_neg (by rintro (h | h); exacts [h3 h, h4 h]), if_neg (by simp [exDyn, exDiag])]
    rfl
  have h7 : ∀ i < m, ∀ j < k, ∃ v, diagQuot ((exDense m k false g).get i j) ((dense (exDyn 1 fun _ => 2).diagVec false true false).get
      (if i < (dense (exDyn 1 fun _ => 2).diagVec false true false).rows then i else 0) 0) = .ok v := by
    intro i _ j _
    unfold diagQuot
    rw [if_neg]
    · exact ⟨_, rfl⟩
    · simp [dense, Arr.diagVec, exDyn, exDiag]
  have hbt : (exDense m k false g).triOf = .none := by
    unfold triOf
    rw [if_neg (by rintro (h | h | h); exacts [hp.1 h, hp.2.1 h, by simp [exDense, dense] at h]), if_neg (by simp [colsIs, exDense, dense]),
      if_neg (by simp [rowsIs, exDense, dense])]
    rfl
  have hsolve : solve lib false true (exDyn 1 fun _ => 2) (exDense m k false g) = wrapSolve (exDyn 1 fun _ => 2) (exDense m k false g)
      (dense ⟨m, k, fun i j => valueOr0 (diagQuot ((exDense m k false g).get i j) ((dense (exDyn 1 fun _ => 2).diagVec false true false).get
      (if i < (dense (exDyn 1 fun _ => 2).diagVec false true false).rows then i else 0) 0))⟩ false false false) := by
    unfold solve
    rw [if_neg (not_not.2 ⟨Or.inl h1, Or.inl h1, Or.inl h3⟩), if_neg (by simp [exDyn]), if_neg hp.1, if_neg h1, if_neg (by simp [exDyn, colsIs]),
      if_neg (fun h => h4 h.1), if_neg (fun h => h3 h.1), if_neg (fun h => h3 h.1), if_pos ⟨h5, Or.inl rfl⟩, h6]
    simp only [bind, Except.bind]
    unfold nAryBroadcast
    rw [if_neg (by simp [dense, Arr.diagVec, exDyn, exDiag]), if_neg (fun h => hp.2.2.1 h.1), if_pos (show ∀ i < (exDense m k false g).rows, ∀ j < (exDense m k false g).cols, _ from h7)]
    rfl
  rw [hsolve]
  unfold wrapSolve
  rw [if_neg, if_neg]
  · unfold fixRows
    rw [if_neg (by simp [exDyn])]
    exact ⟨_, rfl, rfl⟩
  · rintro (h | h)
    · exact h4 h.1
    · exact hp.2.2.2 h.1
  · rw [not_not]
    unfold commonTri
    rw [if_neg, if_neg, if_neg]
    all_goals
      intro h
      have := h (exDense m k false g) (by simp)
      rw [hbt] at this
      simp at this

end OpenKalman.LinAlg
