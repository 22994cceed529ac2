import Verif.Proof.LinAlgReduce
import Verif.Proof.LinAlgTensor
import Mathlib.Data.Real.Star
import Mathlib.Data.Complex.Basic
import Mathlib.Data.Complex.BigOperators

/-!
# C34–C39: trace, determinant, contraction, sum, transpose and conjugate, reductions

`Obj.WF` says that the compile-time tags of an object describe its elements truthfully; `Arr.Same` is equality of shape and of elements.
-/

namespace OpenKalman.LinAlg
open Finset Classical Obj

variable {F : Type} [Field F] [StarRing F] {o a b : Obj F}

/-! ## Objects for the concrete cases -/

/-- A diagonal matrix of static shape. -/
def exDiag (r c : ℕ) (d : ℕ → ℝ) : Obj ℝ :=
  { rows := r, cols := c, get := fun i j => if i = j then d i else 0, statRows := true, statCols := true, sq := false, cplx := false, herm := false,
    tri := .diagonal, cst := none, cstFixed := false }

theorem exDiag_wf (r c : ℕ) (d : ℕ → ℝ) : (exDiag r c d).WF where
  sq := by simp [exDiag]
  lower := by simp [exDiag]
  upper := by simp [exDiag]
  diag := by intro _ i _ j _ h; simp [exDiag, h]
  cst := by simp [exDiag]
  herm := by simp [exDiag]
  real := by intro _ i _ j _; simp
  realc := by simp
  vec0 := by simp [exDiag]
  vec1 := by simp [exDiag]

theorem exDiag_diagonal (r c : ℕ) (d : ℕ → ℝ) : (exDiag r c d).diagonal := by simp [diagonal, triOf, exDiag]

theorem exDiag_zero (r c : ℕ) (d : ℕ → ℝ) : ¬ (exDiag r c d).zero := by simp [zero, exDiag]

theorem exDiag_oneDim {r c : ℕ} {d : ℕ → ℝ} (h : 2 ≤ r ∨ 2 ≤ c) : ¬ (exDiag r c d).oneDim := by
  simp [oneDim, exDiag, rowsIs, colsIs, square]; omega

theorem exDiag_const {r c : ℕ} {d : ℕ → ℝ} (h : 2 ≤ r ∨ 2 ≤ c) : ¬ (exDiag r c d).constObj := by
  rintro (h' | h' | h')
  · simp [exDiag] at h'
  · exact exDiag_zero _ _ _ h'
  · exact exDiag_oneDim h h'

theorem exDiag_constDiag {r c : ℕ} {d : ℕ → ℝ} (h : 2 ≤ r ∨ 2 ≤ c) : ¬ (exDiag r c d).constDiag := by
  rintro (h' | h' | h')
  · simp [exDiag] at h'
  · exact exDiag_zero _ _ _ h'
  · exact exDiag_oneDim h h'

/-- A lower triangle filled with one value, dynamic or static. -/
def exTri (n : ℕ) (st : Bool) (c : Option ℝ) : Obj ℝ :=
  { rows := n, cols := n, get := fun i j => if j ≤ i then c.getD 1 else 0, statRows := st, statCols := st, sq := true, cplx := false, herm := false,
    tri := .lower, cst := c, cstFixed := false }

theorem exTri_wf (n : ℕ) (st : Bool) (c : Option ℝ) (h : st = true → n ≠ 1) : (exTri n st c).WF where
  sq := by simp [exTri]
  lower := by intro _ i _ j _ h; simp only [exTri]; rw [if_neg (by omega)]
  upper := by simp [exTri]
  diag := by simp [exTri]
  cst := by
    intro v hv i _ j _ hm
    simp only [exTri] at hv hm ⊢
    rw [if_pos (show j ≤ i from hm), hv]; rfl
  herm := by simp [exTri]
  real := by intro _ i _ j _; simp
  realc := by simp
  vec0 := by simp [exTri]
  vec1 := by rintro ⟨h1, h2⟩; simp only [exTri] at h1 h2; exact absurd h2 (h h1)

/-! ## C34 Trace -/

/-- C34.  Whenever `trace` returns a value, it is the sum of the diagonal elements, for every shape and every truthful tagging. -/
theorem C34_trace_sound (hw : o.WF) {v : F} (h : o.trace = .ok v) : v = ∑ i ∈ range (min o.rows o.cols), o.get i i := trace_sound hw h

/-- C34.  `trace` returns a value for every truthfully tagged object, except constants on a proper triangle and triangular objects that turn out to be
empty at run time. -/
theorem C34_trace_partial (hw : o.WF) (hc : o.cst = none ∨ o.constObj ∨ o.constDiag)
    (hne : o.triOf = .none ∨ o.empty ∨ o.cst.isSome = true ∨ 0 < min o.rows o.cols) :
    o.trace = .ok (∑ i ∈ range (min o.rows o.cols), o.get i i) := trace_ok hw hc hne

/-- C34.  The two exceptions: a constant on a proper triangle does not compile … -/
theorem C34_trace_constant_triangle_violated (hc : ¬ (o.cst = none ∨ o.constObj ∨ o.constDiag)) (he : ¬ o.empty) : o.trace = .error .illFormed :=
  trace_illFormed hc he

/-- C34.  … and a triangular object that is empty at run time is reduced over nothing. -/
theorem C34_trace_empty_violated (hw : o.WF) (hc : o.cst = none) (ht : o.triOf ≠ .none) (he : ¬ o.empty) (h0 : min o.rows o.cols = 0) :
    o.trace = .error .undefinedBehaviour := trace_undefined hw hc ht he h0

/-- A rectangular diagonal matrix. -/
example : (exDiag 3 5 fun i => i + 1).trace = .ok 6 := by
  rw [C34_trace_partial (exDiag_wf _ _ _) (Or.inl rfl) (by right; right; right; simp [exDiag])]
  simp [exDiag, Finset.sum_range_succ]; norm_num

/-- A rectangular constant. -/
example : (mkConst (7 : ℝ) true 4 true 2 false false).trace = .ok 14 := by
  rw [C34_trace_partial (mkConst_wf (by simp)) (Or.inr (Or.inl (mkConst_constObj ..))) (by right; right; right; simp [mkConst])]
  simp [mkConst]; norm_num

/-- The exceptions occur. -/
example : (exTri 3 true (some 2)).trace = .error .illFormed := by
  apply C34_trace_constant_triangle_violated
  · rintro (h | h | h)
    · simp [exTri] at h
    · simp [constObj, triOf, exTri, zero, oneDim, rowsIs, colsIs, square] at h
    · simp [constDiag, diagonal, triOf, exTri, zero, oneDim, rowsIs, colsIs, square] at h
  · simp [empty, exTri, rowsIs, colsIs]

example : (exTri 0 false none).trace = .error .undefinedBehaviour := by
  apply C34_trace_empty_violated (exTri_wf _ _ _ (by simp)) rfl
  · simp [triOf, exTri, zero, oneDim, rowsIs, colsIs, square]
  · simp [empty, exTri, rowsIs, colsIs]
  · simp [exTri]

/-! ## C35 Determinant -/

/-- C35.  Whenever `determinant` returns a value, the argument is square and the value is its determinant. -/
theorem C35_determinant_sound (hw : o.WF) {v : F} (h : o.determinant = .ok v) :
    o.rows = o.cols ∧ v = Matrix.det (Matrix.of fun i j : Fin o.rows => o.get i j) := determinant_sound hw h

/-- C35.  `determinant` returns a value for every square truthfully tagged object, with the same two exceptions as `trace`. -/
theorem C35_determinant_partial (hw : o.WF) (hc : o.cst = none ∨ o.constObj ∨ o.constDiag) (hsq : o.rows = o.cols)
    (hne : o.triOf = .none ∨ o.empty ∨ o.cst.isSome = true ∨ 0 < o.rows) :
    o.determinant = .ok (Matrix.det (Matrix.of fun i j : Fin o.rows => o.get i j)) := determinant_ok hw hc hsq hne

/-- A diagonal matrix: the product of the diagonal. -/
example : (exDiag 3 3 fun i => i + 2).determinant = .ok 24 := by
  rw [C35_determinant_partial (exDiag_wf _ _ _) (Or.inl rfl) rfl (by right; right; right; simp [exDiag])]
  congr 1
  have : (Matrix.of fun i j : Fin 3 => (exDiag 3 3 fun i => i + 2).get i j) = Matrix.diagonal fun i : Fin 3 => ((i : ℕ) : ℝ) + 2 := by
    ext i j
    by_cases h : i = j
    · simp [exDiag, h]
    · have : (i : ℕ) ≠ j := fun h' => h (Fin.ext h')
      simp [exDiag, h, this]
  show Matrix.det (Matrix.of fun i j : Fin 3 => (exDiag 3 3 fun i => i + 2).get i j) = 24
  rw [this, Matrix.det_diagonal, Fin.prod_univ_three]
  norm_num

/-- C35.  A triangular object that is empty at run time has determinant 1, but `determinant` reduces over nothing. -/
theorem C35_empty_violated : (exTri 0 false none).WF ∧ (exTri 0 false none).determinant = .error .undefinedBehaviour := by
  have hw := exTri_wf 0 false none (by simp)
  refine ⟨hw, ?_⟩
  have ht : (exTri 0 false none).triOf ≠ .none := by simp [triOf, exTri, zero, oneDim, rowsIs, colsIs, square]
  unfold determinant
  rw [if_neg (by simp [exTri]), if_neg, if_neg (by simp [exTri, rowsIs, colsIs]), if_neg (by simp [exTri]), if_neg, if_pos ht]
  · rw [dense_diag_sum .times (Or.inr rfl) hw rfl (by simp [exTri, rowsIs])]
    simp [detSquare, exTri]
  · simp [constDiag, exTri, zero, oneDim, rowsIs, colsIs]
  · simp [identity, valFixed, empty, exTri, rowsIs, colsIs]

/-! ## C36 Contraction -/

/-- C36.  `contract` returns the matrix product, truthfully tagged, on every path the library may take, unless a shortcut for diagonal arguments meets a shape it
does not handle: diagonal times constant needs a diagonal no taller than wide, constant times diagonal one no wider than tall, and diagonal times diagonal a
square product whose side is at most the contracted dimension. -/
theorem C36_contract_partial (path : ContractPath) (ha : a.WF) (hb : b.WF) (hdim : a.cols = b.rows)
    (hdc : noEarly a b → a.diagonal → b.constObj → a.rows ≤ a.cols ∧ 0 < b.cols)
    (hcd : noEarly a b → a.constObj → b.diagonal → ¬ (a.diagonal ∧ b.constObj) → b.cols ≤ b.rows ∧ 0 < a.rows)
    (hdd : noEarly a b → a.diagonal → b.diagonal → ¬ (a.diagonal ∧ b.constObj) → ¬ (a.constObj ∧ b.diagonal) →
      a.rows = b.cols ∧ a.rows ≤ a.cols ∧ 0 < a.rows) :
    ∃ r, contract path a b = .ok r ∧ r.toArr.Same (a.toArr.mul b.toArr) ∧ r.WF := contract_ok path ha hb hdim hdc hcd hdd

/-- C36.  For nonempty square operands there is no restriction. -/
theorem C36_contract_square (path : ContractPath) (ha : a.WF) (hb : b.WF) {n : ℕ} (hn : 0 < n) (h1 : a.rows = n) (h2 : a.cols = n) (h3 : b.rows = n)
    (h4 : b.cols = n) : ∃ r, contract path a b = .ok r ∧ r.toArr.Same (a.toArr.mul b.toArr) ∧ r.WF :=
  contract_ok path ha hb (by omega) (fun _ _ _ => by omega) (fun _ _ _ _ => by omega) (fun _ _ _ _ _ => by omega)

/-- C36.  Operands that are neither diagonal: any shape. -/
theorem C36_contract_general (path : ContractPath) (ha : a.WF) (hb : b.WF) (hdim : a.cols = b.rows) (hda : ¬ a.diagonal) (hdb : ¬ b.diagonal) :
    ∃ r, contract path a b = .ok r ∧ r.toArr.Same (a.toArr.mul b.toArr) ∧ r.WF :=
  contract_ok path ha hb hdim (fun _ h _ => absurd h hda) (fun _ _ h _ => absurd h hdb) (fun _ h _ _ _ => absurd h hda)

/-- C36.  A mismatch of the contracted dimensions is reported. -/
theorem C36_contract_mismatch (path : ContractPath) (hdim : a.cols ≠ b.rows) : contract path a b = .error .illFormed ∨ contract path a b = .error .domainError := by
  unfold contract
  rw [if_pos hdim]
  split_ifs
  · exact Or.inl rfl
  · exact Or.inr rfl

/-- C36.  Exactly when the diagonal-times-constant shortcut is right. -/
theorem C36_diagonal_constant_iff (path : ContractPath) (ha : a.WF) (hb : b.WF) (hdim : a.cols = b.rows) (hne : noEarly a b) (h1 : a.diagonal)
    (h2 : b.constObj) (hbc : 0 < b.cols) :
    (∃ r, contract path a b = .ok r ∧ r.toArr.Same (a.toArr.mul b.toArr)) ↔ a.rows ≤ a.cols := by
  obtain ⟨r, hr, hrr, -⟩ := contract_dc_shape path ha hb hdim hne h1 h2 hbc
  constructor
  · rintro ⟨r', hr', hs⟩
    rw [hr] at hr'
    cases hr'
    have : r.rows = a.rows := hs.1
    omega
  · intro hle
    obtain ⟨r, h, hs, -⟩ := contract_ok path ha hb hdim (fun _ _ _ => ⟨hle, hbc⟩) (fun _ _ _ h => absurd ⟨h1, h2⟩ h) (fun _ _ _ h => absurd ⟨h1, h2⟩ h)
    exact ⟨r, h, hs⟩

/-- C36.  Exactly when the constant-times-diagonal shortcut is right. -/
theorem C36_constant_diagonal_iff (path : ContractPath) (ha : a.WF) (hb : b.WF) (hdim : a.cols = b.rows) (hne : noEarly a b) (h1 : a.constObj)
    (h2 : b.diagonal) (h5 : ¬ (a.diagonal ∧ b.constObj)) (har : 0 < a.rows) :
    (∃ r, contract path a b = .ok r ∧ r.toArr.Same (a.toArr.mul b.toArr)) ↔ b.cols ≤ b.rows := by
  obtain ⟨r, hr, -, hrr⟩ := contract_cd_shape path ha hb hdim hne h1 h2 h5 har
  constructor
  · rintro ⟨r', hr', hs⟩
    rw [hr] at hr'
    cases hr'
    have : r.cols = b.cols := hs.2.1
    omega
  · intro hle
    obtain ⟨r, h, hs, -⟩ := contract_ok path ha hb hdim (fun _ h h' => absurd ⟨h, h'⟩ h5) (fun _ _ _ _ => ⟨hle, har⟩)
      (fun _ _ _ _ h => absurd ⟨h1, h2⟩ h)
    exact ⟨r, h, hs⟩

/-- C36.  Exactly when the diagonal-times-diagonal shortcut is right, for a nonempty left operand. -/
theorem C36_diagonal_diagonal_iff (path : ContractPath) (ha : a.WF) (hb : b.WF) (hdim : a.cols = b.rows) (hne : noEarly a b) (h1 : a.diagonal)
    (h2 : b.diagonal) (h5 : ¬ (a.diagonal ∧ b.constObj)) (h6 : ¬ (a.constObj ∧ b.diagonal)) (har : 0 < a.rows) :
    (∃ r, contract path a b = .ok r ∧ r.toArr.Same (a.toArr.mul b.toArr)) ↔ a.rows = b.cols ∧ a.rows ≤ a.cols := by
  constructor
  · rintro ⟨r, hr, hs⟩
    have := contract_dd_shape path ha hb hdim hne h1 h2 h5 h6 hr
    have e1 : r.rows = a.rows := hs.1
    have e2 : r.cols = b.cols := hs.2.1
    omega
  · rintro ⟨e1, e2⟩
    obtain ⟨r, h, hs, -⟩ := contract_ok path ha hb hdim (fun _ h h' => absurd ⟨h, h'⟩ h5) (fun _ h h' _ => absurd ⟨h, h'⟩ h6)
      (fun _ _ _ _ _ => ⟨e1, e2, har⟩)
    exact ⟨r, h, hs⟩

theorem exDiag_noEarly {r c : ℕ} {d : ℕ → ℝ} (h : 2 ≤ r ∨ 2 ≤ c) {b : Obj ℝ} (h1 : ¬ b.identity) (h2 : ¬ b.zero) : noEarly (exDiag r c d) b :=
  ⟨fun h' => h1 h'.1, fun h' => exDiag_constDiag h h'.1.1, exDiag_zero _ _ _, h2, fun h' => exDiag_const h h'.1⟩

/-- C36.  A 3×2 diagonal times a 2×4 constant: the third row of the product is lost. -/
theorem C36_diagonal_constant_violated (path : ContractPath) : ∃ a b : Obj ℝ, a.WF ∧ b.WF ∧ a.cols = b.rows ∧
    ¬ ∃ r, contract path a b = .ok r ∧ r.toArr.Same (a.toArr.mul b.toArr) := by
  refine ⟨exDiag 3 2 fun _ => 1, mkConst 5 true 2 true 4 true false, exDiag_wf _ _ _, mkConst_wf (by simp), rfl, ?_⟩
  rw [C36_diagonal_constant_iff path (exDiag_wf _ _ _) (mkConst_wf (by simp)) rfl (exDiag_noEarly (by omega) ?_ ?_) (exDiag_diagonal _ _ _)
    (mkConst_constObj ..) (by simp [mkConst])]
  · simp [exDiag]
  · rintro ⟨-, -, h⟩; simp [mkConst, constVal] at h
  · simp [zero, mkConst]

/-- C36.  The product of a 2×3 and a 3×4 diagonal matrix is 2×4; the shortcut does not return it. -/
theorem C36_diagonal_diagonal_violated (path : ContractPath) : ∃ a b : Obj ℝ, a.WF ∧ b.WF ∧ a.cols = b.rows ∧
    ¬ ∃ r, contract path a b = .ok r ∧ r.toArr.Same (a.toArr.mul b.toArr) := by
  refine ⟨exDiag 2 3 fun _ => 1, exDiag 3 4 fun _ => 1, exDiag_wf _ _ _, exDiag_wf _ _ _, rfl, ?_⟩
  rw [C36_diagonal_diagonal_iff path (exDiag_wf _ _ _) (exDiag_wf _ _ _) rfl (exDiag_noEarly (by omega) ?_ (exDiag_zero _ _ _)) (exDiag_diagonal _ _ _)
    (exDiag_diagonal _ _ _) (fun h => exDiag_const (by omega) h.2) (fun h => exDiag_const (by omega) h.1) (by simp [exDiag])]
  · simp [exDiag]
  · exact fun h => exDiag_constDiag (by omega) h.1

/-- The hypotheses are met by a wide diagonal times a constant, which the shortcut handles. -/
example (path : ContractPath) : ∃ r, contract path (exDiag 2 3 fun i => i + 1) (mkConst 5 true 3 true 4 true false) = .ok r ∧
    r.toArr.Same ((exDiag 2 3 fun i => i + 1).toArr.mul (mkConst (5 : ℝ) true 3 true 4 true false).toArr) := by
  rw [C36_diagonal_constant_iff path (exDiag_wf _ _ _) (mkConst_wf (by simp)) rfl (exDiag_noEarly (by omega) ?_ ?_) (exDiag_diagonal _ _ _)
    (mkConst_constObj ..) (by simp [mkConst])]
  · simp [exDiag]
  · rintro ⟨-, -, h⟩; simp [mkConst, constVal] at h
  · simp [zero, mkConst]

/-! ## C37 Sum -/

/-- C37.  The sum of any nonempty list of truthfully tagged objects of one shape is the elementwise sum, truthfully tagged, if the shape is square or at most one of
the arguments is diagonal and not zero. -/
theorem C37_sum_partial (r c : ℕ) (ts : List (Obj F)) (hne : ts ≠ []) (hg : ∀ o ∈ ts, o.WF ∧ o.rows = r ∧ o.cols = c)
    (hsq : r = c ∨ ts.countP (fun o => decide (o.diagonal ∧ ¬ o.zero)) ≤ 1) :
    ∃ s, sum ts = .ok s ∧ s.WF ∧ s.toArr.Same (Arr.sumList r c (ts.map Obj.toArr)) := by
  have hnz : nz ts = ts.countP (fun o => decide (o.diagonal ∧ ¬ o.zero)) := by
    unfold nz
    refine List.countP_congr fun o _ => ?_
    rw [decide_eq_true_iff, decide_eq_true_iff]; rfl
  obtain ⟨s, hs, hg⟩ := sum_good r c ts hne hg (hnz ▸ hsq)
  refine ⟨s, hs, hg.wf, hg.rows, hg.cols, fun i hi j hj => ?_⟩
  rw [hg.get i (hg.rows ▸ hi) j (hg.cols ▸ hj)]
  exact (sumArr_get r c ts i j).symm

/-- C37.  Hence reordering the arguments does not change the sum. -/
theorem C37_order_partial (r c : ℕ) (ts ts' : List (Obj F)) (hp : ts.Perm ts') (hne : ts ≠ []) (hg : ∀ o ∈ ts, o.WF ∧ o.rows = r ∧ o.cols = c)
    (hsq : r = c ∨ ts.countP (fun o => decide (o.diagonal ∧ ¬ o.zero)) ≤ 1) :
    ∃ s s', sum ts = .ok s ∧ sum ts' = .ok s' ∧ s.toArr.Same s'.toArr := by
  obtain ⟨s, hs, -, h1⟩ := C37_sum_partial r c ts hne hg hsq
  obtain ⟨s', hs', -, h2⟩ := C37_sum_partial r c ts' (fun h => hne (by rw [h] at hp; exact hp.eq_nil)) (fun o ho => hg o (hp.mem_iff.2 ho))
    (by rw [← hp.countP_eq]; exact hsq)
  have hm : (Arr.sumList r c (ts.map Obj.toArr)).Same (Arr.sumList r c (ts'.map Obj.toArr)) :=
    ⟨rfl, rfl, fun i _ j _ => List.Perm.sum_eq ((hp.map Obj.toArr).map _)⟩
  exact ⟨s, s', hs, hs', h1.trans (hm.trans h2.symm)⟩

/-- C37.  Two 2×3 diagonal matrices: the sum comes back 2×2. -/
theorem C37_rectangular_violated : ∃ s, sum [exDiag 2 3 fun _ => 1, exDiag 2 3 fun _ => 1] = .ok s ∧ s.rows = 2 ∧ s.cols = 2 := by
  have hf : ∃ s, sumFlat (dense (exDiag 2 3 fun _ => 1).diagVec true true false) (dense (exDiag 2 3 fun _ => 1).diagVec true true false) = .ok s ∧
      Good 2 1 (fun i j => (exDiag 2 3 fun _ => 1).get i i + (exDiag 2 3 fun _ => 1).get i i) s := by
    refine sumFlat_good ⟨dense_wf (by intro _ i _ j _; simp), rfl, rfl, fun i _ j _ => rfl⟩ ⟨dense_wf (by intro _ i _ j _; simp), rfl, rfl, fun i _ j _ => rfl⟩
  obtain ⟨s, hs, hg⟩ := hf
  have hd : (exDiag 2 3 fun _ => 1).diagonalOf = .ok (dense (exDiag 2 3 fun _ => 1).diagVec true true false) := by
    unfold diagonalOf
    rw [if_neg (by simp [exDiag, rowsIs]), if_neg (by rintro (h | h); exacts [exDiag_const (by omega) h, exDiag_constDiag (by omega) h]),
      if_neg (by simp [exDiag])]
    rfl
  have hsum : sumImpl [exDiag 2 3 fun _ => 1, exDiag 2 3 fun _ => 1] = .ok s.toDiagonal := by
    rw [sumImpl, if_neg (by simp), if_neg (exDiag_zero _ _ _), if_neg (exDiag_zero _ _ _), if_neg (fun h => exDiag_const (by omega) h.1),
      dif_neg (by simp), dif_neg (by simp), if_pos ⟨exDiag_diagonal _ _ _, exDiag_diagonal _ _ _⟩, hd]
    simp only [bind, Except.bind, hs]
    rw [sumImpl]
  have hdim : s.toDiagonal.rows = 2 ∧ s.toDiagonal.cols = 2 := by
    have := toDiagonal_same hg.wf hg.cols
    exact ⟨this.1.trans hg.rows, this.2.1.trans hg.rows⟩
  unfold sum
  rw [hsum]
  simp only [bind, Except.bind]
  split_ifs with h1 h2
  · have := toTriangular_same (toDiagonal_wf hg.wf hg.cols) (commonTri [exDiag 2 3 fun _ => 1, exDiag 2 3 fun _ => 1])
    exact ⟨_, rfl, this.1.trans hdim.1, this.2.1.trans hdim.2⟩
  · exfalso
    have := h2.1 (exDiag 2 3 fun _ => 1) (by simp)
    have := (exDiag_wf 2 3 fun _ => 1).square_eq this.1
    simp [exDiag] at this
  · exact ⟨_, rfl, hdim.1, hdim.2⟩

/-- The hypotheses of C37 with several different tags at once. -/
example : ∃ s, sum [exDiag 3 3 fun i => i, mkConst 4 false 3 true 3 true false, mkConst 0 true 3 true 3 true false, exTri 3 false none] = .ok s ∧ s.WF := by
  obtain ⟨s, h, hw, -⟩ := C37_sum_partial 3 3 [exDiag 3 3 fun i => (i : ℝ), mkConst 4 false 3 true 3 true false, mkConst 0 true 3 true 3 true false,
    exTri 3 false none] (by simp) (by
      intro o ho
      simp only [List.mem_cons, List.not_mem_nil, or_false] at ho
      rcases ho with rfl | rfl | rfl | rfl
      · exact ⟨exDiag_wf _ _ _, rfl, rfl⟩
      · exact ⟨mkConst_wf (by simp), rfl, rfl⟩
      · exact ⟨mkConst_wf (by simp), rfl, rfl⟩
      · exact ⟨exTri_wf _ _ _ (by simp), rfl, rfl⟩) (Or.inl rfl)
  exact ⟨s, h, hw⟩

/-! ## C38 Transpose and conjugate -/

/-- C38.  `transpose` of a matrix: always a value, the transposed elements, truthful tags. -/
theorem C38_transpose (hw : o.WF) :
    ∃ r, o.transpose = .ok r ∧ r.WF ∧ r.rows = o.cols ∧ r.cols = o.rows ∧ ∀ i < o.cols, ∀ j < o.rows, r.get i j = o.get j i := by
  obtain ⟨r, h, hr, hs, -⟩ := transpose_ok hw
  refine ⟨r, h, hr, hs.1, hs.2.1, fun i hi j hj => ?_⟩
  have e1 : r.rows = o.cols := hs.1
  have e2 : r.cols = o.rows := hs.2.1
  exact hs.2.2 i (by omega) j (by omega)

/-- C38.  Transposing twice gives back the matrix. -/
theorem C38_transpose_twice (hw : o.WF) : ∃ r s, o.transpose = .ok r ∧ r.transpose = .ok s ∧ s.toArr.Same o.toArr := by
  obtain ⟨r, h, hr, hs, -⟩ := transpose_ok hw
  obtain ⟨s, h', -, hs', -⟩ := transpose_ok hr
  exact ⟨r, s, h, h', hs'.trans hs.transpose⟩

/-- C38.  `conjugate` of a matrix: always a value, the conjugated elements. -/
theorem C38_conjugate (hw : o.WF) :
    ∃ r, o.conjugate = .ok r ∧ r.rows = o.rows ∧ r.cols = o.cols ∧ ∀ i < o.rows, ∀ j < o.cols, r.get i j = star (o.get i j) := by
  obtain ⟨r, h, hs, -⟩ := conjugate_ok hw
  refine ⟨r, h, hs.1, hs.2.1, fun i hi j hj => ?_⟩
  have e1 : r.rows = o.rows := hs.1
  have e2 : r.cols = o.cols := hs.2.1
  exact hs.2.2 i (by omega) j (by omega)

/-- C38.  `conjugate_transpose` of a matrix: always a value, the conjugated transposed elements. -/
theorem C38_conjugate_transpose (hw : o.WF) :
    ∃ r, o.conjugateTranspose = .ok r ∧ r.rows = o.cols ∧ r.cols = o.rows ∧ ∀ i < o.cols, ∀ j < o.rows, r.get i j = star (o.get j i) := by
  obtain ⟨r, h, hs, -⟩ := conjugateTranspose_ok hw
  refine ⟨r, h, hs.1, hs.2.1, fun i hi j hj => ?_⟩
  have e1 : r.rows = o.cols := hs.1
  have e2 : r.cols = o.rows := hs.2.1
  exact hs.2.2 i (by omega) j (by omega)

/-- C38.  The tags of a conjugate are truthful, unless the object is a nonreal constant on a proper triangle. -/
theorem C38_conjugate_tags_partial (hw : o.WF) (hok : ∀ c, o.cst = some c → o.constObj ∨ o.constDiag ∨ star c = c) :
    (∀ r, o.conjugate = .ok r → r.WF) ∧ (∀ r, o.conjugateTranspose = .ok r → r.WF) := by
  obtain ⟨r, h, -, hr, -⟩ := conjugate_ok hw
  obtain ⟨s, h', -, hs, -⟩ := conjugateTranspose_ok hw
  exact ⟨fun _ e => by rw [h] at e; cases e; exact hr hok, fun _ e => by rw [h'] at e; cases e; exact hs hok⟩

/-- A lower triangle filled with the imaginary unit. -/
noncomputable def exI : Obj ℂ :=
  { rows := 2, cols := 2, get := fun i j => if j ≤ i then Complex.I else 0, statRows := true, statCols := true, sq := false, cplx := true, herm := false,
    tri := .lower, cst := some Complex.I, cstFixed := true }

theorem exI_wf : exI.WF where
  sq := by simp [exI]
  lower := by intro _ i _ j _ h; simp only [exI]; rw [if_neg (by omega)]
  upper := by simp [exI]
  diag := by simp [exI]
  cst := by
    intro v hv i _ j _ hm
    simp only [exI] at hv hm ⊢
    rw [if_pos (show j ≤ i from hm)]; simpa using hv
  herm := by simp [exI]
  real := by simp [exI]
  realc := by simp [exI]
  vec0 := by simp [exI]
  vec1 := by rintro ⟨-, h2⟩; simp [exI] at h2

theorem exI_triOf : exI.triOf = .lower := by simp [triOf, exI, zero, oneDim, rowsIs, colsIs]

/-- C38.  A nonreal constant triangle: the conjugate still claims the unconjugated constant, and the trace of its diagonal part uses it: `2i` instead
of `−2i`. -/
theorem C38_conjugate_tags_violated : exI.WF ∧ ∃ r, exI.conjugate = .ok r ∧ ¬ r.WF ∧
    (r.toTriangular .upper).trace = .ok (2 * Complex.I) ∧ (r.toTriangular .upper).get 0 0 + (r.toTriangular .upper).get 1 1 = -(2 * Complex.I) := by
  have hI : Complex.I ≠ 0 := Complex.I_ne_zero
  have h1d : ¬ exI.oneDim := by simp [oneDim, exI, rowsIs, colsIs]
  have hz : ¬ exI.zero := by simp [zero, exI]
  have hco : ¬ exI.constObj := by
    rintro (⟨-, h | h | h⟩ | h | h)
    · rw [exI_triOf] at h; simp at h
    · have := h.2; simp [colsIs, exI] at this
    · rw [exI_triOf] at h; simp at h
    · exact hz h
    · exact h1d h
  have hcd : ¬ exI.constDiag := by
    rintro (⟨-, h⟩ | h | h)
    · rw [diagonal, exI_triOf] at h; simp at h
    · exact hz h
    · exact h1d h
  have hd : ¬ exI.diagonal := by rw [diagonal, exI_triOf]; simp
  have hr : exI.conjugate = .ok exI.conjAdapter := by
    unfold conjugate
    rw [if_neg, if_neg hd]
    rintro (h | h | h | h)
    · simp [exI] at h
    · rcases h.1 with h | h; exacts [hco h, hcd h]
    · exact hco h
    · exact hcd h
  have htri : exI.conjAdapter.triOf = .lower := by
    simp [triOf, conjAdapter, zero, oneDim, rowsIs, colsIs, exI, square]
  refine ⟨exI_wf, _, hr, ?_, ?_, ?_⟩
  · intro hw
    have := hw.cst Complex.I rfl 0 (by simp [conjAdapter, exI]) 0 (by simp [conjAdapter, exI]) (by simp [conjAdapter, exI_triOf, Tri.mem])
    have h2 : -Complex.I = Complex.I := by simpa [conjAdapter, exI] using this
    exact hI (self_eq_neg.1 h2.symm)
  · have ht : ¬ exI.conjAdapter.triangular .upper := by simp [triangular, htri]
    have hdd : (exI.conjAdapter.toTriangular .upper).tri = .diagonal := by simp [toTriangular, ht, htri, Tri.times]
    have hdiag : (exI.conjAdapter.toTriangular .upper).diagonal := by simp [diagonal, triOf, hdd]
    have hcst : (exI.conjAdapter.toTriangular .upper).cst = some Complex.I := by rw [toTriangular, if_neg ht]; rfl
    have hzz : ¬ (exI.conjAdapter.toTriangular .upper).zero := by simp [zero, hcst]
    have hrows : (exI.conjAdapter.toTriangular .upper).rows = 2 ∧ (exI.conjAdapter.toTriangular .upper).cols = 2 := by
      rw [toTriangular, if_neg ht]; exact ⟨rfl, rfl⟩
    have h11 : ¬ (exI.conjAdapter.toTriangular .upper).oneDim := by
      simp [oneDim, rowsIs, colsIs, hrows]
    have hcv : (exI.conjAdapter.toTriangular .upper).constVal = Complex.I := by simp [constVal, hcst]
    have hnc : ¬ (exI.conjAdapter.toTriangular .upper).constObj := by
      rintro (⟨-, h | h | h⟩ | h | h)
      · rw [show _ = Tri.diagonal from hdiag] at h; simp at h
      · rw [show _ = Tri.diagonal from hdiag] at h; simp at h
      · rw [show _ = Tri.diagonal from hdiag] at h; simp at h
      · exact hzz h
      · exact h11 h
    have hI1 : Complex.I ≠ 1 := fun h => by have := congrArg Complex.re h; simp at this
    unfold trace
    rw [if_neg (by simp [hzz, empty, rowsIs, colsIs, hrows]), if_neg (fun h => hI1 (hcv ▸ h.2.2)), if_neg h11, if_neg hnc,
      if_pos (show Obj.constDiag _ from Or.inl ⟨by rw [hcst]; rfl, hdiag⟩), hcv, hrows.1, hrows.2]
    simp [mul_comm]
  · have ht : ¬ exI.conjAdapter.triangular .upper := by simp [triangular, htri]
    have hget : ∀ i, (exI.conjAdapter.toTriangular .upper).get i i = -Complex.I := by
      intro i
      rw [toTriangular, if_neg ht]
      simp [Tri.mem, conjAdapter, exI]
    rw [hget, hget]; ring

section Tensor
open Ten
variable {t : Ten F}

/-- C38.  Tensors of any rank: exchanging indices 0 and 1 is right for every truthful tagging. -/
theorem C38_tensor_transpose (hw : t.WF) : (t.transpose 0 1).dims = swapIx 0 1 t.dims ∧
    ∀ ix, (t.transpose 0 1).Inb ix → (t.transpose 0 1).get ix = t.get fun k => ix (Equiv.swap 0 1 k) := transpose01 hw

/-- C38.  The same with conjugation. -/
theorem C38_tensor_conjugate_transpose (hw : t.WF) : (t.conjugateTranspose 0 1).dims = swapIx 0 1 t.dims ∧
    ∀ ix, (t.conjugateTranspose 0 1).Inb ix → (t.conjugateTranspose 0 1).get ix = star (t.get fun k => ix (Equiv.swap 0 1 k)) := conjugateTranspose01 hw

/-- C38.  Other index pairs are right for untagged and for constant tensors. -/
theorem C38_tensor_other_partial (hw : t.WF) (a b : ℕ)
    (h : (∃ c, t.cst = some c) ∨ (t.herm = false ∧ t.diag = false ∧ t.cst = none ∧ t.cstDiag = none)) :
    (t.transpose a b).dims = swapIx a b t.dims ∧
    ∀ ix, (t.transpose a b).Inb ix → (t.transpose a b).get ix = t.get fun k => ix (Equiv.swap a b k) := by
  rcases h with ⟨c, h⟩ | ⟨h1, h2, h3, h4⟩
  · exact transpose_const hw a b h
  · exact transpose_plain a b h1 h2 h3 h4

end Tensor

/-- A 2×2×2 tensor whose slices in the first two indices are symmetric. -/
def exTen : Ten ℝ :=
  { dims := fun k => if k < 3 then 2 else 1, get := fun ix => ix 0 + ix 1 + 10 * ix 2, cplx := false, herm := true, diag := false, cst := none, cstDiag := none }

/-- C38.  A tensor with symmetric slices in indices 0 and 1, transposed in indices 0 and 2 (or conjugate-transposed): the argument comes back unchanged. -/
theorem C38_tensor_violated : exTen.WF ∧ ∃ ix, exTen.Inb ix ∧
    (exTen.transpose 0 2).get ix ≠ exTen.get (fun k => ix (Equiv.swap 0 2 k)) ∧
    (exTen.conjugateTranspose 0 2).get ix ≠ exTen.get (fun k => ix (Equiv.swap 0 2 k)) := by
  have hd : exTen.dims 0 = exTen.dims 2 := by simp [exTen]
  refine ⟨⟨fun _ => ⟨by simp [exTen], fun ix _ => ?_⟩, by simp [exTen], by simp [exTen], by simp [exTen], by simp⟩, fun k => if k = 0 then 1 else 0, ?_, ?_, ?_⟩
  · simp [exTen, Ten.swapIx, Equiv.swap_apply_def]; ring
  · intro k; by_cases hk : k = 0 <;> simp [exTen, hk]; split_ifs <;> omega
  · have : exTen.transpose 0 2 = exTen := by
      unfold Ten.transpose
      rw [if_neg (by simp [exTen])]
      simp [exTen, Ten.conjugate]
    rw [this]
    simp [exTen, Equiv.swap_apply_def]
  · have : exTen.conjugateTranspose 0 2 = exTen := by
      unfold Ten.conjugateTranspose
      rw [if_pos ⟨rfl, hd⟩]
    rw [this]
    simp [exTen, Equiv.swap_apply_def]

/-- The matrix theorems apply to a complex object of which nothing but its shape is known. -/
example : ∃ r s, exI.transpose = .ok r ∧ r.transpose = .ok s ∧ s.toArr.Same exI.toArr := C38_transpose_twice exI_wf

/-! ## C39 Reductions and averages -/

/-- C39.  Reducing a constant object, with any operation (folded from the left), over any list of indices. -/
theorem C39_reduce_constant (op : RedOp F) (hw : o.WF) (h : o.constObj) (ixs : List (Fin 2)) (hr : 0 < o.rows) (hc : 0 < o.cols) :
    ∃ r, reduceIdx op o ixs = .ok r ∧ IsReduction op (decide (0 ∈ ixs)) (decide (1 ∈ ixs)) o.toArr r.toArr :=
  reduceIdx_ok op ixs fun r0 r1 _ _ _ => reduce_const_ok op hw h r0 r1 (Or.inl (by cases r0 <;> cases r1 <;> simp [countReduced, hr, hc])) 3

/-- C39.  Reducing an object that is neither constant nor diagonal; or a diagonal one with an operation other than sum and product. -/
theorem C39_reduce_general (op : RedOp F) (h : ¬ o.constObj) (hd : ¬ o.diagonal ∨ ∃ f, op = .other f) (ixs : List (Fin 2)) (hr : 0 < o.rows)
    (hc : 0 < o.cols) : ∃ r, reduceIdx op o ixs = .ok r ∧ IsReduction op (decide (0 ∈ ixs)) (decide (1 ∈ ixs)) o.toArr r.toArr := by
  refine reduceIdx_ok op ixs fun r0 r1 h01 _ _ => reduce_general_ok op h ?_ r0 r1 h01 (fun _ => hr) (fun _ => hc) 3
  rcases hd with hd | ⟨f, rfl⟩
  · exact Or.inl hd
  · exact Or.inr ⟨by simp [isPlus], by simp [isTimes]⟩

/-- C39.  Sums of a diagonal matrix, except along the rows only of a static matrix at least as wide as tall. -/
theorem C39_reduce_diagonal_plus_partial (hw : o.WF) (hd : o.diagonal) (hco : ¬ o.constObj) (hcst : o.cst = none) (ixs : List (Fin 2)) (hr : 0 < o.rows)
    (hc : 0 < o.cols) (hbad : o.statRows = true → o.statCols = true → 1 ∈ ixs → 0 ∉ ixs → o.rows ≤ o.cols → o.rows = 1) :
    ∃ r, reduceIdx .plus o ixs = .ok r ∧ IsReduction .plus (decide (0 ∈ ixs)) (decide (1 ∈ ixs)) o.toArr r.toArr := by
  refine reduceIdx_ok .plus ixs fun r0 r1 h01 h0 h1 => reduce_diag_plus_ok hw hd hco hcst r0 r1 h01 hr hc ?_
  intro hs1 hs2 hr0 hle
  have hr1 : r1 = true := by rcases h01 with h | h; rw [hr0] at h; simp at h; exact h
  rcases h0 with h0 | h0
  · have hn0 : 0 ∉ ixs := by intro hm; rw [hr0, decide_eq_true hm] at h0; simp at h0
    refine hbad hs1 hs2 ?_ hn0 hle
    rcases h1 with h1 | h1
    · by_contra hm; rw [hr1, decide_eq_false hm] at h1; simp at h1
    · rw [hr1] at h1; simp at h1
  · exact h0.2.2

/-- C39.  The excepted case: the sums along the rows of a static n×n diagonal matrix, n ≥ 2, come back as one number. -/
theorem C39_reduce_diagonal_plus_violated (n : ℕ) (hn : 2 ≤ n) (d : ℕ → ℝ) :
    ∃ r, reduceIdx .plus (exDiag n n d) [1] = .ok r ∧ r.rows = 1 ∧ r.cols = 1 ∧ ¬ IsReduction .plus false true (exDiag n n d).toArr r.toArr := by
  have hdd : (exDiag n n d).diagonalOf = .ok (dense (exDiag n n d).diagVec true true false) := by
    unfold diagonalOf
    rw [if_neg (by simp [exDiag, rowsIs]; omega), if_neg (by rintro (h | h); exacts [exDiag_const (by omega) h, exDiag_constDiag (by omega) h]),
      if_neg (by simp [exDiag])]
    rfl
  have hnr : (exDiag n n d).diagVec.rows = n := by simp [Arr.diagVec, exDiag]
  have hdc : ¬ (dense (exDiag n n d).diagVec true true false).constObj := fun h => by have := (dense_constObj.1 h).1.2; omega
  have hdn : ¬ (dense (exDiag n n d).diagVec true true false).diagonal := by
    unfold diagonal; rw [dense_col_triOf rfl (by omega)]; simp
  refine ⟨dense (redArr .plus (exDiag n n d).diagVec true false) true true false, ?_, rfl, rfl, ?_⟩
  · rw [reduceIdx, if_neg (by simp [exDiag, rowsIs, colsIs]; omega)]
    rw [show decide ((0 : Fin 2) ∈ [(1 : Fin 2)]) = false by simp, show decide ((1 : Fin 2) ∈ [(1 : Fin 2)]) = true by simp]
    rw [redFuel, reduceImpl, if_neg (fun h => exDiag_zero _ _ _ h.1), if_neg (exDiag_const (by omega)),
      if_pos ⟨exDiag_diagonal _ _ _, trivial, rfl, rfl, Or.inl ⟨rfl, by simp [exDiag]⟩⟩, hdd]
    simp only [bind, Except.bind]
    rw [reduceImpl, if_neg (fun h => dense_not_zero h.1), if_neg hdc, if_neg (fun h => hdn h.1), if_neg (fun h => hdn h.1), if_neg (fun h => hdn h.1),
      if_neg (fun h => hdn h.1)]
    unfold libReduce
    rw [if_neg (by simp), if_neg (by simp), if_neg (by simp [dense, hnr]; omega)]
    rfl
  · intro h
    have := h.1
    simp [dense, redArr, exDiag] at this
    omega

/-- C39.  Products of a diagonal matrix, under the shape conditions of the shortcuts. -/
theorem C39_reduce_diagonal_times_partial (hw : o.WF) (hd : o.diagonal) (hco : ¬ o.constObj) (hcst : o.cst = none) (ix : Fin 2) (hr : 0 < o.rows)
    (hc : 0 < o.cols) (hbad1 : o.statCols = true → ix = 1 → o.rows ≤ o.cols) (hbad0 : o.statRows = true → ix = 0 → o.cols ≤ o.rows) :
    ∃ r, reduceIdx .times o [ix] = .ok r ∧ IsReduction .times (decide (0 ∈ [ix])) (decide (1 ∈ [ix])) o.toArr r.toArr := by
  by_cases hskip : (ix = 0 ∧ o.rowsIs 1) ∨ (ix = 1 ∧ o.colsIs 1)
  · refine ⟨o, by rw [reduceIdx, if_pos hskip, reduceIdx], ?_⟩
    rcases hskip with ⟨rfl, h⟩ | ⟨rfl, h⟩
    · simpa using (isReduction_one0 h.2).1 (isReduction_none _)
    · simpa using (isReduction_one1 h.2).1 (isReduction_none _)
  · rw [reduceIdx, if_neg hskip]
    refine reduce_diag_times_ok hw hd hco hcst _ _ ?_ hr hc ?_ ?_
    · fin_cases ix <;> simp
    · intro hs h1
      have hix : ix = 1 := by fin_cases ix <;> simp_all
      subst hix
      exact ⟨fun h => hskip (Or.inr ⟨rfl, hs, h⟩), hbad1 hs rfl, by simp⟩
    · intro _ hs h0 _
      have hix : ix = 0 := by fin_cases ix <;> simp_all
      exact Or.inr (hbad0 hs hix)

/-- C39.  The product over everything of a static n×n diagonal matrix, n ≥ 2: the shortcut's result is n×1, and the call does not compile. -/
theorem C39_reduce_all_times_violated (n : ℕ) (hn : 2 ≤ n) (d : ℕ → ℝ) : reduceAll .times (exDiag n n d) = .error .illFormed := by
  have hdd : (exDiag n n d).diagonalOf = .ok (dense (exDiag n n d).diagVec true true false) := by
    unfold diagonalOf
    rw [if_neg (by simp [exDiag, rowsIs]; omega), if_neg (by rintro (h | h); exacts [exDiag_const (by omega) h, exDiag_constDiag (by omega) h]),
      if_neg (by simp [exDiag])]
    rfl
  rw [reduceAll, if_neg (fun h => exDiag_zero _ _ _ h.1), if_neg (exDiag_oneDim (by omega)), if_neg (exDiag_const (by omega)), redFuel, reduceImpl,
    if_neg (fun h => exDiag_zero _ _ _ h.1), if_neg (exDiag_const (by omega)), if_neg (by simp [isPlus]), if_neg (by simp [isPlus]),
    if_pos ⟨exDiag_diagonal _ _ _, trivial, rfl, rfl⟩, if_neg (by simp [exDiag]; omega), hdd]
  simp only [bind, Except.bind]
  rw [reduceImpl, if_pos ⟨⟨rfl, rfl⟩, Or.inr trivial⟩]
  simp only
  rw [if_pos]
  left
  simp [mkReduced, mkConst, dense, Arr.diagVec, exDiag]
  omega

/-- C39.  The product over everything of a static n×1 diagonal matrix: the template recursion never ends. -/
theorem C39_reduce_column_times_violated (n : ℕ) (hn : 2 ≤ n) (d : ℕ → ℝ) (fuel : ℕ) (r0 : Bool) :
    reduceImpl .times fuel (exDiag n 1 d) r0 true = .error .illFormed := by
  induction fuel generalizing r0 with
  | zero => rfl
  | succ fuel ih =>
    rw [reduceImpl, if_neg (fun h => exDiag_zero _ _ _ h.1), if_neg (exDiag_const (by omega)), if_neg (by simp [isPlus]), if_neg (by simp [isPlus]),
      if_pos ⟨exDiag_diagonal _ _ _, trivial, rfl, rfl⟩, if_pos (show (exDiag n 1 d).cols = 1 from rfl)]
    exact ih false

/-- C39.  Reducing everything to one number: any operation on constants; any operation on objects that are not diagonal; sums of anything not a constant triangle. -/
theorem C39_reduce_all_partial (op : RedOp F) (hw : o.WF) (hr : 0 < o.rows) (hc : 0 < o.cols)
    (hcase : o.constObj ∨ ¬ o.diagonal ∨ (∃ f, op = .other f) ∨ (op = .plus ∧ o.cst = none)) :
    ∃ v, reduceAll op o = .ok v ∧
      op.Folds ((List.range o.rows).flatMap fun i => (List.range o.cols).map fun j => o.get i j) v := by
  have hpos : 0 < o.rows * o.cols := Nat.mul_pos hr hc
  refine reduceAll_ok op hw (Or.inl hpos) (fun _ => Or.inl hpos) fun hco => ?_
  by_cases hd : o.diagonal
  · rcases hcase with h | h | ⟨f, rfl⟩ | ⟨rfl, h⟩
    · exact absurd h hco
    · exact absurd hd h
    · exact reduce_general_ok _ hco (Or.inr ⟨by simp [isPlus], by simp [isTimes]⟩) true true (Or.inl rfl) (fun _ => hr) (fun _ => hc) 3
    · exact reduce_diag_plus_ok hw hd hco h true true (Or.inl rfl) hr hc (by simp)
  · exact reduce_general_ok op hco (Or.inl hd) true true (Or.inl rfl) (fun _ => hr) (fun _ => hc) 3

/-- C39.  A zero object with no elements: the product over nothing is 1; `reduce` returns 0. -/
theorem C39_reduce_empty_times_violated : reduceAll .times (mkConst (0 : ℝ) true 0 true 3 true false) = .ok 0 ∧ ([] : List ℝ).prod = 1 := by
  refine ⟨?_, rfl⟩
  rw [reduceAll, if_pos ⟨⟨rfl, rfl⟩, Or.inr trivial⟩]

/-- C39.  Averages along any list of indices, with the exception inherited from the sums of diagonal matrices. -/
theorem C39_average_partial [CharZero F] (hw : o.WF) (ixs : List (Fin 2)) (hr : 0 < o.rows) (hc : 0 < o.cols)
    (hcase : o.constObj ∨ ¬ o.diagonal ∨ (o.cst = none ∧ (o.statRows = true → o.statCols = true → 1 ∈ ixs → 0 ∉ ixs → o.rows ≤ o.cols → o.rows = 1))) :
    ∃ q, averageIdx o ixs = .ok q ∧ IsAverage (decide (0 ∈ ixs)) (decide (1 ∈ ixs)) o.toArr q.toArr := by
  refine averageIdx_ok hw ixs hr hc fun hco r0 r1 h01 h0 h1 => ?_
  by_cases hd : o.diagonal
  · rcases hcase with h | h | ⟨h, hbad⟩
    · exact absurd h hco
    · exact absurd hd h
    · refine reduce_diag_plus_ok hw hd hco h r0 r1 h01 hr hc ?_
      intro hs1 hs2 hr0 hle
      have hr1 : r1 = true := by rcases h01 with h | h; rw [hr0] at h; simp at h; exact h
      rcases h0 with h0 | h0
      · have hn0 : 0 ∉ ixs := by intro hm; rw [hr0, decide_eq_true hm] at h0; simp at h0
        refine hbad hs1 hs2 ?_ hn0 hle
        rcases h1 with h1 | h1
        · by_contra hm; rw [hr1, decide_eq_false hm] at h1; simp at h1
        · rw [hr1] at h1; simp at h1
      · exact h0.2.2
  · exact reduce_general_ok .plus hco (Or.inl hd) r0 r1 h01 (fun _ => hr) (fun _ => hc) 3

/-- C39.  The average over everything. -/
theorem C39_average_all_partial [CharZero F] (hw : o.WF) (hr : 0 < o.rows) (hc : 0 < o.cols) (hcst : o.cst = none ∨ o.constObj ∨ o.constDiag) :
    averageAll o = .ok ((∑ i ∈ range o.rows, ∑ j ∈ range o.cols, o.get i j) / (o.rows * o.cols : F)) := by
  have hr' : (o.rows : F) ≠ 0 := by exact_mod_cast hr.ne'
  have hc' : (o.cols : F) ≠ 0 := by exact_mod_cast hc.ne'
  unfold averageAll
  split_ifs with h1 h2 h3
  · rw [Finset.sum_eq_zero, zero_div]
    intro i hi
    exact Finset.sum_eq_zero fun j hj => hw.zero_get h1 (by simpa using hi) (by simpa using hj)
  · rw [Finset.sum_congr rfl fun i hi => Finset.sum_congr rfl fun j hj => hw.const_get h2 (by simpa using hi) (by simpa using hj)]
    simp only [Finset.sum_const, Finset.card_range, nsmul_eq_mul]
    congr 1
    field_simp
  · rw [← redList_all_sum, diag_all_sum hw (WF.constDiag_diagonal h3), Arr.trace,
      Finset.sum_congr rfl fun i hi => by rw [hw.constDiag_get h3 (by simp at hi; omega) (by simp at hi; omega), if_pos rfl]]
    simp only [Finset.sum_const, Finset.card_range, nsmul_eq_mul]
    congr 1
    have hmm : ((min o.rows o.cols : ℕ) : F) * ((max o.rows o.cols : ℕ) : F) = o.rows * o.cols := by
      rw [← Nat.cast_mul, min_mul_max, Nat.cast_mul]
    have hmin : ((min o.rows o.cols : ℕ) : F) ≠ 0 := by exact_mod_cast (by omega : min o.rows o.cols ≠ 0)
    have hmax : ((max o.rows o.cols : ℕ) : F) ≠ 0 := by exact_mod_cast (by omega : max o.rows o.cols ≠ 0)
    rw [← hmm]
    field_simp
  · have hn : o.cst = none := by rcases hcst with h | h | h; exacts [h, absurd h h2, absurd h h3]
    obtain ⟨v, hv, hf⟩ := C39_reduce_all_partial .plus hw hr hc (Or.inr (Or.inr (Or.inr ⟨rfl, hn⟩)))
    rw [hv]
    have : v = (redList o.toArr true true 0 0).sum := hf
    rw [this, redList_all_sum]
    simp [bind, Except.bind]

/-- Concrete cases: a constant with an arbitrary operation; a wide diagonal summed along the columns. -/
example (f : ℝ → ℝ → ℝ) : ∃ r, reduceIdx (.other f) (mkConst (2 : ℝ) true 3 true 4 false false) [0, 1] = .ok r ∧ r.rows = 1 ∧ r.cols = 1 := by
  obtain ⟨r, h, hr⟩ := C39_reduce_constant (.other f) (o := mkConst (2 : ℝ) true 3 true 4 false false) (mkConst_wf (by simp)) (mkConst_constObj ..) [0, 1]
    (by simp [mkConst]) (by simp [mkConst])
  exact ⟨r, h, by simpa using hr.1, by simpa using hr.2.1⟩

example : ∃ r, reduceIdx .plus (exDiag 2 3 fun i => i + 1) [0] = .ok r ∧ r.rows = 1 ∧ r.cols = 3 := by
  obtain ⟨r, h, hr⟩ := C39_reduce_diagonal_plus_partial (exDiag_wf 2 3 fun i => i + 1) (exDiag_diagonal _ _ _) (exDiag_const (by omega)) rfl [0]
    (by simp [exDiag]) (by simp [exDiag]) (by simp)
  exact ⟨r, h, by simpa using hr.1, by simpa [exDiag] using hr.2.1⟩

end OpenKalman.LinAlg
