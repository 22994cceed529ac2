import Verif.Proof.LinAlgConj
import Verif.Model.LinAlgOps
import Mathlib.LinearAlgebra.Matrix.Block
import Mathlib.Algebra.BigOperators.Fin

/-!
# Lemmas for trace, determinant, contraction, sum and reductions
-/

set_option linter.unusedSectionVars false

namespace OpenKalman.LinAlg
open Finset Classical

variable {F : Type} [Field F] [StarRing F]

theorem constReduce_plus (c : F) (n : ℕ) : constReduce (.plus : RedOp F) c n = c * n := by cases n <;> rfl
theorem constReduce_times (c : F) (n : ℕ) : constReduce (.times : RedOp F) c n = c ^ n := by cases n <;> rfl

namespace Obj
variable {o : Obj F}

/-- The object is not a constant on a proper triangle. -/
def plain (o : Obj F) : Prop := o.cst = none ∨ o.constObj ∨ o.constDiag

theorem dense_not_zero {a : Arr F} {sr sk cx : Bool} : ¬ (dense a sr sk cx).zero := by simp [dense, zero]

theorem dense_square {a : Arr F} {sr sk cx : Bool} : (dense a sr sk cx).square ↔ sr = true ∧ sk = true ∧ a.rows = a.cols := by
  simp [dense, square]

theorem dense_oneDim {a : Arr F} {sr sk cx : Bool} : (dense a sr sk cx).oneDim ↔ (sr = true ∧ a.rows = 1) ∧ (sk = true ∧ a.cols = 1) := by
  simp only [oneDim, dense_square, rowsIs, colsIs]
  simp only [dense]
  constructor
  · rintro (h | ⟨⟨h1, h2, h3⟩, h⟩)
    · exact h
    · rcases h with ⟨_, h⟩ | ⟨_, h⟩ <;> exact ⟨⟨h1, by omega⟩, h2, by omega⟩
  · intro h; exact Or.inl h

theorem dense_constObj {a : Arr F} {sr sk cx : Bool} : (dense a sr sk cx).constObj ↔ (sr = true ∧ a.rows = 1) ∧ (sk = true ∧ a.cols = 1) := by
  unfold constObj
  rw [dense_oneDim]
  have : ¬ (dense a sr sk cx).zero := dense_not_zero
  have h2 : (dense a sr sk cx).cst.isSome = false := rfl
  simp [this, h2]

/-- A column vector with static width that is not one-dimensional is not diagonal. -/
theorem dense_col_triOf {a : Arr F} {sr cx : Bool} (hc : a.cols = 1) (h : ¬ (sr = true ∧ a.rows = 1)) : (dense a sr true cx).triOf = .lower := by
  unfold triOf
  rw [dense_oneDim]
  have : ¬ (dense a sr true cx).zero := dense_not_zero
  rw [if_neg (by simp only [this, false_or]; rintro (h' | h'); exacts [h h'.1, by simp [dense] at h']), if_pos ⟨rfl, hc⟩]

/-- What `diagonal_of` returns. -/
theorem diagonalOf_forms (hw : o.WF) (hp : o.plain) : ∃ d, o.diagonalOf = .ok d ∧ d.WF ∧ d.toArr.Same o.toArr.diagVec ∧ d.cplx = o.cplx ∧
    ((d = o ∧ o.rowsIs 1 ∧ o.colsIs 1) ∨
     (d = mkConst o.constVal o.valFixed (min o.rows o.cols) (o.statRows && o.statCols) 1 true o.cplx ∧ (o.constObj ∨ o.constDiag)) ∨
     (d = dense o.diagVec (o.statRows && o.statCols) true o.cplx ∧ o.cst = none)) := by
  obtain ⟨d, h1, h2, h3, h4⟩ := diagonalOf_ok hw hp
  refine ⟨d, h1, h2, h3, h4, ?_⟩
  unfold diagonalOf at h1
  split_ifs at h1 with g1 g2 g3
  · cases h1; exact Or.inl ⟨rfl, g1⟩
  · cases h1; exact Or.inr (Or.inl ⟨rfl, g2⟩)
  · cases h1; exact Or.inr (Or.inr ⟨rfl, by simpa using g3⟩)

theorem redList_col {a : Arr F} (hc : a.cols = 1) : redList a true true 0 0 = (List.range a.rows).map fun i => a.get i 0 := by
  simp only [redList, collapse, if_true, hc]
  induction List.range a.rows with
  | nil => rfl
  | cons x xs ih => rw [List.flatMap_cons, ih]; simp [List.range_succ]

theorem list_range_sum (n : ℕ) (f : ℕ → F) : ((List.range n).map f).sum = ∑ i ∈ range n, f i := by
  induction n with
  | zero => rfl
  | succ n ih => rw [List.range_succ, Finset.sum_range_succ]; simp [ih]

theorem list_range_prod (n : ℕ) (f : ℕ → F) : ((List.range n).map f).prod = ∏ i ∈ range n, f i := by
  induction n with
  | zero => rfl
  | succ n ih => rw [List.range_succ, Finset.prod_range_succ]; simp [ih]

/-- Reducing a column vector over everything. -/
theorem reduceAll_dense_col (op : RedOp F) {a : Arr F} {sr cx : Bool} (hc : a.cols = 1) :
    reduceAll op (dense a sr true cx) = if a.rows = 0 then .error .undefinedBehaviour else .ok (op.eval ((List.range a.rows).map fun i => a.get i 0)) := by
  have hz : ¬ (dense a sr true cx).zero := dense_not_zero
  by_cases h1 : sr = true ∧ a.rows = 1
  · have : (dense a sr true cx).oneDim := dense_oneDim.2 ⟨h1, rfl, hc⟩
    have e : RedOp.eval op [a.get 0 0] = a.get 0 0 := by cases op <;> simp [RedOp.eval]
    rw [reduceAll, if_neg (by tauto), if_pos this]
    simp only [h1.2, dense]
    simp [List.range_succ, e]
  · have h2 : ¬ (dense a sr true cx).oneDim := fun h => h1 (dense_oneDim.1 h).1
    have h3 : ¬ (dense a sr true cx).constObj := fun h => h1 (dense_constObj.1 h).1
    have h4 : ¬ (dense a sr true cx).diagonal := by unfold diagonal; rw [dense_col_triOf hc h1]; simp
    rw [reduceAll, if_neg (by tauto), if_neg h2, if_neg h3, redFuel, reduceImpl, if_neg (by tauto), if_neg h3, if_neg (by tauto), if_neg (by tauto),
      if_neg (by tauto), if_neg (by tauto)]
    unfold libReduce
    rw [if_pos (by simp)]
    have e : (dense a sr true cx).toArr = a := rfl
    rw [e, redList_col hc]
    by_cases h0 : a.rows = 0
    · simp [h0]; rfl
    · rw [if_neg (by simp [hc, h0]), if_neg h0]
      rfl

theorem reduceAll_const (op : RedOp F) (hw : o.WF) (h : o.constObj) : reduceAll op o =
    if o.zero ∧ (isPlus op ∨ isTimes op) then .ok 0 else .ok (constReduce op o.constVal (o.rows * o.cols)) := by
  unfold reduceAll
  split_ifs with h1 h2
  · rfl
  · have hd := hw.oneDim_dims h2
    rw [hd.1, hd.2, hw.const_get h (by omega) (by omega)]
    cases op <;> simp [constReduce]
  · simp [countReduced]

theorem dense_diag_sum (op : RedOp F) (hop : op = .plus ∨ op = .times) (hw : o.WF) (hc : o.cst = none) (h1 : ¬ (o.rowsIs 1 ∧ o.colsIs 1)) :
    (do let d ← o.diagonalOf; reduceAll op d) =
      if min o.rows o.cols = 0 then .error .undefinedBehaviour else .ok (op.eval ((List.range (min o.rows o.cols)).map fun i => o.get i i)) := by
  obtain ⟨d, hd, hdw, hds, hdc, hf⟩ := diagonalOf_forms hw (Or.inl hc)
  rw [hd]
  show reduceAll op d = _
  rcases hf with hf | hf | hf
  · exact absurd hf.2 h1
  · rw [hf.1, reduceAll_const op (hf.1 ▸ hdw) (mkConst_constObj ..)]
    have hcc := hf.2
    -- without a constant, a constant object is one-dimensional
    have h1d : o.oneDim := by
      rcases hcc with (⟨h, _⟩ | h | h) | (⟨h, _⟩ | h | h)
      · simp [hc] at h
      · simp [zero, hc] at h
      · exact h
      · simp [hc] at h
      · simp [zero, hc] at h
      · exact h
    have hdim := hw.oneDim_dims h1d
    have hv := hw.constVal_oneDim h1d
    have hfx : o.valFixed = false := by simp [valFixed, hc]
    have hz : ¬ (mkConst o.constVal o.valFixed (min o.rows o.cols) (o.statRows && o.statCols) 1 true o.cplx).zero := by
      rw [hfx]; simp [zero, mkConst]
    rw [if_neg (by tauto), hdim.1, hdim.2]
    rcases hop with rfl | rfl <;> simp [mkConst, constVal, constReduce, RedOp.eval, hc, List.range_succ]
  · rw [hf.1, reduceAll_dense_col op rfl]
    rfl

/-! ### Trace -/

theorem trace_ok (hw : o.WF) (hp : o.plain) (hne : o.triOf = .none ∨ o.empty ∨ o.cst.isSome = true ∨ 0 < min o.rows o.cols) :
    o.trace = .ok o.toArr.trace := by
  unfold trace
  split_ifs with h1 h2 h3 h4 h5 h6
  · congr 1
    rcases h1 with h1 | h1
    · exact (Finset.sum_eq_zero fun i hi => hw.zero_get h1 (by simp at hi; omega) (by simp at hi; omega)).symm
    · have : min o.rows o.cols = 0 := by
        rcases h1 with h1 | h1 <;> simp [h1.2]
      simp [Arr.trace, this]
  · congr 1
    rw [Arr.trace, Finset.sum_congr rfl fun i hi => ?_, Finset.sum_const, Finset.card_range, nsmul_eq_mul, mul_one]
    simp only [mem_range] at hi
    rw [hw.constDiag_get h2.1 (by omega) (by omega), if_pos rfl, h2.2.2]
  · have := hw.oneDim_dims h3
    simp [Arr.trace, this.1, this.2]
  · congr 1
    rw [Arr.trace, Finset.sum_congr rfl fun i hi => ?_, Finset.sum_const, Finset.card_range, nsmul_eq_mul, mul_comm]
    simp only [mem_range] at hi
    rw [hw.const_get h4 (by omega) (by omega)]
  · congr 1
    rw [Arr.trace, Finset.sum_congr rfl fun i hi => ?_, Finset.sum_const, Finset.card_range, nsmul_eq_mul, mul_comm]
    simp only [mem_range] at hi
    rw [hw.constDiag_get h5 (by omega) (by omega), if_pos rfl]
  · have hc : o.cst = none := by rcases hp with h | h | h; exacts [h, absurd h h4, absurd h h5]
    have hn : 0 < min o.rows o.cols := by
      rcases hne with h | h | h | h
      · exact absurd h h6
      · exact absurd (Or.inr h) h1
      · simp [hc] at h
      · exact h
    rw [dense_diag_sum .plus (Or.inl rfl) hw hc (fun h => h3 (Or.inl h)), if_neg (by omega)]
    simp only [RedOp.eval, list_range_sum, Arr.trace]
  · have hc : o.cst = none := by rcases hp with h | h | h; exacts [h, absurd h h4, absurd h h5]
    have h11 : ¬ (o.rowsIs 1 ∧ o.colsIs 1) := fun h => h3 (Or.inl h)
    have hsum := dense_diag_sum .plus (Or.inl rfl) hw hc h11
    obtain ⟨d, hd, hdw, hds, hdc, hf⟩ := diagonalOf_forms hw (Or.inl hc)
    rw [hd] at hsum ⊢
    have hdr : d.rows = min o.rows o.cols := hds.1
    have hdc : d.cols = 1 := hds.2.1
    have hsum' : reduceAll .plus d = _ := hsum
    show (if d.statRows = false then _ else _) = _
    rw [hsum']
    have e1 : d.rows = 1 → d.get 0 0 = Arr.trace o.toArr := by
      intro h
      have hm : min o.rows o.cols = 1 := by omega
      rw [Arr.trace, hm, Finset.sum_range_one]
      exact hds.2.2 0 (by omega) 0 (by omega)
    have e2 : min o.rows o.cols = 0 → Arr.trace o.toArr = 0 := fun h => by simp [Arr.trace, h]
    have e3 : ¬ (d.statRows = true ∧ d.rows = 0) := by
      rintro ⟨hs, h0⟩
      rcases hf with hf | hf | hf
      · exact h11 hf.2
      · rw [hf.1] at hs
        simp only [mkConst, Bool.and_eq_true] at hs
        refine h1 (Or.inr ?_)
        rcases (show o.rows = 0 ∨ o.cols = 0 by omega) with h | h
        · exact Or.inl ⟨hs.1, h⟩
        · exact Or.inr ⟨hs.2, h⟩
      · rw [hf.1] at hs
        simp only [dense, Bool.and_eq_true] at hs
        refine h1 (Or.inr ?_)
        rcases (show o.rows = 0 ∨ o.cols = 0 by omega) with h | h
        · exact Or.inl ⟨hs.1, h⟩
        · exact Or.inr ⟨hs.2, h⟩
    have e4 : (RedOp.plus : RedOp F).eval ((List.range (min o.rows o.cols)).map fun i => o.get i i) = Arr.trace o.toArr := by
      simp only [RedOp.eval, list_range_sum, Arr.trace]
    rw [e4]
    split_ifs with g1 g2 g3 g4 g5 g6
    · omega
    · rfl
    · rw [e1 g4]
    · rw [e2 (by omega)]
    · rw [e1 (by assumption)]
    · exact absurd ⟨by simpa using g1, by omega⟩ e3
    · rfl

/-! ### Determinant -/

theorem plain_cst (hp : o.plain) (h1 : ¬ o.constObj) (h2 : ¬ o.constDiag) : o.cst = none := by
  rcases hp with h | h | h
  exacts [h, absurd h h1, absurd h h2]

theorem det_const {n : ℕ} (hn : 2 ≤ n) (c : F) (A : Matrix (Fin n) (Fin n) F) (h : ∀ i j, A i j = c) : A.det = 0 := by
  refine Matrix.det_zero_of_row_eq (i := ⟨0, by omega⟩) (j := ⟨1, by omega⟩) (by simp) ?_
  ext j
  rw [h, h]

theorem det_diag {n : ℕ} (A : Matrix (Fin n) (Fin n) F) (f : ℕ → F) (h : ∀ i : Fin n, A i i = f i)
    (ht : (∀ i j, i < j → A i j = 0) ∨ (∀ i j, j < i → A i j = 0)) : A.det = ∏ i ∈ range n, f i := by
  rw [Finset.prod_range]
  rcases ht with ht | ht
  · rw [Matrix.det_of_isLowerTriangular A (fun i j hij => ht i j (by simpa using hij))]
    exact Finset.prod_congr rfl fun i _ => h i
  · rw [Matrix.det_of_isUpperTriangular (fun i j hij => ht i j (by simpa using hij))]
    exact Finset.prod_congr rfl fun i _ => h i

theorem det_one {n : ℕ} (hn : n = 1) (a : Arr F) : (a.toMatrix n n).det = a.get 0 0 := by
  subst hn
  rw [Matrix.det_fin_one]; rfl

theorem det_zero {n : ℕ} (hn : n = 0) (a : Arr F) : (a.toMatrix n n).det = 1 := by
  subst hn
  simp

theorem determinant_ok (hw : o.WF) (hp : o.plain) (hsq : o.rows = o.cols) (hne : o.triOf = .none ∨ o.empty ∨ o.cst.isSome = true ∨ 0 < o.rows) :
    o.determinant = .ok (o.toArr.toMatrix o.rows o.rows).det := by
  have hds : ∀ x, detSquare o x = x := fun x => by simp [detSquare, hsq]
  have hpow : o.constDiag → (o.toArr.toMatrix o.rows o.rows).det = o.constVal ^ o.rows := by
    intro h
    rw [det_diag _ (fun _ => o.constVal) ?_ (Or.inl ?_)]
    · simp
    · intro i
      have := hw.constDiag_get h (i := i) (j := i) i.2 (hsq ▸ i.2)
      simpa [Arr.toMatrix] using this
    · intro i j hij
      have := hw.constDiag_get h (i := i) (j := j) i.2 (hsq ▸ j.2)
      rw [if_neg (by omega)] at this
      exact this
  unfold determinant
  simp only [hds]
  split_ifs with h0 h1 h2 h3 h4 hsr h5 h6 h7 h8 h9
  · exact absurd hsq h0.2.2
  · congr 1
    rcases h1 with h1 | h1
    · rw [hpow h1.1, h1.2.2, one_pow]
    · have : o.rows = 0 := by rcases h1 with h1 | h1 <;> have := h1.2 <;> omega
      rw [det_zero this]
  · have : o.rows = 1 := by rcases h2 with h2 | h2 <;> have := h2.2 <;> omega
    rw [det_one this]
  · congr 1
    refine (det_const (by omega) o.constVal _ fun i j => ?_).symm
    exact hw.const_get h3.1 i.2 (hsq ▸ j.2)
  · rw [hpow h4]
  · rw [hpow h4, hsq]
  · have hnc : ¬ o.constObj := by
      rintro (⟨_, h | ⟨_, h⟩ | ⟨_, h⟩⟩ | h | h)
      · exact h5 h
      · exact h2 (Or.inr h)
      · exact h2 (Or.inl h)
      · exact h4 (Or.inr (Or.inl h))
      · exact h4 (Or.inr (Or.inr h))
    have hc := plain_cst hp hnc h4
    have hn : 0 < o.rows := by
      rcases hne with h | h | h | h
      · exact absurd h h5
      · exact absurd (Or.inr h) h1
      · simp [hc] at h
      · exact h
    rw [dense_diag_sum .times (Or.inr rfl) hw hc (fun h => h2 (Or.inl h.1)), if_neg (by omega)]
    congr 1
    simp only [RedOp.eval, list_range_prod]
    rw [det_diag _ (fun i => o.get i i) (fun i => rfl) ?_]
    · congr 2; omega
    · cases ht : o.triOf with
      | none => exact absurd ht h5
      | lower => exact Or.inl fun i j hij => hw.triOf_lower ht i.2 (hsq ▸ j.2) hij
      | upper => exact Or.inr fun i j hij => hw.triOf_upper ht i.2 (hsq ▸ j.2) hij
      | diagonal => exact Or.inl fun i j hij => hw.diagonal_get ht i.2 (hsq ▸ j.2) (by omega)
  · exact absurd hsq h7
  · congr 1
    refine (det_const (by assumption) o.constVal _ fun i j => ?_).symm
    exact hw.const_get h6 i.2 (hsq ▸ j.2)
  · rw [det_one (by assumption)]
  · rw [det_zero (by omega)]
  · exact absurd hsq (by assumption)
  · rfl

end Obj
end OpenKalman.LinAlg
