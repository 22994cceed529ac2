import Verif.Proof.LinAlgSum

/-!
# Lemmas for reductions and averages
-/

set_option linter.unusedSectionVars false

namespace OpenKalman.LinAlg
open Finset Classical

variable {F : Type} [Field F] [StarRing F]

theorem constReduce_other (f : F → F → F) (c : F) (n : ℕ) : constReduce (.other f) c (n + 1) = (List.replicate n c).foldl f c := by
  induction n with
  | zero => rfl
  | succ n ih => rw [constReduce, ih, List.replicate_succ', List.foldl_append]; rfl

theorem folds_const (op : RedOp F) (c : F) (n : ℕ) (h : 0 < n ∨ op = .plus ∨ op = .times) :
    op.Folds (List.replicate n c) (constReduce op c n) := by
  cases op with
  | plus => rw [RedOp.Folds, constReduce_plus]; simp [mul_comm]
  | times => rw [RedOp.Folds, constReduce_times]; simp
  | other f =>
    rcases h with h | h | h
    · obtain ⟨m, rfl⟩ : ∃ m, n = m + 1 := ⟨n - 1, by omega⟩
      exact ⟨c, List.replicate m c, by rw [List.replicate_succ], constReduce_other f c m⟩
    · simp at h
    · simp at h

theorem folds_eval (op : RedOp F) (l : List F) (h : l ≠ []) : op.Folds l (op.eval l) := by
  cases op with
  | plus => rfl
  | times => rfl
  | other f =>
    match l, h with
    | x :: xs, _ => exact ⟨x, xs, rfl, rfl⟩

namespace Obj
variable {o a b : Obj F}

theorem length_redList (a : Arr F) (r0 r1 : Bool) (i j : ℕ) :
    (redList a r0 r1 i j).length = (if r0 then a.rows else 1) * (if r1 then a.cols else 1) := by
  unfold redList
  rw [List.length_flatMap]
  simp only [List.length_map]
  cases r0 <;> cases r1 <;> simp [collapse]

theorem mem_redList {a : Arr F} {r0 r1 : Bool} {i j : ℕ} {x : F} (hx : x ∈ redList a r0 r1 i j)
    (hi : r0 = false → i < a.rows) (hj : r1 = false → j < a.cols) : ∃ i' < a.rows, ∃ j' < a.cols, x = a.get i' j' ∧
      (r0 = false → i' = i) ∧ (r1 = false → j' = j) := by
  unfold redList at hx
  rw [List.mem_flatMap] at hx
  obtain ⟨i', hi', hx⟩ := hx
  rw [List.mem_map] at hx
  obtain ⟨j', hj', rfl⟩ := hx
  have h1 : i' < a.rows ∧ (r0 = false → i' = i) := by
    cases r0 <;> simp [collapse] at hi'
    · subst hi'; exact ⟨hi rfl, fun _ => rfl⟩
    · exact ⟨hi', by simp⟩
  have h2 : j' < a.cols ∧ (r1 = false → j' = j) := by
    cases r1 <;> simp [collapse] at hj'
    · subst hj'; exact ⟨hj rfl, fun _ => rfl⟩
    · exact ⟨hj', by simp⟩
  exact ⟨i', h1.1, j', h2.1, rfl, h1.2, h2.2⟩

theorem get_mem_redList {a : Arr F} {r0 r1 : Bool} {i j i' j' : ℕ} (hi : if r0 then i' < a.rows else i' = i) (hj : if r1 then j' < a.cols else j' = j) :
    a.get i' j' ∈ redList a r0 r1 i j := by
  unfold redList
  refine List.mem_flatMap.2 ⟨i', ?_, List.mem_map.2 ⟨j', ?_, rfl⟩⟩
  · cases r0 <;> simp_all [collapse]
  · cases r1 <;> simp_all [collapse]

theorem redList_const (hw : o.WF) (h : o.constObj) {r0 r1 : Bool} {i j : ℕ} (hi : r0 = false → i < o.rows) (hj : r1 = false → j < o.cols) :
    redList o.toArr r0 r1 i j = List.replicate (o.countReduced r0 r1) o.constVal := by
  rw [List.eq_replicate_iff]
  refine ⟨length_redList _ _ _ _ _, fun x hx => ?_⟩
  obtain ⟨i', hi', j', hj', rfl, -⟩ := mem_redList hx hi hj
  exact hw.const_get h hi' hj'

/-- The list view of the specification. -/
theorem isReduction_iff {op : RedOp F} {r0 r1 : Bool} {a r : Arr F} : IsReduction op r0 r1 a r ↔
    r.rows = (if r0 then 1 else a.rows) ∧ r.cols = (if r1 then 1 else a.cols) ∧
    ∀ i < r.rows, ∀ j < r.cols, op.Folds (redList a r0 r1 i j) (r.get i j) := Iff.rfl

theorem reduce_const_ok (op : RedOp F) (hw : o.WF) (h : o.constObj) (r0 r1 : Bool) (hn : 0 < o.countReduced r0 r1 ∨ op = .plus ∨ (op = .times ∧ ¬ o.zero))
    (fuel : ℕ) : ∃ r, reduceImpl op (fuel + 1) o r0 r1 = .ok r ∧ IsReduction op r0 r1 o.toArr r.toArr := by
  have key : ∀ c' : F, (∀ n, n = o.countReduced r0 r1 → op.Folds (List.replicate n o.constVal) c') → ∀ fx,
      IsReduction op r0 r1 o.toArr (mkReduced c' fx o r0 r1).toArr := by
    intro c' hc fx
    rw [isReduction_iff]
    refine ⟨rfl, rfl, fun i hi j hj => ?_⟩
    rw [redList_const hw h]
    · exact hc _ rfl
    · intro h0; simp only [mkReduced, mkConst, h0] at hi; simpa using hi
    · intro h0; simp only [mkReduced, mkConst, h0] at hj; simpa using hj
  unfold reduceImpl
  by_cases hz : o.zero ∧ (isPlus op ∨ isTimes op)
  · rw [if_pos hz]
    refine ⟨_, rfl, key _ ?_ _⟩
    rintro n rfl
    rw [zero_constVal hz.1]
    cases op with
    | plus => simp [RedOp.Folds]
    | times =>
      rcases hn with hn | hn | hn
      · rw [RedOp.Folds, List.prod_replicate, zero_pow (by omega)]
      · simp at hn
      · exact absurd hz.1 hn.2
    | other f => simp [isPlus, isTimes] at hz
  · rw [if_neg hz, if_pos h]
    refine ⟨_, rfl, key _ ?_ _⟩
    rintro n rfl
    exact folds_const op _ _ (by tauto)

theorem libReduce_ok (op : RedOp F) (r0 r1 : Bool) (h01 : r0 = true ∨ r1 = true) (hr : r0 = true → 0 < o.rows) (hc : r1 = true → 0 < o.cols) :
    ∃ r, libReduce op o r0 r1 = .ok r ∧ IsReduction op r0 r1 o.toArr r.toArr := by
  have hne : ∀ i j, redList o.toArr r0 r1 i j ≠ [] := by
    intro i j h
    have := length_redList o.toArr r0 r1 i j
    rw [h] at this
    cases r0 <;> cases r1 <;> simp at this h01 hr hc <;> omega
  unfold libReduce
  cases r0 <;> cases r1
  · simp at h01
  · simp only [Bool.false_eq_true, false_and, if_false, if_true]
    rw [if_neg (by have := hc rfl; omega)]
    exact ⟨_, rfl, ⟨rfl, rfl, fun i hi j hj => folds_eval op _ (hne i j)⟩⟩
  · simp only [Bool.false_eq_true, and_false, if_false]
    rw [if_neg (by have := hr rfl; omega)]
    exact ⟨_, rfl, ⟨rfl, rfl, fun i hi j hj => folds_eval op _ (hne i j)⟩⟩
  · simp only [and_self, if_true]
    rw [if_neg (by have := hr rfl; have := hc rfl; omega)]
    exact ⟨_, rfl, ⟨rfl, rfl, fun i hi j hj => folds_eval op _ (hne 0 0)⟩⟩

/-- Nothing but the library applies. -/
theorem reduce_general_ok (op : RedOp F) (h : ¬ o.constObj) (hd : ¬ o.diagonal ∨ (¬ isPlus op ∧ ¬ isTimes op)) (r0 r1 : Bool)
    (h01 : r0 = true ∨ r1 = true) (hr : r0 = true → 0 < o.rows) (hc : r1 = true → 0 < o.cols) (fuel : ℕ) :
    ∃ r, reduceImpl op (fuel + 1) o r0 r1 = .ok r ∧ IsReduction op r0 r1 o.toArr r.toArr := by
  have hz : ¬ o.zero := fun hz => h (Or.inr (Or.inl hz))
  unfold reduceImpl
  rw [if_neg (by tauto), if_neg h, if_neg (by tauto), if_neg (by tauto), if_neg (by tauto), if_neg (by tauto)]
  obtain ⟨r, h1, h2⟩ := libReduce_ok (o := o) op r0 r1 h01 hr hc
  exact ⟨r, h1, h2⟩

/-- Reducing over an index of dimension 1 changes nothing. -/
theorem isReduction_one0 {op : RedOp F} {r1 : Bool} {a r : Arr F} (h : a.rows = 1) : IsReduction op false r1 a r ↔ IsReduction op true r1 a r := by
  unfold IsReduction
  simp only [h]
  constructor
  · rintro ⟨h1, h2, h3⟩
    refine ⟨by simpa using h1, h2, fun i hi j hj => ?_⟩
    have := h3 i hi j hj
    have hi0 : i = 0 := by simp at h1; omega
    simpa [collapse, hi0, List.range_succ] using this
  · rintro ⟨h1, h2, h3⟩
    refine ⟨by simpa using h1, h2, fun i hi j hj => ?_⟩
    have := h3 i hi j hj
    have hi0 : i = 0 := by simp at h1; omega
    simpa [collapse, hi0, List.range_succ] using this

theorem isReduction_one1 {op : RedOp F} {r0 : Bool} {a r : Arr F} (h : a.cols = 1) : IsReduction op r0 false a r ↔ IsReduction op r0 true a r := by
  unfold IsReduction
  simp only [h]
  constructor
  · rintro ⟨h1, h2, h3⟩
    refine ⟨h1, by simpa using h2, fun i hi j hj => ?_⟩
    have := h3 i hi j hj
    have hj0 : j = 0 := by simp at h2; omega
    simpa [collapse, hj0, List.range_succ] using this
  · rintro ⟨h1, h2, h3⟩
    refine ⟨h1, by simpa using h2, fun i hi j hj => ?_⟩
    have := h3 i hi j hj
    have hj0 : j = 0 := by simp at h2; omega
    simpa [collapse, hj0, List.range_succ] using this

theorem isReduction_none {op : RedOp F} (a : Arr F) : IsReduction op false false a a := by
  refine ⟨rfl, rfl, fun i hi j hj => ?_⟩
  cases op <;> simp [collapse, RedOp.Folds]

/-- After skipping leading indices of static dimension 1, what remains is either nothing or a call of `reduce_impl`. -/
theorem reduceIdx_cases (op : RedOp F) (o : Obj F) (ixs : List (Fin 2)) :
    (reduceIdx op o ixs = .ok o ∧ (0 ∈ ixs → o.rowsIs 1) ∧ (1 ∈ ixs → o.colsIs 1)) ∨
    ∃ r0 r1 : Bool, (r0 = true ∨ r1 = true) ∧ reduceIdx op o ixs = reduceImpl op redFuel o r0 r1 ∧
      (r0 = decide (0 ∈ ixs) ∨ (r0 = false ∧ o.rowsIs 1)) ∧ (r1 = decide (1 ∈ ixs) ∨ (r1 = false ∧ o.colsIs 1)) := by
  induction ixs with
  | nil => exact Or.inl ⟨rfl, by simp, by simp⟩
  | cons ix ixs ih =>
    rw [reduceIdx]
    by_cases h : (ix = 0 ∧ o.rowsIs 1) ∨ (ix = 1 ∧ o.colsIs 1)
    · rw [if_pos h]
      rcases ih with ⟨h1, h2, h3⟩ | ⟨r0, r1, h1, h2, h3, h4⟩
      · refine Or.inl ⟨h1, fun hm => ?_, fun hm => ?_⟩
        · rcases List.mem_cons.1 hm with e | e
          · rcases h with h | h
            · exact h.2
            · rw [h.1] at e; simp at e
          · exact h2 e
        · rcases List.mem_cons.1 hm with e | e
          · rcases h with h | h
            · rw [h.1] at e; simp at e
            · exact h.2
          · exact h3 e
      · refine Or.inr ⟨r0, r1, h1, h2, ?_, ?_⟩
        · rcases h3 with h3 | h3
          · rcases h with h | h
            · by_cases hm : (0 : Fin 2) ∈ ixs
              · left; rw [h3]; simp [hm]
              · right; exact ⟨by rw [h3]; simp [hm], h.2⟩
            · left; rw [h3, h.1]; simp
          · exact Or.inr h3
        · rcases h4 with h4 | h4
          · rcases h with h | h
            · left; rw [h4, h.1]; simp
            · by_cases hm : (1 : Fin 2) ∈ ixs
              · left; rw [h4]; simp [hm]
              · right; exact ⟨by rw [h4]; simp [hm], h.2⟩
          · exact Or.inr h4
    · rw [if_neg h]
      refine Or.inr ⟨_, _, ?_, rfl, Or.inl rfl, Or.inl rfl⟩
      fin_cases ix <;> simp

/-- Reducing the list of indices, from `reduce_impl` on the indices actually used. -/
theorem reduceIdx_ok (op : RedOp F) (ixs : List (Fin 2))
    (himpl : ∀ r0 r1 : Bool, (r0 = true ∨ r1 = true) → (r0 = decide (0 ∈ ixs) ∨ (r0 = false ∧ o.rowsIs 1)) →
      (r1 = decide (1 ∈ ixs) ∨ (r1 = false ∧ o.colsIs 1)) →
      ∃ r, reduceImpl op redFuel o r0 r1 = .ok r ∧ IsReduction op r0 r1 o.toArr r.toArr) :
    ∃ r, reduceIdx op o ixs = .ok r ∧ IsReduction op (decide (0 ∈ ixs)) (decide (1 ∈ ixs)) o.toArr r.toArr := by
  have fix0 : ∀ (r0 r1 : Bool) (r : Arr F), (r0 = decide (0 ∈ ixs) ∨ (r0 = false ∧ o.rowsIs 1)) →
      (r1 = decide (1 ∈ ixs) ∨ (r1 = false ∧ o.colsIs 1)) → IsReduction op r0 r1 o.toArr r →
      IsReduction op (decide (0 ∈ ixs)) (decide (1 ∈ ixs)) o.toArr r := by
    intro r0 r1 r h0 h1 hr
    have step : IsReduction op (decide (0 ∈ ixs)) r1 o.toArr r := by
      rcases h0 with h0 | h0
      · rw [← h0]; exact hr
      · by_cases hm : (0 : Fin 2) ∈ ixs
        · rw [decide_eq_true hm, ← isReduction_one0 h0.2.2, ← h0.1]; exact hr
        · rw [decide_eq_false hm, ← h0.1]; exact hr
    rcases h1 with h1 | h1
    · rw [← h1]; exact step
    · by_cases hm : (1 : Fin 2) ∈ ixs
      · rw [decide_eq_true hm, ← isReduction_one1 h1.2.2, ← h1.1]; exact step
      · rw [decide_eq_false hm, ← h1.1]; exact step
  rcases reduceIdx_cases op o ixs with ⟨h1, h2, h3⟩ | ⟨r0, r1, h1, h2, h3, h4⟩
  · refine ⟨o, h1, fix0 false false _ ?_ ?_ (isReduction_none _)⟩
    · by_cases hm : (0 : Fin 2) ∈ ixs
      · exact Or.inr ⟨rfl, h2 hm⟩
      · exact Or.inl (by simp [hm])
    · by_cases hm : (1 : Fin 2) ∈ ixs
      · exact Or.inr ⟨rfl, h3 hm⟩
      · exact Or.inl (by simp [hm])
  · obtain ⟨r, hr, hir⟩ := himpl r0 r1 h1 h3 h4
    exact ⟨r, h2.trans hr, fix0 r0 r1 _ h3 h4 hir⟩

theorem reduceAll_ok (op : RedOp F) (hw : o.WF) (hnz : 0 < o.rows * o.cols ∨ op = .plus ∨ ¬ o.zero)
    (hconst : o.constObj → 0 < o.rows * o.cols ∨ op = .plus ∨ op = .times)
    (himpl : ¬ o.constObj → ∃ r, reduceImpl op redFuel o true true = .ok r ∧ IsReduction op true true o.toArr r.toArr) :
    ∃ v, reduceAll op o = .ok v ∧ op.Folds (redList o.toArr true true 0 0) v := by
  by_cases hco : o.constObj
  · rw [reduceAll_const op hw hco, redList_const hw hco (by simp) (by simp)]
    have hcr : o.countReduced true true = o.rows * o.cols := by simp [countReduced]
    by_cases hz : o.zero ∧ (isPlus op ∨ isTimes op)
    · rw [if_pos hz, zero_constVal hz.1, hcr]
      refine ⟨_, rfl, ?_⟩
      cases op with
      | plus => simp [RedOp.Folds]
      | times =>
        rcases hnz with h | h | h
        · rw [RedOp.Folds, List.prod_replicate, zero_pow (by omega)]
        · simp at h
        · exact absurd hz.1 h
      | other f => simp [isPlus, isTimes] at hz
    · rw [if_neg hz, hcr]
      exact ⟨_, rfl, folds_const op _ _ (hconst hco)⟩
  · obtain ⟨r, hr, hir⟩ := himpl hco
    have hz : ¬ o.zero := fun h => hco (Or.inr (Or.inl h))
    have h1 : ¬ o.oneDim := fun h => hco (Or.inr (Or.inr h))
    rw [reduceAll, if_neg (by tauto), if_neg h1, if_neg hco, hr]
    have hrr : r.rows = 1 := hir.1
    have hrc : r.cols = 1 := hir.2.1
    refine ⟨r.get 0 0, if_neg (by omega), hir.2.2 0 (by omega) 0 (by omega)⟩

/-! ### Diagonal arguments -/

theorem list_sum_single (n : ℕ) (f : ℕ → F) (k : ℕ) (h : ∀ i < n, i ≠ k → f i = 0) : ((List.range n).map f).sum = if k < n then f k else 0 := by
  rw [list_range_sum]
  split_ifs with hk
  · exact Finset.sum_eq_single k (fun i hi hik => h i (by simpa using hi) hik) (fun h' => absurd (by simpa using hk) h')
  · exact Finset.sum_eq_zero fun i hi => h i (by simpa using hi) (by simp at hi; omega)

theorem redList_row (a : Arr F) (i j : ℕ) : redList a false true i j = (List.range a.cols).map fun j' => a.get i j' := by
  simp [redList, collapse]

theorem redList_col' (a : Arr F) (i j : ℕ) : redList a true false i j = (List.range a.rows).map fun i' => a.get i' j := by
  simp only [redList, collapse, if_true]
  induction List.range a.rows with
  | nil => rfl
  | cons x xs ih => rw [List.flatMap_cons, ih]; simp

theorem redList_all_sum (a : Arr F) : (redList a true true 0 0).sum = ∑ i ∈ range a.rows, ∑ j ∈ range a.cols, a.get i j := by
  rw [← list_range_sum]
  simp only [redList, collapse, if_true]
  induction List.range a.rows with
  | nil => rfl
  | cons x xs ih => rw [List.flatMap_cons, List.sum_append, ih, List.map_cons, List.sum_cons, list_range_sum]

/-- The sum of all elements of a diagonal matrix. -/
theorem diag_all_sum (hw : o.WF) (hd : o.diagonal) : (redList o.toArr true true 0 0).sum = o.toArr.trace := by
  rw [redList_all_sum, Arr.trace]
  have : ∀ i ∈ range o.rows, ∑ j ∈ range o.cols, o.get i j = if i < o.cols then o.get i i else 0 := by
    intro i hi
    simp only [mem_range] at hi
    rw [← list_range_sum, list_sum_single _ _ i]
    intro j hj hji
    exact hw.diagonal_get hd hi hj (Ne.symm hji)
  rw [Finset.sum_congr rfl this, ← Finset.sum_filter]
  refine Finset.sum_congr ?_ fun _ _ => rfl
  ext i; simp

theorem transpose_dense_col {x : Arr F} {cx : Bool} (hc : x.cols = 1) (hr : x.rows ≠ 1) :
    (dense x true true cx).transpose = .ok (dense x true true cx).transposeAdapter := by
  have h1 : ¬ (dense x true true cx).constObj := fun h => hr (dense_constObj.1 h).1.2
  have h2 : ¬ (dense x true true cx).diagonal := by unfold diagonal; rw [dense_col_triOf hc (by tauto)]; simp
  have h3 : ¬ (dense x true true cx).square := by rw [dense_square]; omega
  have h4 : ¬ (dense x true true cx).constDiag := fun h => h2 (WF.constDiag_diagonal h)
  have h5 : ¬ (dense x true true cx).hermitian := fun h => h3 h.1
  unfold transpose
  rw [if_neg (by tauto), if_neg h1, if_neg h4, if_neg (by tauto), if_neg h2]

theorem reduce_diag_plus_ok (hw : o.WF) (hd : o.diagonal) (hco : ¬ o.constObj) (hcst : o.cst = none) (r0 r1 : Bool)
    (h01 : r0 = true ∨ r1 = true) (hr : 0 < o.rows) (hc : 0 < o.cols)
    (hbad : o.statRows = true → o.statCols = true → r0 = false → o.rows ≤ o.cols → o.rows = 1) :
    ∃ r, reduceImpl .plus redFuel o r0 r1 = .ok r ∧ IsReduction .plus r0 r1 o.toArr r.toArr := by
  have hz : ¬ o.zero := fun hz => hco (Or.inr (Or.inl hz))
  have h1d : ¬ o.oneDim := fun h => hco (Or.inr (Or.inr h))
  obtain ⟨d, hdd, hdw, hds, hdx, hf⟩ := diagonalOf_forms hw (Or.inl hcst)
  have hdform : d = dense o.diagVec (o.statRows && o.statCols) true o.cplx := by
    rcases hf with hf | hf | hf
    · exact absurd (Or.inl hf.2) h1d
    · rcases hf.2 with h | h
      · exact absurd h hco
      · rcases h with ⟨h, -⟩ | h | h
        · simp [hcst] at h
        · exact absurd h hz
        · exact absurd h h1d
    · exact hf.1
  have hrow : ∀ i < o.rows, ∀ n, n = o.cols → ((List.range n).map fun j' => o.get i j').sum = if i < o.cols then o.get i i else 0 := by
    rintro i hi n rfl
    exact list_sum_single _ _ i fun j hj hji => hw.diagonal_get hd hi hj (Ne.symm hji)
  have hcol : ∀ j < o.cols, ((List.range o.rows).map fun i' => o.get i' j).sum = if j < o.rows then o.get j j else 0 := by
    intro j hj
    exact list_sum_single _ _ j fun i hi hij => hw.diagonal_get hd hi hj hij
  rw [redFuel, reduceImpl, if_neg (by tauto), if_neg hco]
  by_cases hA : o.diagonal ∧ isPlus (RedOp.plus : RedOp F) ∧ o.statRows = true ∧ o.statCols = true ∧ ((r1 ∧ o.rows ≤ o.cols) ∨ (r0 ∧ r1))
  · rw [if_pos hA, hdd, hdform]
    obtain ⟨-, -, hsr, hsc, hA⟩ := hA
    have hr1 : r1 = true := by tauto
    subst hr1
    simp only [bind, Except.bind, hsr, hsc, Bool.and_self]
    by_cases hn1 : min o.rows o.cols = 1
    · have hdc : (dense o.diagVec true true o.cplx).constObj := dense_constObj.2 ⟨⟨rfl, hn1⟩, rfl, rfl⟩
      rw [reduceImpl, if_neg (fun h => dense_not_zero h.1), if_pos hdc, constReduce_plus]
      have hcr : (dense o.diagVec true true o.cplx).countReduced r0 false = 1 := by
        cases r0
        · rfl
        · simp only [countReduced, dense, Arr.diagVec, hn1]; simp
      refine ⟨_, rfl, ?_⟩
      rw [hcr]
      rw [isReduction_iff]
      simp only [mkReduced, mkConst, constVal, dense, Arr.diagVec, Option.getD_none, Nat.cast_one, mul_one]
      cases r0
      · have : o.rows = 1 := by
          refine hbad hsr hsc rfl ?_
          rcases hA with h | h
          · exact h.2
          · simp at h
        refine ⟨by simp [this]; omega, rfl, fun i hi j hj => ?_⟩
        simp [hn1] at hi
        subst hi
        rw [RedOp.Folds, redList_row, hrow 0 hr _ rfl, if_pos (by omega)]
      · refine ⟨rfl, rfl, fun i hi j hj => ?_⟩
        have e : redList o.toArr true true i j = redList o.toArr true true 0 0 := rfl
        rw [RedOp.Folds, e, diag_all_sum hw hd, Arr.trace, hn1]
        simp
    · have hr0 : r0 = true := by
        cases r0
        · exfalso
          have : o.rows = 1 := by
            refine hbad hsr hsc rfl ?_
            rcases hA with h | h
            · exact h.2
            · simp at h
          omega
        · rfl
      subst hr0
      have hdc : ¬ (dense o.diagVec true true o.cplx).constObj := fun h => hn1 (dense_constObj.1 h).1.2
      have hdnd : ¬ (dense o.diagVec true true o.cplx).diagonal := by
        unfold diagonal; rw [dense_col_triOf rfl (fun h => hn1 h.2)]; simp
      obtain ⟨r, h1, h2⟩ := reduce_general_ok (o := dense o.diagVec true true o.cplx) .plus hdc (Or.inl hdnd) true false (Or.inl rfl)
        (fun _ => by simp only [dense, Arr.diagVec]; omega) (by simp) 2
      refine ⟨r, h1, ?_⟩
      rw [isReduction_iff] at h2 ⊢
      refine ⟨h2.1, h2.2.1, fun i hi j hj => ?_⟩
      have h3 := h2.2.2 i hi j hj
      rw [RedOp.Folds] at h3 ⊢
      rw [h3, redList_col']
      have e : redList o.toArr true true i j = redList o.toArr true true 0 0 := rfl
      rw [e, diag_all_sum hw hd, Arr.trace, ← list_range_sum]
      rfl
  · rw [if_neg hA]
    by_cases hB : o.diagonal ∧ isPlus (RedOp.plus : RedOp F) ∧ o.statRows = true ∧ o.statCols = true ∧ (r0 ∧ o.cols ≤ o.rows)
    · rw [if_pos hB, hdd, hdform]
      obtain ⟨-, -, hsr, hsc, hr0, hle⟩ := hB
      have hr1 : r1 = false := by
        cases r1
        · rfl
        · exact absurd ⟨hd, trivial, hsr, hsc, Or.inr ⟨hr0, rfl⟩⟩ hA
      subst hr1; subst hr0
      simp only [bind, Except.bind, hsr, hsc, Bool.and_self]
      by_cases hn1 : min o.rows o.cols = 1
      · have hdc : (dense o.diagVec true true o.cplx).constObj := dense_constObj.2 ⟨⟨rfl, hn1⟩, rfl, rfl⟩
        have ht : (dense o.diagVec true true o.cplx).transpose = .ok (dense o.diagVec true true o.cplx) := by
          unfold transpose
          rw [if_pos ⟨⟨rfl, rfl, by simp [dense, Arr.diagVec, hn1]⟩, Or.inl hdc⟩]
        rw [ht]
        simp only
        rw [reduceImpl, if_neg (fun h => dense_not_zero h.1), if_pos hdc, constReduce_plus]
        refine ⟨_, rfl, ?_⟩
        rw [isReduction_iff]
        simp only [mkReduced, mkConst, constVal, dense, Arr.diagVec, Option.getD_none, countReduced]
        have hc1 : o.cols = 1 := by omega
        refine ⟨by simp [hn1], by simp [hc1], fun i hi j hj => ?_⟩
        simp at hj
        subst hj
        rw [RedOp.Folds, redList_col', hcol 0 hc, if_pos hr]
        simp
      · rw [transpose_dense_col rfl hn1]
        simp only
        have hts : ¬ (dense o.diagVec true true o.cplx).transposeAdapter.square := by
          rintro (h | ⟨_, _, h⟩)
          · simp only [transposeAdapter, decide_eq_true_eq] at h
            rw [dense_square] at h
            exact hn1 h.2.2
          · exact hn1 h.symm
        have htz : ¬ (dense o.diagVec true true o.cplx).transposeAdapter.zero := by simp [zero, transposeAdapter, dense]
        have ht1 : ¬ (dense o.diagVec true true o.cplx).transposeAdapter.oneDim := by
          rintro (⟨_, _, h⟩ | h)
          · exact hn1 h
          · exact hts h.1
        have htc : ¬ (dense o.diagVec true true o.cplx).transposeAdapter.constObj := by
          rintro (⟨h, _⟩ | h | h)
          · simp [transposeAdapter, dense] at h
          · exact htz h
          · exact ht1 h
        have httri : (dense o.diagVec true true o.cplx).transposeAdapter.tri = .upper := by
          simp only [transposeAdapter]; rw [dense_col_triOf rfl (fun h => hn1 h.2)]
        have htd : ¬ (dense o.diagVec true true o.cplx).transposeAdapter.diagonal := by
          unfold diagonal triOf
          rw [if_neg (by rw [httri]; simp [htz, ht1]), if_neg (fun h => hn1 h.2), if_pos ⟨rfl, rfl⟩]
          simp
        rw [reduceImpl, if_neg (by tauto), if_neg htc, if_neg (by tauto), if_neg (by tauto), if_neg (by tauto), if_neg (by tauto)]
        unfold libReduce
        rw [if_neg (by simp), if_neg (by simp), if_neg (by simp [transposeAdapter, dense, Arr.diagVec])]
        refine ⟨_, rfl, ?_⟩
        rw [isReduction_iff]
        have hmin : min o.rows o.cols = o.cols := by omega
        refine ⟨rfl, by simp [dense, redArr, transposeAdapter, Arr.diagVec, hmin], fun i hi j hj => ?_⟩
        simp [dense, redArr, transposeAdapter, Arr.diagVec, hmin] at hj
        rw [RedOp.Folds, redList_col', hcol j hj, if_pos (by omega)]
        simp only [dense, redArr, redList_col']
        simp [transposeAdapter, Arr.diagVec, RedOp.eval, List.range_succ]
    · rw [if_neg hB, if_neg (by simp [isTimes]), if_neg (by simp [isTimes])]
      obtain ⟨r, h1, h2⟩ := libReduce_ok (o := o) .plus r0 r1 h01 (fun _ => hr) (fun _ => hc)
      exact ⟨r, h1, h2⟩

/-- A product over positions that include one off the diagonal is zero. -/
theorem diag_prod_zero (hw : o.WF) (hd : o.diagonal) {r0 r1 : Bool} {i j i' j' : ℕ} (hi' : i' < o.rows) (hj' : j' < o.cols) (hij : i' ≠ j')
    (hi : r0 = false → i' = i) (hj : r1 = false → j' = j) : (redList o.toArr r0 r1 i j).prod = 0 := by
  rw [List.prod_eq_zero_iff, ← hw.diagonal_get hd hi' hj' hij]
  apply get_mem_redList
  · cases r0 <;> simp_all
  · cases r1 <;> simp_all

theorem reduce_diag_times_ok (hw : o.WF) (hd : o.diagonal) (hco : ¬ o.constObj) (hcst : o.cst = none) (r0 r1 : Bool)
    (h01 : r0 = true ∨ r1 = true) (hr : 0 < o.rows) (hc : 0 < o.cols)
    (hbad1 : o.statCols = true → r1 = true → o.cols ≠ 1 ∧ o.rows ≤ o.cols ∧ (r0 = true → o.rows = 1))
    (hbad0 : ¬ (o.statCols = true ∧ r1 = true) → o.statRows = true → r0 = true → o.rows ≠ 1 → r1 = true ∨ o.cols ≤ o.rows) :
    ∃ r, reduceImpl .times redFuel o r0 r1 = .ok r ∧ IsReduction .times r0 r1 o.toArr r.toArr := by
  have hz : ¬ o.zero := fun hz => hco (Or.inr (Or.inl hz))
  obtain ⟨d, hdd, hdw, hds, hdx, hf⟩ := diagonalOf_forms hw (Or.inl hcst)
  have hdr : d.rows = min o.rows o.cols := hds.1
  have hdc : d.cols = 1 := hds.2.1
  have hmz : ∀ {r k : ℕ} {sr sk cx : Bool}, (mkConst (0 : F) true r sr k sk cx).zero := fun {_ _ _ _ _} => ⟨rfl, rfl⟩
  rw [redFuel, reduceImpl, if_neg (by tauto), if_neg hco, if_neg (by simp [isPlus]), if_neg (by simp [isPlus])]
  by_cases hA : o.diagonal ∧ isTimes (RedOp.times : RedOp F) ∧ o.statCols = true ∧ r1
  · rw [if_pos hA]
    obtain ⟨hb1, hb2, hb3⟩ := hbad1 hA.2.2.1 hA.2.2.2
    rw [if_neg hb1, hdd]
    simp only [bind, Except.bind]
    rw [reduceImpl, if_pos ⟨hmz, Or.inr trivial⟩]
    refine ⟨_, rfl, ?_⟩
    have hr1 : r1 = true := hA.2.2.2
    subst hr1
    rw [isReduction_iff]
    simp only [mkReduced, mkConst, hdr]
    refine ⟨?_, by simp, fun i hi j hj => ?_⟩
    · cases r0
      · simp; omega
      · have := hb3 rfl; simp; omega
    · simp at hi
      rw [RedOp.Folds]
      refine (diag_prod_zero hw hd (i' := i) (j' := if i = 0 then 1 else 0) (by omega) ?_ ?_ (fun _ => rfl) (by simp)).symm
      · split_ifs <;> omega
      · split_ifs <;> omega
  · rw [if_neg hA]
    have hA' : ¬ (o.statCols = true ∧ r1 = true) := fun h => hA ⟨hd, trivial, h.1, h.2⟩
    by_cases hB : o.diagonal ∧ isTimes (RedOp.times : RedOp F) ∧ o.statRows = true ∧ r0
    · rw [if_pos hB]
      have hr0 : r0 = true := hB.2.2.2
      by_cases hr1 : o.rows = 1
      · rw [if_pos hr1, reduceImpl, if_neg (by tauto), if_neg hco, if_neg (by simp [isPlus]), if_neg (by simp [isPlus]), if_neg hA, if_neg (by simp)]
        subst hr0
        cases r1
        · -- no index left: the library reduces vertically
          unfold libReduce
          rw [if_neg (by simp), if_neg (by simp), if_neg (by omega)]
          refine ⟨_, rfl, ⟨rfl, rfl, fun i hi j hj => ?_⟩⟩
          exact folds_eval _ _ (by
            intro h
            have := length_redList o.toArr true false i j
            rw [show (redList o.toArr true false i j) = [] from h] at this
            simp at this; omega)
        · obtain ⟨r, h1, h2⟩ := libReduce_ok (o := o) .times false true (Or.inr rfl) (by simp) (fun _ => hc)
          exact ⟨r, h1, (isReduction_one0 hr1).1 h2⟩
      · rw [if_neg hr1, hdd]
        simp only [bind, Except.bind]
        rw [reduceImpl, if_pos ⟨hmz, Or.inr trivial⟩]
        refine ⟨_, rfl, ?_⟩
        have hb := hbad0 hA' hB.2.2.1 hr0 hr1
        subst hr0
        rw [isReduction_iff]
        simp only [mkReduced, mkConst, hdr, hdc]
        refine ⟨rfl, ?_, fun i hi j hj => ?_⟩
        · cases r1
          · simp at hb ⊢; omega
          · rfl
        · rw [RedOp.Folds]
          cases r1
          · simp only [Bool.false_eq_true, if_false] at hj
            refine (diag_prod_zero hw hd (i' := if j = 0 then 1 else 0) (j' := j) ?_ (by omega) ?_ (by simp) (fun _ => rfl)).symm
            · split_ifs <;> omega
            · split_ifs <;> omega
          · exact (diag_prod_zero hw hd (i' := 1) (j' := 0) (by omega) (by omega) (by simp) (by simp) (by simp)).symm
    · rw [if_neg hB]
      obtain ⟨r, h1, h2⟩ := libReduce_ok (o := o) .times r0 r1 h01 (fun _ => hr) (fun _ => hc)
      exact ⟨r, h1, h2⟩

/-! ### The form of the result; averages -/

/-- A constant or dense result. -/
def plainForm (r : Obj F) : Prop := (∃ c f m sr k sk cx, r = mkConst c f m sr k sk cx) ∨ (∃ x sr sk cx, r = dense x sr sk cx)

theorem reduceImpl_form (op : RedOp F) (fuel : ℕ) : ∀ (o : Obj F) (r0 r1 : Bool) (r : Obj F), reduceImpl op fuel o r0 r1 = .ok r → r.plainForm := by
  induction fuel with
  | zero => intro o r0 r1 r h; simp [reduceImpl] at h
  | succ fuel ih =>
    intro o r0 r1 r h
    have hb : ∀ {α : Type} (x : Except Err α) (g : α → Except Err (Obj F)), (x >>= g) = .ok r → (∀ y, g y = .ok r → r.plainForm) → r.plainForm := by
      intro α x g hx hg
      cases x with
      | error e => simp [bind, Except.bind] at hx
      | ok y => exact hg y hx
    rw [reduceImpl] at h
    by_cases h1 : o.zero ∧ (isPlus op ∨ isTimes op)
    · rw [if_pos h1] at h; cases h; exact Or.inl ⟨_, _, _, _, _, _, _, rfl⟩
    rw [if_neg h1] at h
    by_cases h2 : o.constObj
    · rw [if_pos h2] at h; cases h; exact Or.inl ⟨_, _, _, _, _, _, _, rfl⟩
    rw [if_neg h2] at h
    by_cases h3 : o.diagonal ∧ isPlus op ∧ o.statRows = true ∧ o.statCols = true ∧ ((r1 ∧ o.rows ≤ o.cols) ∨ (r0 ∧ r1))
    · rw [if_pos h3] at h; exact hb _ _ h fun d hd => ih _ _ _ _ hd
    rw [if_neg h3] at h
    by_cases h4 : o.diagonal ∧ isPlus op ∧ o.statRows = true ∧ o.statCols = true ∧ (r0 ∧ o.cols ≤ o.rows)
    · rw [if_pos h4] at h; exact hb _ _ h fun d hd => hb _ _ hd fun t ht => ih _ _ _ _ ht
    rw [if_neg h4] at h
    by_cases h5 : o.diagonal ∧ isTimes op ∧ o.statCols = true ∧ r1
    · rw [if_pos h5] at h
      by_cases h6 : o.cols = 1
      · rw [if_pos h6] at h; exact ih _ _ _ _ h
      · rw [if_neg h6] at h; exact hb _ _ h fun d hd => ih _ _ _ _ hd
    rw [if_neg h5] at h
    by_cases h7 : o.diagonal ∧ isTimes op ∧ o.statRows = true ∧ r0
    · rw [if_pos h7] at h
      by_cases h6 : o.rows = 1
      · rw [if_pos h6] at h; exact ih _ _ _ _ h
      · rw [if_neg h6] at h; exact hb _ _ h fun d hd => ih _ _ _ _ hd
    rw [if_neg h7] at h
    unfold libReduce at h
    split_ifs at h
    · cases h; exact Or.inl ⟨_, _, _, _, _, _, _, rfl⟩
    · cases h; exact Or.inr ⟨_, _, _, _, rfl⟩
    · cases h; exact Or.inr ⟨_, _, _, _, rfl⟩

theorem scalarQuotient_form {r : Obj F} (h : r.plainForm) (s : F) : ∃ q, r.scalarQuotient s false false = .ok q ∧ q.toArr.Same (r.toArr.map (· / s)) := by
  rcases h with ⟨c, f, m, sr, k, sk, cx, rfl⟩ | ⟨x, sr, sk, cx, rfl⟩
  · unfold scalarQuotient
    by_cases hz : (mkConst c f m sr k sk cx).zero
    · rw [if_pos hz]
      refine ⟨_, rfl, rfl, rfl, fun i hi j hj => ?_⟩
      have : c = 0 := by simpa [mkConst] using hz.1
      simp [mkConst, Arr.map, this]
    · rw [if_neg hz, if_pos (mkConst_constObj ..)]
      exact ⟨_, rfl, rfl, rfl, fun i hi j hj => rfl⟩
  · unfold scalarQuotient
    rw [if_neg dense_not_zero]
    by_cases hc : (dense x sr sk cx).constObj
    · rw [if_pos hc]
      refine ⟨_, rfl, rfl, rfl, fun i hi j hj => ?_⟩
      have := dense_constObj.1 hc
      simp only [mkConst, dense] at hi hj
      have e1 : i = 0 := by omega
      have e2 : j = 0 := by omega
      subst e1; subst e2
      rfl
    · rw [if_neg hc, if_neg, if_neg (by simp)]
      · exact ⟨_, rfl, rfl, rfl, fun i hi j hj => rfl⟩
      · rintro (⟨h, _⟩ | h | h)
        · simp [dense] at h
        · exact dense_not_zero h
        · exact hc (Or.inr (Or.inr h))

end Obj
end OpenKalman.LinAlg

namespace OpenKalman.LinAlg
open Finset Classical
namespace Obj
variable {F : Type} [Field F] [StarRing F] {o a b : Obj F}

theorem bind_ok {α β : Type} {x : Except Err α} {g : α → Except Err β} {r : β} (h : (x >>= g) = .ok r) : ∃ y, x = .ok y ∧ g y = .ok r := by
  cases x with
  | error e => simp [bind, Except.bind] at h
  | ok y => exact ⟨y, rfl, h⟩

/-- Whenever `trace` returns, it returns the sum of the diagonal. -/
theorem trace_sound (hw : o.WF) {v : F} (h : o.trace = .ok v) : v = o.toArr.trace := by
  by_cases hp : o.plain
  · by_cases hne : o.triOf = .none ∨ o.empty ∨ o.cst.isSome = true ∨ 0 < min o.rows o.cols
    · rw [trace_ok hw hp hne] at h; exact (Except.ok.inj h).symm
    · push Not at hne
      unfold trace at h
      have hc : o.cst = none := by simpa using hne.2.2.1
      have hnc : ∀ {P : Prop}, (o.cst.isSome = true ∧ P) → False := fun h => by simp [hc] at h
      have hz : ¬ o.zero := fun h => by simp [zero, hc] at h
      have h1 : ¬ o.oneDim := fun h => by have := hw.oneDim_dims h; omega
      have hco : ¬ o.constObj := by rintro (h | h | h); exacts [hnc h, hz h, h1 h]
      have hcd : ¬ o.constDiag := by rintro (h | h | h); exacts [hnc h, hz h, h1 h]
      rw [if_neg (by tauto), if_neg (fun h => hcd h.1), if_neg h1, if_neg hco, if_neg hcd, if_pos hne.1,
        dense_diag_sum .plus (Or.inl rfl) hw hc (fun h => h1 (Or.inl h)), if_pos (by omega)] at h
      simp at h
  · have hco : ¬ o.constObj := fun h => hp (Or.inr (Or.inl h))
    have hcd : ¬ o.constDiag := fun h => hp (Or.inr (Or.inr h))
    have h1 : ¬ o.oneDim := fun h => hco (Or.inr (Or.inr h))
    have hz : ¬ o.zero := fun h => hco (Or.inr (Or.inl h))
    have hcs : o.cst.isSome = true := by
      by_contra h; exact hp (Or.inl (by simpa using h))
    unfold trace at h
    by_cases he : o.empty
    · rw [if_pos (Or.inr he)] at h
      have : min o.rows o.cols = 0 := by
        rcases he with h1 | h1 <;> simp [h1.2]
      rw [← Except.ok.inj h]
      simp [Arr.trace, this]
    · rw [if_neg (by tauto), if_neg (fun h => hcd h.1), if_neg h1, if_neg hco, if_neg hcd,
        diagonalOf_illFormed (fun h => h1 (Or.inl h)) (by tauto) hcs] at h
      split_ifs at h
      all_goals simp [bind, Except.bind] at h

/-- A constant on a proper triangle: `trace` does not compile. -/
theorem trace_illFormed (hp : ¬ o.plain) (he : ¬ o.empty) : o.trace = .error .illFormed := by
  have hco : ¬ o.constObj := fun h => hp (Or.inr (Or.inl h))
  have hcd : ¬ o.constDiag := fun h => hp (Or.inr (Or.inr h))
  have h1 : ¬ o.oneDim := fun h => hco (Or.inr (Or.inr h))
  have hz : ¬ o.zero := fun h => hco (Or.inr (Or.inl h))
  have hcs : o.cst.isSome = true := by
    by_contra h; exact hp (Or.inl (by simpa using h))
  unfold trace
  rw [if_neg (by tauto), if_neg (fun h => hcd h.1), if_neg h1, if_neg hco, if_neg hcd,
    diagonalOf_illFormed (fun h => h1 (Or.inl h)) (by tauto) hcs]
  split_ifs <;> rfl

/-- A triangular matrix that is empty at run time: undefined behaviour. -/
theorem trace_undefined (hw : o.WF) (hc : o.cst = none) (ht : o.triOf ≠ .none) (he : ¬ o.empty) (h0 : min o.rows o.cols = 0) :
    o.trace = .error .undefinedBehaviour := by
  have hnc : ∀ {P : Prop}, (o.cst.isSome = true ∧ P) → False := fun h => by simp [hc] at h
  have hz : ¬ o.zero := fun h => by simp [zero, hc] at h
  have h1 : ¬ o.oneDim := fun h => by have := hw.oneDim_dims h; omega
  have hco : ¬ o.constObj := by rintro (h | h | h); exacts [hnc h, hz h, h1 h]
  have hcd : ¬ o.constDiag := by rintro (h | h | h); exacts [hnc h, hz h, h1 h]
  unfold trace
  rw [if_neg (by tauto), if_neg (fun h => hcd h.1), if_neg h1, if_neg hco, if_neg hcd, if_pos ht,
    dense_diag_sum .plus (Or.inl rfl) hw hc (fun h => h1 (Or.inl h)), if_pos h0]

/-- Whenever `determinant` returns, the argument is square and the value is the determinant. -/
theorem determinant_sound (hw : o.WF) {v : F} (h : o.determinant = .ok v) : o.rows = o.cols ∧ v = (o.toArr.toMatrix o.rows o.rows).det := by
  have hsq : o.rows = o.cols := by
    by_contra hsq
    have hd : ∀ x, ¬ (o.statRows = true ∧ o.statCols = true ∧ o.rows ≠ o.cols) → detSquare o x = .error .domainError := by
      intro x hs
      unfold detSquare
      rw [if_pos]
      refine ⟨?_, hsq⟩
      by_contra hh
      push Not at hh
      exact hs ⟨by simpa using hh.1, by simpa using hh.2, hsq⟩
    unfold determinant at h
    by_cases h0 : o.statRows = true ∧ o.statCols = true ∧ o.rows ≠ o.cols
    · rw [if_pos h0] at h; simp at h
    · simp only [hd _ h0] at h
      rw [if_neg h0] at h
      split_ifs at h
  refine ⟨hsq, ?_⟩
  by_cases hp : o.plain
  · by_cases hne : o.triOf = .none ∨ o.empty ∨ o.cst.isSome = true ∨ 0 < o.rows
    · rw [determinant_ok hw hp hsq hne] at h; exact (Except.ok.inj h).symm
    · push Not at hne
      have hc : o.cst = none := by simpa using hne.2.2.1
      have h0 : o.rows = 0 := by omega
      have hnc : ∀ {P : Prop}, (o.cst.isSome = true ∧ P) → False := fun h => by simp [hc] at h
      have hz : ¬ o.zero := fun h => by simp [zero, hc] at h
      have h1 : ¬ o.oneDim := fun h => by have := hw.oneDim_dims h; omega
      have hco : ¬ o.constObj := by rintro (h | h | h); exacts [hnc h, hz h, h1 h]
      have hcd : ¬ o.constDiag := by rintro (h | h | h); exacts [hnc h, hz h, h1 h]
      have hr1 : ¬ (o.rowsIs 1 ∨ o.colsIs 1) := by rintro (h | h) <;> have := h.2 <;> omega
      have hds : ∀ x, detSquare o x = x := fun x => by simp [detSquare, hsq]
      unfold determinant at h
      rw [if_neg (by tauto), if_neg (by rintro (h | h); exacts [hcd h.1, hne.2.1 h]), if_neg hr1, if_neg (fun h => hco h.1), if_neg hcd, if_pos hne.1, hds,
        dense_diag_sum .times (Or.inr rfl) hw hc (fun h => hr1 (Or.inl h.1)), if_pos (by omega)] at h
      simp at h
  · have hco : ¬ o.constObj := fun h => hp (Or.inr (Or.inl h))
    have hcd : ¬ o.constDiag := fun h => hp (Or.inr (Or.inr h))
    have h1 : ¬ o.oneDim := fun h => hco (Or.inr (Or.inr h))
    have hz : ¬ o.zero := fun h => hco (Or.inr (Or.inl h))
    have hcs : o.cst.isSome = true := by
      by_contra h; exact hp (Or.inl (by simpa using h))
    have hds : ∀ x, detSquare o x = x := fun x => by simp [detSquare, hsq]
    have ht : o.triOf ≠ .none := fun ht => hco (Or.inl ⟨hcs, Or.inl ht⟩)
    unfold determinant at h
    rw [if_neg (by tauto)] at h
    by_cases he : o.empty
    · rw [if_pos (Or.inr he), hds] at h
      have : o.rows = 0 := by rcases he with h1 | h1 <;> have := h1.2 <;> omega
      rw [det_zero this, ← Except.ok.inj h]
    · rw [if_neg (by rintro (h | h); exacts [hcd h.1, he h])] at h
      by_cases hr1 : o.rowsIs 1 ∨ o.colsIs 1
      · rw [if_pos hr1, hds] at h
        have : o.rows = 1 := by rcases hr1 with h2 | h2 <;> have := h2.2 <;> omega
        rw [det_one this, ← Except.ok.inj h]
      · rw [if_neg hr1, if_neg (fun h => hco h.1), if_neg hcd, if_pos ht, hds,
          diagonalOf_illFormed (fun h => hr1 (Or.inl h.1)) (by tauto) hcs] at h
        simp [bind, Except.bind] at h

/-- The shape `contract` gives a diagonal times a constant. -/
theorem contract_dc_shape (path : ContractPath) (ha : a.WF) (hb : b.WF) (hdim : a.cols = b.rows) (hne : noEarly a b) (h1 : a.diagonal)
    (h2 : b.constObj) (hbc : 0 < b.cols) : ∃ r, contract path a b = .ok r ∧ r.rows = min a.rows a.cols ∧ r.cols = b.cols := by
  obtain ⟨e1, e2, e3, e4, e5⟩ := hne
  have hpl := diagonal_plain h1
  obtain ⟨d, hd, hdw, hds, hdx, -⟩ := diagonalOf_forms ha hpl
  obtain ⟨col, hcol, hcs, hcw⟩ := scalarProduct_ok (o := d) (s := b.constVal) (fixed := b.valFixed) (sc := b.cplx) hdw
    (fun h => hb.realConst h (Or.inl h2)) (fun h h' => absurd (constDiag_constObj_of (diagonalOf_col ha hpl hd) h) h')
  unfold contract
  rw [if_neg (by omega), if_neg e1, if_neg e2, if_neg (by tauto), if_neg e5, if_pos ⟨h1, h2⟩, hd]
  refine ⟨_, by
    simp only [Except.bind, bind, hcol]
    exact if_neg (by omega), ?_, ?_⟩
  swap
  · rfl
  have := hcs.1
  have h3 := hds.1
  simp only [Arr.map, Arr.diagVec] at this h3
  simp only [dense]; omega

theorem contract_cd_shape (path : ContractPath) (ha : a.WF) (hb : b.WF) (hdim : a.cols = b.rows) (hne : noEarly a b) (h1 : a.constObj)
    (h2 : b.diagonal) (h5 : ¬ (a.diagonal ∧ b.constObj)) (har : 0 < a.rows) :
    ∃ r, contract path a b = .ok r ∧ r.rows = a.rows ∧ r.cols = min b.rows b.cols := by
  obtain ⟨e1, e2, e3, e4, e5⟩ := hne
  have hpl := diagonal_plain h2
  obtain ⟨d, hd, hdw, hds, hdx, -⟩ := diagonalOf_forms hb hpl
  obtain ⟨t, ht, htw, hts, htx⟩ := transpose_ok hdw
  obtain ⟨row, hrow, hrs, hrw⟩ := scalarProduct_ok (o := t) (s := a.constVal) (fixed := a.valFixed) (sc := a.cplx) htw
    (fun h => ha.realConst h (Or.inl h1)) (fun h h' => by
      rcases transpose_row hdw (diagonalOf_col hb hpl hd) (diagonalOf_nondiag hb hpl hd) ht with g | g
      · exact g
      · exact absurd (g h) h')
  unfold contract
  rw [if_neg (by omega), if_neg e1, if_neg e2, if_neg (by tauto), if_neg e5, if_neg h5, if_pos ⟨h1, h2⟩, hd]
  refine ⟨_, by
    simp only [Except.bind, bind, ht, hrow]
    exact if_neg (by omega), ?_, ?_⟩
  · rfl
  have g1 := hrs.2.1
  have g2 := hts.2.1
  have g3 := hds.1
  simp only [Arr.map, Arr.diagVec, Arr.transpose] at g1 g2 g3
  simp only [dense]; omega

theorem contract_dd_shape (path : ContractPath) (ha : a.WF) (hb : b.WF) (hdim : a.cols = b.rows) (hne : noEarly a b) (h1 : a.diagonal)
    (h2 : b.diagonal) (h5 : ¬ (a.diagonal ∧ b.constObj)) (h6 : ¬ (a.constObj ∧ b.diagonal)) {r : Obj F} (hr : contract path a b = .ok r) :
    r.rows = max (min a.rows a.cols) (min b.rows b.cols) ∧ r.cols = max (min a.rows a.cols) (min b.rows b.cols) := by
  obtain ⟨e1, e2, e3, e4, e5⟩ := hne
  obtain ⟨da, hda, hdaw, hdas, hdax⟩ := diagonalOf_ok ha (diagonal_plain h1)
  obtain ⟨db, hdb, hdbw, hdbs, hdbx⟩ := diagonalOf_ok hb (diagonal_plain h2)
  unfold contract at hr
  rw [if_neg (by omega), if_neg e1, if_neg e2, if_neg (by tauto), if_neg e5, if_neg h5, if_neg h6, if_pos ⟨h1, h2⟩, hda, hdb] at hr
  obtain ⟨p, hp, hr⟩ := bind_ok (x := nAryCol (· * ·) da db) hr
  cases hr
  have r1 : da.rows = min a.rows a.cols := hdas.1
  have r2 : db.rows = min b.rows b.cols := hdbs.1
  have hpr : p.rows = max (min a.rows a.cols) (min b.rows b.cols) ∧ p.cols = 1 := by
    unfold nAryCol at hp
    split_ifs at hp
    · cases hp; exact ⟨by simp [mkConst, r1, r2], rfl⟩
    · cases hp; exact ⟨by simp [dense, r1, r2], rfl⟩
  unfold toDiagonal
  split_ifs with g
  · have := g.1.2; have := g.2.2; omega
  · rw [toDiagonalP_rows.1, toDiagonalP_rows.2]; exact ⟨hpr.1, hpr.1⟩

/-! ### Averages -/

theorem averageIdx_cases (o : Obj F) (ixs : List (Fin 2)) :
    (averageIdx o ixs = .ok o ∧ (0 ∈ ixs → o.rowsIs 1) ∧ (1 ∈ ixs → o.colsIs 1)) ∨
    ∃ r0 r1 : Bool, (r0 = true ∨ r1 = true) ∧
      averageIdx o ixs = (if o.constObj then .ok (mkReduced o.constVal o.valFixed o r0 r1)
        else do let r ← reduceImpl .plus redFuel o r0 r1; r.scalarQuotient (o.countReduced r0 r1 : F) false false) ∧
      (r0 = decide (0 ∈ ixs) ∨ (r0 = false ∧ o.rowsIs 1)) ∧ (r1 = decide (1 ∈ ixs) ∨ (r1 = false ∧ o.colsIs 1)) := by
  induction ixs with
  | nil => exact Or.inl ⟨rfl, by simp, by simp⟩
  | cons ix ixs ih =>
    rw [averageIdx]
    by_cases h : (ix = 0 ∧ o.rowsIs 1) ∨ (ix = 1 ∧ o.colsIs 1)
    · rw [if_pos h]
      rcases ih with ⟨h1, h2, h3⟩ | ⟨r0, r1, h1, h2, h3, h4⟩
      · refine Or.inl ⟨h1, fun hm => ?_, fun hm => ?_⟩
        · rcases List.mem_cons.1 hm with e | e
          · rcases h with h | h
            · exact h.2
            · rw [h.1] at e; simp at e
          · exact h2 e
        · rcases List.mem_cons.1 hm with e | e
          · rcases h with h | h
            · rw [h.1] at e; simp at e
            · exact h.2
          · exact h3 e
      · refine Or.inr ⟨r0, r1, h1, h2, ?_, ?_⟩
        · rcases h3 with h3 | h3
          · rcases h with h | h
            · by_cases hm : (0 : Fin 2) ∈ ixs
              · left; rw [h3]; simp [hm]
              · right; exact ⟨by rw [h3]; simp [hm], h.2⟩
            · left; rw [h3, h.1]; simp
          · exact Or.inr h3
        · rcases h4 with h4 | h4
          · rcases h with h | h
            · left; rw [h4, h.1]; simp
            · by_cases hm : (1 : Fin 2) ∈ ixs
              · left; rw [h4]; simp [hm]
              · right; exact ⟨by rw [h4]; simp [hm], h.2⟩
          · exact Or.inr h4
    · rw [if_neg h]
      refine Or.inr ⟨_, _, ?_, ?_, Or.inl rfl, Or.inl rfl⟩
      · fin_cases ix <;> simp
      · simp only [reduceIdx, if_neg h]

theorem averageIdx_ok [CharZero F] (hw : o.WF) (ixs : List (Fin 2)) (hr : 0 < o.rows) (hc : 0 < o.cols)
    (himpl : ¬ o.constObj → ∀ r0 r1 : Bool, (r0 = true ∨ r1 = true) → (r0 = decide (0 ∈ ixs) ∨ (r0 = false ∧ o.rowsIs 1)) →
      (r1 = decide (1 ∈ ixs) ∨ (r1 = false ∧ o.colsIs 1)) →
      ∃ r, reduceImpl .plus redFuel o r0 r1 = .ok r ∧ IsReduction .plus r0 r1 o.toArr r.toArr) :
    ∃ q, averageIdx o ixs = .ok q ∧ IsAverage (decide (0 ∈ ixs)) (decide (1 ∈ ixs)) o.toArr q.toArr := by
  have lift : ∀ (r0 r1 : Bool) (r q : Arr F), (r0 = decide (0 ∈ ixs) ∨ (r0 = false ∧ o.rowsIs 1)) →
      (r1 = decide (1 ∈ ixs) ∨ (r1 = false ∧ o.colsIs 1)) → IsReduction .plus r0 r1 o.toArr r → q.Same (r.map (· / (o.countReduced r0 r1 : F))) →
      IsAverage (decide (0 ∈ ixs)) (decide (1 ∈ ixs)) o.toArr q := by
    intro r0 r1 r q h0 h1 hir hq
    have step : IsReduction .plus (decide (0 ∈ ixs)) r1 o.toArr r ∧ o.countReduced (decide (0 ∈ ixs)) r1 = o.countReduced r0 r1 := by
      rcases h0 with h0 | h0
      · rw [← h0]; exact ⟨hir, rfl⟩
      · by_cases hm : (0 : Fin 2) ∈ ixs
        · rw [decide_eq_true hm, ← isReduction_one0 h0.2.2, h0.1]; exact ⟨h0.1 ▸ hir, by simp [countReduced, h0.2.2]⟩
        · rw [decide_eq_false hm, ← h0.1]; exact ⟨hir, rfl⟩
    have step2 : IsReduction .plus (decide (0 ∈ ixs)) (decide (1 ∈ ixs)) o.toArr r ∧
        o.countReduced (decide (0 ∈ ixs)) (decide (1 ∈ ixs)) = o.countReduced r0 r1 := by
      rw [← step.2]
      rcases h1 with h1 | h1
      · rw [← h1]; exact ⟨step.1, rfl⟩
      · by_cases hm : (1 : Fin 2) ∈ ixs
        · rw [decide_eq_true hm, ← isReduction_one1 h1.2.2, h1.1]; exact ⟨h1.1 ▸ step.1, by simp [countReduced, h1.2.2]⟩
        · rw [decide_eq_false hm, ← h1.1]; exact ⟨step.1, rfl⟩
    refine ⟨r, step2.1, ?_⟩
    rw [← step2.2] at hq
    exact hq
  rcases averageIdx_cases o ixs with ⟨h1, h2, h3⟩ | ⟨r0, r1, h1, h2, h3, h4⟩
  · refine ⟨o, h1, lift false false o.toArr _ ?_ ?_ (isReduction_none _) ⟨rfl, rfl, fun i hi j hj => ?_⟩⟩
    · by_cases hm : (0 : Fin 2) ∈ ixs
      · exact Or.inr ⟨rfl, h2 hm⟩
      · exact Or.inl (by simp [hm])
    · by_cases hm : (1 : Fin 2) ∈ ixs
      · exact Or.inr ⟨rfl, h3 hm⟩
      · exact Or.inl (by simp [hm])
    · simp [Arr.map, countReduced]
  · by_cases hco : o.constObj
    · rw [if_pos hco] at h2
      have hcnt : 0 < o.countReduced r0 r1 := by cases r0 <;> cases r1 <;> simp [countReduced, hr, hc]
      obtain ⟨r, -, hir⟩ := reduce_const_ok .plus hw hco r0 r1 (Or.inl hcnt) 0
      refine ⟨_, h2, lift r0 r1 r.toArr _ h3 h4 hir ⟨hir.1.symm, hir.2.1.symm, fun i hi j hj => ?_⟩⟩
      have e := hir.2.2 i (by rw [hir.1]; exact hi) j (by rw [hir.2.1]; exact hj)
      change r.get i j = (redList o.toArr r0 r1 i j).sum at e
      rw [redList_const hw hco, List.sum_replicate, nsmul_eq_mul] at e
      · simp only [Arr.map, mkReduced, mkConst]
        rw [e, mul_div_cancel_left₀ _ (by exact_mod_cast hcnt.ne')]
      · intro h; simp only [mkReduced, mkConst, h] at hi; simpa using hi
      · intro h; simp only [mkReduced, mkConst, h] at hj; simpa using hj
    · rw [if_neg hco] at h2
      obtain ⟨r, hr', hir⟩ := himpl hco r0 r1 h1 h3 h4
      obtain ⟨q, hq, hqs⟩ := scalarQuotient_form (reduceImpl_form _ _ _ _ _ _ hr') (o.countReduced r0 r1 : F)
      rw [hr'] at h2
      exact ⟨q, h2.trans hq, lift r0 r1 r.toArr _ h3 h4 hir hqs⟩

end Obj
end OpenKalman.LinAlg
