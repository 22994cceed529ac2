import Verif.Model.LinAlg
import Mathlib.Tactic

/-!
# Lemmas for the linear-algebra functions: truthful tags
-/

set_option linter.unusedSectionVars false

namespace OpenKalman.LinAlg
open Finset Classical

variable {F : Type} [Zero F] [Star F]

namespace Obj

variable {o : Obj F}

omit [Star F] [Zero F] in
theorem square_eq (hsq : o.sq = true → o.rows = o.cols) (h : o.square) : o.rows = o.cols := by
  rcases h with h | ⟨_, _, h⟩
  · exact hsq h
  · exact h

omit [Star F] [Zero F] in
theorem oneDim_dims' (hsq : o.sq = true → o.rows = o.cols) (h : o.oneDim) : o.rows = 1 ∧ o.cols = 1 := by
  rcases h with ⟨h1, h2⟩ | ⟨hs, h⟩
  · exact ⟨h1.2, h2.2⟩
  · have := square_eq hsq hs
    rcases h with h | h <;> have := h.2 <;> omega

theorem WF.square_eq (hw : o.WF) (h : o.square) : o.rows = o.cols := Obj.square_eq hw.sq h

theorem WF.oneDim_dims (hw : o.WF) (h : o.oneDim) : o.rows = 1 ∧ o.cols = 1 := oneDim_dims' hw.sq h

omit [Star F] in
theorem triOf_cases (o : Obj F) :
    (o.zero ∧ o.triOf = .diagonal) ∨ (o.oneDim ∧ o.triOf = .diagonal) ∨ (o.tri = .diagonal ∧ o.triOf = .diagonal) ∨
    (¬ o.zero ∧ ¬ o.oneDim ∧ o.tri ≠ .diagonal ∧ o.colsIs 1 ∧ o.triOf = .lower) ∨
    (¬ o.zero ∧ ¬ o.oneDim ∧ o.tri ≠ .diagonal ∧ ¬ o.colsIs 1 ∧ o.rowsIs 1 ∧ o.triOf = .upper) ∨
    (¬ o.zero ∧ ¬ o.oneDim ∧ o.tri ≠ .diagonal ∧ ¬ o.colsIs 1 ∧ ¬ o.rowsIs 1 ∧ o.triOf = o.tri) := by
  unfold triOf
  split_ifs with h1 h2 h3 <;> tauto

theorem WF.zero_get (hw : o.WF) (h : o.zero) {i j : ℕ} (hi : i < o.rows) (hj : j < o.cols) : o.get i j = 0 := by
  by_cases hm : o.tri.mem i j
  · exact hw.cst 0 h.1 i hi j hj hm
  · cases ht : o.tri <;> simp only [ht, Tri.mem, not_true, not_le] at hm
    · exact hw.lower ht i hi j hj hm
    · exact hw.upper ht i hi j hj hm
    · exact hw.diag ht i hi j hj hm

theorem WF.triOf_lower (hw : o.WF) (h : o.triOf = .lower) {i j : ℕ} (hi : i < o.rows) (hj : j < o.cols) (hij : i < j) : o.get i j = 0 := by
  rcases triOf_cases o with h' | h' | h' | h' | h' | h'
  · simp [h'.2] at h
  · simp [h'.2] at h
  · simp [h'.2] at h
  · have := h'.2.2.2.1.2; omega
  · simp [h'.2.2.2.2.2] at h
  · exact hw.lower (h'.2.2.2.2.2 ▸ h) i hi j hj hij

theorem WF.triOf_upper (hw : o.WF) (h : o.triOf = .upper) {i j : ℕ} (hi : i < o.rows) (hj : j < o.cols) (hij : j < i) : o.get i j = 0 := by
  rcases triOf_cases o with h' | h' | h' | h' | h' | h'
  · simp [h'.2] at h
  · simp [h'.2] at h
  · simp [h'.2] at h
  · simp [h'.2.2.2.2] at h
  · have := h'.2.2.2.2.1.2; omega
  · exact hw.upper (h'.2.2.2.2.2 ▸ h) i hi j hj hij

theorem WF.diagonal_get (hw : o.WF) (h : o.diagonal) {i j : ℕ} (hi : i < o.rows) (hj : j < o.cols) (hij : i ≠ j) : o.get i j = 0 := by
  unfold diagonal at h
  rcases triOf_cases o with h' | h' | h' | h' | h' | h'
  · exact hw.zero_get h'.1 hi hj
  · have := hw.oneDim_dims h'.1; omega
  · exact hw.diag h'.1 i hi j hj hij
  · simp [h'.2.2.2.2] at h
  · simp [h'.2.2.2.2.2] at h
  · exact absurd (h'.2.2.2.2.2 ▸ h) h'.2.2.1

theorem WF.constVal_oneDim (hw : o.WF) (h : o.oneDim) : o.constVal = o.get 0 0 := by
  unfold constVal
  cases hc : o.cst with
  | none => rfl
  | some c =>
    have := hw.oneDim_dims h
    exact (hw.cst c hc 0 (by omega) 0 (by omega) (by cases o.tri <;> simp [Tri.mem])).symm

omit [Star F] in
theorem zero_constVal (h : o.zero) : o.constVal = 0 := by simp [constVal, h.1]

theorem WF.const_get (hw : o.WF) (h : o.constObj) {i j : ℕ} (hi : i < o.rows) (hj : j < o.cols) : o.get i j = o.constVal := by
  rcases h with ⟨hc, ht⟩ | h | h
  · obtain ⟨c, hc'⟩ := Option.isSome_iff_exists.1 hc
    have hv : o.constVal = c := by simp [constVal, hc']
    rw [hv]
    refine hw.cst c hc' i hi j hj ?_
    rcases triOf_cases o with h' | h' | h' | h' | h' | h'
    · simp_all
    · simp_all
    · simp_all
    · have h1 := hw.vec0 h'.2.2.2.1 hc h'.2.1
      have h2 := h'.2.2.2.1.2
      cases htri : o.tri <;> simp_all [Tri.mem]
    · have h1 := hw.vec1 h'.2.2.2.2.1 hc h'.2.1
      have h2 := h'.2.2.2.2.1.2
      cases htri : o.tri <;> simp_all [Tri.mem]
    · simp_all [Tri.mem]
  · rw [zero_constVal h]; exact hw.zero_get h hi hj
  · have := hw.oneDim_dims h
    rw [hw.constVal_oneDim h]
    obtain ⟨rfl, rfl⟩ : i = 0 ∧ j = 0 := by omega
    rfl

theorem WF.constDiag_diagonal (h : o.constDiag) : o.diagonal := by
  unfold diagonal triOf
  rcases h with ⟨_, h⟩ | h | h
  · exact h
  · simp [h]
  · simp [h]

theorem WF.constDiag_get (hw : o.WF) (h : o.constDiag) {i j : ℕ} (hi : i < o.rows) (hj : j < o.cols) :
    o.get i j = if i = j then o.constVal else 0 := by
  split_ifs with hij
  · subst hij
    rcases h with ⟨hc, ht⟩ | h | h
    · obtain ⟨c, hc'⟩ := Option.isSome_iff_exists.1 hc
      have hv : o.constVal = c := by simp [constVal, hc']
      rw [hv]
      exact hw.cst c hc' i hi i hj (by cases o.tri <;> simp [Tri.mem])
    · rw [zero_constVal h]; exact hw.zero_get h hi hj
    · exact hw.const_get (Or.inr (Or.inr h)) hi hj
  · exact hw.diagonal_get (WF.constDiag_diagonal h) hi hj hij

theorem WF.realConst (hw : o.WF) (h : o.cplx = false) (hc : o.constObj ∨ o.constDiag) : star o.constVal = o.constVal := by
  unfold constVal
  cases hcst : o.cst with
  | some c => exact hw.realc h c hcst
  | none =>
    have h1 : o.oneDim := by
      rcases hc with hc | hc
      · rcases hc with ⟨hc, _⟩ | hc | hc
        · simp [hcst] at hc
        · simp [zero, hcst] at hc
        · exact hc
      · rcases hc with ⟨hc, _⟩ | hc | hc
        · simp [hcst] at hc
        · simp [zero, hcst] at hc
        · exact hc
    have := hw.oneDim_dims h1
    exact hw.real h 0 (by omega) 0 (by omega)

/-! ### Constructors -/

theorem mkConst_wf {c : F} {f sr sk cplx : Bool} {r k : ℕ} (h : cplx = false → star c = c) : (mkConst c f r sr k sk cplx).WF where
  sq := by simp [mkConst]
  lower := by simp [mkConst]
  upper := by simp [mkConst]
  diag := by simp [mkConst]
  cst := by simp [mkConst]
  herm := by simp [mkConst]
  real := by simp [mkConst]; intro hc; intros; exact h hc
  realc := by simp [mkConst]; exact h
  vec0 := by simp [mkConst]
  vec1 := by simp [mkConst]

omit [Zero F] [Star F] in
@[simp] theorem mkConst_constVal (c : F) (f sr sk cplx : Bool) (r k : ℕ) : (mkConst c f r sr k sk cplx).constVal = c := by
  simp [mkConst, constVal]

omit [Star F] in
theorem mkConst_constObj (c : F) (f sr sk cplx : Bool) (r k : ℕ) : (mkConst c f r sr k sk cplx).constObj := by
  set o := mkConst c f r sr k sk cplx with ho
  by_cases h1 : o.zero ∨ o.oneDim
  · exact Or.inr h1
  · refine Or.inl ⟨by simp [ho, mkConst], ?_⟩
    rcases triOf_cases o with h' | h' | h' | h' | h' | h'
    · tauto
    · tauto
    · simp [ho, mkConst] at h'
    · tauto
    · tauto
    · left; rw [h'.2.2.2.2.2]; simp [ho, mkConst]

theorem dense_wf {a : Arr F} {sr sk cplx : Bool} (h : cplx = false → ∀ i < a.rows, ∀ j < a.cols, star (a.get i j) = a.get i j) :
    (dense a sr sk cplx).WF where
  sq := by simp [dense]
  lower := by simp [dense]
  upper := by simp [dense]
  diag := by simp [dense]
  cst := by simp [dense]
  herm := by simp [dense]
  real := by simpa [dense] using h
  realc := by simp [dense]
  vec0 := by simp [dense]
  vec1 := by simp [dense]

/-- `diagonal_of` succeeds unless its argument is a constant triangle. -/
theorem diagonalOf_ok (hw : o.WF) (hc : o.cst = none ∨ o.constObj ∨ o.constDiag) :
    ∃ d, o.diagonalOf = .ok d ∧ d.WF ∧ d.toArr.Same o.toArr.diagVec ∧ d.cplx = o.cplx := by
  unfold diagonalOf
  split_ifs with h1 h2 h3
  · refine ⟨o, rfl, hw, ?_, rfl⟩
    have hr := h1.1.2; have hk := h1.2.2
    refine ⟨?_, ?_, ?_⟩
    · simp [Arr.diagVec]; omega
    · simp [Arr.diagVec]; omega
    · intro i hi j hj
      simp only [Arr.diagVec]
      congr 1; omega
  · refine ⟨_, rfl, mkConst_wf (fun hcx => hw.realConst hcx h2), ?_, rfl⟩
    refine ⟨rfl, rfl, ?_⟩
    intro i hi j hj
    simp only [mkConst, Arr.diagVec] at hi ⊢
    rcases h2 with h2 | h2
    · exact (hw.const_get h2 (by omega) (by omega)).symm
    · have := hw.constDiag_get h2 (i := i) (j := i) (by omega) (by omega)
      simpa using this.symm
  · rcases hc with hc | hc
    · simp [hc] at h3
    · exact absurd hc h2
  · refine ⟨_, rfl, dense_wf ?_, ?_, rfl⟩
    · intro hcx i hi j hj
      simp only [Arr.diagVec] at hi ⊢
      exact hw.real hcx i (by omega) i (by omega)
    · exact ⟨rfl, rfl, fun _ _ _ _ => rfl⟩

/-- When `diagonal_of` of a non-constant object succeeds its result is a dense vector, or the argument itself. -/
theorem diagonalOf_illFormed (h1 : ¬ (o.rowsIs 1 ∧ o.colsIs 1)) (h2 : ¬ (o.constObj ∨ o.constDiag)) (h3 : o.cst.isSome = true) :
    o.diagonalOf = .error .illFormed := by
  simp [diagonalOf, h1, h2, h3]

end Obj

section
variable {F : Type} [AddMonoid F] [StarAddMonoid F]
namespace Obj
variable {o : Obj F}

theorem toDiagonalP_wf (hw : o.WF) (hcol : o.cols = 1) {r k : ℕ} {sr sk : Bool} (hrk : min r k = o.rows) : (o.toDiagonalP r sr k sk).WF := by
  unfold toDiagonalP
  split_ifs with h1 h2 hco
  · have hd := hw.oneDim_dims h1.1
    obtain ⟨-, ⟨rfl, rfl⟩, ⟨rfl, rfl⟩⟩ := h1
    constructor
    · intro; rfl
    · intro ht i hi j hj hij; simp only at hi hj; omega
    · intro ht i hi j hj hij; simp only at hi hj; omega
    · intro ht i hi j hj hij; simp only at hi hj; omega
    · intro c hc i hi j hj hm; exact hw.cst c hc i (by simp only at hi; omega) j (by simp only at hj; omega) hm
    · intro h; exact ⟨rfl, fun i hi j hj => (hw.herm h).2 i (by simp only at hi; omega) j (by simp only at hj; omega)⟩
    · intro h i hi j hj; exact hw.real h i (by simp only at hi; omega) j (by simp only at hj; omega)
    · intro h c hc; exact hw.realc h c hc
    · intro h1 h2 h3; exact absurd (Or.inl (by simp_all [rowsIs, colsIs])) h3
    · intro h1 h2 h3; exact absurd (Or.inl (by simp_all [rowsIs, colsIs])) h3
  · exact mkConst_wf (fun _ => star_zero F)
  all_goals
    constructor
    · simp
    · simp
    · simp
    · intro _ i _ j _ hij; simp [hij]
    · intro c hc i hi j hj hm
      simp only [Tri.mem] at hm; subst hm
      simp only [Option.some.injEq, reduceCtorEq] at hc hi hj ⊢
      try (rw [← hc]; simpa using hw.const_get hco (i := i) (j := 0) (by omega) (by omega))
    · simp
    · intro h i hi j hj
      simp only at hi hj ⊢
      split_ifs with hij
      · subst hij; exact hw.real h i (by omega) 0 (by omega)
      · exact star_zero F
    · intro h c hc
      simp only [Option.some.injEq, reduceCtorEq] at hc
      try (rw [← hc]; exact hw.realConst h (Or.inl hco))
    · simp
    · simp

theorem toDiagonalP_same (hw : o.WF) (hcol : o.cols = 1) {r k : ℕ} {sr sk : Bool} (hrk : min r k = o.rows) :
    (o.toDiagonalP r sr k sk).toArr.Same (Arr.diag r k fun i => o.get i 0) := by
  unfold toDiagonalP
  split_ifs with h1 h2
  · obtain ⟨-, ⟨-, rfl⟩, ⟨-, rfl⟩⟩ := h1
    refine ⟨rfl, rfl, ?_⟩
    intro i hi j hj
    simp only at hi hj
    obtain ⟨rfl, rfl⟩ : i = 0 ∧ j = 0 := by omega
    simp [Arr.diag]
  · refine ⟨rfl, rfl, ?_⟩
    intro i hi j hj
    simp only [mkConst] at hi hj
    simp only [mkConst, Arr.diag]
    split_ifs with hij
    · subst hij
      exact (hw.zero_get h2 (by omega) (by omega)).symm
    · rfl
  all_goals exact ⟨rfl, rfl, fun _ _ _ _ => rfl⟩

theorem toDiagonalP_cplx {r k : ℕ} {sr sk : Bool} : (o.toDiagonalP r sr k sk).cplx = o.cplx := by
  unfold toDiagonalP
  split_ifs <;> rfl

theorem toDiagonalP_rows {r k : ℕ} {sr sk : Bool} : (o.toDiagonalP r sr k sk).rows = r ∧ (o.toDiagonalP r sr k sk).cols = k := by
  unfold toDiagonalP
  split_ifs <;> exact ⟨rfl, rfl⟩

theorem toDiagonal_wf (hw : o.WF) (hcol : o.cols = 1) : o.toDiagonal.WF := by
  unfold toDiagonal
  split_ifs with h
  · exact hw
  · exact toDiagonalP_wf hw hcol (by simp)

theorem toDiagonal_same (hw : o.WF) (hcol : o.cols = 1) : o.toDiagonal.toArr.Same (Arr.diag o.rows o.rows fun i => o.get i 0) := by
  unfold toDiagonal
  split_ifs with h
  · have h1 := h.1.2
    refine ⟨rfl, by simp [Arr.diag]; omega, ?_⟩
    intro i hi j hj
    obtain ⟨rfl, rfl⟩ : i = 0 ∧ j = 0 := by omega
    simp [Arr.diag]
  · exact toDiagonalP_same hw hcol (by simp)

theorem mkConstDiag_wf {c : F} {f sr sk cplx : Bool} {r k : ℕ} (h : cplx = false → star c = c) : (mkConstDiag c f r sr k sk cplx).WF :=
  toDiagonalP_wf (mkConst_wf h) rfl rfl

theorem mkConstDiag_same {c : F} {f sr sk cplx : Bool} {r k : ℕ} (h : cplx = false → star c = c) :
    (mkConstDiag c f r sr k sk cplx).toArr.Same (Arr.diag r k fun _ => c) :=
  toDiagonalP_same (mkConst_wf h) rfl rfl

/-! ### Triangular views -/

omit [AddMonoid F] [StarAddMonoid F] in
theorem Tri.mem_times {a b : Tri} {i j : ℕ} (h : (a.times b).mem i j) : a.mem i j ∧ b.mem i j := by
  cases a <;> cases b <;> simp [Tri.times, Tri.mem] at h ⊢ <;> omega

omit [AddMonoid F] [StarAddMonoid F] in
theorem Tri.times_mem {a b : Tri} {i j : ℕ} (h1 : a.mem i j) (h2 : b.mem i j) : (a.times b).mem i j := by
  cases a <;> cases b <;> simp [Tri.times, Tri.mem] at h1 h2 ⊢ <;> omega

theorem WF.triOf_get (hw : o.WF) {i j : ℕ} (hi : i < o.rows) (hj : j < o.cols) (h : ¬ o.triOf.mem i j) : o.get i j = 0 := by
  cases ht : o.triOf <;> simp only [ht, Tri.mem, not_true, not_le] at h
  · exact hw.triOf_lower ht hi hj h
  · exact hw.triOf_upper ht hi hj h
  · exact hw.diagonal_get ht hi hj h

theorem WF.triOf_mem_cst (hw : o.WF) {c : F} (hc : o.cst = some c) {i j : ℕ} (hi : i < o.rows) (hj : j < o.cols) (h : o.triOf.mem i j) :
    o.get i j = c := by
  rcases triOf_cases o with h' | h' | h' | h' | h' | h'
  · have : c = 0 := by have := h'.1.1; rw [hc] at this; simpa using this
    rw [this]; exact hw.zero_get h'.1 hi hj
  · have := hw.oneDim_dims h'.1
    exact hw.cst c hc i hi j hj (by obtain ⟨rfl, rfl⟩ : i = 0 ∧ j = 0 := by omega
                                    cases o.tri <;> simp [Tri.mem])
  · exact hw.cst c hc i hi j hj (by rw [h'.1]; rw [h'.2] at h; exact h)
  · have h1 := hw.vec0 h'.2.2.2.1 (by simp [hc]) h'.2.1
    have h2 := h'.2.2.2.1.2
    refine hw.cst c hc i hi j hj ?_
    cases htri : o.tri <;> simp_all [Tri.mem]
  · have h1 := hw.vec1 h'.2.2.2.2.1 (by simp [hc]) h'.2.1
    have h2 := h'.2.2.2.2.1.2
    refine hw.cst c hc i hi j hj ?_
    cases htri : o.tri <;> simp_all [Tri.mem]
  · exact hw.cst c hc i hi j hj (by rw [← h'.2.2.2.2.2]; exact h)

/-- Masking an array to a triangle. -/
noncomputable def maskTri (t : Tri) (a : Arr F) : Arr F := ⟨a.rows, a.cols, fun i j => if t.mem i j then a.get i j else 0⟩

theorem toTriangular_same (hw : o.WF) (t : Tri) : (o.toTriangular t).toArr.Same (maskTri t o.toArr) := by
  unfold toTriangular
  split_ifs with h
  · refine ⟨rfl, rfl, ?_⟩
    intro i hi j hj
    simp only [maskTri]
    split_ifs with hm
    · rfl
    · refine hw.triOf_get hi hj ?_
      rcases h with h | ⟨h1, h2⟩
      · rwa [← h]
      · rw [h2]
        intro hd
        simp only [Tri.mem] at hd
        subst hd
        rcases h1 with rfl | rfl <;> simp [Tri.mem] at hm
  · exact ⟨rfl, rfl, fun _ _ _ _ => rfl⟩

theorem toTriangular_wf (hw : o.WF) (t : Tri) : (o.toTriangular t).WF := by
  unfold toTriangular
  split_ifs with h
  · exact hw
  · have key : ∀ i < o.rows, ∀ j < o.cols, ¬ (t.times o.triOf).mem i j → (if t.mem i j then o.get i j else 0) = 0 := by
      intro i hi j hj hm
      split_ifs with ht
      · refine hw.triOf_get hi hj fun h2 => hm (Tri.times_mem ht h2)
      · rfl
    constructor
    · intro h; simp only [decide_eq_true_eq] at h; exact hw.square_eq h
    · intro ht i hi j hj hij; exact key i hi j hj (by simp only at ht; rw [ht]; simp [Tri.mem]; exact hij)
    · intro ht i hi j hj hij; exact key i hi j hj (by simp only at ht; rw [ht]; simp [Tri.mem]; exact hij)
    · intro ht i hi j hj hij; exact key i hi j hj (by simp only at ht; rw [ht]; simp [Tri.mem]; exact hij)
    · intro c hc i hi j hj hm
      have h2 := Tri.mem_times hm
      simp only [if_pos h2.1]
      exact hw.triOf_mem_cst hc hi hj h2.2
    · simp
    · intro hcx i hi j hj
      simp only
      split_ifs
      · exact hw.real hcx i hi j hj
      · exact star_zero F
    · exact hw.realc
    · intro h1 h2 h3
      simp only at h2 ⊢
      have h1' : o.colsIs 1 := h1
      rcases triOf_cases o with h' | h' | h' | h' | h' | h'
      · rw [h'.2]; cases t <;> simp [Tri.times]
      · rw [h'.2]; cases t <;> simp [Tri.times]
      · rw [h'.2]; cases t <;> simp [Tri.times]
      · rw [h'.2.2.2.2]; cases t <;> simp [Tri.times]
      · exact absurd h1' h'.2.2.2.1
      · exact absurd h1' h'.2.2.2.1
    · intro h1 h2 h3
      simp only at h2 ⊢
      have h1' : o.rowsIs 1 := h1
      have h3' : ¬ o.oneDim := by
        intro ho
        apply h3
        rcases ho with ho | ⟨hs, ho⟩
        · exact Or.inl ho
        · refine Or.inr ⟨Or.inl (by simp [hs]), ho⟩
      rcases triOf_cases o with h' | h' | h' | h' | h' | h'
      · rw [h'.2]; cases t <;> simp [Tri.times]
      · rw [h'.2]; cases t <;> simp [Tri.times]
      · rw [h'.2]; cases t <;> simp [Tri.times]
      · exact absurd (Or.inl ⟨h1', h'.2.2.2.1⟩) h3'
      · rw [h'.2.2.2.2.2]; cases t <;> simp [Tri.times]
      · exact absurd h1' h'.2.2.2.2.1

end Obj
end
end OpenKalman.LinAlg
