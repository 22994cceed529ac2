import Verif.Proof.LinAlg

/-!
# Lemmas for transpose and conjugate
-/

set_option linter.unusedSectionVars false

namespace OpenKalman.LinAlg
open Finset Classical

namespace Arr
variable {F : Type}

theorem Same.refl (a : Arr F) : a.Same a := ⟨rfl, rfl, fun _ _ _ _ => rfl⟩

theorem Same.symm {a b : Arr F} (h : a.Same b) : b.Same a :=
  ⟨h.1.symm, h.2.1.symm, fun i hi j hj => (h.2.2 i (h.1 ▸ hi) j (h.2.1 ▸ hj)).symm⟩

theorem Same.trans {a b c : Arr F} (h : a.Same b) (h' : b.Same c) : a.Same c :=
  ⟨h.1.trans h'.1, h.2.1.trans h'.2.1, fun i hi j hj => (h.2.2 i hi j hj).trans (h'.2.2 i (h.1 ▸ hi) j (h.2.1 ▸ hj))⟩

theorem Same.transpose {a b : Arr F} (h : a.Same b) : a.transpose.Same b.transpose :=
  ⟨h.2.1, h.1, fun i hi j hj => h.2.2 j hj i hi⟩

theorem Same.map {a b : Arr F} (f : F → F) (h : a.Same b) : (a.map f).Same (b.map f) :=
  ⟨h.1, h.2.1, fun i hi j hj => congrArg f (h.2.2 i hi j hj)⟩

theorem Same.conj [Star F] {a b : Arr F} (h : a.Same b) : a.conj.Same b.conj := h.map star

end Arr

variable {F : Type} [AddMonoid F] [StarAddMonoid F]

namespace Obj
variable {o : Obj F}

theorem WF.hermitian_get (hw : o.WF) (h : o.hermitian) : o.rows = o.cols ∧ ∀ i < o.rows, ∀ j < o.cols, o.get j i = star (o.get i j) := by
  have hsq := hw.square_eq h.1
  refine ⟨hsq, fun i hi j hj => ?_⟩
  rcases h.2 with h2 | ⟨h2, h3⟩
  · exact (hw.herm h2).2 i hi j hj
  · rw [hw.real h3 i hi j hj]
    rcases h2 with h2 | h2
    · rw [hw.const_get h2 hi hj, hw.const_get h2 (by omega) (by omega)]
    · by_cases hij : i = j
      · rw [hij]
      · rw [hw.diagonal_get h2 hi hj hij, hw.diagonal_get h2 (by omega) (by omega) (Ne.symm hij)]

theorem WF.constNotComplex_get (hw : o.WF) (h : o.constNotComplex) {i j : ℕ} (hi : i < o.rows) (hj : j < o.cols) :
    star (o.get i j) = o.get i j := by
  rcases h.1 with h1 | h1
  · rw [hw.const_get h1 hi hj]; exact h.2.2
  · rw [hw.constDiag_get h1 hi hj]
    split_ifs
    · exact h.2.2
    · exact star_zero F

/-- The object does not carry a nonreal constant on a proper triangle. -/
def conjOk (o : Obj F) : Prop := ∀ c, o.cst = some c → o.constObj ∨ o.constDiag ∨ star c = c

theorem conjAdapter_same : o.conjAdapter.toArr.Same o.toArr.conj := ⟨rfl, rfl, fun _ _ _ _ => rfl⟩

theorem conjAdapter_wf (hw : o.WF) (h : ∀ c, o.cst = some c → ∀ i < o.rows, ∀ j < o.cols, o.triOf.mem i j → star c = c) : o.conjAdapter.WF := by
  unfold conjAdapter
  constructor
  · intro h; simp only [decide_eq_true_eq] at h; exact hw.square_eq h
  · intro ht i hi j hj hij; simp only at ht ⊢; rw [hw.triOf_lower ht hi hj hij, star_zero]
  · intro ht i hi j hj hij; simp only at ht ⊢; rw [hw.triOf_upper ht hi hj hij, star_zero]
  · intro ht i hi j hj hij; simp only at ht ⊢; rw [hw.diagonal_get ht hi hj hij, star_zero]
  · intro c hc i hi j hj hm
    simp only at hc hm ⊢
    rw [hw.triOf_mem_cst hc hi hj hm]
    exact h c hc i hi j hj hm
  · intro hh
    simp only [decide_eq_true_eq] at hh
    have := hw.hermitian_get hh
    exact ⟨this.1, fun i hi j hj => congrArg star (this.2 i hi j hj)⟩
  · intro hcx i hi j hj
    simp only at hcx ⊢
    rw [hw.real hcx i hi j hj, hw.real hcx i hi j hj]
  · exact hw.realc
  · intro h1 h2 h3
    have h1' : o.colsIs 1 := h1
    simp only
    rcases triOf_cases o with h' | h' | h' | h' | h' | h'
    · simp [h'.2]
    · simp [h'.2]
    · simp [h'.2]
    · simp [h'.2.2.2.2]
    · exact absurd h1' h'.2.2.2.1
    · exact absurd h1' h'.2.2.2.1
  · intro h1 h2 h3
    have h1' : o.rowsIs 1 := h1
    simp only
    rcases triOf_cases o with h' | h' | h' | h' | h' | h'
    · simp [h'.2]
    · simp [h'.2]
    · simp [h'.2]
    · exact absurd (Or.inl ⟨h1', h'.2.2.2.1⟩) h'.2.1
    · simp [h'.2.2.2.2.2]
    · exact absurd h1' h'.2.2.2.2.1

theorem conjugateFlat_ok (hw : o.WF) : o.conjugateFlat.toArr.Same o.toArr.conj ∧ (o.conjOk → o.conjugateFlat.WF) ∧ o.conjugateFlat.cplx = o.cplx := by
  unfold conjugateFlat
  split_ifs with h1 h2 h3
  · refine ⟨⟨rfl, rfl, ?_⟩, fun _ => hw, rfl⟩
    intro i hi j hj
    rcases h1 with h1 | h1
    · exact (hw.real h1 i hi j hj).symm
    · exact (hw.constNotComplex_get h1 hi hj).symm
  · refine ⟨⟨rfl, rfl, ?_⟩, fun _ => mkConst_wf ?_, rfl⟩
    · intro i hi j hj
      exact congrArg star (hw.const_get h2 hi hj).symm
    · intro hcx; rw [hw.realConst hcx (Or.inl h2)]; exact hw.realConst hcx (Or.inl h2)
  · have hc : o.cplx = false → star (star o.constVal) = star o.constVal := by
      intro hcx; rw [hw.realConst hcx (Or.inr h3)]; exact hw.realConst hcx (Or.inr h3)
    refine ⟨(mkConstDiag_same hc).trans ⟨rfl, rfl, ?_⟩, fun _ => mkConstDiag_wf hc, toDiagonalP_cplx⟩
    intro i hi j hj
    simp only [Arr.diag] at hi hj
    simp only [Arr.diag, Arr.conj, Arr.map]
    rw [hw.constDiag_get h3 hi hj]
    split_ifs <;> simp
  · refine ⟨conjAdapter_same, fun hok => conjAdapter_wf hw ?_, rfl⟩
    intro c hc _ _ _ _ _
    rcases hok c hc with h | h | h
    · exact absurd h h2
    · exact absurd h h3
    · exact h

theorem diagonalOf_conjOk {d : Obj F} (h : o.diagonalOf = .ok d) (ho : o.cst = none ∨ o.constObj ∨ o.constDiag) : d.conjOk := by
  unfold diagonalOf at h
  split_ifs at h with h1 h2 h3
  · cases h
    intro c hc
    rcases ho with ho | ho | ho
    · simp [ho] at hc
    · exact Or.inl ho
    · exact Or.inr (Or.inl ho)
  · cases h
    intro c hc; exact Or.inl (mkConst_constObj ..)
  · cases h
    intro c hc; simp [dense] at hc

theorem nonconst_diagonal (h1 : ¬ o.constDiag) (h2 : o.diagonal) : o.cst = none := by
  by_contra h
  exact h1 (Or.inl ⟨Option.ne_none_iff_isSome.1 h, h2⟩)

theorem diag_of_diagonal (hw : o.WF) (h : o.diagonal) : o.toArr.Same (Arr.diag o.rows o.cols fun i => o.get i i) := by
  refine ⟨rfl, rfl, ?_⟩
  intro i hi j hj
  simp only [Arr.diag]
  split_ifs with hij
  · rw [hij]
  · exact hw.diagonal_get h hi hj hij

theorem conjugate_ok (hw : o.WF) : ∃ r, o.conjugate = .ok r ∧ r.toArr.Same o.toArr.conj ∧ (o.conjOk → r.WF) ∧ r.cplx = o.cplx := by
  unfold conjugate
  split_ifs with h1 h2
  · exact ⟨_, rfl, conjugateFlat_ok hw⟩
  · push Not at h1
    have hcst : o.cst = none := nonconst_diagonal h1.2.2.2 h2
    obtain ⟨d, hd, hdw, hds, hdc⟩ := diagonalOf_ok hw (Or.inl hcst)
    rw [hd]
    have hf := conjugateFlat_ok hdw
    have hfw := hf.2.1 (diagonalOf_conjOk hd (Or.inl hcst))
    have hcol : d.conjugateFlat.cols = 1 := hf.1.2.1.trans (hds.2.1)
    have hrow : min o.rows o.cols = d.conjugateFlat.rows := (hf.1.1.trans hds.1).symm
    refine ⟨_, rfl, (toDiagonalP_same hfw hcol hrow).trans ⟨rfl, rfl, ?_⟩, fun _ => toDiagonalP_wf hfw hcol hrow, ?_⟩
    · intro i hi j hj
      simp only [Arr.diag] at hi hj
      simp only [Arr.diag, Arr.conj, Arr.map]
      split_ifs with hij
      · subst hij
        have e1 := hf.1.2.2 i (by omega) 0 (by omega)
        have hdr : d.rows = min o.rows o.cols := hds.1
        have hdcl : d.cols = 1 := hds.2.1
        have e2 := hds.2.2 i (by omega) 0 (by omega)
        simp only [Arr.conj, Arr.map, Arr.diagVec] at e1 e2
        rw [e1, e2]
      · rw [hw.diagonal_get h2 hi hj hij, star_zero]
    · rw [toDiagonalP_cplx, hf.2.2, hdc]
  · exact ⟨_, rfl, conjAdapter_same, fun hok => conjAdapter_wf hw fun c hc _ _ _ _ _ => by
      push Not at h1
      rcases hok c hc with h | h | h
      · exact absurd h h1.2.2.1
      · exact absurd h h1.2.2.2
      · exact h, rfl⟩

theorem transposeAdapter_wf (hw : o.WF) : o.transposeAdapter.WF := by
  unfold transposeAdapter
  constructor
  · intro h; simp only [decide_eq_true_eq] at h; exact (hw.square_eq h).symm
  · intro ht i hi j hj hij
    simp only at ht ⊢
    refine hw.triOf_upper ?_ hj hi hij
    cases h : o.triOf <;> simp_all
  · intro ht i hi j hj hij
    simp only at ht ⊢
    refine hw.triOf_lower ?_ hj hi hij
    cases h : o.triOf <;> simp_all
  · intro ht i hi j hj hij
    simp only at ht ⊢
    refine hw.diagonal_get ?_ hj hi (Ne.symm hij)
    unfold diagonal
    cases h : o.triOf <;> simp_all
  · intro c hc i hi j hj hm
    simp only at hc hm ⊢
    refine hw.triOf_mem_cst hc hj hi ?_
    cases h : o.triOf <;> simp_all [Tri.mem]
  · intro hh
    simp only [decide_eq_true_eq] at hh
    have := hw.hermitian_get hh
    exact ⟨this.1.symm, fun i hi j hj => this.2 j hj i hi⟩
  · intro hcx i hi j hj
    exact hw.real hcx j hj i hi
  · exact hw.realc
  · intro h1 h2 h3
    have h1' : o.rowsIs 1 := h1
    simp only
    rcases triOf_cases o with h' | h' | h' | h' | h' | h'
    · simp [h'.2]
    · simp [h'.2]
    · simp [h'.2]
    · exact absurd (Or.inl ⟨h1', h'.2.2.2.1⟩) h'.2.1
    · simp [h'.2.2.2.2.2]
    · exact absurd h1' h'.2.2.2.2.1
  · intro h1 h2 h3
    have h1' : o.colsIs 1 := h1
    simp only
    rcases triOf_cases o with h' | h' | h' | h' | h' | h'
    · simp [h'.2]
    · simp [h'.2]
    · simp [h'.2]
    · simp [h'.2.2.2.2]
    · exact absurd h1' h'.2.2.2.1
    · exact absurd h1' h'.2.2.2.1

/-- The constant of a Hermitian proper triangle is real wherever it is used. -/
theorem hermitian_conj_wf (hw : o.WF) (hh : o.hermitian) : ∀ r, o.conjugate = .ok r → r.WF := by
  intro r hr
  unfold conjugate at hr
  split_ifs at hr with h1 h2
  · cases hr
    unfold conjugateFlat
    split_ifs with g1 g2 g3
    · exact hw
    · exact mkConst_wf fun hcx => by rw [hw.realConst hcx (Or.inl g2)]; exact hw.realConst hcx (Or.inl g2)
    · exact mkConstDiag_wf fun hcx => by rw [hw.realConst hcx (Or.inr g3)]; exact hw.realConst hcx (Or.inr g3)
    · exact absurd h1 (by tauto)
  · push Not at h1
    have hcst := nonconst_diagonal h1.2.2.2 h2
    obtain ⟨r', hr', hs, hwf, _⟩ := conjugate_ok hw
    have : o.conjOk := fun c hc => by simp [hcst] at hc
    unfold conjugate at hr'
    rw [if_neg (by tauto), if_pos h2] at hr'
    rw [hr'] at hr
    cases hr
    exact hwf this
  · cases hr
    refine conjAdapter_wf hw ?_
    intro c hc i hi j hj hm
    have hsq := hw.square_eq hh.1
    have e := hw.triOf_mem_cst hc (i := i) (j := i) hi (by omega) (by cases o.triOf <;> simp [Tri.mem])
    have e2 := (hw.hermitian_get hh).2 i hi i (by omega)
    rw [e] at e2
    exact e2.symm

theorem transpose_ok (hw : o.WF) : ∃ r, o.transpose = .ok r ∧ r.WF ∧ r.toArr.Same o.toArr.transpose ∧ r.cplx = o.cplx := by
  unfold transpose
  split_ifs with h1 h2 h3 h4 h5
  · refine ⟨_, rfl, hw, ⟨h1.1.2.2, h1.1.2.2.symm, ?_⟩, rfl⟩
    have hsq := h1.1.2.2
    intro i hi j hj
    simp only [Arr.transpose]
    rcases h1.2 with h | h | h
    · rw [hw.const_get h hi hj, hw.const_get h (by omega) (by omega)]
    · by_cases hij : i = j
      · rw [hij]
      · rw [hw.diagonal_get h hi hj hij, hw.diagonal_get h (by omega) (by omega) (Ne.symm hij)]
    · rw [(hw.hermitian_get h.1).2 i hi j hj, hw.real h.2 i hi j hj]
  · refine ⟨_, rfl, mkConst_wf (fun hcx => hw.realConst hcx (Or.inl h2)), ⟨rfl, rfl, ?_⟩, rfl⟩
    intro i hi j hj
    exact (hw.const_get h2 hj hi).symm
  · have hc : o.cplx = false → star o.constVal = o.constVal := fun hcx => hw.realConst hcx (Or.inr h3)
    refine ⟨_, rfl, mkConstDiag_wf hc, (mkConstDiag_same hc).trans ⟨rfl, rfl, ?_⟩, toDiagonalP_cplx⟩
    intro i hi j hj
    simp only [Arr.diag] at hi hj
    simp only [Arr.diag, Arr.transpose]
    rw [hw.constDiag_get h3 hj hi]
    simp [eq_comm]
  · obtain ⟨r, hr, hs, hwf, hcx⟩ := conjugate_ok hw
    refine ⟨r, hr, hermitian_conj_wf hw h4.1 r hr, hs.trans ?_, hcx⟩
    have := hw.hermitian_get h4.1
    refine ⟨this.1, this.1.symm, ?_⟩
    intro i hi j hj
    exact (this.2 i hi j hj).symm
  · have hcst : o.cst = none := nonconst_diagonal h3 h5
    obtain ⟨d, hd, hdw, hds, hdc⟩ := diagonalOf_ok hw (Or.inl hcst)
    rw [hd]
    have hcol : d.cols = 1 := hds.2.1
    have hrow : min o.cols o.rows = d.rows := by rw [min_comm]; exact hds.1.symm
    refine ⟨_, rfl, toDiagonalP_wf hdw hcol hrow, (toDiagonalP_same hdw hcol hrow).trans ⟨rfl, rfl, ?_⟩, ?_⟩
    · intro i hi j hj
      simp only [Arr.diag] at hi hj
      simp only [Arr.diag, Arr.transpose]
      split_ifs with hij
      · subst hij
        have hdr : d.rows = min o.rows o.cols := hds.1
        have e2 := hds.2.2 i (by omega) 0 (by omega)
        simp only [Arr.diagVec] at e2
        exact e2
      · rw [hw.diagonal_get h5 hj hi (Ne.symm hij)]
    · rw [toDiagonalP_cplx, hdc]
  · exact ⟨_, rfl, transposeAdapter_wf hw, ⟨rfl, rfl, fun _ _ _ _ => rfl⟩, rfl⟩

theorem conjugateTranspose_ok (hw : o.WF) :
    ∃ r, o.conjugateTranspose = .ok r ∧ r.toArr.Same o.toArr.transpose.conj ∧ (o.conjOk → r.WF) ∧ r.cplx = o.cplx := by
  unfold conjugateTranspose
  split_ifs with h1 h2 h3 h4 h5
  · have := hw.hermitian_get h1.1
    refine ⟨_, rfl, ⟨this.1, this.1.symm, ?_⟩, fun _ => hw, rfl⟩
    intro i hi j hj
    have := this.2 j (by omega) i (by omega)
    exact this
  · obtain ⟨r, hr, hwf, hs, hcx⟩ := transpose_ok hw
    refine ⟨r, hr, hs.trans ⟨rfl, rfl, ?_⟩, fun _ => hwf, hcx⟩
    intro i hi j hj
    simp only [Arr.transpose, Arr.conj, Arr.map]
    rcases h2 with h2 | h2
    · exact (hw.real h2 j hj i hi).symm
    · exact (hw.constNotComplex_get h2 hj hi).symm
  · refine ⟨_, rfl, ⟨rfl, rfl, ?_⟩, fun _ => mkConst_wf ?_, rfl⟩
    · intro i hi j hj
      exact congrArg star (hw.const_get h3 hj hi).symm
    · intro hcx; rw [hw.realConst hcx (Or.inl h3)]; exact hw.realConst hcx (Or.inl h3)
  · have hc : o.cplx = false → star (star o.constVal) = star o.constVal := by
      intro hcx; rw [hw.realConst hcx (Or.inr h4)]; exact hw.realConst hcx (Or.inr h4)
    refine ⟨_, rfl, (mkConstDiag_same hc).trans ⟨rfl, rfl, ?_⟩, fun _ => mkConstDiag_wf hc, toDiagonalP_cplx⟩
    intro i hi j hj
    simp only [Arr.diag] at hi hj
    simp only [Arr.diag, Arr.transpose, Arr.conj, Arr.map]
    rw [hw.constDiag_get h4 hj hi]
    by_cases hij : i = j
    · simp [hij]
    · simp [hij, Ne.symm hij]
  · have hcst : o.cst = none := nonconst_diagonal h4 h5
    obtain ⟨d, hd, hdw, hds, hdc⟩ := diagonalOf_ok hw (Or.inl hcst)
    rw [hd]
    have hf := conjugateFlat_ok hdw
    have hfw := hf.2.1 (diagonalOf_conjOk hd (Or.inl hcst))
    have hcol : d.conjugateFlat.cols = 1 := hf.1.2.1.trans (hds.2.1)
    have hrow : min o.cols o.rows = d.conjugateFlat.rows := by rw [min_comm]; exact (hf.1.1.trans hds.1).symm
    refine ⟨_, rfl, (toDiagonalP_same hfw hcol hrow).trans ⟨rfl, rfl, ?_⟩, fun _ => toDiagonalP_wf hfw hcol hrow, ?_⟩
    · intro i hi j hj
      simp only [Arr.diag] at hi hj
      simp only [Arr.diag, Arr.conj, Arr.map, Arr.transpose]
      split_ifs with hij
      · subst hij
        have e1 := hf.1.2.2 i (by omega) 0 (by omega)
        have hdr : d.rows = min o.rows o.cols := hds.1
        have hdcl : d.cols = 1 := hds.2.1
        have e2 := hds.2.2 i (by omega) 0 (by omega)
        simp only [Arr.conj, Arr.map, Arr.diagVec] at e1 e2
        rw [e1, e2]
      · rw [hw.diagonal_get h5 hj hi (Ne.symm hij), star_zero]
    · rw [toDiagonalP_cplx, hf.2.2, hdc]
  · obtain ⟨t, ht, htw, hts, htc⟩ := transpose_ok hw
    rw [ht]
    obtain ⟨r, hr, hs, hrw, hc⟩ := conjugate_ok htw
    refine ⟨r, hr, hs.trans hts.conj, fun hok => hrw ?_, hc.trans htc⟩
    have htt : t = o.transposeAdapter := by
      unfold transpose at ht
      rw [if_neg (by tauto), if_neg h3, if_neg h4, if_neg h1, if_neg h5] at ht
      exact (Except.ok.inj ht).symm
    intro c hc
    rw [htt] at hc
    rcases hok c hc with h | h | h
    · exact absurd h h3
    · exact absurd h h4
    · exact Or.inr (Or.inr h)

end Obj
end OpenKalman.LinAlg
