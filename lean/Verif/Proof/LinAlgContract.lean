import Verif.Proof.LinAlgOps

/-!
# Lemmas for scalar products and contraction
-/

set_option linter.unusedSectionVars false

namespace OpenKalman.LinAlg
open Finset Classical

variable {F : Type} [Field F] [StarRing F]

namespace Obj
variable {o a b : Obj F}

theorem toDiagonal_cplx : o.toDiagonal.cplx = o.cplx := by
  unfold toDiagonal
  split_ifs
  · rfl
  · exact toDiagonalP_cplx

theorem mkConst_constVal' {c : F} {f sr sk cx : Bool} {r k : ℕ} : (mkConst c f r sr k sk cx).constVal = c := rfl

theorem scale_ok (g : F → F) (hg0 : g 0 = 0) (fx cx : Bool) (hw : o.WF) (hcd : o.constDiag) (hsq : o.rows = o.cols)
    (hcx : cx = false → star (g o.constVal) = g o.constVal) :
    ∃ r, (do let d ← o.diagonalOf; Except.ok (mkConst (g o.constVal) fx d.rows d.statRows d.cols d.statCols cx).toDiagonal) = .ok r ∧
      r.toArr.Same (o.toArr.map g) ∧ r.WF ∧ r.cplx = cx := by
  obtain ⟨d, hd, hdw, hds, hdc⟩ := diagonalOf_ok hw (Or.inr (Or.inr hcd))
  rw [hd]
  have hdr : d.rows = min o.rows o.cols := hds.1
  have hdcl : d.cols = 1 := hds.2.1
  have hmw : (mkConst (g o.constVal) fx d.rows d.statRows d.cols d.statCols cx).WF := mkConst_wf hcx
  refine ⟨_, rfl, (toDiagonal_same hmw (by simp [mkConst, hdcl])).trans ⟨?_, ?_, ?_⟩, toDiagonal_wf hmw (by simp [mkConst, hdcl]), ?_⟩
  · simp [Arr.diag, Arr.map, mkConst, hdr, hsq]
  · simp [Arr.diag, Arr.map, mkConst, hdr, hsq]
  · intro i hi j hj
    simp only [Arr.diag, mkConst, hdr] at hi hj
    simp only [Arr.diag, Arr.map, mkConst]
    rw [hw.constDiag_get hcd (by omega) (by omega)]
    split_ifs <;> simp [hg0]
  · rw [toDiagonal_cplx]; rfl

theorem scalarProduct_ok {s : F} {fixed sc : Bool} (hw : o.WF) (hs : sc = false → star s = s) (hsq : o.constDiag → ¬ o.constObj → o.rows = o.cols) :
    ∃ r, o.scalarProduct s fixed sc = .ok r ∧ r.toArr.Same (o.toArr.map (· * s)) ∧ r.WF := by
  have hcx : (o.cplx || sc) = false → o.cplx = false ∧ star s = s := by
    intro h; rw [Bool.or_eq_false_iff] at h; exact ⟨h.1, hs h.2⟩
  unfold scalarProduct
  split_ifs with h1 h2 h3 h4 h5
  · exact ⟨_, rfl, ⟨rfl, rfl, fun i hi j hj => by simp [Arr.map, hw.zero_get h1 hi hj]⟩, hw⟩
  · refine ⟨_, rfl, ⟨rfl, rfl, fun i hi j hj => ?_⟩, mkConst_wf ?_⟩
    · simp only [mkConst] at hi hj; simp [mkConst, Arr.map, hw.const_get h2 hi hj]
    · intro h; rw [star_mul', hw.realConst (hcx h).1 (Or.inl h2), (hcx h).2]
  · obtain ⟨r, hr, h, h', _⟩ := scale_ok (· * s) (by simp) (o.valFixed && fixed) (o.cplx || sc) hw h3 (hsq h3 h2)
      (fun h => by rw [star_mul', hw.realConst (hcx h).1 (Or.inr h3), (hcx h).2])
    exact ⟨r, hr, h, h'⟩
  · refine ⟨_, rfl, ⟨rfl, rfl, fun i hi j hj => ?_⟩, mkConst_wf (by simp)⟩
    simp [mkConst, Arr.map, h4.2]
  · exact ⟨_, rfl, ⟨rfl, rfl, fun i hi j hj => by simp [Arr.map, h5.2]⟩, hw⟩
  · refine ⟨_, rfl, ⟨rfl, rfl, fun i hi j hj => rfl⟩, dense_wf ?_⟩
    intro h i hi j hj
    simp only [Arr.map] at hi hj ⊢
    rw [star_mul', hw.real (hcx h).1 i hi j hj, (hcx h).2]

theorem scalarQuotient_ok {s : F} {fixed sc : Bool} (hw : o.WF) (hs : sc = false → star s = s) (hsq : o.constDiag → ¬ o.constObj → o.rows = o.cols) :
    ∃ r, o.scalarQuotient s fixed sc = .ok r ∧ r.toArr.Same (o.toArr.map (· / s)) ∧ r.WF := by
  have hcx : (o.cplx || sc) = false → o.cplx = false ∧ star s = s := by
    intro h; rw [Bool.or_eq_false_iff] at h; exact ⟨h.1, hs h.2⟩
  unfold scalarQuotient
  split_ifs with h1 h2 h3 h5
  · exact ⟨_, rfl, ⟨rfl, rfl, fun i hi j hj => by simp [Arr.map, hw.zero_get h1 hi hj]⟩, hw⟩
  · refine ⟨_, rfl, ⟨rfl, rfl, fun i hi j hj => ?_⟩, mkConst_wf ?_⟩
    · simp only [mkConst] at hi hj; simp [mkConst, Arr.map, hw.const_get h2 hi hj]
    · intro h; rw [star_div₀, hw.realConst (hcx h).1 (Or.inl h2), (hcx h).2]
  · obtain ⟨r, hr, h, h', _⟩ := scale_ok (· / s) (by simp) (o.valFixed && fixed) (o.cplx || sc) hw h3 (hsq h3 h2)
      (fun h => by rw [star_div₀, hw.realConst (hcx h).1 (Or.inr h3), (hcx h).2])
    exact ⟨r, hr, h, h'⟩
  · exact ⟨_, rfl, ⟨rfl, rfl, fun i hi j hj => by simp [Arr.map, h5.2]⟩, hw⟩
  · refine ⟨_, rfl, ⟨rfl, rfl, fun i hi j hj => rfl⟩, dense_wf ?_⟩
    intro h i hi j hj
    simp only [Arr.map] at hi hj ⊢
    rw [star_div₀, hw.real (hcx h).1 i hi j hj, (hcx h).2]

/-- A column vector of diagonal elements is constant or untagged. -/
theorem diagonalOf_col (hw : o.WF) (hp : o.plain) {d : Obj F} (hd : o.diagonalOf = .ok d) : d.constObj ∨ (d.cst = none ∧ ¬ d.zero ∧ ¬ d.oneDim) := by
  by_cases h : d.constObj
  · exact Or.inl h
  · refine Or.inr ⟨?_, fun h' => h (Or.inr (Or.inl h')), fun h' => h (Or.inr (Or.inr h'))⟩
    obtain ⟨d', hd', -, -, -, hf⟩ := diagonalOf_forms hw hp
    rw [hd] at hd'
    cases hd'
    rcases hf with hf | hf | hf
    · exact absurd (Or.inr (Or.inr (Or.inl (hf.1 ▸ hf.2)))) h
    · exact absurd (hf.1 ▸ mkConst_constObj ..) h
    · rw [hf.1]; rfl

theorem constDiag_constObj_of (h : o.constObj ∨ (o.cst = none ∧ ¬ o.zero ∧ ¬ o.oneDim)) : o.constDiag → o.constObj := by
  intro hc
  rcases h with h | h
  · exact h
  · rcases hc with ⟨hc, _⟩ | hc | hc
    · simp [h.1] at hc
    · exact absurd hc h.2.1
    · exact absurd hc h.2.2

theorem transpose_row {d t : Obj F} (hdw : d.WF) (hd : d.constObj ∨ (d.cst = none ∧ ¬ d.zero ∧ ¬ d.oneDim)) (hds : ¬ d.diagonal ∨ d.constObj)
    (ht : d.transpose = .ok t) : t.rows = t.cols ∨ (t.constDiag → t.constObj) := by
  unfold transpose at ht
  split_ifs at ht with h1 h2 h3 h4 h5
  · cases ht; exact Or.inl h1.1.2.2
  · cases ht; exact Or.inr fun _ => mkConst_constObj ..
  · exact absurd (constDiag_constObj_of hd h3) h2
  · obtain ⟨r, hr, hs, _⟩ := conjugate_ok hdw
    rw [ht] at hr
    cases hr
    left
    have := h4.2.2.2
    rw [hs.1, hs.2.1]; exact this
  · tauto
  · cases ht
    right
    intro hc
    rcases hd with hd | hd
    · exact absurd hd h2
    · rcases hc with ⟨hc, _⟩ | hc | hc
      · simp [transposeAdapter, hd.1] at hc
      · exact Or.inr (Or.inl hc)
      · exact Or.inr (Or.inr hc)

theorem diagonalOf_nondiag (hw : o.WF) (hp : o.plain) {d : Obj F} (hd : o.diagonalOf = .ok d) : ¬ d.diagonal ∨ d.constObj := by
  obtain ⟨d', hd', -, -, -, hf⟩ := diagonalOf_forms hw hp
  rw [hd] at hd'
  cases hd'
  rcases hf with hf | hf | hf
  · exact Or.inr (Or.inr (Or.inr (Or.inl (hf.1 ▸ hf.2))))
  · exact Or.inr (hf.1 ▸ mkConst_constObj ..)
  · by_cases h : (o.statRows && o.statCols) = true ∧ min o.rows o.cols = 1
    · right
      rw [hf.1, dense_constObj]
      exact ⟨h, rfl, rfl⟩
    · left
      rw [hf.1, diagonal, dense_col_triOf rfl h]
      simp

/-! ### Contraction -/

/-- None of the earlier shortcuts of `contract` applies. -/
def noEarly (a b : Obj F) : Prop :=
  ¬ (b.identity ∧ b.square) ∧ ¬ (a.identity ∧ a.square) ∧ ¬ a.zero ∧ ¬ b.zero ∧ ¬ (a.constObj ∧ b.constObj)

theorem diagonal_plain (h : o.diagonal) : o.plain := by
  by_cases hc : o.constDiag
  · exact Or.inr (Or.inr hc)
  · exact Or.inl (nonconst_diagonal hc h)

theorem mul_identity (hb : b.WF) (hdim : a.cols = b.rows) (h : b.identity ∧ b.square) : a.toArr.Same (a.toArr.mul b.toArr) := by
  have hsq := hb.square_eq h.2
  refine ⟨rfl, by simp [Arr.mul]; omega, ?_⟩
  intro i hi j hj
  simp only [Arr.mul]
  rw [Finset.sum_eq_single j]
  · rw [hb.constDiag_get h.1.1 (by omega) (by omega), if_pos rfl, h.1.2.2, mul_one]
  · intro k hk hkj
    simp only [mem_range] at hk
    rw [hb.constDiag_get h.1.1 (by omega) (by omega), if_neg hkj, mul_zero]
  · intro hk; simp only [mem_range] at hk; omega

theorem identity_mul (ha : a.WF) (hdim : a.cols = b.rows) (h : a.identity ∧ a.square) : b.toArr.Same (a.toArr.mul b.toArr) := by
  have hsq := ha.square_eq h.2
  refine ⟨by simp [Arr.mul]; omega, rfl, ?_⟩
  intro i hi j hj
  simp only [Arr.mul]
  rw [Finset.sum_eq_single i]
  · rw [ha.constDiag_get h.1.1 (by omega) (by omega), if_pos rfl, h.1.2.2, one_mul]
  · intro k hk hki
    simp only [mem_range] at hk
    rw [ha.constDiag_get h.1.1 (by omega) (by omega), if_neg (Ne.symm hki), zero_mul]
  · intro hk; simp only [mem_range] at hk; omega

/-- A diagonal left factor scales rows. -/
theorem diag_mul (ha : a.WF) (hd : a.diagonal) (hrc : a.rows ≤ a.cols) {i j : ℕ} (hi : i < a.rows) (g : ℕ → ℕ → F) :
    ∑ k ∈ range a.cols, a.get i k * g k j = a.get i i * g i j := by
  rw [Finset.sum_eq_single i]
  · intro k hk hki
    simp only [mem_range] at hk
    rw [ha.diagonal_get hd hi hk (Ne.symm hki), zero_mul]
  · intro hk; simp only [mem_range] at hk; omega

theorem mul_diag (hb : b.WF) (hd : b.diagonal) (hrc : b.cols ≤ b.rows) {i j : ℕ} (hj : j < b.cols) (g : ℕ → ℕ → F) :
    ∑ k ∈ range b.rows, g i k * b.get k j = g i j * b.get j j := by
  rw [Finset.sum_eq_single j]
  · intro k hk hki
    simp only [mem_range] at hk
    rw [hb.diagonal_get hd hk hj hki, mul_zero]
  · intro hk; simp only [mem_range] at hk; omega

theorem mul_real (ha : a.WF) (hb : b.WF) (hdim : a.cols = b.rows) (hcx : (a.cplx || b.cplx) = false) {i j : ℕ} (hi : i < a.rows) (hj : j < b.cols) :
    star ((a.toArr.mul b.toArr).get i j) = (a.toArr.mul b.toArr).get i j := by
  rw [Bool.or_eq_false_iff] at hcx
  simp only [Arr.mul]
  rw [star_sum]
  refine Finset.sum_congr rfl fun k hk => ?_
  simp only [mem_range] at hk
  rw [star_mul', ha.real hcx.1 i hi k hk, hb.real hcx.2 k (by omega) j hj]

theorem commonTri_pair_mul (ha : a.WF) (hb : b.WF) (hdim : a.cols = b.rows) {i j : ℕ} (hi : i < a.rows) (hj : j < b.cols)
    (hm : ¬ (commonTri [a, b]).mem i j) : (a.toArr.mul b.toArr).get i j = 0 := by
  simp only [Arr.mul]
  refine Finset.sum_eq_zero fun k hk => ?_
  simp only [mem_range] at hk
  have key : ¬ a.triOf.mem i k ∨ ¬ b.triOf.mem k j := by
    by_contra h
    push Not at h
    apply hm
    unfold commonTri
    simp only [List.mem_cons, List.not_mem_nil, or_false, forall_eq_or_imp, forall_eq]
    split_ifs with g1 g2 g3
    · simp only [g1.1, g1.2, Tri.mem] at h ⊢; omega
    · rcases g2.1 with e1 | e1 <;> rcases g2.2 with e2 | e2 <;> simp only [e1, e2, Tri.mem] at h ⊢ <;> omega
    · rcases g3.1 with e1 | e1 <;> rcases g3.2 with e2 | e2 <;> simp only [e1, e2, Tri.mem] at h ⊢ <;> omega
    · trivial
  rcases key with h | h
  · rw [ha.triOf_get hi hk h, zero_mul]
  · rw [hb.triOf_get (by omega) hj h, mul_zero]

theorem contract_ok (path : ContractPath) (ha : a.WF) (hb : b.WF) (hdim : a.cols = b.rows)
    (hdc : noEarly a b → a.diagonal → b.constObj → a.rows ≤ a.cols ∧ 0 < b.cols)
    (hcd : noEarly a b → a.constObj → b.diagonal → ¬ (a.diagonal ∧ b.constObj) → b.cols ≤ b.rows ∧ 0 < a.rows)
    (hdd : noEarly a b → a.diagonal → b.diagonal → ¬ (a.diagonal ∧ b.constObj) → ¬ (a.constObj ∧ b.diagonal) →
      a.rows = b.cols ∧ a.rows ≤ a.cols ∧ 0 < a.rows) :
    ∃ r, contract path a b = .ok r ∧ r.toArr.Same (a.toArr.mul b.toArr) ∧ r.WF := by
  have hreal : (a.cplx || b.cplx) = false → a.cplx = false ∧ b.cplx = false := fun h => Bool.or_eq_false_iff.1 h
  unfold contract
  rw [if_neg (by omega)]
  by_cases h1 : b.identity ∧ b.square
  · rw [if_pos h1]
    exact ⟨_, rfl, mul_identity hb hdim h1, ha⟩
  rw [if_neg h1]
  by_cases h2 : a.identity ∧ a.square
  · rw [if_pos h2]
    exact ⟨_, rfl, identity_mul ha hdim h2, hb⟩
  rw [if_neg h2]
  by_cases h3 : a.zero ∨ b.zero
  · rw [if_pos h3]
    refine ⟨_, rfl, ⟨rfl, rfl, ?_⟩, mkConst_wf (by simp)⟩
    intro i hi j hj
    simp only [mkConst] at hi hj
    simp only [mkConst, Arr.mul]
    refine (Finset.sum_eq_zero fun k hk => ?_).symm
    simp only [mem_range] at hk
    rcases h3 with h3 | h3
    · rw [ha.zero_get h3 hi hk, zero_mul]
    · rw [hb.zero_get h3 (by omega) hj, mul_zero]
  rw [if_neg h3]
  by_cases h4 : a.constObj ∧ b.constObj
  · rw [if_pos h4]
    refine ⟨_, rfl, ⟨rfl, rfl, ?_⟩, mkConst_wf ?_⟩
    · intro i hi j hj
      simp only [mkConst] at hi hj
      simp only [mkConst, Arr.mul]
      rw [Finset.sum_congr rfl fun k hk => ?_, Finset.sum_const, Finset.card_range, nsmul_eq_mul, mul_comm]
      simp only [mem_range] at hk
      rw [ha.const_get h4.1 hi hk, hb.const_get h4.2 (by omega) hj]
    · intro h
      have := hreal h
      rw [star_mul', star_mul', ha.realConst this.1 (Or.inl h4.1), hb.realConst this.2 (Or.inl h4.2), star_natCast]
  rw [if_neg h4]
  by_cases h5 : a.diagonal ∧ b.constObj
  · rw [if_pos h5]
    have hne : noEarly a b := ⟨h1, h2, fun h => h3 (Or.inl h), fun h => h3 (Or.inr h), h4⟩
    obtain ⟨hrc, hbc⟩ := hdc hne h5.1 h5.2
    have hpl := diagonal_plain h5.1
    obtain ⟨d, hd, hdw, hds, hdx, -⟩ := diagonalOf_forms ha hpl
    rw [hd]
    obtain ⟨col, hcol, hcs, hcw⟩ := scalarProduct_ok (o := d) (s := b.constVal) (fixed := b.valFixed) (sc := b.cplx) hdw
      (fun h => hb.realConst h (Or.inl h5.2)) (fun h h' => absurd (constDiag_constObj_of (diagonalOf_col ha hpl hd) h) h')
    refine ⟨_, by
      simp only [Except.bind, bind, hcol]
      exact if_neg (by omega), ?_, ?_⟩
    · have hr : col.rows = a.rows := by
        have := hcs.1; have h2 := hds.1; simp only [Arr.map, Arr.diagVec] at this h2; omega
      refine ⟨hr, rfl, ?_⟩
      intro i hi j hj
      simp only [dense] at hi hj ⊢
      have hcc : col.cols = 1 := hcs.2.1.trans hds.2.1
      have e1 := hcs.2.2 i hi 0 (by omega)
      have e2 := hds.2.2 i (by rw [hcs.1] at hi; exact hi) 0 (by rw [show d.cols = 1 from hds.2.1]; omega)
      simp only [Arr.map, Arr.diagVec] at e1 e2
      simp only [Arr.mul]
      rw [diag_mul ha h5.1 hrc (by omega), e1, e2, hb.const_get h5.2 (by omega) hj]
    · refine dense_wf ?_
      intro h i hi j hj
      have := hreal h
      simp only at hi hj ⊢
      have hcc : col.cols = 1 := hcs.2.1.trans hds.2.1
      have e1 := hcs.2.2 i hi 0 (by omega)
      have hir : i < d.rows := by rw [hcs.1] at hi; exact hi
      rw [e1]
      simp only [Arr.map]
      rw [star_mul', hdw.real (hdx.trans this.1) i hir 0 (by rw [show d.cols = 1 from hds.2.1]; omega), hb.realConst this.2 (Or.inl h5.2)]
  rw [if_neg h5]
  by_cases h6 : a.constObj ∧ b.diagonal
  · rw [if_pos h6]
    have hne : noEarly a b := ⟨h1, h2, fun h => h3 (Or.inl h), fun h => h3 (Or.inr h), h4⟩
    obtain ⟨hrc, har⟩ := hcd hne h6.1 h6.2 h5
    have hpl := diagonal_plain h6.2
    obtain ⟨d, hd, hdw, hds, hdx, -⟩ := diagonalOf_forms hb hpl
    rw [hd]
    obtain ⟨t, ht, htw, hts, htx⟩ := transpose_ok hdw
    obtain ⟨row, hrow, hrs, hrw⟩ := scalarProduct_ok (o := t) (s := a.constVal) (fixed := a.valFixed) (sc := a.cplx) htw
      (fun h => ha.realConst h (Or.inl h6.1)) (fun h h' => by
        rcases transpose_row hdw (diagonalOf_col hb hpl hd) (diagonalOf_nondiag hb hpl hd) ht with g | g
        · exact g
        · exact absurd (g h) h')
    have hdr : d.rows = min b.rows b.cols := hds.1
    have hdcl : d.cols = 1 := hds.2.1
    have htr : t.rows = 1 := hts.1.trans hdcl
    have htc : t.cols = min b.rows b.cols := hts.2.1.trans hdr
    have hrr : row.rows = 1 := hrs.1.trans htr
    have hrc' : row.cols = min b.rows b.cols := hrs.2.1.trans htc
    have hval : ∀ j < b.cols, row.get 0 j = b.get j j * a.constVal := by
      intro j hj
      have e1 := hrs.2.2 0 (by omega) j (by omega)
      have e2 := hts.2.2 0 (by omega) j (by omega)
      have e3 := hds.2.2 j (by omega) 0 (by omega)
      simp only [Arr.map, Arr.transpose, Arr.diagVec] at e1 e2 e3
      rw [e1, e2, e3]
    refine ⟨_, by
      simp only [Except.bind, bind, ht, hrow]
      exact if_neg (by omega), ?_, ?_⟩
    · refine ⟨rfl, by simp [dense, Arr.mul]; omega, ?_⟩
      intro i hi j hj
      simp only [dense] at hi hj ⊢
      simp only [Arr.mul]
      rw [hval j (by omega), hdim, mul_diag hb h6.2 hrc (by omega), ha.const_get h6.1 hi (by omega), mul_comm]
    · refine dense_wf ?_
      intro h i hi j hj
      have := hreal h
      simp only at hi hj ⊢
      rw [hval j (by omega), star_mul', hb.real this.2 j (by omega) j (by omega), ha.realConst this.1 (Or.inl h6.1)]
  rw [if_neg h6]
  by_cases h7 : a.diagonal ∧ b.diagonal
  · rw [if_pos h7]
    have hne : noEarly a b := ⟨h1, h2, fun h => h3 (Or.inl h), fun h => h3 (Or.inr h), h4⟩
    obtain ⟨hrk, hrc, hr0⟩ := hdd hne h7.1 h7.2 h5 h6
    obtain ⟨da, hda, hdaw, hdas, hdax⟩ := diagonalOf_ok ha (diagonal_plain h7.1)
    obtain ⟨db, hdb, hdbw, hdbs, hdbx⟩ := diagonalOf_ok hb (diagonal_plain h7.2)
    rw [hda, hdb]
    have r1 : da.rows = a.rows := by have : da.rows = min a.rows a.cols := hdas.1; omega
    have r2 : db.rows = a.rows := by have : db.rows = min b.rows b.cols := hdbs.1; omega
    have c1 : da.cols = 1 := hdas.2.1
    have c2 : db.cols = 1 := hdbs.2.1
    have v1 : ∀ i < a.rows, da.get i 0 = a.get i i := fun i hi => hdas.2.2 i (by omega) 0 (by omega)
    have v2 : ∀ i < a.rows, db.get i 0 = b.get i i := fun i hi => hdbs.2.2 i (by omega) 0 (by omega)
    have hp : ∃ p, nAryCol (· * ·) da db = .ok p ∧ p.WF ∧ p.rows = a.rows ∧ p.cols = 1 ∧ (∀ i < a.rows, p.get i 0 = a.get i i * b.get i i) := by
      unfold nAryCol
      rw [if_neg (by omega), if_neg (by omega)]
      split_ifs with g
      · refine ⟨_, rfl, mkConst_wf ?_, by simp [mkConst]; omega, rfl, ?_⟩
        · intro h
          rw [hdax, hdbx] at h
          have := hreal h
          rw [star_mul', hdaw.realConst (hdax.trans this.1) (Or.inl g.1), hdbw.realConst (hdbx.trans this.2) (Or.inl g.2)]
        · intro i hi
          simp only [mkConst]
          rw [← v1 i hi, ← v2 i hi, hdaw.const_get g.1 (by omega) (by omega), hdbw.const_get g.2 (by omega) (by omega)]
      · refine ⟨_, rfl, dense_wf ?_, by simp [dense]; omega, rfl, ?_⟩
        · intro h i hi j hj
          simp only [hdax, hdbx] at h hi hj ⊢
          have := hreal h
          rw [if_pos (by omega), if_pos (by omega), star_mul', hdaw.real (hdax.trans this.1) i (by omega) 0 (by omega),
            hdbw.real (hdbx.trans this.2) i (by omega) 0 (by omega)]
        · intro i hi
          simp only [dense]
          rw [if_pos (by omega), if_pos (by omega), v1 i hi, v2 i hi]
    obtain ⟨p, hp, hpw, hpr, hpc, hpv⟩ := hp
    show ∃ r, (do let p ← nAryCol (· * ·) da db; Except.ok p.toDiagonal) = _ ∧ _
    rw [hp]
    refine ⟨_, rfl, (toDiagonal_same hpw hpc).trans ⟨hpr, by simp [Arr.diag, Arr.mul]; omega, ?_⟩, toDiagonal_wf hpw hpc⟩
    intro i hi j hj
    simp only [Arr.diag] at hi hj
    simp only [Arr.diag, Arr.mul]
    rw [diag_mul ha h7.1 hrc (by omega)]
    split_ifs with hij
    · rw [← hij]; exact hpv i (by omega)
    · rw [hb.diagonal_get h7.2 (by omega) (by omega) hij, mul_zero]
  rw [if_neg h7]
  have hwd : (dense (a.toArr.mul b.toArr) a.statRows b.statCols (a.cplx || b.cplx)).WF :=
    dense_wf fun h i hi j hj => mul_real ha hb hdim h hi hj
  cases path with
  | direct =>
    refine ⟨_, rfl, ?_⟩
    split_ifs with g
    · refine ⟨(toTriangular_same hwd _).trans ⟨rfl, rfl, ?_⟩, toTriangular_wf hwd _⟩
      intro i hi j hj
      simp only [maskTri]
      split_ifs with hm
      · rfl
      · exact (commonTri_pair_mul ha hb hdim hi hj hm).symm
    · exact ⟨⟨rfl, rfl, fun _ _ _ _ => rfl⟩, hwd⟩
  | viaAdjoint =>
    obtain ⟨bt, hbt, hbs, -, hbx⟩ := conjugateTranspose_ok hb
    obtain ⟨at', hat, has, -, hax⟩ := conjugateTranspose_ok ha
    have hwp : (dense (bt.toArr.mul at'.toArr) bt.statRows at'.statCols (a.cplx || b.cplx)).WF := by
      refine dense_wf ?_
      intro h i hi j hj
      have := hreal h
      simp only [Arr.mul] at hi hj ⊢
      rw [star_sum]
      refine Finset.sum_congr rfl fun k hk => ?_
      simp only [mem_range] at hk
      have r1 : bt.rows = b.cols := hbs.1
      have c1 : bt.cols = b.rows := hbs.2.1
      have r2 : at'.rows = a.cols := has.1
      have c2 : at'.cols = a.rows := has.2.1
      have e1 := hbs.2.2 i hi k hk
      have e2 := has.2.2 k (by omega) j hj
      simp only [Arr.conj, Arr.map, Arr.transpose] at e1 e2
      rw [e1, e2, star_mul', star_star, star_star, hb.real this.2 k (by omega) i (by omega), ha.real this.1 j (by omega) k (by omega)]
    obtain ⟨r, hr, hrs, hrw, -⟩ := conjugateTranspose_ok hwp
    refine ⟨r, by simp only [hbt, hat]; exact hr, hrs.trans ?_, hrw (fun c hc => by simp [dense] at hc)⟩
    have r1 : bt.rows = b.cols := hbs.1
    have c1 : bt.cols = b.rows := hbs.2.1
    have r2 : at'.rows = a.cols := has.1
    have c2 : at'.cols = a.rows := has.2.1
    refine ⟨c2, r1, ?_⟩
    intro i hi j hj
    simp only [Arr.transpose, Arr.conj, Arr.map, Arr.mul, dense] at hi hj ⊢
    rw [star_sum, c1, ← hdim]
    refine Finset.sum_congr rfl fun k hk => ?_
    simp only [mem_range] at hk
    have e1 := hbs.2.2 j hj k (by omega)
    have e2 := has.2.2 k (by omega) i hi
    simp only [Arr.conj, Arr.map, Arr.transpose] at e1 e2
    rw [e1, e2, star_mul', star_star, star_star, mul_comm]
  | viaTranspose =>
    obtain ⟨bt, hbt, hbw, hbs, hbx⟩ := transpose_ok hb
    obtain ⟨at', hat, haw, has, hax⟩ := transpose_ok ha
    have r1 : bt.rows = b.cols := hbs.1
    have c1 : bt.cols = b.rows := hbs.2.1
    have r2 : at'.rows = a.cols := has.1
    have c2 : at'.cols = a.rows := has.2.1
    have hwp : (dense (bt.toArr.mul at'.toArr) bt.statRows at'.statCols (a.cplx || b.cplx)).WF := by
      refine dense_wf ?_
      intro h i hi j hj
      have := hreal h
      exact mul_real hbw haw (by omega) (by rw [hbx, hax, this.1, this.2]; rfl) hi hj
    obtain ⟨r, hr, hrw, hrs, -⟩ := transpose_ok hwp
    refine ⟨r, by simp only [hbt, hat]; exact hr, hrs.trans ?_, hrw⟩
    refine ⟨c2, r1, ?_⟩
    intro i hi j hj
    simp only [Arr.transpose, Arr.mul, dense] at hi hj ⊢
    rw [c1, ← hdim]
    refine Finset.sum_congr rfl fun k hk => ?_
    simp only [mem_range] at hk
    have e1 := hbs.2.2 j hj k (by omega)
    have e2 := has.2.2 k (by omega) i hi
    simp only [Arr.transpose] at e1 e2
    rw [e1, e2, mul_comm]

end Obj
end OpenKalman.LinAlg
