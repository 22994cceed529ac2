import Verif.Model.Factor
import Verif.Spec.Solve
import Verif.Proof.Solve

/-!
# Lemmas about the factorisations and rank updates (C43)
-/

namespace OpenKalman.LinAlg
open Finset Classical

variable {𝕜 : Type} [RCLike 𝕜]

theorem rt_ok {x y : 𝕜} (h : rt x = .ok y) : star y = y ∧ y * y = x := by
  unfold rt at h
  by_cases c : 0 ≤ RCLike.re x ∧ RCLike.im x = 0
  · rw [if_pos c] at h
    cases h
    refine ⟨RCLike.conj_ofReal _, ?_⟩
    rw [← RCLike.ofReal_mul, Real.mul_self_sqrt c.1]
    exact RCLike.ext (by simp) (by simp [c.2])
  · rw [if_neg c] at h; cases h

theorem rt_accepts {x : 𝕜} (h : 0 ≤ RCLike.re x) (h' : RCLike.im x = 0) : ∃ y, rt x = .ok y := by
  unfold rt; rw [if_pos ⟨h, h'⟩]; exact ⟨_, rfl⟩

namespace Arr

theorem gram_false (a : Arr 𝕜) : a.gram false = a.mul a.adj := rfl
theorem gram_true (a : Arr 𝕜) : a.gram true = a.adj.mul a := rfl

theorem gram_dims {a : Arr 𝕜} (up : Bool) (h : a.rows = a.cols) : (a.gram up).rows = a.rows ∧ (a.gram up).cols = a.rows := by
  cases up
  · exact ⟨rfl, rfl⟩
  · exact ⟨h.symm, h.symm⟩

/-- The element of the Gram matrix. -/
noncomputable def gramEl (up : Bool) (n : ℕ) (g : ℕ → ℕ → 𝕜) (i j : ℕ) : 𝕜 :=
  ∑ k ∈ range n, if up then star (g k i) * g k j else g i k * star (g j k)

theorem gram_get {a : Arr 𝕜} (up : Bool) (h : a.rows = a.cols) (i j : ℕ) : (a.gram up).get i j = gramEl up a.rows a.get i j := by
  cases up
  · simp only [gram_false, mul, adj, gramEl, conj, map, transpose, h]; rfl
  · simp only [gram_true, mul, adj, gramEl, conj, map, transpose]; rfl

theorem gramEl_congr {up : Bool} {n : ℕ} {g g' : ℕ → ℕ → 𝕜} (h : ∀ i < n, ∀ j < n, g i j = g' i j) {i j : ℕ} (hi : i < n) (hj : j < n) :
    gramEl up n g i j = gramEl up n g' i j := by
  unfold gramEl
  refine Finset.sum_congr rfl fun k hk => ?_
  rw [mem_range] at hk
  cases up
  · simp only [Bool.false_eq_true, if_false]; rw [h i hi k hk, h j hj k hk]
  · simp only [if_true]; rw [h k hk i hi, h k hk j hj]

theorem gramEl_star (up : Bool) (n : ℕ) (g : ℕ → ℕ → 𝕜) (i j : ℕ) : gramEl up n g j i = star (gramEl up n g i j) := by
  unfold gramEl
  rw [star_sum]
  refine Finset.sum_congr rfl fun k _ => ?_
  cases up
  · simp only [Bool.false_eq_true, if_false, star_mul', star_star, mul_comm]
  · simp only [if_true, star_mul', star_star, mul_comm]

theorem gramEl_diag {up : Bool} {n : ℕ} {g : ℕ → ℕ → 𝕜} (h : ∀ i < n, ∀ j < n, i ≠ j → g i j = 0) {i j : ℕ} (hi : i < n) (hj : j < n) :
    gramEl up n g i j = if i = j then g i i * star (g i i) else 0 := by
  unfold gramEl
  rw [Finset.sum_eq_single i]
  · cases up
    · simp only [Bool.false_eq_true, if_false]
      by_cases e : i = j
      · rw [if_pos e, ← e]
      · rw [if_neg e, h j hj i hi (Ne.symm e), star_zero, mul_zero]
    · simp only [if_true]
      by_cases e : i = j
      · rw [if_pos e, ← e, mul_comm]
      · rw [if_neg e, h i hi j hj e, mul_zero]
  · intro k hk hne
    rw [mem_range] at hk
    cases up
    · simp only [Bool.false_eq_true, if_false]; rw [h i hi k hk (Ne.symm hne), zero_mul]
    · simp only [if_true]; rw [h k hk i hi hne, star_zero, zero_mul]
  · intro h'; rw [mem_range] at h'; omega

theorem isFactor_iff {up : Bool} {a l : Arr 𝕜} (hsq : a.rows = a.cols) : IsFactor up a l ↔ l.rows = a.rows ∧ l.cols = a.rows ∧
    (if up then l.IsUpper else l.IsLower) ∧ ∀ i < a.rows, ∀ j < a.rows, gramEl up a.rows l.get i j = a.get i j := by
  unfold IsFactor
  constructor
  · rintro ⟨h1, h2, h3, h4⟩
    refine ⟨h1, h2, h3, fun i hi j hj => ?_⟩
    have hd := gram_dims up (h1.trans h2.symm)
    have := h4.2.2 i (by omega) j (by omega)
    rw [gram_get up (h1.trans h2.symm), h1] at this
    exact this
  · rintro ⟨h1, h2, h3, h4⟩
    have hd := gram_dims up (h1.trans h2.symm)
    refine ⟨h1, h2, h3, by omega, by omega, fun i hi j hj => ?_⟩
    rw [gram_get up (h1.trans h2.symm), h1]
    exact h4 i (by omega) j (by omega)

end Arr

open Arr

namespace Obj

variable {a u d o r : Obj 𝕜}

theorem nAryUnary_sound {f : 𝕜 → Except Err 𝕜} (hw : d.WF) (hcol : d.cols = 1) (hreal : d.cplx = false → ∀ x y, star x = x → f x = .ok y → star y = y)
    (h : nAryUnary f d = .ok r) : r.WF ∧ r.rows = d.rows ∧ r.cols = 1 ∧ 0 < d.rows ∧ ∀ i < d.rows, f (d.get i 0) = .ok (r.get i 0) := by
  unfold nAryUnary at h
  by_cases c0 : d.rows = 0
  · rw [if_pos c0] at h; cases h
  rw [if_neg c0] at h
  by_cases c1 : d.constObj
  · rw [if_pos c1] at h
    obtain ⟨c, hc, he⟩ := bind_ok h
    cases he
    refine ⟨mkConst_wf fun hcx => hreal hcx _ _ (hw.realConst hcx (Or.inl c1)) hc, rfl, rfl, by omega, fun i hi => ?_⟩
    rw [hw.const_get c1 hi (by omega)]
    exact hc
  rw [if_neg c1] at h
  by_cases c2 : ∀ i < d.rows, ∃ v, f (d.get i 0) = .ok v
  · rw [if_pos c2] at h
    cases h
    have key : ∀ i < d.rows, f (d.get i 0) = .ok (valueOr0 (f (d.get i 0))) := by
      intro i hi
      obtain ⟨v, hv⟩ := c2 i hi
      rw [hv]; rfl
    refine ⟨dense_wf ?_, rfl, rfl, by omega, key⟩
    intro hcx i hi j _
    exact hreal hcx _ _ (hw.real hcx i hi 0 (by omega)) (key i hi)
  · rw [if_neg c2] at h; cases h

theorem nAryUnary_accepts {f : 𝕜 → Except Err 𝕜} (hw : d.WF) (hcol : d.cols = 1) (h0 : 0 < d.rows) (h : ∀ i < d.rows, ∃ v, f (d.get i 0) = .ok v) :
    ∃ r, nAryUnary f d = .ok r := by
  unfold nAryUnary
  rw [if_neg (by omega)]
  by_cases c1 : d.constObj
  · rw [if_pos c1]
    obtain ⟨v, hv⟩ := h 0 h0
    rw [hw.const_get c1 h0 (by omega)] at hv
    rw [hv]
    exact ⟨_, rfl⟩
  · rw [if_neg c1, if_pos h]; exact ⟨_, rfl⟩

theorem toHermitianT_good {t : Tri} (ht : t = .lower ∨ t = .upper) {n : ℕ} {f : ℕ → ℕ → 𝕜} (hg : Good n n f o) (hf : ∀ i < n, ∀ j < n, f j i = star (f i j)) :
    ∃ s, o.toHermitianT t = .ok s ∧ Good n n f s := by
  unfold toHermitianT
  by_cases h1 : o.hermitian
  · rw [if_pos h1]; exact ⟨o, rfl, hg⟩
  rw [if_neg h1]
  have hr := hg.rows
  have hc := hg.cols
  rw [if_neg (by omega)]
  have hval : ∀ i < n, ∀ j < n, (if t.mem i j then o.get i j else star (o.get j i)) = f i j := by
    intro i hi j hj
    split_ifs with hij
    · exact hg.get i hi j hj
    · rw [hg.get j hj i hi, hf j hj i hi]
  have hvo : ∀ i < o.rows, ∀ j < o.cols, (if t.mem i j then o.get i j else star (o.get j i)) = o.get i j := by
    intro i hi j hj
    rw [hval i (by omega) j (by omega), hg.get i (by omega) j (by omega)]
  have htri : ∀ t' : Tri, t' = (if o.triOf.times t = .diagonal then Tri.diagonal else Tri.none) → t' ≠ .lower ∧ t' ≠ .upper := by
    intro t ht; split_ifs at ht <;> subst ht <;> simp
  have hsym : ∀ i < o.rows, ∀ j < o.cols, o.get j i = 0 → o.get i j = 0 := by
    intro i hi j hj h
    have e2 := hf j (by omega) i (by omega)
    rw [← hg.get i (by omega) j (by omega), ← hg.get j (by omega) i (by omega), h, star_zero] at e2
    exact e2
  have hdiag : o.triOf.times t = .diagonal → ∀ i < o.rows, ∀ j < o.cols, i ≠ j → o.get i j = 0 := by
    intro htt i hi j hj hij
    by_cases hm : (o.triOf.times t).mem i j
    · rw [htt] at hm; exact absurd hm hij
    · by_cases h1 : o.triOf.mem i j
      · by_cases h2 : o.triOf.mem j i
        · exfalso
          have h3 : t.mem i j ∨ t.mem j i := by
            rcases ht with rfl | rfl <;> simp only [Tri.mem] <;> omega
          rcases h3 with h3 | h3
          · exact hm (Tri.times_mem h1 h3)
          · have := Tri.times_mem h2 h3
            rw [htt] at this
            exact hij this.symm
        · exact hsym i hi j hj (hg.wf.triOf_get (by omega) (by omega) h2)
      · exact hg.wf.triOf_get hi hj h1
  refine ⟨_, rfl, ⟨?_, ?_, ?_, ?_, ?_, ?_, ?_, ?_, ?_, ?_⟩, hr, hc, hval⟩
  · intro _; simp only; omega
  · intro h; exact absurd h (htri _ rfl).1
  · intro h; exact absurd h (htri _ rfl).2
  · intro h i hi j hj hij
    simp only at h hi hj ⊢
    rw [hvo i hi j hj]
    refine hdiag ?_ i hi j hj hij
    by_contra hh
    rw [if_neg hh] at h
    simp at h
  · intro v hv i hi j hj hm
    simp only at hv hm hi hj ⊢
    rw [hvo i hi j hj]
    by_cases hnc : o.constNotComplex
    · rw [if_pos hnc] at hv
      cases hv
      rcases hnc.1 with hcc | hcc
      · exact hg.wf.const_get hcc hi hj
      · have hd : o.triOf = .diagonal := WF.constDiag_diagonal hcc
        rw [if_pos (by rw [hd]; simp [Tri.times])] at hm
        have hm : i = j := hm
        rw [hg.wf.constDiag_get hcc hi hj, if_pos hm]
    · rw [if_neg hnc] at hv; simp at hv
  · intro _
    refine ⟨by simp only; omega, fun i hi j hj => ?_⟩
    simp only at hi hj ⊢
    rw [hval i (by omega) j (by omega), hval j (by omega) i (by omega), hf i (by omega) j (by omega)]
  · intro h i hi j hj
    simp only at hi hj h ⊢
    rw [hvo i hi j hj, hg.wf.real h i hi j hj]
  · intro h v hv
    simp only at hv
    by_cases hnc : o.constNotComplex
    · rw [if_pos hnc] at hv; cases hv; exact hnc.2.2
    · rw [if_neg hnc] at hv; simp at hv
  · intro _ _ _; exact (htri _ rfl).2
  · intro _ _ _; exact (htri _ rfl).1

/-- The diagonal operations: a diagonal matrix is mapped elementwise along its diagonal. -/
theorem diagMap_sound {f : 𝕜 → Except Err 𝕜} (hw : a.WF) (hd : a.diagonal) (hsq : a.rows = a.cols)
    (hreal : a.cplx = false → ∀ x y, star x = x → f x = .ok y → star y = y) {d : Obj 𝕜} (h1 : a.diagonalOf = .ok d) (h2 : nAryUnary f d = .ok r) :
    0 < a.rows ∧ r.toDiagonal.WF ∧ r.toDiagonal.toArr.Same (Arr.diag a.rows a.rows fun i => r.get i 0) ∧ ∀ i < a.rows, f (a.get i i) = .ok (r.get i 0) := by
  obtain ⟨d', hd', hdw, hds, hdc⟩ := diagonalOf_ok hw (diagonal_plain hd)
  rw [h1] at hd'; cases hd'
  have hr : d.rows = a.rows := by have := hds.1; simp only [Arr.diagVec] at this; omega
  have hc : d.cols = 1 := hds.2.1
  obtain ⟨k1, k2, k3, k4, k5⟩ := nAryUnary_sound hdw hc (by rw [hdc]; exact hreal) h2
  refine ⟨by omega, toDiagonal_wf k1 k3, ?_, fun i hi => ?_⟩
  · have := toDiagonal_same k1 k3
    rwa [k2, hr] at this
  · have := k5 i (by omega)
    rw [hds.2.2 i (by omega) 0 (by omega)] at this
    exact this

theorem triOf_diag (h : o.zero ∨ o.oneDim ∨ o.tri = .diagonal) : o.triOf = .diagonal := by unfold triOf; rw [if_pos h]

theorem toDiagonal_diagonal : d.toDiagonal.diagonal := by
  unfold toDiagonal
  by_cases h1 : d.rowsIs 1 ∧ d.colsIs 1
  · rw [if_pos h1]; exact triOf_diag (Or.inr (Or.inl (Or.inl h1)))
  rw [if_neg h1]
  unfold toDiagonalP
  by_cases h2 : d.oneDim ∧ (d.statRows = true ∧ d.rows = 1) ∧ (d.statRows = true ∧ d.rows = 1)
  · rw [if_pos h2]
    refine triOf_diag (Or.inr (Or.inl (Or.inl ⟨?_, ?_⟩)))
    · exact h2.2.1
    · exact h2.2.1
  rw [if_neg h2]
  by_cases h3 : d.zero
  · rw [if_pos h3]; exact triOf_diag (Or.inl ⟨rfl, rfl⟩)
  rw [if_neg h3]; exact triOf_diag (Or.inr (Or.inr rfl))

theorem WF.isLower (hw : o.WF) (h : o.triangular .lower) : o.toArr.IsLower := by
  intro i hi j hj hij
  refine hw.triOf_get hi hj ?_
  rcases h with h | h
  · rw [← h]; simp only [Tri.mem]; omega
  · rw [h.2]; simp only [Tri.mem]; omega

theorem WF.isUpper (hw : o.WF) (h : o.triangular .upper) : o.toArr.IsUpper := by
  intro i hi j hj hij
  refine hw.triOf_get hi hj ?_
  rcases h with h | h
  · rw [← h]; simp only [Tri.mem]; omega
  · rw [h.2]; simp only [Tri.mem]; omega

/-- Whether a triangle type stands for `U* U` rather than `L L*`. -/
def Tri.isUp (t : Tri) : Bool := decide (t = .upper)

theorem isTri_of {t : Tri} {x : Arr 𝕜} (h : ∀ i < x.rows, ∀ j < x.cols, ¬ t.mem i j → x.get i j = 0) (ht : t ≠ .none) :
    if Tri.isUp t then x.IsUpper else x.IsLower := by
  cases t
  · exact absurd rfl ht
  · intro i hi j hj hij; exact h i hi j hj (by simp only [Tri.mem]; omega)
  · intro i hi j hj hij; exact h i hi j hj (by simp only [Tri.mem]; omega)
  · intro i hi j hj hij; exact h i hi j hj (by simp only [Tri.mem]; omega)

/-- A diagonal factor of a diagonal matrix. -/
theorem isFactor_diag {up : Bool} {l : ℕ → 𝕜} {x y : Arr 𝕜} (hx : x.rows = x.cols) (hd : ∀ i < x.rows, ∀ j < x.rows, i ≠ j → x.get i j = 0)
    (hy : y.Same (Arr.diag x.rows x.rows l)) (hl : ∀ i < x.rows, l i * star (l i) = x.get i i) : IsFactor up x y := by
  rw [isFactor_iff hx]
  have h1 : y.rows = x.rows := hy.1
  have h2 : y.cols = x.rows := hy.2.1
  have hv : ∀ i < x.rows, ∀ j < x.rows, y.get i j = if i = j then l i else 0 := fun i hi j hj => hy.2.2 i (by omega) j (by omega)
  have h0 : ∀ i < x.rows, ∀ j < x.rows, i ≠ j → y.get i j = 0 := fun i hi j hj hij => by rw [hv i hi j hj, if_neg hij]
  refine ⟨h1, h2, ?_, fun i hi j hj => ?_⟩
  · cases up
    · intro i hi j hj hij; exact h0 i (by omega) j (by omega) (by omega)
    · intro i hi j hj hij; exact h0 i (by omega) j (by omega) (by omega)
  · rw [gramEl_diag h0 hi hj]
    by_cases e : i = j
    · subst e; rw [if_pos rfl, hv i hi i hi, if_pos rfl]; exact hl i hi
    · rw [if_neg e, hd i hi j hj e]

theorem firstLine_sound {up one : Bool} {v : 𝕜} {n : ℕ} {st cx : Bool} (hv : cx = false → star v = v) (h : firstLine up one v n st cx = .ok r) :
    0 < n ∧ Good n n (fun i j => if (if up then i else j) = 0 then v else 0) r := by
  unfold firstLine at h
  by_cases c0 : n = 0
  · rw [if_pos c0] at h; cases h
  rw [if_neg c0] at h
  have hst : ∀ g : ℕ → ℕ → 𝕜, (∀ i < n, ∀ j < n, g i j = 0 ∨ g i j = v) → (dense ⟨n, n, g⟩ st st cx).WF := by
    intro g hg
    refine dense_wf fun hcx i hi j hj => ?_
    rcases hg i hi j hj with e | e
    · simp only [e, star_zero]
    · simp only [e, hv hcx]
  by_cases c1 : n = 1
  · rw [if_pos c1] at h
    cases one
    · rw [if_neg (by simp)] at h; cases h
    · rw [if_pos rfl] at h
      subst c1
      have hg : Good 1 1 (fun _ _ => v) (dense ⟨1, 1, fun _ _ => v⟩ st st cx) := ⟨hst _ (by simp), rfl, rfl, fun _ _ _ _ => rfl⟩
      cases up
      · rw [if_neg (by simp)] at h
        cases h
        have := toTriangular_good hg .lower (by intro i hi j hj hm; simp only [Tri.mem] at hm; omega)
        refine ⟨by omega, this.wf, this.rows, this.cols, fun i hi j hj => ?_⟩
        rw [this.get i hi j hj]
        simp only [Bool.false_eq_true, if_false]
        rw [if_pos (by omega)]
      · rw [if_pos rfl] at h
        cases h
        have := toTriangular_good hg .upper (by intro i hi j hj hm; simp only [Tri.mem] at hm; omega)
        refine ⟨by omega, this.wf, this.rows, this.cols, fun i hi j hj => ?_⟩
        rw [this.get i hi j hj]
        simp only [if_true]
        rw [if_pos (by omega)]
  rw [if_neg c1] at h
  cases up
  · rw [if_neg (by simp)] at h
    cases h
    have hg : Good n n (fun _ j => if j = 0 then v else 0) (dense ⟨n, n, fun _ j => if j = 0 then v else 0⟩ st st cx) :=
      ⟨hst _ (fun i _ j _ => by by_cases e : j = 0 <;> simp [e]), rfl, rfl, fun _ _ _ _ => rfl⟩
    have := toTriangular_good hg .lower (by intro i hi j hj hm; simp only [Tri.mem] at hm; rw [if_neg (by omega)])
    exact ⟨by omega, this⟩
  · rw [if_pos rfl] at h
    cases h
    have hg : Good n n (fun i _ => if i = 0 then v else 0) (dense ⟨n, n, fun i _ => if i = 0 then v else 0⟩ st st cx) :=
      ⟨hst _ (fun i _ j _ => by by_cases e : i = 0 <;> simp [e]), rfl, rfl, fun _ _ _ _ => rfl⟩
    have := toTriangular_good hg .upper (by intro i hi j hj hm; simp only [Tri.mem] at hm; rw [if_neg (by omega)])
    exact ⟨by omega, this⟩

theorem firstLine_gram {up : Bool} {v : 𝕜} {n : ℕ} (hn : 0 < n) (i j : ℕ) :
    gramEl up n (fun i j => if (if up then i else j) = 0 then v else 0) i j = v * star v := by
  unfold gramEl
  rw [Finset.sum_eq_single 0]
  · cases up
    · simp
    · simp [mul_comm]
  · intro k _ hk; cases up <;> simp [hk]
  · intro h; rw [mem_range] at h; omega

theorem Good.isTri {n : ℕ} {up : Bool} {v : 𝕜} (hg : Good n n (fun i j => if (if up then i else j) = 0 then v else 0) r) :
    if up then r.toArr.IsUpper else r.toArr.IsLower := by
  cases up
  · intro i hi j hj hij
    have h1 : i < r.rows := hi
    have h2 : j < r.cols := hj
    rw [hg.rows] at h1; rw [hg.cols] at h2
    show r.get i j = 0
    rw [hg.get i h1 j h2]
    simp only [Bool.false_eq_true, if_false]
    rw [if_neg (by omega)]
  · intro i hi j hj hij
    have h1 : i < r.rows := hi
    have h2 : j < r.cols := hj
    rw [hg.rows] at h1; rw [hg.cols] at h2
    show r.get i j = 0
    rw [hg.get i h1 j h2]
    simp only [if_true]
    rw [if_neg (by omega)]

/-- What the library's Cholesky factorisation must do. -/
def FactorLib (lib : Tri → Obj 𝕜 → Except Err (Arr 𝕜)) (tri : Tri) (a : Obj 𝕜) : Prop :=
  ∀ x, lib tri a = .ok x → IsFactor (Tri.isUp tri) a.toArr x ∧ (a.cplx = false → ∀ i < x.rows, ∀ j < x.cols, star (x.get i j) = x.get i j)

theorem zero_identity_gram (ha : a.WF) (hsq : a.rows = a.cols) (h : a.zero ∨ a.identity) (up : Bool) : IsFactor up a.toArr a.toArr := by
  have hd : a.diagonal := by
    rcases h with h | h
    · exact WF.constDiag_diagonal (Or.inr (Or.inl h))
    · exact WF.constDiag_diagonal h.1
  refine isFactor_diag (l := fun i => a.get i i) hsq (fun i hi j hj hij => ha.diagonal_get hd hi (by omega) hij) ?_ ?_
  · have := diag_of_diagonal ha hd
    rwa [← hsq] at this
  · intro i hi
    rcases h with h | h
    · show a.get i i * star (a.get i i) = a.get i i
      rw [ha.zero_get h hi (by show i < a.cols; rw [← hsq]; exact hi)]; simp
    · show a.get i i * star (a.get i i) = a.get i i
      rw [ha.constDiag_get h.1 hi (by show i < a.cols; rw [← hsq]; exact hi), if_pos rfl, h.2.2]; simp

theorem cholFactor_sound {lib : Tri → Obj 𝕜 → Except Err (Arr 𝕜)} {tri : Tri} (ha : a.WF) (hlib : FactorLib lib tri a) (h : cholFactor lib tri a = .ok r) :
    IsFactor (Tri.isUp tri) a.toArr r.toArr ∧ r.WF := by
  unfold cholFactor at h
  by_cases c0 : tri = .none ∨ (tri = .diagonal ∧ ¬ a.diagonal)
  · rw [if_pos c0] at h; cases h
  rw [if_neg c0] at h
  have htn : tri ≠ .none := fun e => c0 (Or.inl e)
  by_cases c1 : a.rows ≠ a.cols
  · rw [if_pos c1] at h; cases h
  rw [if_neg c1] at h
  rw [not_not] at c1
  by_cases c2 : a.zero ∨ a.identity
  · rw [if_pos c2] at h
    cases h
    exact ⟨zero_identity_gram ha c1 c2 _, ha⟩
  rw [if_neg c2] at h
  by_cases c3 : a.constDiag
  · rw [if_pos c3] at h
    obtain ⟨c, hc, he⟩ := bind_ok h
    obtain ⟨hs, hm⟩ := rt_ok hc
    cases he
    have hwf : (mkConst c a.valFixed a.rows a.statRows 1 true a.cplx).WF := mkConst_wf fun _ => hs
    refine ⟨isFactor_diag (l := fun _ => c) c1 (fun i hi j hj hij => ha.diagonal_get (WF.constDiag_diagonal c3) hi (by omega) hij) (toDiagonal_same hwf rfl) ?_,
      toDiagonal_wf hwf rfl⟩
    intro i hi
    rw [hs, hm]
    have := ha.constDiag_get c3 (i := i) (j := i) hi (by omega)
    rw [if_pos rfl] at this
    exact this.symm
  rw [if_neg c3] at h
  by_cases c4 : a.constObj
  · rw [if_pos c4] at h
    by_cases c5 : tri = .diagonal
    · rw [if_pos c5] at h; cases h
    rw [if_neg c5] at h
    obtain ⟨c, hc, he⟩ := bind_ok h
    obtain ⟨hs, hm⟩ := rt_ok hc
    obtain ⟨hn, hg⟩ := firstLine_sound (fun _ => hs) he
    refine ⟨?_, hg.wf⟩
    rw [isFactor_iff c1]
    refine ⟨hg.rows, hg.cols, hg.isTri, fun i hi j hj => ?_⟩
    rw [gramEl_congr hg.get hi hj]
    have := firstLine_gram (up := decide (tri = .upper)) (v := c) hn i j
    show gramEl _ _ _ _ _ = a.get i j
    rw [ha.const_get c4 hi (by omega)]
    exact this.trans (by rw [hs, hm])
  rw [if_neg c4] at h
  by_cases c5 : a.diagonal
  · rw [if_pos c5] at h
    obtain ⟨d, hd, he⟩ := bind_ok h
    obtain ⟨r', hr', he'⟩ := bind_ok he
    cases he'
    obtain ⟨-, k2, k3, k4⟩ := diagMap_sound ha c5 c1 (fun _ x y _ hy => (rt_ok hy).1) hd hr'
    refine ⟨isFactor_diag (l := fun i => r'.get i 0) c1 (fun i hi j hj hij => ha.diagonal_get c5 hi (by omega) hij) k3 ?_, k2⟩
    intro i hi
    obtain ⟨hs, hm⟩ := rt_ok (k4 i hi)
    exact (by rw [hs, hm] : r'.get i 0 * star (r'.get i 0) = a.get i i)
  rw [if_neg c5] at h
  obtain ⟨x, hx, he⟩ := bind_ok h
  cases he
  obtain ⟨hf, hxr⟩ := hlib x hx
  have hf' := (isFactor_iff c1).1 hf
  have hxm : ∀ i < x.rows, ∀ j < x.cols, ¬ tri.mem i j → x.get i j = 0 := by
    intro i hi j hj hm
    have h3 := hf'.2.2.1
    cases tri
    · exact absurd rfl htn
    · exact h3 i hi j hj (by simp only [Tri.mem] at hm; omega)
    · exact h3 i hi j hj (by simp only [Tri.mem] at hm; omega)
    · exact absurd (Or.inr ⟨rfl, c5⟩) c0
  have hg0 : Good x.rows x.cols x.get (dense x a.statRows a.statCols a.cplx) := ⟨dense_wf hxr, rfl, rfl, fun _ _ _ _ => rfl⟩
  have hg := toTriangular_good hg0 tri hxm
  refine ⟨?_, hg.wf⟩
  rw [isFactor_iff c1]
  have e1 : x.rows = a.rows := hf'.1
  have e2 : x.cols = a.rows := hf'.2.1
  refine ⟨hg.rows.trans e1, hg.cols.trans e2, ?_, fun i hi j hj => ?_⟩
  · refine isTri_of (fun i hi j hj hm => ?_) htn
    have hi' : i < x.rows := by rw [← hg.rows]; exact hi
    have hj' : j < x.cols := by rw [← hg.cols]; exact hj
    exact (hg.get i hi' j hj').trans (hxm i hi' j hj' hm)
  · refine (gramEl_congr (g' := x.get) ?_ hi hj).trans (hf'.2.2.2 i hi j hj)
    intro i hi j hj
    exact hg.get i (by show i < x.rows; rw [e1]; exact hi) j (by show j < x.cols; rw [e2]; exact hj)

/-- The Cholesky square of a square triangular matrix. -/
theorem cholSquare_ok (path : ContractPath) (ha : a.WF) (ht : a.triOf ≠ .none) (hsq : a.rows = a.cols) (h0 : 0 < a.rows) (hc : a.conjOk) :
    ∃ s, cholSquare path a = .ok s ∧ Good a.rows a.rows (gramEl (Tri.isUp a.triOf) a.rows a.get) s := by
  unfold cholSquare
  rw [if_neg ht, if_neg (not_not.2 hsq)]
  by_cases c2 : a.zero ∨ a.identity
  · rw [if_pos c2]
    have := (isFactor_iff hsq).1 (zero_identity_gram ha hsq c2 (Tri.isUp a.triOf))
    exact ⟨a, rfl, ha, rfl, hsq.symm, fun i hi j hj => (this.2.2.2 i hi j hj).symm⟩
  rw [if_neg c2]
  by_cases c3 : a.diagonal
  · rw [if_pos c3]
    obtain ⟨d, hd, hdw, hds, hdc⟩ := diagonalOf_ok ha (diagonal_plain c3)
    have hr : d.rows = a.rows := by have := hds.1; simp only [Arr.diagVec] at this; omega
    have hcol : d.cols = 1 := hds.2.1
    obtain ⟨r, hr'⟩ := nAryUnary_accepts (d := d) (f := fun x => .ok (if d.cplx then x * star x else x * x)) hdw hcol (by omega) (fun _ _ => ⟨_, rfl⟩)
    have hreal : ∀ x : 𝕜, star x = x → star (if d.cplx then x * star x else x * x) = if d.cplx then x * star x else x * x := by
      intro x hx; cases d.cplx <;> simp only [Bool.false_eq_true, if_true, if_false, star_mul', hx]
    obtain ⟨-, k2, k3, k4⟩ := diagMap_sound ha c3 hsq (fun _ x y hx hy => by cases hy; exact hreal x hx) hd hr'
    rw [hd]
    simp only [bind, Except.bind]
    rw [hr']
    refine ⟨_, rfl, k2, k3.1, k3.2.1, fun i hi j hj => ?_⟩
    rw [gramEl_diag (fun i hi j hj hij => ha.diagonal_get c3 hi (by omega) hij) hi hj]
    refine (k3.2.2 i (by rw [k3.1]; exact hi) j (by rw [k3.2.1]; exact hj)).trans ?_
    simp only [Arr.diag]
    by_cases e : i = j
    · rw [if_pos e, if_pos e]
      have := k4 i hi
      injection this with this
      rw [← this, hdc]
      cases hcx : a.cplx
      · simp only [Bool.false_eq_true, if_false]; rw [ha.real hcx i hi i (by omega)]
      · simp only [if_true]
    · rw [if_neg e, if_neg e]
  rw [if_neg c3]
  obtain ⟨s, hs, hss, hsw, -⟩ := conjugateTranspose_ok ha
  have hsw := hsw hc
  have hsr : s.rows = a.cols := hss.1
  have hsc : s.cols = a.rows := hss.2.1
  have hsg : ∀ i < a.rows, ∀ j < a.rows, s.get i j = star (a.get j i) := fun i hi j hj => hss.2.2 i (by omega) j (by omega)
  by_cases c4 : a.triOf = .upper
  · rw [if_pos c4, hs]
    simp only [bind, Except.bind]
    obtain ⟨p, hp, hps, hpw⟩ := contract_ok path hsw ha hsc (fun _ _ _ => by omega) (fun _ _ _ _ => by omega) (fun _ _ _ _ _ => by omega)
    rw [hp]
    refine toHermitianT_good (Or.inr rfl) ⟨hpw, by have := hps.1; simp only [Arr.mul] at this; omega, by have := hps.2.1; simp only [Arr.mul] at this; omega, ?_⟩
      (fun i _ j _ => gramEl_star _ _ _ i j)
    intro i hi j hj
    have e1 : p.rows = s.rows := hps.1
    have e2 : p.cols = a.cols := hps.2.1
    refine (hps.2.2 i (by omega) j (by omega)).trans ?_
    rw [c4]
    simp only [Arr.mul, gramEl, Tri.isUp, decide_true, if_true, hsc]
    refine Finset.sum_congr rfl fun k hk => ?_
    rw [mem_range] at hk
    rw [hsg i hi k hk]
  · rw [if_neg c4, hs]
    simp only [bind, Except.bind]
    obtain ⟨p, hp, hps, hpw⟩ := contract_ok path ha hsw (by omega) (fun _ _ _ => by omega) (fun _ _ _ _ => by omega) (fun _ _ _ _ _ => by omega)
    rw [hp]
    refine toHermitianT_good (Or.inl rfl) ⟨hpw, by have := hps.1; simp only [Arr.mul] at this; omega, by have := hps.2.1; simp only [Arr.mul] at this; omega, ?_⟩
      (fun i _ j _ => gramEl_star _ _ _ i j)
    intro i hi j hj
    have e1 : p.rows = a.rows := hps.1
    have e2 : p.cols = s.cols := hps.2.1
    refine (hps.2.2 i (by omega) j (by omega)).trans ?_
    simp only [Arr.mul, gramEl, Tri.isUp, c4, decide_false, Bool.false_eq_true, if_false, ← hsq]
    refine Finset.sum_congr rfl fun k hk => ?_
    rw [mem_range] at hk
    rw [hsg k hk j hj]

/-- The Cholesky square of a diagonal matrix, if it is returned. -/
theorem cholSquare_diag_sound (path : ContractPath) (ha : a.WF) (hd : a.diagonal) (h : cholSquare path a = .ok r) :
    a.rows = a.cols ∧ Good a.rows a.rows (gramEl false a.rows a.get) r := by
  have ht : a.triOf ≠ .none := by rw [show a.triOf = .diagonal from hd]; simp
  have hsq : a.rows = a.cols := by
    by_contra c
    unfold cholSquare at h
    rw [if_neg ht, if_pos c] at h
    cases h
  refine ⟨hsq, ?_⟩
  by_cases c2 : a.zero ∨ a.identity
  · unfold cholSquare at h
    rw [if_neg ht, if_neg (not_not.2 hsq), if_pos c2] at h
    cases h
    have := (isFactor_iff hsq).1 (zero_identity_gram ha hsq c2 false)
    exact ⟨ha, rfl, hsq.symm, fun i hi j hj => (this.2.2.2 i hi j hj).symm⟩
  · have h0 : 0 < a.rows := by
      unfold cholSquare at h
      rw [if_neg ht, if_neg (not_not.2 hsq), if_neg c2, if_pos hd] at h
      obtain ⟨d, hd', he⟩ := bind_ok h
      obtain ⟨r', hr', he'⟩ := bind_ok he
      refine (diagMap_sound ha hd hsq ?_ hd' hr').1
      intro _ x y hx hy
      cases hy
      cases d.cplx <;> simp only [Bool.false_eq_true, if_true, if_false, star_mul', hx]
    have hco : a.conjOk := by
      intro c hc
      right; left
      exact Or.inl ⟨by rw [hc]; rfl, hd⟩
    obtain ⟨s, hs, hg⟩ := cholSquare_ok path ha ht hsq h0 hco
    rw [h] at hs
    cases hs
    rw [show a.triOf = .diagonal from hd] at hg
    exact hg

/-- The product of a matrix with its conjugate transpose. -/
noncomputable def outer (a : Arr 𝕜) (i j : ℕ) : 𝕜 := ∑ k ∈ range a.cols, a.get i k * star (a.get j k)

theorem mul_adj_get (a : Arr 𝕜) (i j : ℕ) : (a.mul a.adj).get i j = outer a i j := rfl

theorem outer_star (a : Arr 𝕜) (i j : ℕ) : outer a j i = star (outer a i j) := by
  unfold outer
  rw [star_sum]
  refine Finset.sum_congr rfl fun k _ => ?_
  rw [star_mul', star_star, mul_comm]

/-- What the library's LQ decomposition must do. -/
def LQLib (lib : Obj 𝕜 → Except Err (Arr 𝕜)) (a : Obj 𝕜) : Prop :=
  ∀ x, lib a = .ok x → IsFactor false (a.toArr.mul a.toArr.adj) x ∧ (a.cplx = false → ∀ i < x.rows, ∀ j < x.cols, star (x.get i j) = x.get i j)

/-- What the library's QR decomposition must do. -/
def QRLib (lib : Obj 𝕜 → Except Err (Arr 𝕜)) (a : Obj 𝕜) : Prop :=
  ∀ x, lib a = .ok x → IsFactor true (a.toArr.adj.mul a.toArr) x ∧ (a.cplx = false → ∀ i < x.rows, ∀ j < x.cols, star (x.get i j) = x.get i j)

theorem clipSquare_dims (ha : a.WF) : a.clipSquare.rows = min a.rows a.cols ∧ a.clipSquare.cols = min a.rows a.cols ∧
    ∀ i < min a.rows a.cols, ∀ j < min a.rows a.cols, a.clipSquare.get i j = a.get i j := by
  unfold clipSquare
  by_cases h : a.square
  · rw [if_pos h]
    have := ha.square_eq h
    exact ⟨by omega, by omega, fun _ _ _ _ => rfl⟩
  rw [if_neg h]
  by_cases h2 : a.constObj
  · rw [if_pos h2]
    refine ⟨rfl, rfl, fun i hi j hj => ?_⟩
    exact (ha.const_get h2 (by omega) (by omega)).symm
  · rw [if_neg h2]
    exact ⟨rfl, rfl, fun _ _ _ _ => rfl⟩

theorem rt_nat (n : ℕ) : ∃ y : 𝕜, rt (n : 𝕜) = .ok y ∧ star y = y ∧ y * y = n := by
  obtain ⟨y, hy⟩ := rt_accepts (x := (n : 𝕜)) (by simp) (by simp)
  exact ⟨y, hy, rt_ok hy⟩

theorem LQ_sound {lib : Obj 𝕜 → Except Err (Arr 𝕜)} (ha : a.WF) (hlib : LQLib lib a) (hwide : a.triangular .lower → a.rows ≤ a.cols) (h : LQ lib a = .ok r) :
    IsFactor false (a.toArr.mul a.toArr.adj) r.toArr := by
  have hsq : (a.toArr.mul a.toArr.adj).rows = (a.toArr.mul a.toArr.adj).cols := rfl
  unfold LQ at h
  by_cases c1 : a.triangular .lower
  · rw [if_pos c1] at h
    cases h
    have hw := hwide c1
    obtain ⟨h1, h2, h3⟩ := clipSquare_dims ha
    rw [min_eq_left hw] at h1 h2 h3
    rw [isFactor_iff hsq]
    have hl := ha.isLower c1
    refine ⟨h1, h2, ?_, fun i hi j hj => ?_⟩
    · intro i hi j hj hij
      have hi' : i < a.rows := by rw [← h1]; exact hi
      have hj' : j < a.rows := by rw [← h2]; exact hj
      exact (h3 i hi' j hj').trans (hl i hi' j (by show j < a.cols; omega) hij)
    · refine (gramEl_congr (g' := a.get) h3 hi hj).trans ?_
      rw [mul_adj_get]
      have hi' : i < a.rows := hi
      unfold gramEl outer
      simp only [Bool.false_eq_true, if_false]
      refine Finset.sum_subset (fun k hk => ?_) (fun k hk hk' => ?_)
      · rw [mem_range] at hk ⊢; exact lt_of_lt_of_le hk hw
      · rw [mem_range] at hk hk'
        have hk2 : ¬ k < a.rows := hk'
        rw [show a.get i k = 0 from hl i hi' k hk (by omega), zero_mul]
  rw [if_neg c1] at h
  by_cases c2 : a.constObj
  · rw [if_pos c2] at h
    obtain ⟨s, hs, hstar, hmul⟩ := rt_nat (𝕜 := 𝕜) a.cols
    rw [hs] at h
    obtain ⟨hn, hg⟩ := firstLine_sound (v := a.constVal * s) (fun hcx => by rw [star_mul', hstar, ha.realConst hcx (Or.inl c2)]) h
    rw [isFactor_iff hsq]
    refine ⟨hg.rows, hg.cols, hg.isTri, fun i hi j hj => ?_⟩
    refine (gramEl_congr hg.get hi hj).trans ?_
    refine (firstLine_gram (up := false) hn i j).trans ?_
    rw [mul_adj_get]
    unfold outer
    have hi' : i < a.rows := hi
    have hj' : j < a.rows := hj
    rw [Finset.sum_congr rfl (g := fun _ => a.constVal * star a.constVal) (fun k hk => by
      rw [mem_range] at hk
      have hk' : k < a.cols := hk
      show a.get i k * star (a.get j k) = _
      rw [ha.const_get c2 hi' hk', ha.const_get c2 hj' hk'])]
    rw [Finset.sum_const, card_range, nsmul_eq_mul, star_mul', hstar]
    show _ = (a.cols : 𝕜) * _
    rw [← hmul]; ring
  rw [if_neg c2] at h
  obtain ⟨x, hx, he⟩ := bind_ok h
  cases he
  obtain ⟨hf, hxr⟩ := hlib x hx
  have hf' := (isFactor_iff hsq).1 hf
  have hxm : ∀ i < x.rows, ∀ j < x.cols, ¬ Tri.lower.mem i j → x.get i j = 0 := by
    intro i hi j hj hm
    exact hf'.2.2.1 i hi j hj (by simp only [Tri.mem] at hm; omega)
  have hg : Good x.rows x.cols x.get _ := toTriangular_good (o := dense x a.statRows a.statRows a.cplx) ⟨dense_wf hxr, rfl, rfl, fun _ _ _ _ => rfl⟩ .lower hxm
  rw [isFactor_iff hsq]
  refine ⟨hg.rows.trans hf'.1, hg.cols.trans hf'.2.1, ?_, fun i hi j hj => ?_⟩
  · intro i hi j hj hij
    have hi' : i < x.rows := by rw [← hg.rows]; exact hi
    have hj' : j < x.cols := by rw [← hg.cols]; exact hj
    exact (hg.get i hi' j hj').trans (hf'.2.2.1 i hi' j hj' hij)
  · refine (gramEl_congr (g' := x.get) ?_ hi hj).trans (hf'.2.2.2 i hi j hj)
    intro i hi j hj
    exact hg.get i (by show i < x.rows; rw [hf'.1]; exact hi) j (by show j < x.cols; rw [hf'.2.1]; exact hj)

theorem QR_sound {lib : Obj 𝕜 → Except Err (Arr 𝕜)} (ha : a.WF) (hlib : QRLib lib a) (htall : a.triangular .upper → a.cols ≤ a.rows) (h : QR lib a = .ok r) :
    IsFactor true (a.toArr.adj.mul a.toArr) r.toArr := by
  have hsq : (a.toArr.adj.mul a.toArr).rows = (a.toArr.adj.mul a.toArr).cols := rfl
  unfold QR at h
  by_cases c1 : a.triangular .upper
  · rw [if_pos c1] at h
    cases h
    have hw := htall c1
    obtain ⟨h1, h2, h3⟩ := clipSquare_dims ha
    rw [min_eq_right hw] at h1 h2 h3
    rw [isFactor_iff hsq]
    have hl := ha.isUpper c1
    refine ⟨h1, h2, ?_, fun i hi j hj => ?_⟩
    · intro i hi j hj hij
      have hi' : i < a.cols := by rw [← h1]; exact hi
      have hj' : j < a.cols := by rw [← h2]; exact hj
      exact (h3 i hi' j hj').trans (hl i (by show i < a.rows; omega) j hj' hij)
    · refine (gramEl_congr (g' := a.get) h3 hi hj).trans ?_
      have hi' : i < a.cols := hi
      show gramEl true a.cols a.get i j = ∑ k ∈ range a.rows, star (a.get k i) * a.get k j
      unfold gramEl
      simp only [if_true]
      refine Finset.sum_subset (fun k hk => ?_) (fun k hk hk' => ?_)
      · rw [mem_range] at hk ⊢; omega
      · rw [mem_range] at hk hk'
        rw [show a.get k i = 0 from hl k hk i hi' (by omega), star_zero, zero_mul]
  rw [if_neg c1] at h
  by_cases c2 : a.constObj
  · rw [if_pos c2] at h
    obtain ⟨s, hs, hstar, hmul⟩ := rt_nat (𝕜 := 𝕜) a.rows
    rw [hs] at h
    obtain ⟨hn, hg⟩ := firstLine_sound (v := a.constVal * s) (fun hcx => by rw [star_mul', hstar, ha.realConst hcx (Or.inl c2)]) h
    rw [isFactor_iff hsq]
    refine ⟨hg.rows, hg.cols, hg.isTri, fun i hi j hj => ?_⟩
    refine (gramEl_congr hg.get hi hj).trans ?_
    refine (firstLine_gram (up := true) hn i j).trans ?_
    have hi' : i < a.cols := hi
    have hj' : j < a.cols := hj
    show _ = ∑ k ∈ range a.rows, star (a.get k i) * a.get k j
    rw [Finset.sum_congr rfl (g := fun _ => star a.constVal * a.constVal) (fun k hk => by
      rw [mem_range] at hk
      rw [ha.const_get c2 hk hi', ha.const_get c2 hk hj'])]
    rw [Finset.sum_const, card_range, nsmul_eq_mul, star_mul', hstar, ← hmul]; ring
  rw [if_neg c2] at h
  obtain ⟨x, hx, he⟩ := bind_ok h
  cases he
  obtain ⟨hf, hxr⟩ := hlib x hx
  have hf' := (isFactor_iff hsq).1 hf
  have hxm : ∀ i < x.rows, ∀ j < x.cols, ¬ Tri.upper.mem i j → x.get i j = 0 := by
    intro i hi j hj hm
    exact hf'.2.2.1 i hi j hj (by simp only [Tri.mem] at hm; omega)
  have hg : Good x.rows x.cols x.get _ := toTriangular_good (o := dense x a.statCols a.statCols a.cplx) ⟨dense_wf hxr, rfl, rfl, fun _ _ _ _ => rfl⟩ .upper hxm
  rw [isFactor_iff hsq]
  refine ⟨hg.rows.trans hf'.1, hg.cols.trans hf'.2.1, ?_, fun i hi j hj => ?_⟩
  · intro i hi j hj hij
    have hi' : i < x.rows := by rw [← hg.rows]; exact hi
    have hj' : j < x.cols := by rw [← hg.cols]; exact hj
    exact (hg.get i hi' j hj').trans (hf'.2.2.1 i hi' j hj' hij)
  · refine (gramEl_congr (g' := x.get) ?_ hi hj).trans (hf'.2.2.2 i hi j hj)
    intro i hi j hj
    exact hg.get i (by show i < x.rows; rw [hf'.1]; exact hi) j (by show j < x.cols; rw [hf'.2.1]; exact hj)

/-- The first element of `U U*`, for a `U` of one row. -/
theorem contract_outer (path : ContractPath) (hu : u.WF) (hc : u.conjOk) (h1 : u.rows = 1) (h0 : 0 < u.cols) {s p : Obj 𝕜} (hs : u.conjugateTranspose = .ok s)
    (hp : contract path u s = .ok p) : p.get 0 0 = outer u.toArr 0 0 := by
  obtain ⟨s', hs', hss, hsw, -⟩ := conjugateTranspose_ok hu
  rw [hs] at hs'; cases hs'
  have hsw := hsw hc
  have hsr : s.rows = u.cols := hss.1
  have hsc : s.cols = u.rows := hss.2.1
  obtain ⟨p', hp', hps, -⟩ := contract_ok path hu hsw hsr.symm (fun _ _ _ => by omega) (fun _ _ _ _ => by omega) (fun _ _ _ _ _ => by omega)
  rw [hp] at hp'; cases hp'
  have e1 : p.rows = u.rows := hps.1
  have e2 : p.cols = s.cols := hps.2.1
  refine (hps.2.2 0 (by omega) 0 (by omega)).trans ?_
  unfold outer
  simp only [Arr.mul]
  refine Finset.sum_congr rfl fun k hk => ?_
  rw [mem_range] at hk
  rw [show s.get k 0 = star (u.get 0 k) from hss.2.2 k (by omega) 0 (by omega)]

theorem gramEl_outer (h : u.rows = u.cols) (i j : ℕ) : gramEl false u.rows u.get i j = outer u.toArr i j := by
  unfold gramEl outer
  rw [h]
  rfl

/-- The update `A + α U U*`. -/
noncomputable def updated (a : Arr 𝕜) (α : 𝕜) (u : Arr 𝕜) : Arr 𝕜 := a.add ((u.mul u.adj).smul α)

theorem updated_get (a : Arr 𝕜) (α : 𝕜) (u : Arr 𝕜) (i j : ℕ) : (updated a α u).get i j = a.get i j + α * outer u i j := rfl

/-- `α · cholesky_square(U)`, if it is returned. -/
theorem scaled_square (path : ContractPath) (hu : u.WF) (hd : u.diagonal) {α : 𝕜} (hα : star α = α) {sc : Bool} {s p : Obj 𝕜} (hs : cholSquare path u = .ok s)
    (hp : s.scalarProduct α false sc = .ok p) : u.rows = u.cols ∧ Good u.rows u.rows (fun i j => α * outer u.toArr i j) p := by
  obtain ⟨hsq, hg⟩ := cholSquare_diag_sound path hu hd hs
  obtain ⟨p', hp', hps, hpw⟩ := scalarProduct_ok (s := α) (fixed := false) (sc := sc) hg.wf (fun _ => hα) (fun _ _ => by rw [hg.rows, hg.cols])
  rw [hp] at hp'; cases hp'
  have e1 : p.rows = s.rows := hps.1
  have e2 : p.cols = s.cols := hps.2.1
  refine ⟨hsq, hpw, e1.trans hg.rows, e2.trans hg.cols, fun i hi j hj => ?_⟩
  refine (hps.2.2 i (by rw [e1, hg.rows]; exact hi) j (by rw [e2, hg.cols]; exact hj)).trans ?_
  show s.get i j * α = _
  rw [hg.get i hi j hj, gramEl_outer hsq, mul_comm]

theorem Good.same {n : ℕ} {f : ℕ → ℕ → 𝕜} (hg : Good n n f r) {x : Arr 𝕜} (h1 : x.rows = n) (h2 : x.cols = n) (h : ∀ i < n, ∀ j < n, f i j = x.get i j) :
    r.toArr.Same x := by
  refine ⟨hg.rows.trans h1.symm, hg.cols.trans h2.symm, fun i hi j hj => ?_⟩
  have hi' : i < n := by rw [← hg.rows]; exact hi
  have hj' : j < n := by rw [← hg.cols]; exact hj
  exact (hg.get i hi' j hj').trans (h i hi' j hj')

/-- What the library's Hermitian rank update must do. -/
def UpdateLib (lib : Obj 𝕜 → Obj 𝕜 → 𝕜 → Except Err (Arr 𝕜)) (a u : Obj 𝕜) (α : 𝕜) : Prop :=
  ∀ x, lib a u α = .ok x → x.Same (updated a.toArr α u.toArr) ∧ (a.cplx = false → ∀ i < x.rows, ∀ j < x.cols, star (x.get i j) = x.get i j)

theorem rankUpdateHermitian_sound (path : ContractPath) {lib : Obj 𝕜 → Obj 𝕜 → 𝕜 → Except Err (Arr 𝕜)} {t : Tri} {α : 𝕜} (ht : t = .lower ∨ t = .upper)
    (ha : a.WF) (hu : u.WF) (hsq : a.rows = a.cols) (hr : a.rows = u.rows) (hk : 0 < u.cols) (hc : u.conjOk)
    (hH : ∀ i < a.rows, ∀ j < a.rows, a.get j i = star (a.get i j)) (hα : star α = α) (hlib : UpdateLib lib a u α)
    (h : rankUpdateHermitian path lib t a u α = .ok r) : r.toArr.Same (updated a.toArr α u.toArr) := by
  have hur : (updated a.toArr α u.toArr).rows = a.rows := rfl
  have huc : (updated a.toArr α u.toArr).cols = a.rows := hsq.symm
  have hUH : ∀ i < a.rows, ∀ j < a.rows, (updated a.toArr α u.toArr).get j i = star ((updated a.toArr α u.toArr).get i j) := by
    intro i hi j hj
    rw [updated_get, updated_get, star_add, star_mul', hα, ← outer_star]
    rw [show a.toArr.get j i = star (a.toArr.get i j) from hH i hi j hj]
  unfold rankUpdateHermitian at h
  by_cases c0 : updateRequires a u
  swap
  · rw [if_pos c0] at h; cases h
  rw [if_neg (not_not.2 c0)] at h
  by_cases c1 : u.zero ∨ a.rowsIs 1 ∨ a.colsIs 1 ∨ u.rowsIs 1
  · rw [if_pos c1, if_neg (fun h => h.2 hr)] at h
    by_cases c2 : u.zero
    · rw [if_pos c2] at h
      obtain ⟨s, hs, hg⟩ := toHermitianT_good (n := a.rows) (f := a.get) ht ⟨ha, rfl, hsq.symm, fun _ _ _ _ => rfl⟩ hH
      rw [h] at hs; cases hs
      refine hg.same hur huc fun i hi j hj => ?_
      rw [updated_get]
      have : outer u.toArr i j = 0 := Finset.sum_eq_zero fun k hk => by
        rw [mem_range] at hk
        rw [show u.toArr.get i k = 0 from hu.zero_get c2 (by omega) hk, zero_mul]
      rw [this, mul_zero, add_zero]
    · rw [if_neg c2] at h
      have h1 : a.rows = 1 := by
        rcases c1 with g | g | g | g
        · exact absurd g c2
        · exact g.2
        · rw [hsq]; exact g.2
        · rw [hr]; exact g.2
      obtain ⟨s, hs, h'⟩ := bind_ok h
      obtain ⟨p, hp, h''⟩ := bind_ok h'
      have hp0 := contract_outer path hu hc (by omega) hk hs hp
      have hreal : star (a.get 0 0 + α * p.get 0 0) = a.get 0 0 + α * p.get 0 0 := by
        rw [hp0, star_add, star_mul', hα, ← outer_star, ← hH 0 (by omega) 0 (by omega)]
      obtain ⟨s', hs', hg⟩ := toHermitianT_good (n := 1) (f := fun _ _ => a.get 0 0 + α * p.get 0 0)
        (o := dense ⟨1, 1, fun _ _ => a.get 0 0 + α * p.get 0 0⟩ a.statRows a.statCols a.cplx) ht
        ⟨dense_wf fun _ _ _ _ _ => hreal, rfl, rfl, fun _ _ _ _ => rfl⟩ (fun _ _ _ _ => hreal.symm)
      rw [h''] at hs'; cases hs'
      refine hg.same (by rw [hur, h1]) (by rw [huc, h1]) fun i hi j hj => ?_
      obtain rfl : i = 0 := by omega
      obtain rfl : j = 0 := by omega
      rw [updated_get, hp0]
  rw [if_neg c1] at h
  by_cases c2 : a.zero ∧ u.diagonal
  · rw [if_pos c2, if_neg (not_not.2 hsq)] at h
    obtain ⟨s, hs, hp⟩ := bind_ok h
    obtain ⟨-, hg⟩ := scaled_square path hu c2.2 hα hs hp
    rw [← hr] at hg
    refine hg.same hur huc fun i hi j hj => ?_
    rw [updated_get, show a.toArr.get i j = 0 from ha.zero_get c2.1 hi (by omega), zero_add]
  rw [if_neg c2] at h
  by_cases c3 : a.diagonal ∧ u.diagonal
  · rw [if_pos c3] at h
    obtain ⟨s, hs, h'⟩ := bind_ok h
    obtain ⟨p, hp, h''⟩ := bind_ok h'
    obtain ⟨-, hg⟩ := scaled_square path hu c3.2 hα hs hp
    rw [← hr] at hg
    obtain ⟨s', hs', hg'⟩ := sum_good a.rows a.rows [a, p] (by simp) (by
      intro o ho
      simp only [List.mem_cons, List.not_mem_nil, or_false] at ho
      rcases ho with rfl | rfl
      · exact ⟨ha, rfl, hsq.symm⟩
      · exact ⟨hg.wf, hg.rows, hg.cols⟩) (Or.inl rfl)
    rw [h''] at hs'; cases hs'
    refine hg'.same hur huc fun i hi j hj => ?_
    simp only [List.map_cons, List.map_nil, List.sum_cons, List.sum_nil, add_zero]
    rw [updated_get, hg.get i hi j hj]
  rw [if_neg c3] at h
  obtain ⟨x, hx, h'⟩ := bind_ok h
  obtain ⟨hxs, hxr⟩ := hlib x hx
  have e1 : x.rows = a.rows := hxs.1
  have e2 : x.cols = a.rows := hxs.2.1.trans huc
  obtain ⟨s', hs', hg⟩ := toHermitianT_good (n := a.rows) (f := (updated a.toArr α u.toArr).get) (o := dense x a.statRows a.statCols a.cplx) ht
    ⟨dense_wf hxr, e1, e2, fun i hi j hj => hxs.2.2 i (by omega) j (by omega)⟩ hUH
  rw [h'] at hs'; cases hs'
  exact hg.same hur huc fun _ _ _ _ => rfl

/-- What the library's triangular rank update must do. -/
def UpdateTriLib (lib : Tri → Obj 𝕜 → Obj 𝕜 → 𝕜 → Except Err (Arr 𝕜)) (a u : Obj 𝕜) (α : 𝕜) : Prop :=
  ∀ x, lib a.updateTri a u α = .ok x → IsFactor (Tri.isUp a.updateTri) (updated (a.toArr.gram (Tri.isUp a.triOf)) α u.toArr) x ∧
    (a.cplx = false → ∀ i < x.rows, ∀ j < x.cols, star (x.get i j) = x.get i j)

theorem updateTri_isUp : Tri.isUp a.updateTri = Tri.isUp a.triOf := by
  unfold updateTri Tri.isUp
  by_cases h : a.triOf = .upper
  · rw [if_pos h, h]
  · rw [if_neg h]; simp [h]

theorem updateTri_mem (ha : a.WF) (hn : a.triOf ≠ .none) : ∀ i < a.rows, ∀ j < a.cols, ¬ a.updateTri.mem i j → a.get i j = 0 := by
  intro i hi j hj hm
  refine ha.triOf_get hi hj fun hm' => hm ?_
  unfold updateTri
  cases ht : a.triOf <;> rw [ht] at hm'
  · exact absurd ht hn
  · rw [if_neg (by simp)]; exact hm'
  · rw [if_pos rfl]; exact hm'
  · rw [if_neg (by simp)]; simp only [Tri.mem] at hm' ⊢; omega

theorem updateTri_cases (a : Obj 𝕜) : a.updateTri = .lower ∨ a.updateTri = .upper := by
  unfold updateTri; split_ifs <;> simp

/-- A triangular wrapping of values that are already triangular. -/
theorem isFactor_toTriangular {t : Tri} (ht : t = .lower ∨ t = .upper) {n : ℕ} {g : ℕ → ℕ → 𝕜} (hg : Good n n g o)
    (hm : ∀ i < n, ∀ j < n, ¬ t.mem i j → g i j = 0) {x : Arr 𝕜} (hx : x.rows = n) (hx' : x.cols = n)
    (hv : ∀ i < n, ∀ j < n, gramEl (Tri.isUp t) n g i j = x.get i j) : IsFactor (Tri.isUp t) x (o.toTriangular t).toArr := by
  have hg' := toTriangular_good hg t hm
  rw [isFactor_iff (hx.trans hx'.symm), hx]
  refine ⟨hg'.rows, hg'.cols, isTri_of (fun i hi j hj hij => ?_) (by rcases ht with rfl | rfl <;> simp), fun i hi j hj => ?_⟩
  · have hi' : i < n := by rw [← hg'.rows]; exact hi
    have hj' : j < n := by rw [← hg'.cols]; exact hj
    exact (hg'.get i hi' j hj').trans (hm i hi' j hj' hij)
  · exact (gramEl_congr hg'.get hi hj).trans (hv i hi j hj)

theorem gram_get' (hsq : a.rows = a.cols) (up : Bool) (i j : ℕ) : (a.toArr.gram up).get i j = gramEl up a.rows a.get i j := gram_get up hsq i j

theorem IsFactor.congr {up : Bool} {x y l : Arr 𝕜} (h : IsFactor up x l) (hs : x.Same y) : IsFactor up y l :=
  ⟨h.1.trans hs.1, h.2.1.trans hs.1, h.2.2.1, h.2.2.2.1.trans hs.1, h.2.2.2.2.1.trans hs.2.1, fun i hi j hj =>
    (h.2.2.2.2.2 i hi j hj).trans (hs.2.2 i (by rw [← h.2.2.2.1]; exact hi) j (by rw [← h.2.2.2.2.1]; exact hj))⟩

theorem mkConst_lower_cols {c : 𝕜} {f sr sk cx : Bool} {m k : ℕ} (h : (mkConst c f m sr k sk cx).triangular .lower) (hz : ¬ (mkConst c f m sr k sk cx).zero) :
    k = 1 ∧ (sk = true ∨ m = 1) := by
  have hone : (mkConst c f m sr k sk cx).oneDim → k = 1 ∧ (sk = true ∨ m = 1) := by
    rintro (⟨h1, h2⟩ | ⟨h1 | ⟨h1, h2, h3⟩, h4 | h4⟩)
    · exact ⟨h2.2, Or.inl h2.1⟩
    · simp [mkConst] at h1
    · simp [mkConst] at h1
    · have h3' : m = k := h3
      have h4' : m = 1 := h4.2
      exact ⟨by omega, Or.inl h2⟩
    · exact ⟨h4.2, Or.inl h4.1⟩
  unfold triangular triOf at h
  by_cases c1 : (mkConst c f m sr k sk cx).zero ∨ (mkConst c f m sr k sk cx).oneDim ∨ (mkConst c f m sr k sk cx).tri = .diagonal
  · rcases c1 with g | g | g
    · exact absurd g hz
    · exact hone g
    · simp [mkConst] at g
  rw [if_neg c1] at h
  by_cases c2 : (mkConst c f m sr k sk cx).colsIs 1
  · exact ⟨c2.2, Or.inl c2.1⟩
  rw [if_neg c2] at h
  split_ifs at h <;> simp [mkConst] at h

theorem dense_lower_cols {x : Arr 𝕜} {sr sk cx : Bool} (h : (dense x sr sk cx).triangular .lower) : x.cols = 1 ∧ sk = true := by
  unfold triangular triOf at h
  by_cases c1 : (dense x sr sk cx).zero ∨ (dense x sr sk cx).oneDim ∨ (dense x sr sk cx).tri = .diagonal
  · rcases c1 with g | g | g
    · exact absurd g dense_not_zero
    · rw [dense_oneDim] at g; exact ⟨g.2.2, g.2.1⟩
    · simp [dense] at g
  rw [if_neg c1] at h
  by_cases c2 : (dense x sr sk cx).colsIs 1
  · exact ⟨c2.2, c2.1⟩
  rw [if_neg c2] at h
  split_ifs at h <;> simp [dense] at h

/-- A multiple of `U` that `LQ_decomposition` takes for a lower triangle is a static column, or has only one row. -/
theorem scaled_lower {s : 𝕜} {sc : Bool} {p : Obj 𝕜} (hu : u.WF) (hz : ¬ u.zero) (hd : ¬ u.diagonal) (hp : u.scalarProduct s false sc = .ok p)
    (h : p.triangular .lower) : u.colsIs 1 ∨ p.rows ≤ p.cols := by
  unfold scalarProduct at hp
  rw [if_neg hz] at hp
  by_cases c1 : u.constObj
  · rw [if_pos c1] at hp
    cases hp
    have hnz : ¬ (mkConst (u.constVal * s) (u.valFixed && false) u.rows u.statRows u.cols u.statCols (u.cplx || sc)).zero := by
      rintro ⟨-, h⟩; simp [mkConst] at h
    obtain ⟨h1, h2⟩ := mkConst_lower_cols h hnz
    rcases h2 with h2 | h2
    · exact Or.inl ⟨h2, h1⟩
    · right; show u.rows ≤ u.cols; omega
  rw [if_neg c1, if_neg (fun h => hd (WF.constDiag_diagonal h)), if_neg (by simp), if_neg (by simp)] at hp
  cases hp
  obtain ⟨h1, h2⟩ := dense_lower_cols h
  exact Or.inl ⟨h2, h1⟩

theorem rankUpdateTriangular_sound (path : ContractPath) {libC : Tri → Obj 𝕜 → Except Err (Arr 𝕜)} {libLQ libQR : Obj 𝕜 → Except Err (Arr 𝕜)}
    {lib : Tri → Obj 𝕜 → Obj 𝕜 → 𝕜 → Except Err (Arr 𝕜)} {α : 𝕜} (ha : a.WF) (hu : u.WF) (hsq : a.rows = a.cols) (hr : a.rows = u.rows) (hk : 0 < u.cols)
    (hc : u.conjOk) (hα : star α = α) (hlibC : ∀ t s, FactorLib libC t s) (hlibLQ : ∀ p, LQLib libLQ p) (hlib : UpdateTriLib lib a u α)
    (hone : a.rows = 1 → star (a.get 0 0) = a.get 0 0) (hdu : a.zero → u.diagonal → u.rows ≤ u.cols) (hcol : a.zero → u.colsIs 1 → u.rows = 1)
    (h : rankUpdateTriangular path libC libLQ libQR lib a u α = .ok r) :
    IsFactor (Tri.isUp a.triOf) (updated (a.toArr.gram (Tri.isUp a.triOf)) α u.toArr) r.toArr := by
  have hgd := gram_dims (a := a.toArr) (Tri.isUp a.triOf) hsq
  have hur : (updated (a.toArr.gram (Tri.isUp a.triOf)) α u.toArr).rows = a.rows := hgd.1
  have huc : (updated (a.toArr.gram (Tri.isUp a.triOf)) α u.toArr).cols = a.rows := hgd.2
  unfold rankUpdateTriangular at h
  by_cases c0 : a.triOf = .none ∨ ¬ updateRequires a u
  · rw [if_pos c0] at h; cases h
  rw [if_neg c0] at h
  have htn : a.triOf ≠ .none := fun e => c0 (Or.inl e)
  have hm := updateTri_mem ha htn
  by_cases c1 : u.zero
  · rw [if_pos c1, if_neg (fun h => h.2 hr)] at h
    cases h
    rw [← updateTri_isUp]
    refine isFactor_toTriangular (n := a.rows) (g := a.get) (updateTri_cases a) ⟨ha, rfl, hsq.symm, fun _ _ _ _ => rfl⟩ (fun i hi j hj => hm i hi j (by omega))
      (by rw [updateTri_isUp]; exact hur) (by rw [updateTri_isUp]; exact huc) fun i hi j hj => ?_
    rw [updated_get, gram_get' hsq]
    have : outer u.toArr i j = 0 := Finset.sum_eq_zero fun k hk => by
      rw [mem_range] at hk
      rw [show u.toArr.get i k = 0 from hu.zero_get c1 (by omega) hk, zero_mul]
    rw [this, mul_zero, add_zero]
  rw [if_neg c1] at h
  by_cases c2 : a.rowsIs 1 ∨ a.colsIs 1 ∨ u.rowsIs 1
  · rw [if_pos c2, if_neg (fun h => h.2 hr)] at h
    have h1 : a.rows = 1 := by
      rcases c2 with g | g | g
      · exact g.2
      · rw [hsq]; exact g.2
      · rw [hr]; exact g.2
    obtain ⟨s, hs, h'⟩ := bind_ok h
    obtain ⟨p, hp, h''⟩ := bind_ok h'
    obtain ⟨e, he, h3⟩ := bind_ok h''
    cases h3
    have hp0 := contract_outer path hu hc (by omega) hk hs hp
    obtain ⟨hes, hee⟩ := rt_ok he
    rw [← updateTri_isUp]
    refine isFactor_toTriangular (n := 1) (g := fun _ _ => e) (updateTri_cases a) ⟨dense_wf fun _ _ _ _ _ => hes, rfl, rfl, fun _ _ _ _ => rfl⟩ ?_
      (by rw [updateTri_isUp, hur, h1]) (by rw [updateTri_isUp, huc, h1]) fun i hi j hj => ?_
    · intro i hi j hj hmem
      exfalso
      apply hmem
      rcases updateTri_cases a with e | e <;> rw [e] <;> simp only [Tri.mem] <;> omega
    · obtain rfl : i = 0 := by omega
      obtain rfl : j = 0 := by omega
      rw [updated_get, gram_get' hsq, h1, gramEl_diag (by intro i hi j hj hij; omega) (by omega) (by omega),
        gramEl_diag (by intro i hi j hj hij; omega) (by omega) (by omega), if_pos rfl, if_pos rfl, hes, hee, hp0, hone h1]
  rw [if_neg c2] at h
  by_cases c3 : a.zero
  · rw [if_pos c3] at h
    have htd : a.triOf = .diagonal := triOf_diag (Or.inl c3)
    obtain ⟨q, hq, h'⟩ := bind_ok h
    obtain ⟨hqs, hqq⟩ := rt_ok hq
    have hg0 : ∀ i < a.rows, ∀ j < a.rows, (updated (a.toArr.gram (Tri.isUp a.triOf)) α u.toArr).get i j = α * outer u.toArr i j := by
      intro i hi j hj
      rw [updated_get, gram_get' hsq]
      have : gramEl (Tri.isUp a.triOf) a.rows a.get i j = 0 := by
        rw [gramEl_diag (fun i hi j hj _ => ha.zero_get c3 hi (by omega)) hi hj]
        split_ifs
        · rw [ha.zero_get c3 hi (by omega), zero_mul]
        · rfl
      rw [this, zero_add]
    by_cases c4 : u.diagonal
    · rw [if_pos c4] at h'
      obtain ⟨d, hd, h''⟩ := bind_ok h'
      obtain ⟨p, hp, h3⟩ := bind_ok h''
      cases h3
      have hle := hdu c3 c4
      obtain ⟨d', hd', hdw, hds, hdc⟩ := diagonalOf_ok hu (diagonal_plain c4)
      rw [hd] at hd'; cases hd'
      have hdr : d.rows = u.rows := by have := hds.1; simp only [Arr.diagVec] at this; omega
      have hdcol : d.cols = 1 := hds.2.1
      obtain ⟨p', hp', hps, hpw⟩ := scalarProduct_ok (s := q) (fixed := false) (sc := a.cplx) hdw (fun _ => hqs)
        (fun h1 h2 => absurd (constDiag_constObj_of (diagonalOf_col hu (diagonal_plain c4) hd) h1) h2)
      rw [hp] at hp'; cases hp'
      have hpr : p.rows = a.rows := by have : p.rows = d.rows := hps.1; omega
      have hpc : p.cols = 1 := by have : p.cols = d.cols := hps.2.1; omega
      have hpd := toDiagonal_same hpw hpc
      rw [hpr] at hpd
      have hpv : ∀ i < a.rows, p.get i 0 = u.get i i * q := by
        intro i hi
        refine (hps.2.2 i (by show i < p.rows; omega) 0 (by show 0 < p.cols; omega)).trans ?_
        show d.get i 0 * q = _
        rw [show d.get i 0 = u.get i i from hds.2.2 i (by show i < d.rows; omega) 0 (by show 0 < d.cols; omega)]
      have hout : ∀ i < a.rows, ∀ j < a.rows, outer u.toArr i j = if i = j then u.get i i * star (u.get i i) else 0 := by
        intro i hi j hj
        unfold outer
        rw [Finset.sum_eq_single i]
        · by_cases e : i = j
          · rw [if_pos e, ← e]
          · rw [if_neg e, show u.toArr.get j i = 0 from hu.diagonal_get c4 (by omega) (by omega) (Ne.symm e), star_zero, mul_zero]
        · intro k hk hki
          rw [mem_range] at hk
          rw [show u.toArr.get i k = 0 from hu.diagonal_get c4 (by omega) hk (Ne.symm hki), zero_mul]
        · intro hk; rw [mem_range] at hk; exfalso; apply hk; show i < u.cols; omega
      refine isFactor_diag (l := fun i => p.get i 0) (hur.trans huc.symm) ?_ ?_ ?_
      · intro i hi j hj hij
        rw [hur] at hi hj
        rw [hg0 i hi j hj, hout i hi j hj, if_neg hij, mul_zero]
      · rw [hur]; exact hpd
      · intro i hi
        rw [hur] at hi
        rw [hg0 i hi i hi, hout i hi i hi, if_pos rfl, hpv i hi, star_mul', hqs, ← hqq]
        ring
    rw [if_neg c4, if_neg (by unfold updateTri; rw [htd]; simp)] at h'
    obtain ⟨p, hp, h''⟩ := bind_ok h'
    obtain ⟨p', hp', hps, hpw⟩ := scalarProduct_ok (s := q) (fixed := false) (sc := a.cplx) hu (fun _ => hqs) (fun h1 _ => absurd (WF.constDiag_diagonal h1) c4)
    rw [hp] at hp'; cases hp'
    have e1 : p.rows = u.rows := hps.1
    have e2 : p.cols = u.cols := hps.2.1
    have hlq := LQ_sound hpw (hlibLQ p) (fun hl => by
      rcases scaled_lower hu c1 c4 hp hl with g | g
      · have := hcol c3 g
        have := g.2
        omega
      · exact g) h''
    rw [htd] at hur huc hg0 ⊢
    refine IsFactor.congr hlq ⟨e1.trans (hr.symm.trans hur.symm), e1.trans (hr.symm.trans huc.symm), fun i hi j hj => ?_⟩
    have hi' : i < a.rows := by have : i < p.rows := hi; omega
    have hj' : j < a.rows := by have : j < p.rows := hj; omega
    rw [hg0 i hi' j hj', mul_adj_get]
    unfold outer
    rw [Finset.mul_sum]
    show ∑ k ∈ range p.cols, _ = ∑ k ∈ range u.cols, _
    rw [e2]
    refine Finset.sum_congr rfl fun k hk' => ?_
    rw [mem_range] at hk'
    have v1 : p.toArr.get i k = u.get i k * q := hps.2.2 i (by show i < p.rows; omega) k (by show k < p.cols; omega)
    have v2 : p.toArr.get j k = u.get j k * q := hps.2.2 j (by show j < p.rows; omega) k (by show k < p.cols; omega)
    rw [v1, v2, star_mul', hqs, ← hqq]
    ring
  rw [if_neg c3] at h
  by_cases c4 : a.diagonal ∧ u.diagonal
  · rw [if_pos c4] at h
    obtain ⟨sa, hsa, h1⟩ := bind_ok h
    obtain ⟨su, hsu, h2⟩ := bind_ok h1
    obtain ⟨p, hp, h3⟩ := bind_ok h2
    obtain ⟨s, hs, h4⟩ := bind_ok h3
    obtain ⟨-, hga⟩ := cholSquare_diag_sound path ha c4.1 hsa
    obtain ⟨-, hgp⟩ := scaled_square path hu c4.2 hα hsu hp
    rw [← hr] at hgp
    obtain ⟨s', hs', hgs⟩ := sum_good a.rows a.rows [sa, p] (by simp) (by
      intro o ho
      simp only [List.mem_cons, List.not_mem_nil, or_false] at ho
      rcases ho with rfl | rfl
      · exact ⟨hga.wf, hga.rows, hga.cols⟩
      · exact ⟨hgp.wf, hgp.rows, hgp.cols⟩) (Or.inl rfl)
    rw [hs] at hs'; cases hs'
    obtain ⟨hf, -⟩ := cholFactor_sound hgs.wf (hlibC _ _) h4
    have hup : Tri.isUp (if s.diagonal then Tri.diagonal else Tri.lower) = Tri.isUp a.triOf := by
      rw [show a.triOf = .diagonal from c4.1]
      split_ifs <;> rfl
    rw [hup] at hf
    refine IsFactor.congr hf (hgs.same hur huc fun i hi j hj => ?_)
    simp only [List.map_cons, List.map_nil, List.sum_cons, List.sum_nil, add_zero]
    rw [updated_get, gram_get' hsq, hgp.get i hi j hj, hga.get i hi j hj, show a.triOf = .diagonal from c4.1]
    rfl
  rw [if_neg c4] at h
  obtain ⟨x, hx, h'⟩ := bind_ok h
  cases h'
  obtain ⟨hf, hxr⟩ := hlib x hx
  rw [updateTri_isUp] at hf
  have hf' := (isFactor_iff (hur.trans huc.symm)).1 hf
  rw [hur] at hf'
  rw [← updateTri_isUp] at hf' ⊢
  refine isFactor_toTriangular (n := a.rows) (g := x.get) (updateTri_cases a) ⟨dense_wf hxr, hf'.1, hf'.2.1, fun _ _ _ _ => rfl⟩ ?_
    (by rw [updateTri_isUp]; exact hur) (by rw [updateTri_isUp]; exact huc) hf'.2.2.2
  intro i hi j hj hmem
  have h3 := hf'.2.2.1
  rcases updateTri_cases a with e | e
  · rw [e] at h3 hmem
    exact h3 i (by rw [hf'.1]; exact hi) j (by rw [hf'.2.1]; exact hj) (by simp only [Tri.mem] at hmem; omega)
  · rw [e] at h3 hmem
    exact h3 i (by rw [hf'.1]; exact hi) j (by rw [hf'.2.1]; exact hj) (by simp only [Tri.mem] at hmem; omega)

/-- A triangular wrapping is of the wanted triangle, or diagonal. -/
theorem toTriangular_triOf {t : Tri} (ht : t = .lower ∨ t = .upper) : (o.toTriangular t).triOf = t ∨ (o.toTriangular t).triOf = .diagonal := by
  unfold toTriangular
  by_cases h : o.triangular t
  · rw [if_pos h]
    rcases h with h | h
    · exact Or.inl h.symm
    · exact Or.inr h.2
  rw [if_neg h]
  set q : Obj 𝕜 := { o with get := fun i j => if t.mem i j then o.get i j else 0, sq := decide o.square, herm := false, tri := t.times o.triOf } with hq
  by_cases c : q.zero ∨ q.oneDim ∨ q.tri = .diagonal
  · exact Or.inr (triOf_diag c)
  have hz : ¬ o.zero := fun g => c (Or.inl g)
  have h1 : ¬ o.oneDim := fun g => c (Or.inr (Or.inl (by
    rcases g with g | ⟨g, g'⟩
    · exact Or.inl g
    · exact Or.inr ⟨Or.inl (by simp [hq, g]), g'⟩)))
  have h2 : o.triOf ≠ .diagonal := fun g => c (Or.inr (Or.inr (by show t.times o.triOf = _; rw [g]; simp [Tri.times])))
  have h3 : t.times o.triOf ≠ .diagonal := fun g => c (Or.inr (Or.inr g))
  have h4 : ¬ (o.zero ∨ o.oneDim ∨ o.tri = .diagonal) := fun g => h2 (triOf_diag g)
  left
  unfold triOf
  rw [if_neg c]
  by_cases d : q.colsIs 1
  · rw [if_pos d]
    have : o.triOf = .lower := by unfold triOf; rw [if_neg h4, if_pos (show o.colsIs 1 from d)]
    rw [this] at h3
    rcases ht with rfl | rfl
    · rfl
    · simp [Tri.times] at h3
  rw [if_neg d]
  by_cases e : q.rowsIs 1
  · rw [if_pos e]
    have : o.triOf = .upper := by unfold triOf; rw [if_neg h4, if_neg (show ¬ o.colsIs 1 from d), if_pos (show o.rowsIs 1 from e)]
    rw [this] at h3
    rcases ht with rfl | rfl
    · simp [Tri.times] at h3
    · rfl
  rw [if_neg e]
  show t.times o.triOf = t
  cases g : o.triOf <;> rw [g] at h2 h3 <;> rcases ht with rfl | rfl <;> simp_all [Tri.times]

theorem toTriangular_cst {t : Tri} : (o.toTriangular t).cst = o.cst := by unfold toTriangular; split_ifs <;> rfl

/-- The result of `cholesky_factor` is tagged as diagonal, or as the wanted triangle. -/
theorem cholFactor_tag {lib : Tri → Obj 𝕜 → Except Err (Arr 𝕜)} {tri : Tri} (h : cholFactor lib tri a = .ok r) :
    r.diagonal ∨ (r.triOf = tri ∧ r.cst = none ∧ tri ≠ .none) := by
  unfold cholFactor at h
  by_cases c0 : tri = .none ∨ (tri = .diagonal ∧ ¬ a.diagonal)
  · rw [if_pos c0] at h; cases h
  rw [if_neg c0] at h
  by_cases c1 : a.rows ≠ a.cols
  · rw [if_pos c1] at h; cases h
  rw [if_neg c1] at h
  by_cases c2 : a.zero ∨ a.identity
  · rw [if_pos c2] at h
    cases h
    left
    rcases c2 with g | g
    · exact WF.constDiag_diagonal (Or.inr (Or.inl g))
    · exact WF.constDiag_diagonal g.1
  rw [if_neg c2] at h
  by_cases c3 : a.constDiag
  · rw [if_pos c3] at h
    obtain ⟨c, -, h'⟩ := bind_ok h
    cases h'
    exact Or.inl toDiagonal_diagonal
  rw [if_neg c3] at h
  by_cases c4 : a.constObj
  · rw [if_pos c4] at h
    by_cases c5 : tri = .diagonal
    · rw [if_pos c5] at h; cases h
    rw [if_neg c5] at h
    obtain ⟨c, -, h'⟩ := bind_ok h
    unfold firstLine at h'
    by_cases d0 : a.rows = 0
    · rw [if_pos d0] at h'; cases h'
    rw [if_neg d0] at h'
    by_cases d1 : a.rows = 1
    · rw [if_pos d1, if_neg (by simp)] at h'; cases h'
    rw [if_neg d1] at h'
    by_cases d2 : tri = .upper
    · rw [if_pos (by simp [d2])] at h'
      cases h'
      rcases toTriangular_triOf (o := dense ⟨a.rows, a.rows, fun i _ => if i = 0 then c else 0⟩ (a.statRows || a.statCols) (a.statRows || a.statCols) a.cplx)
        (t := .upper) (Or.inr rfl) with g | g
      · exact Or.inr ⟨g.trans d2.symm, toTriangular_cst, by simp [d2]⟩
      · exact Or.inl g
    · rw [if_neg (by simp [d2])] at h'
      cases h'
      have d3 : tri = .lower := by cases tri <;> simp_all
      rcases toTriangular_triOf (o := dense ⟨a.rows, a.rows, fun _ j => if j = 0 then c else 0⟩ (a.statRows || a.statCols) (a.statRows || a.statCols) a.cplx)
        (t := .lower) (Or.inl rfl) with g | g
      · exact Or.inr ⟨g.trans d3.symm, toTriangular_cst, by simp [d3]⟩
      · exact Or.inl g
  rw [if_neg c4] at h
  by_cases c5 : a.diagonal
  · rw [if_pos c5] at h
    obtain ⟨d, -, h'⟩ := bind_ok h
    obtain ⟨e, -, h''⟩ := bind_ok h'
    cases h''
    exact Or.inl toDiagonal_diagonal
  rw [if_neg c5] at h
  obtain ⟨x, -, h'⟩ := bind_ok h
  cases h'
  have ht : tri = .lower ∨ tri = .upper := by
    cases tri
    · exact absurd (Or.inl rfl) c0
    · exact Or.inl rfl
    · exact Or.inr rfl
    · exact absurd (Or.inr ⟨rfl, c5⟩) c0
  rcases toTriangular_triOf (o := dense x a.statRows a.statCols a.cplx) ht with g | g
  · exact Or.inr ⟨g, toTriangular_cst, fun e => c0 (Or.inl e)⟩
  · exact Or.inl g

/-- `cholesky_square` undoes `cholesky_factor`. -/
theorem cholFactor_square (path : ContractPath) {lib : Tri → Obj 𝕜 → Except Err (Arr 𝕜)} {tri : Tri} (ha : a.WF) (hlib : FactorLib lib tri a) (h0 : 0 < a.rows)
    (h : cholFactor lib tri a = .ok r) : ∃ s, cholSquare path r = .ok s ∧ s.toArr.Same a.toArr := by
  have hsq : a.rows = a.cols := by
    by_contra c
    unfold cholFactor at h
    by_cases c0 : tri = .none ∨ (tri = .diagonal ∧ ¬ a.diagonal)
    · rw [if_pos c0] at h; cases h
    rw [if_neg c0, if_pos c] at h
    cases h
  obtain ⟨hf, hrw⟩ := cholFactor_sound ha hlib h
  obtain ⟨e1, e2, -, e4⟩ := (isFactor_iff (a := a.toArr) hsq).1 hf
  have e1' : r.rows = a.rows := e1
  have e2' : r.cols = a.rows := e2
  have htag := cholFactor_tag h
  have hn : r.triOf ≠ .none := by
    rcases htag with g | g
    · rw [show r.triOf = .diagonal from g]; simp
    · rw [g.1]; exact g.2.2
  have hc : r.conjOk := by
    intro c hc
    rcases htag with g | g
    · exact Or.inr (Or.inl (Or.inl ⟨by rw [hc]; rfl, g⟩))
    · rw [g.2.1] at hc; cases hc
  obtain ⟨s, hs, hg⟩ := cholSquare_ok path hrw hn (by omega) (by omega) hc
  refine ⟨s, hs, hg.same (by rw [e1']) (by rw [e1', hsq]) fun i hi j hj => ?_⟩
  rw [e1'] at hi hj ⊢
  rw [← e4 i hi j hj]
  rcases htag with g | g
  · have hd : ∀ i < a.rows, ∀ j < a.rows, i ≠ j → r.get i j = 0 := fun i hi j hj hij => hrw.diagonal_get g (by omega) (by omega) hij
    show _ = gramEl _ a.rows r.get i j
    rw [gramEl_diag hd hi hj, gramEl_diag hd hi hj]
  · rw [g.1]

/-- The shortcuts of `cholesky_factor` accept what has a root. -/
theorem cholFactor_accepts (lib : Tri → Obj 𝕜 → Except Err (Arr 𝕜)) {tri : Tri} (ha : a.WF) (hsq : a.rows = a.cols) (h0 : 0 < a.rows)
    (hpos : ∀ i < a.rows, 0 ≤ RCLike.re (a.get i i) ∧ RCLike.im (a.get i i) = 0) (ht : tri ≠ .none)
    (hs : a.diagonal ∨ (a.constObj ∧ tri ≠ .diagonal ∧ 2 ≤ a.rows)) : ∃ r, cholFactor lib tri a = .ok r ∧ ∀ lib', cholFactor lib' tri a = .ok r := by
  suffices key : ∃ r, ∀ lib', cholFactor lib' tri a = .ok r from key.imp fun r h => ⟨h lib, h⟩
  have c0 : ¬ (tri = .none ∨ (tri = .diagonal ∧ ¬ a.diagonal)) := by
    rintro (g | ⟨g, g'⟩)
    · exact ht g
    · rcases hs with k | k
      · exact g' k
      · exact k.2.1 g
  have e : ∀ lib', cholFactor lib' tri a = if a.zero ∨ a.identity then .ok a
      else if a.constDiag then (do let c ← rt a.constVal; .ok (mkConst c a.valFixed a.rows a.statRows 1 true a.cplx).toDiagonal)
      else if a.constObj then (if tri = .diagonal then .error .illFormed
        else do let c ← rt a.constVal; firstLine (decide (tri = .upper)) false c a.rows (a.statRows || a.statCols) a.cplx)
      else if a.diagonal then (do let d ← a.diagonalOf; let r ← nAryUnary rt d; .ok r.toDiagonal)
      else (do let x ← lib' tri a; .ok (toTriangular tri (dense x a.statRows a.statCols a.cplx))) := by
    intro lib'
    unfold cholFactor
    rw [if_neg c0, if_neg (not_not.2 hsq)]
  simp only [e]
  by_cases c2 : a.zero ∨ a.identity
  · exact ⟨a, fun _ => by rw [if_pos c2]⟩
  by_cases c3 : a.constDiag
  · have hv : a.get 0 0 = a.constVal := by rw [ha.constDiag_get c3 h0 (by omega), if_pos rfl]
    obtain ⟨y, hy⟩ := rt_accepts (hv ▸ (hpos 0 h0).1) (hv ▸ (hpos 0 h0).2)
    exact ⟨_, fun _ => by rw [if_neg c2, if_pos c3, hy]; rfl⟩
  by_cases c4 : a.constObj
  · have hv : a.get 0 0 = a.constVal := ha.const_get c4 h0 (by omega)
    obtain ⟨y, hy⟩ := rt_accepts (hv ▸ (hpos 0 h0).1) (hv ▸ (hpos 0 h0).2)
    have h2 : tri ≠ .diagonal ∧ 2 ≤ a.rows := by
      rcases hs with k | k
      · refine absurd (const_diagonal_oneDim c4 k fun g => c2 (Or.inl g)) fun g => c3 (Or.inr (Or.inr g))
      · exact k.2
    have hl : ∃ r, firstLine (decide (tri = .upper)) false y a.rows (a.statRows || a.statCols) a.cplx = .ok r := by
      unfold firstLine
      rw [if_neg (by omega), if_neg (by omega)]
      by_cases c5 : decide (tri = .upper) = true
      · rw [if_pos c5]; exact ⟨_, rfl⟩
      · rw [if_neg c5]; exact ⟨_, rfl⟩
    obtain ⟨r, hr⟩ := hl
    refine ⟨r, fun _ => ?_⟩
    rw [if_neg c2, if_neg c3, if_pos c4, if_neg h2.1, hy]
    exact hr
  have hd : a.diagonal := hs.resolve_right fun k => c4 k.1
  obtain ⟨d, hd', hdw, hds, hdc⟩ := diagonalOf_ok ha (diagonal_plain hd)
  have hdr : d.rows = a.rows := by have := hds.1; simp only [Arr.diagVec] at this; omega
  have hdcol : d.cols = 1 := hds.2.1
  obtain ⟨q, hq⟩ := nAryUnary_accepts (f := rt) hdw hdcol (by omega) (fun i hi => by
    have hv : d.get i 0 = a.get i i := hds.2.2 i hi 0 (by show 0 < d.cols; omega)
    rw [hv]
    exact rt_accepts (hpos i (by omega)).1 (hpos i (by omega)).2)
  exact ⟨_, fun _ => by rw [if_neg c2, if_neg c3, if_neg c4, if_pos hd, hd']; show (nAryUnary rt d >>= _) = _; rw [hq]; rfl⟩

end Obj
end OpenKalman.LinAlg
