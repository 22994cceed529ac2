import Verif.Spec.Solve
import Verif.Model.Solve
import Verif.Proof.LinAlgReduce
import Mathlib.Analysis.InnerProductSpace.Basic

/-!
# Lemmas for `solve`
-/

set_option linter.unusedSectionVars false

namespace OpenKalman.LinAlg
open Finset Classical

section
variable {F : Type} [Field F]

theorem Solves.congr {a b x y : Arr F} (h : x.Same y) (hs : Solves a b x) : Solves a b y := by
  obtain ⟨h1, h2, h3, h4, h5⟩ := hs
  obtain ⟨e1, e2, e3⟩ := h
  simp only [Arr.mul] at h3 h4 h5
  refine ⟨e1 ▸ h1, e2 ▸ h2, h3, by simp only [Arr.mul]; omega, ?_⟩
  intro i hi j hj
  simp only [Arr.mul] at hi hj ⊢
  rw [← h5 i hi j (by omega)]
  refine Finset.sum_congr rfl fun k hk => ?_
  rw [mem_range] at hk
  rw [e3 k (by omega) j (by omega)]

end

variable {F : Type} [Field F] [StarRing F]

namespace Obj
variable {o a b x : Obj F}

theorem toHermitian_same {r : Obj F} (h : o.toHermitian = .ok r) (hu : o.rows = o.cols → ∀ i < o.rows, ∀ j < o.cols, i < j → o.get i j = star (o.get j i)) :
    r.toArr.Same o.toArr := by
  unfold toHermitian at h
  by_cases h1 : o.hermitian
  · rw [if_pos h1] at h; cases h; exact Arr.Same.refl _
  rw [if_neg h1] at h
  by_cases h2 : o.rows ≠ o.cols
  · rw [if_pos h2] at h; cases h
  rw [if_neg h2] at h
  cases h
  refine ⟨rfl, rfl, ?_⟩
  intro i hi j hj
  simp only at hi hj ⊢
  split_ifs with hij
  · rfl
  · exact (hu (by omega) i hi j hj (by omega)).symm

theorem toHermitian_ok (h : o.rows = o.cols) : ∃ r, o.toHermitian = .ok r ∧ r.rows = o.rows := by
  unfold toHermitian
  by_cases g1 : o.hermitian
  · rw [if_pos g1]; exact ⟨_, rfl, rfl⟩
  · rw [if_neg g1, if_neg (by omega)]; exact ⟨_, rfl, rfl⟩

theorem fixRows_same {n : ℕ} {sn : Bool} {r : Obj F} (h : fixRows n sn x = .ok r) : r.toArr.Same x.toArr := by
  unfold fixRows at h
  split_ifs at h
  cases h
  exact ⟨rfl, rfl, fun _ _ _ _ => rfl⟩

theorem fixRows_ok {n : ℕ} {sn : Bool} (h : x.rows = n) : ∃ r, fixRows n sn x = .ok r := by
  unfold fixRows
  rw [if_neg (by simp [h])]
  exact ⟨_, rfl⟩

theorem wrapSolve_same {r : Obj F} (hw : x.WF) (h : wrapSolve a b x = .ok r)
    (ht : ∀ i < x.rows, ∀ j < x.cols, ¬ (commonTri [a, b]).mem i j → x.get i j = 0)
    (hh : commonTri [a, b] = .none → ((a.constDiag ∧ b.hermitian) ∨ (b.constDiag ∧ a.hermitian)) →
      x.rows = x.cols → ∀ i < x.rows, ∀ j < x.cols, i < j → x.get i j = star (x.get j i)) : r.toArr.Same x.toArr := by
  unfold wrapSolve at h
  split_ifs at h with h1 h2
  · refine (fixRows_same h).trans ?_
    refine (toTriangular_same hw _).trans ⟨rfl, rfl, ?_⟩
    intro i hi j hj
    simp only [maskTri] at hi hj ⊢
    split_ifs with hm
    · rfl
    · exact (ht i hi j hj hm).symm
  · obtain ⟨y, hy, hr⟩ := bind_ok h
    exact (fixRows_same hr).trans (toHermitian_same hy (hh (by simpa using h1) h2))
  · exact fixRows_same h

theorem wrapSolve_ok (hr : x.rows = a.cols) (hw : x.WF)
    (hh : commonTri [a, b] ≠ .none ∨ ¬ ((a.constDiag ∧ b.hermitian) ∨ (b.constDiag ∧ a.hermitian)) ∨ x.rows = x.cols) :
    ∃ r, wrapSolve a b x = .ok r := by
  unfold wrapSolve
  split_ifs with h1 h2
  · exact fixRows_ok ((toTriangular_same hw _).1.trans hr)
  · rcases hh with hh | hh | hh
    · exact absurd hh h1
    · exact absurd h2 hh
    · obtain ⟨y, hy, hyr⟩ := toHermitian_ok hh
      rw [hy]
      exact fixRows_ok (hyr.trans hr)
  · exact fixRows_ok hr

/-- Triangular equations have triangular solutions. -/
theorem lower_solve {a b x : Arr F} (hs : Solves a b x) (hsq : a.rows = a.cols) (hd : ∀ i < a.rows, a.get i i ≠ 0) (ha : a.IsLower) (hb : b.IsLower) :
    x.IsLower := by
  intro i
  induction i using Nat.strong_induction_on with
  | _ i ih =>
    intro hi j hj hij
    obtain ⟨h1, h2, h3, h4, h5⟩ := hs
    simp only [Arr.mul] at h3 h4 h5
    have e := h5 i (by omega) j hj
    rw [hb i (by omega) j (by omega) hij, Finset.sum_eq_single i] at e
    · rcases mul_eq_zero.1 e with e | e
      · exact absurd e (hd i (by omega))
      · exact e
    · intro k hk hki
      rw [mem_range] at hk
      rcases Nat.lt_or_gt_of_ne hki with h | h
      · rw [ih k h (by omega) j hj (by omega), mul_zero]
      · rw [ha i (by omega) k hk h, zero_mul]
    · intro h; rw [mem_range] at h; omega

theorem upper_solve {a b x : Arr F} (hs : Solves a b x) (hsq : a.rows = a.cols) (hd : ∀ i < a.rows, a.get i i ≠ 0) (ha : a.IsUpper) (hb : b.IsUpper) :
    x.IsUpper := by
  have key : ∀ m i, i < x.rows → x.rows - i = m → ∀ j < x.cols, j < i → x.get i j = 0 := by
    intro m
    induction m using Nat.strong_induction_on with
    | _ m ih =>
      intro i hi him j hj hij
      obtain ⟨h1, h2, h3, h4, h5⟩ := hs
      simp only [Arr.mul] at h3 h4 h5
      have e := h5 i (by omega) j hj
      rw [hb i (by omega) j (by omega) hij, Finset.sum_eq_single i] at e
      · rcases mul_eq_zero.1 e with e | e
        · exact absurd e (hd i (by omega))
        · exact e
      · intro k hk hki
        rw [mem_range] at hk
        rcases Nat.lt_or_gt_of_ne hki with h | h
        · rw [ha i (by omega) k hk h, zero_mul]
        · rw [ih (x.rows - k) (by omega) k (by omega) rfl j hj (by omega), mul_zero]
      · intro h; rw [mem_range] at h; omega
  intro i hi j hj hij
  exact key _ i hi rfl j hj hij

theorem commonTri_lower (h : commonTri [a, b] = .lower ∨ commonTri [a, b] = .diagonal) (ha : a.WF) (hb : b.WF) : a.toArr.IsLower ∧ b.toArr.IsLower := by
  have hm : ∀ i j, i < j → ¬ (commonTri [a, b]).mem i j := by
    intro i j hij hm
    rcases h with h | h <;> rw [h] at hm <;> simp only [Tri.mem] at hm <;> omega
  constructor
  · intro i hi j hj hij; exact ha.triOf_get hi hj (commonTri_mem (hm i j hij) a (by simp))
  · intro i hi j hj hij; exact hb.triOf_get hi hj (commonTri_mem (hm i j hij) b (by simp))

theorem commonTri_upper (h : commonTri [a, b] = .upper ∨ commonTri [a, b] = .diagonal) (ha : a.WF) (hb : b.WF) : a.toArr.IsUpper ∧ b.toArr.IsUpper := by
  have hm : ∀ i j, j < i → ¬ (commonTri [a, b]).mem i j := by
    intro i j hij hm
    rcases h with h | h <;> rw [h] at hm <;> simp only [Tri.mem] at hm <;> omega
  constructor
  · intro i hi j hj hij; exact ha.triOf_get hi hj (commonTri_mem (hm i j hij) a (by simp))
  · intro i hi j hj hij; exact hb.triOf_get hi hj (commonTri_mem (hm i j hij) b (by simp))

/-- The solution of equations with a common triangle has that triangle. -/
theorem commonTri_solve {x : Arr F} (ha : a.WF) (hb : b.WF) (hs : Solves a.toArr b.toArr x) (hsq : a.rows = a.cols) (hd : ∀ i < a.rows, a.get i i ≠ 0) :
    ∀ i < x.rows, ∀ j < x.cols, ¬ (commonTri [a, b]).mem i j → x.get i j = 0 := by
  intro i hi j hj hm
  cases h : commonTri [a, b] with
  | none => rw [h] at hm; exact absurd trivial hm
  | lower =>
    have hl := commonTri_lower (Or.inl h) ha hb
    rw [h] at hm; simp only [Tri.mem] at hm
    exact lower_solve hs hsq hd hl.1 hl.2 i hi j hj (by omega)
  | upper =>
    have hl := commonTri_upper (Or.inl h) ha hb
    rw [h] at hm; simp only [Tri.mem] at hm
    exact upper_solve hs hsq hd hl.1 hl.2 i hi j hj (by omega)
  | diagonal =>
    rw [h] at hm; simp only [Tri.mem] at hm
    rcases Nat.lt_or_gt_of_ne hm with h' | h'
    · have hl := commonTri_lower (Or.inr h) ha hb
      exact lower_solve hs hsq hd hl.1 hl.2 i hi j hj h'
    · have hl := commonTri_upper (Or.inr h) ha hb
      exact upper_solve hs hsq hd hl.1 hl.2 i hi j hj h'

/-- If `a` is Hermitian and `b` a nonzero real multiple of the identity, the solution is Hermitian. -/
theorem hermitian_solve {a b x : Arr F} (hs : Solves a b x) (ha : a.rows = a.cols ∧ ∀ i < a.rows, ∀ j < a.cols, a.get j i = star (a.get i j))
    {c : F} (hc : c ≠ 0) (hcr : star c = c) (hb : b.rows = b.cols) (hbc : ∀ i < b.rows, ∀ j < b.cols, b.get i j = if i = j then c else 0) :
    ∀ i < x.rows, ∀ j < x.cols, x.get i j = star (x.get j i) := by
  obtain ⟨h1, h2, h3, h4, h5⟩ := hs
  obtain ⟨ha1, ha2⟩ := ha
  simp only [Arr.mul] at h3 h4 h5
  intro i hi j hj
  -- c · xᵢⱼ = Σₖ (x* a)ᵢₖ xₖⱼ = Σₗ x*ᵢₗ (a x)ₗⱼ = c · x*ᵢⱼ
  have e1 : ∀ k < a.cols, ∑ l ∈ range a.cols, star (x.get l i) * a.get l k = if k = i then c else 0 := by
    intro k hk
    have := h5 k (by omega) i (by omega)
    rw [hbc k (by omega) i (by omega)] at this
    have e := congrArg star this
    rw [star_sum] at e
    have e' : star (if k = i then c else 0 : F) = if k = i then c else 0 := by split_ifs <;> simp [hcr]
    rw [e'] at e
    rw [← e]
    refine Finset.sum_congr rfl fun l hl => ?_
    rw [mem_range] at hl
    rw [star_mul', ha2 k (by omega) l hl, mul_comm]
  have e2 : ∑ k ∈ range a.cols, (∑ l ∈ range a.cols, star (x.get l i) * a.get l k) * x.get k j =
      ∑ l ∈ range a.cols, star (x.get l i) * ∑ k ∈ range a.cols, a.get l k * x.get k j := by
    simp_rw [Finset.sum_mul, Finset.mul_sum]
    rw [Finset.sum_comm]
    refine Finset.sum_congr rfl fun l _ => Finset.sum_congr rfl fun k _ => by ring
  have e3 : ∑ k ∈ range a.cols, (∑ l ∈ range a.cols, star (x.get l i) * a.get l k) * x.get k j = c * x.get i j := by
    rw [Finset.sum_eq_single i]
    · rw [e1 i (by omega), if_pos rfl]
    · intro k hk hki; rw [mem_range] at hk; rw [e1 k hk, if_neg hki, zero_mul]
    · intro h; rw [mem_range] at h; omega
  have e4 : ∑ l ∈ range a.cols, star (x.get l i) * ∑ k ∈ range a.cols, a.get l k * x.get k j = star (x.get j i) * c := by
    rw [Finset.sum_eq_single j]
    · rw [h5 j (by omega) j hj, hbc j (by omega) j (by omega), if_pos rfl]
    · intro l hl hlj; rw [mem_range] at hl; rw [h5 l (by omega) j hj, hbc l (by omega) j (by omega), if_neg hlj, mul_zero]
    · intro h; rw [mem_range] at h; omega
  rw [e3, e4, mul_comm] at e2
  exact mul_right_cancel₀ hc e2

/-- The solution in the cases where the result is declared Hermitian. -/
theorem wrapped_hermitian {x : Arr F} (ha : a.WF) (hb : b.WF) (hs : Solves a.toArr b.toArr x) (hx : x.rows = x.cols)
    (h : (a.constDiag ∧ b.hermitian) ∨ (b.constDiag ∧ a.hermitian))
    (h1 : a.constDiag → b.hermitian → star a.constVal = a.constVal ∧ a.constVal ≠ 0)
    (h2 : b.constDiag → a.hermitian → star b.constVal = b.constVal ∧ b.constVal ≠ 0) :
    ∀ i < x.rows, ∀ j < x.cols, i < j → x.get i j = star (x.get j i) := by
  intro i hi j hj hij
  have e1 := hs.1
  have e2 := hs.2.1
  have e3 : a.rows = b.rows := hs.2.2.1
  by_cases hA : a.constDiag ∧ b.hermitian
  · obtain ⟨hr, hn⟩ := h1 hA.1 hA.2
    have hbh := hb.hermitian_get hA.2
    have key : ∀ i < x.rows, ∀ j < x.cols, a.constVal * x.get i j = b.get i j := by
      intro i hi j hj
      have := hs.2.2.2.2 i (by show i < a.rows; omega) j hj
      simp only [Arr.mul] at this
      rw [← this, Finset.sum_eq_single i]
      · rw [ha.constDiag_get hA.1 (by omega) (by omega), if_pos rfl]
      · intro k hk hki
        rw [mem_range] at hk
        rw [ha.constDiag_get hA.1 (by omega) hk, if_neg (Ne.symm hki), zero_mul]
      · intro h; rw [mem_range] at h; omega
    have k1 := key i hi j hj
    have k2 := key j (by omega) i (by omega)
    have k3 := hbh.2 j (by omega) i (by omega)
    rw [← k1, ← k2, star_mul', hr] at k3
    exact mul_left_cancel₀ hn k3
  · have hB : b.constDiag ∧ a.hermitian := by tauto
    obtain ⟨hr, hn⟩ := h2 hB.1 hB.2
    have hah := ha.hermitian_get hB.2
    exact hermitian_solve hs hah hn hr (by omega) (fun i hi j hj => hb.constDiag_get hB.1 hi hj) i hi j hj

/-- Quotients by the diagonal solve a diagonal equation. -/
theorem diag_solves (ha : a.WF) (hd : a.diagonal) (hsq : a.rows = a.cols) (hr : a.rows = b.rows) {x : Arr F} (hxr : x.rows = b.rows) (hxc : x.cols = b.cols)
    (hx : ∀ i < b.rows, ∀ j < b.cols, a.get i i ≠ 0 ∧ x.get i j = b.get i j / a.get i i) : Solves a.toArr b.toArr x := by
  refine ⟨by omega, hxc, hr, hxc, ?_⟩
  intro i hi j hj
  simp only [Arr.mul] at hi hj ⊢
  rw [Finset.sum_eq_single i]
  · rw [(hx i (by omega) j (by omega)).2, mul_div_cancel₀ _ (hx i (by omega) j (by omega)).1]
  · intro k hk hki
    rw [mem_range] at hk
    rw [ha.diagonal_get hd hi hk (Ne.symm hki), zero_mul]
  · intro h; rw [mem_range] at h; omega

theorem const_solves [CharZero F] (ha : a.WF) (hb : b.WF) (h1 : a.constObj) (h2 : b.constObj) (hr : a.rows = b.rows) (h0 : (a.cols : F) * a.constVal ≠ 0) {x : Arr F}
    (hxr : x.rows = a.cols) (hxc : x.cols = b.cols) (hx : ∀ i < a.cols, ∀ j < b.cols, x.get i j = b.constVal / ((a.cols : F) * a.constVal)) :
    Solves a.toArr b.toArr x := by
  refine ⟨hxr, hxc, hr, hxc, ?_⟩
  intro i hi j hj
  simp only [Arr.mul] at hi hj ⊢
  rw [Finset.sum_congr rfl (g := fun _ => a.constVal * (b.constVal / ((a.cols : F) * a.constVal)))]
  · rw [Finset.sum_const, card_range, nsmul_eq_mul, hb.const_get h2 (by omega) (by omega), ← mul_assoc, mul_div_cancel₀ _ h0]
  · intro k hk
    rw [mem_range] at hk
    rw [ha.const_get h1 hi hk, hx k hk j (by omega)]

theorem rowsMatch_ok {y : Except Err (Obj F)} {r : Obj F} (h : rowsMatch a b y = .ok r) (hs : ¬ (a.statRows = true ∧ b.statRows = true ∧ a.rows ≠ b.rows)) :
    a.rows = b.rows ∧ y = .ok r := by
  unfold rowsMatch at h
  split_ifs at h with h1
  refine ⟨?_, h⟩
  by_contra hne
  cases h2 : a.statRows <;> cases h3 : b.statRows <;> simp_all

theorem divE_ok {α : Type} {s : F} {y : Except Err α} {r : α} (h : divE s y = .ok r) : s ≠ 0 ∧ y = .ok r := by
  unfold divE at h
  split_ifs at h with h1
  exact ⟨h1, h⟩

/-- What the broadcast quotient computes. -/
theorem nAryBroadcast_quot {d q : Obj F} (hb : b.WF) (hd : d.WF) (hdc : d.cols = 1) (hrow : d.rows = b.rows) (h : nAryBroadcast diagQuot b d = .ok q) :
    (∀ i < b.rows, ∀ j < b.cols, d.get i 0 ≠ 0 ∧ q.get i j = b.get i j / d.get i 0) ∧ q.rows = b.rows ∧ q.cols = b.cols ∧ q.WF := by
  unfold nAryBroadcast at h
  rw [if_neg (by omega)] at h
  have hreal : ∀ {s t : F}, star s = s → star t = t → star (s / t) = s / t := by
    intro s t h1 h2; rw [star_div₀, h1, h2]
  split_ifs at h with h1 h2
  · obtain ⟨c, hc, hq⟩ := bind_ok h
    unfold diagQuot at hc
    split_ifs at hc with h0
    cases hc
    cases hq
    refine ⟨?_, rfl, rfl, mkConst_wf ?_⟩
    · intro i hi j hj
      rw [hd.const_get h1.2 (by omega) (by omega), hb.const_get h1.1 hi hj]
      exact ⟨h0, rfl⟩
    · intro hcx
      rw [Bool.or_eq_false_iff] at hcx
      exact hreal (hb.realConst hcx.1 (Or.inl h1.1)) (hd.realConst hcx.2 (Or.inl h1.2))
  · cases h
    have key : ∀ i < b.rows, ∀ j < b.cols, d.get i 0 ≠ 0 ∧
        valueOr0 (diagQuot (b.get i j) (d.get (if i < d.rows then i else 0) 0)) = b.get i j / d.get i 0 := by
      intro i hi j hj
      obtain ⟨v, hv⟩ := h2 i hi j hj
      rw [hv]
      rw [if_pos (show i < d.rows by omega)] at hv
      unfold diagQuot at hv
      split_ifs at hv with h0
      cases hv
      exact ⟨h0, rfl⟩
    refine ⟨key, rfl, rfl, dense_wf ?_⟩
    intro hcx i hi j hj
    rw [Bool.or_eq_false_iff] at hcx
    simp only at hi hj ⊢
    rw [(key i hi j hj).2]
    exact hreal (hb.real hcx.1 i hi j hj) (hd.real hcx.2 i (by omega) 0 (by omega))

theorem nAryBroadcast_accepts {d : Obj F} (hd : d.WF) (hdc : d.cols = 1) (hrow : d.rows = b.rows) (hpos : 0 < b.rows) (h0 : ∀ i < b.rows, d.get i 0 ≠ 0) :
    ∃ q, nAryBroadcast diagQuot b d = .ok q := by
  unfold nAryBroadcast
  rw [if_neg (by omega)]
  split_ifs with h1 h2
  · have : d.constVal ≠ 0 := by
      rw [← hd.const_get h1.2 (i := 0) (j := 0) (by omega) (by omega)]
      exact h0 0 hpos
    simp only [diagQuot, if_neg this]
    exact ⟨_, rfl⟩
  · exact ⟨_, rfl⟩
  · exfalso
    apply h2
    intro i hi j hj
    rw [if_pos (show i < d.rows by omega)]
    exact ⟨_, by rw [diagQuot, if_neg (h0 i hi)]⟩

/-- A common triangle exists as soon as one operand is diagonal and the other has a triangle. -/
theorem commonTri_diag_left (ha : a.diagonal) (hb : b.triOf ≠ .none) : commonTri [a, b] ≠ .none := by
  have ha' : a.triOf = .diagonal := ha
  unfold commonTri
  simp only [List.mem_cons, List.not_mem_nil, or_false, forall_eq_or_imp, forall_eq, ha']
  cases h : b.triOf <;> simp_all

set_option maxHeartbeats 1600000 in
theorem solve_sound [CharZero F] (lib : Obj F → Obj F → Except Err (Arr F)) (unique exact : Bool) (ha : a.WF) (hb : b.WF)
    (hlib : ∀ x, lib a b = .ok x → Solves a.toArr b.toArr x ∧ ((a.cplx || b.cplx) = false → ∀ i < x.rows, ∀ j < x.cols, star (x.get i j) = x.get i j))
    (hz : a.zero → ∀ i < b.rows, ∀ j < b.cols, b.get i j = 0)
    (hinexact : a.constObj → b.constObj ∨ a.constDiag ∨ (a.colsIs 1 ∧ (a.rowsIs 1 ∨ b.rowsIs 1)))
    (hbsq : b.constDiag → ¬ b.constObj → b.rows = b.cols)
    (htri : ∀ x, lib a b = .ok x → commonTri [a, b] = .none ∨ (a.rows = a.cols ∧ ∀ i < a.rows, a.get i i ≠ 0))
    (hsing : a.diagonal → ¬ a.constObj → a.rows = b.rows ∨ a.rows ≠ 1)
    (hherm : ∀ x : Arr F, lib a b = .ok x → Solves a.toArr b.toArr x → commonTri [a, b] = .none → ((a.constDiag ∧ b.hermitian) ∨ (b.constDiag ∧ a.hermitian)) →
      x.rows = x.cols → ∀ i < x.rows, ∀ j < x.cols, i < j → x.get i j = star (x.get j i))
    {x : Obj F} (h : solve lib unique exact a b = .ok x) : Solves a.toArr b.toArr x.toArr := by
  unfold solve at h
  by_cases c1 : solveRequires unique exact a b
  swap
  · rw [if_pos c1] at h; cases h
  rw [if_neg (not_not.2 c1)] at h
  by_cases c2 : a.statRows = true ∧ b.statRows = true ∧ a.rows ≠ b.rows
  · rw [if_pos c2] at h; cases h
  rw [if_neg c2] at h
  by_cases c3 : b.zero
  · rw [if_pos c3] at h
    obtain ⟨hr, h⟩ := rowsMatch_ok h c2
    have hx : x = zeroSol a b := by
      split_ifs at h with g1
      · obtain ⟨v, hv, h⟩ := bind_ok h
        split_ifs at h
        cases h; rfl
      · cases h; rfl
    subst hx
    refine ⟨rfl, rfl, hr, rfl, ?_⟩
    intro i hi j hj
    simp only [Arr.mul, zeroSol, mkConst] at hi hj ⊢
    simp [hb.zero_get c3 (i := i) (j := j) (by omega) hj]
  rw [if_neg c3] at h
  by_cases c4 : a.zero
  · rw [if_pos c4] at h
    obtain ⟨hr, h⟩ := rowsMatch_ok h c2
    cases h
    refine ⟨rfl, rfl, hr, rfl, ?_⟩
    intro i hi j hj
    simp only [Arr.mul, zeroSol, mkConst] at hi hj ⊢
    simp [hz c4 i (by omega) j hj]
  rw [if_neg c4] at h
  by_cases c5 : a.colsIs 1 ∧ (a.rowsIs 1 ∨ b.rowsIs 1)
  · rw [if_pos c5] at h
    obtain ⟨hr, h⟩ := rowsMatch_ok h c2
    have hac : a.cols = 1 := c5.1.2
    have har : a.rows = 1 := by
      rcases c5.2 with h' | h'
      · exact h'.2
      · rw [hr, h'.2]
    split_ifs at h with c6
    · refine Solves.congr (fixRows_same h).symm ?_
      refine ⟨by show b.rows = a.cols; omega, rfl, hr, rfl, ?_⟩
      intro i hi j hj
      simp only [Arr.mul] at hi hj ⊢
      rw [hac, Finset.sum_range_one]
      obtain rfl : i = 0 := by omega
      have := ha.constDiag_get c6.1 (i := 0) (j := 0) (by omega) (by omega)
      rw [this, if_pos rfl, c6.2.2, one_mul]
    · obtain ⟨h0, h⟩ := divE_ok h
      obtain ⟨q, hq, hx⟩ := bind_ok h
      obtain ⟨q', hq', hqs, -⟩ := scalarQuotient_ok (o := b) (s := a.get 0 0) (fixed := false) (sc := a.cplx) hb
        (fun hc => ha.real hc 0 (by omega) 0 (by omega)) hbsq
      rw [hq] at hq'; cases hq'
      refine Solves.congr ((fixRows_same hx).trans hqs).symm ?_
      refine ⟨by show b.rows = a.cols; omega, rfl, hr, rfl, ?_⟩
      intro i hi j hj
      simp only [Arr.mul, Arr.map] at hi hj ⊢
      rw [hac, Finset.sum_range_one]
      obtain rfl : i = 0 := by omega
      exact mul_div_cancel₀ _ h0
  rw [if_neg c5] at h
  by_cases c6 : a.constDiag ∧ (a.square ∨ (a.statCols = true ∧ b.statRows = true ∧ a.cols = b.rows))
  · rw [if_pos c6] at h
    obtain ⟨hr, h⟩ := rowsMatch_ok h c2
    have hsq : a.rows = a.cols := by
      rcases c6.2 with h' | h'
      · exact ha.square_eq h'
      · omega
    have hd : a.diagonal := WF.constDiag_diagonal c6.1
    split_ifs at h with c7
    · cases h
      refine diag_solves ha hd hsq hr rfl rfl ?_
      intro i hi j hj
      have := ha.constDiag_get c6.1 (i := i) (j := i) (by omega) (by omega)
      rw [this, if_pos rfl, c7.1.2.2]
      simp
    · obtain ⟨h0, h⟩ := divE_ok h
      obtain ⟨q', hq', hqs, -⟩ := scalarQuotient_ok (o := b) (s := a.constVal) (fixed := a.valFixed) (sc := a.cplx) hb
        (fun hc => ha.realConst hc (Or.inr c6.1)) hbsq
      rw [h] at hq'; cases hq'
      refine Solves.congr hqs.symm ?_
      refine diag_solves ha hd hsq hr rfl rfl ?_
      intro i hi j hj
      have := ha.constDiag_get c6.1 (i := i) (j := i) (by omega) (by omega)
      rw [this, if_pos rfl]
      exact ⟨h0, rfl⟩
  rw [if_neg c6] at h
  by_cases c7 : a.constObj ∧ b.constObj
  · rw [if_pos c7] at h
    obtain ⟨hr, h⟩ := rowsMatch_ok h c2
    obtain ⟨h0, h⟩ := divE_ok h
    cases h
    exact const_solves ha hb c7.1 c7.2 hr h0 rfl rfl fun _ _ _ _ => rfl
  rw [if_neg c7] at h
  by_cases hac : a.constObj
  · -- a constant that is also a constant diagonal is one-dimensional
    exfalso
    rcases hinexact hac with h' | h' | h'
    · exact c7 ⟨hac, h'⟩
    rotate_left
    · exact c5 h'
    · have hod : a.oneDim := by
        rcases h' with ⟨g1, g2⟩ | g | g
        · rcases hac with ⟨k1, k2⟩ | k | k
          · have g2' : a.triOf = .diagonal := g2
            rw [g2'] at k2
            simp at k2
          · exact absurd k c4
          · exact k
        · exact absurd g c4
        · exact g
      rcases hod with g | ⟨g, -⟩
      · exact c5 ⟨g.2, Or.inl g.1⟩
      · exact c6 ⟨h', Or.inl g⟩
  rw [if_neg (fun g => hac g.1)] at h
  by_cases c9 : a.diagonal ∧ a.square
  · rw [if_pos c9] at h
    have hsq := ha.square_eq c9.2
    obtain ⟨d, hd, h⟩ := bind_ok h
    obtain ⟨q, hq, h⟩ := bind_ok h
    obtain ⟨d', hd', hdw, hds, -⟩ := diagonalOf_ok ha (diagonal_plain c9.1)
    rw [hd] at hd'; cases hd'
    have hdr : d.rows = a.rows := by have := hds.1; simp only [Arr.diagVec] at this; omega
    have hdc : d.cols = 1 := hds.2.1
    have hr : a.rows = b.rows := by
      rcases hsing c9.1 hac with h' | h'
      · exact h'
      · by_contra hne
        unfold nAryBroadcast at hq
        rw [if_pos (by omega)] at hq
        cases hq
    obtain ⟨hval, hqr, hqc, hqw⟩ := nAryBroadcast_quot hb hdw hdc (by omega) hq
    have hdg : ∀ i < b.rows, d.get i 0 = a.get i i := fun i hi => hds.2.2 i (by omega) 0 (by omega)
    have hsol : Solves a.toArr b.toArr q.toArr := diag_solves ha c9.1 hsq hr hqr hqc fun i hi j hj => by
      rw [← hdg i hi]; exact hval i hi j hj
    refine Solves.congr (wrapSolve_same hqw h ?_ ?_).symm hsol
    · intro i hi j hj hm
      rw [(hval i (by omega) j (by omega)).2, hb.triOf_get (by omega) (by omega) (commonTri_mem hm b (by simp)), zero_div]
    · intro hcn hh
      exfalso
      rcases hh with hh | hh
      · exact c6 ⟨hh.1, Or.inl c9.2⟩
      · exact commonTri_diag_left c9.1 (by rw [show b.triOf = .diagonal from WF.constDiag_diagonal hh.1]; simp) hcn
  rw [if_neg c9] at h
  obtain ⟨y, hy, h⟩ := bind_ok h
  obtain ⟨hsol, hreal⟩ := hlib y hy
  refine Solves.congr (wrapSolve_same (dense_wf hreal) h ?_ (hherm y hy hsol)).symm hsol
  rcases htri y hy with htri | htri
  · intro i hi j hj hm; rw [htri] at hm; exact absurd trivial hm
  · exact commonTri_solve ha hb hsol htri.1 htri.2

/-- A constant object that is diagonal and not zero is one-dimensional. -/
theorem const_diagonal_oneDim (hc : a.constObj) (hd : a.diagonal) (hz : ¬ a.zero) : a.oneDim := by
  rcases hc with ⟨k1, k2⟩ | k | k
  · have hd' : a.triOf = .diagonal := hd
    rw [hd'] at k2
    simp at k2
  · exact absurd k hz
  · exact k

theorem solve_accepts [CharZero F] (lib : Obj F → Obj F → Except Err (Arr F)) (unique exact : Bool) (ha : a.WF) (hb : b.WF) (hr : a.rows = b.rows)
    (hreq : solveRequires unique exact a b) (hu : b.zero → unique = false) (hbsq : b.constDiag → ¬ b.constObj → b.rows = b.cols)
    (h0r : 0 < a.rows) (h0c : 0 < a.cols) (hdiv : ∀ i < min a.rows a.cols, a.get i i ≠ 0)
    (hshape : (a.colsIs 1 ∧ (a.rowsIs 1 ∨ b.rowsIs 1)) ∨ (a.diagonal ∧ a.square) ∨ (a.constObj ∧ b.constObj)) :
    ∃ x, solve lib unique exact a b = .ok x := by
  have hrm : ∀ y, rowsMatch a b y = y := by intro y; unfold rowsMatch; rw [if_neg (by omega)]
  have hdivE : ∀ {α : Type} (s : F) (y : Except Err α), s ≠ 0 → divE s y = y := by intro α s y h; unfold divE; rw [if_neg h]
  have h00 : a.get 0 0 ≠ 0 := hdiv 0 (by omega)
  unfold solve
  rw [if_neg (not_not.2 hreq), if_neg (by omega)]
  by_cases c3 : b.zero
  · rw [if_pos c3, hrm, if_neg (by rw [hu c3]; simp)]; exact ⟨_, rfl⟩
  rw [if_neg c3]
  by_cases c4 : a.zero
  · rw [if_pos c4, hrm]; exact ⟨_, rfl⟩
  rw [if_neg c4]
  by_cases c5 : a.colsIs 1 ∧ (a.rowsIs 1 ∨ b.rowsIs 1)
  · rw [if_pos c5, hrm]
    have har : b.rows = 1 := by
      rcases c5.2 with h' | h'
      · rw [← hr, h'.2]
      · exact h'.2
    by_cases c6 : a.identity
    · rw [if_pos c6]; exact fixRows_ok har
    · rw [if_neg c6, hdivE _ _ h00]
      obtain ⟨q, hq, hqs, -⟩ := scalarQuotient_ok (o := b) (s := a.get 0 0) (fixed := false) (sc := a.cplx) hb
        (fun hc => ha.real hc 0 (by omega) 0 (by omega)) hbsq
      rw [hq]
      exact fixRows_ok (hqs.1.trans har)
  rw [if_neg c5]
  have hcd : a.constDiag → a.constVal ≠ 0 := by
    intro h
    have := ha.constDiag_get h (i := 0) (j := 0) h0r h0c
    rw [if_pos rfl] at this
    rwa [← this]
  have hco : a.constObj → a.constVal ≠ 0 := by
    intro h
    rwa [← ha.const_get h h0r h0c]
  by_cases c6 : a.constDiag ∧ (a.square ∨ (a.statCols = true ∧ b.statRows = true ∧ a.cols = b.rows))
  · rw [if_pos c6, hrm]
    by_cases c7 : a.identity ∧ a.square
    · rw [if_pos c7]; exact ⟨_, rfl⟩
    · rw [if_neg c7, hdivE _ _ (hcd c6.1)]
      obtain ⟨q, hq, -⟩ := scalarQuotient_ok (o := b) (s := a.constVal) (fixed := a.valFixed) (sc := a.cplx) hb
        (fun hc => ha.realConst hc (Or.inr c6.1)) hbsq
      exact ⟨q, hq⟩
  rw [if_neg c6]
  by_cases c7 : a.constObj ∧ b.constObj
  · rw [if_pos c7, hrm, hdivE _ _ (mul_ne_zero (by exact_mod_cast (by omega)) (hco c7.1))]
    exact ⟨_, rfl⟩
  rw [if_neg c7]
  rcases hshape with h' | ⟨hd, hs⟩ | h'
  · exact absurd h' c5
  · have hac : ¬ a.constObj := by
      intro hac
      rcases const_diagonal_oneDim hac hd c4 with g | ⟨g, g'⟩
      · exact c5 ⟨g.2, Or.inl g.1⟩
      · exact c6 ⟨Or.inr (Or.inr (Or.inr ⟨g, g'⟩)), Or.inl g⟩
    rw [if_neg (fun g => hac g.1), if_pos ⟨hd, hs⟩]
    have hsq := ha.square_eq hs
    obtain ⟨d, hdo, hdw, hds, -⟩ := diagonalOf_ok ha (diagonal_plain hd)
    have hdr : d.rows = a.rows := by have := hds.1; simp only [Arr.diagVec] at this; omega
    have hdc : d.cols = 1 := hds.2.1
    have hdg : ∀ i < b.rows, d.get i 0 = a.get i i := fun i hi => hds.2.2 i (by omega) 0 (by omega)
    obtain ⟨q, hq⟩ := nAryBroadcast_accepts (b := b) hdw hdc (by omega) (by omega) (fun i hi => by rw [hdg i hi]; exact hdiv i (by omega))
    obtain ⟨hval, hqr, hqc, hqw⟩ := nAryBroadcast_quot hb hdw hdc (by omega) hq
    rw [hdo]
    simp only [bind, Except.bind]
    rw [hq]
    refine wrapSolve_ok (by omega) hqw ?_
    by_cases hct : commonTri [a, b] = .none
    · right; left
      rintro (hh | hh)
      · exact c6 ⟨hh.1, Or.inl hs⟩
      · exact commonTri_diag_left hd (by rw [show b.triOf = .diagonal from WF.constDiag_diagonal hh.1]; simp) hct
    · exact Or.inl hct
  · exact absurd h' c7

theorem nonZeroFold_folds {l : List F} {r : F} (h : (nonZeroFold : RedOp F).Folds l r) : r = 0 ↔ ∀ y ∈ l, y = 0 := by
  obtain ⟨y, ys, rfl, rfl⟩ := h
  induction ys generalizing y with
  | nil => simp
  | cons z zs ih =>
    rw [List.foldl_cons, ih]
    by_cases hyz : y = 0 ∧ z = 0
    · simp [hyz]
    · rw [if_neg hyz]
      simp only [List.forall_mem_cons, one_ne_zero, false_and, false_iff]
      tauto

/-- The uniqueness test finds out whether every element is zero. -/
theorem reduceAll_nonZero (hw : o.WF) (h0r : 0 < o.rows) (h0c : 0 < o.cols) :
    ∃ v, reduceAll nonZeroFold o = .ok v ∧ (v = 0 ↔ ∀ i < o.rows, ∀ j < o.cols, o.get i j = 0) := by
  obtain ⟨v, hv, hf⟩ := reduceAll_ok nonZeroFold hw (Or.inl (Nat.mul_pos h0r h0c)) (fun _ => Or.inl (Nat.mul_pos h0r h0c)) (fun h => by
    refine reduce_general_ok nonZeroFold h (Or.inr ⟨?_, ?_⟩) true true (Or.inl rfl) (fun _ => h0r) (fun _ => h0c) 3
    · simp [nonZeroFold, isPlus]
    · simp [nonZeroFold, isTimes])
  refine ⟨v, hv, ?_⟩
  rw [nonZeroFold_folds hf]
  simp only [redList, collapse, if_true, List.mem_flatMap, List.mem_range, List.mem_map]
  constructor
  · intro h i hi j hj; exact h _ ⟨i, hi, j, hj, rfl⟩
  · rintro h y ⟨i, hi, j, hj, rfl⟩; exact h i hi j hj

/-- In the constant cases without further conditions the library is not consulted. -/
theorem solve_const_lib (lib lib' : Obj F → Obj F → Except Err (Arr F)) (h : a.constObj) : solve lib false false a b = solve lib' false false a b := by
  have hc8 : a.constObj ∧ (a.rowsIs 1 ∨ b.rowsIs 1 ∨ ((false : Bool) = false ∧ ((false : Bool) = false ∨ (a.statRows = true ∧ a.statCols = true ∧ a.cols ≤ a.rows)))) :=
    ⟨h, Or.inr (Or.inr ⟨rfl, Or.inl rfl⟩)⟩
  unfold solve
  rw [if_pos hc8, if_pos hc8]

theorem solve_shortcut_lib (lib lib' : Obj F → Obj F → Except Err (Arr F)) (unique exact : Bool)
    (hshape : (a.colsIs 1 ∧ (a.rowsIs 1 ∨ b.rowsIs 1)) ∨ (a.diagonal ∧ a.square) ∨ (a.constObj ∧ b.constObj)) :
    solve lib unique exact a b = solve lib' unique exact a b := by
  unfold solve
  rcases hshape with h | h | h
  · rw [if_pos h, if_pos h]
  · rw [if_pos h, if_pos h]
  · rw [if_pos h, if_pos h]

end Obj

/-! ### Least squares -/

section
variable {𝕜 : Type} [RCLike 𝕜]

/-- The mean minimises the sum of squared distances. -/
theorem mean_min (n : ℕ) (f : ℕ → 𝕜) (m t : 𝕜) (hm : (n : 𝕜) * m = ∑ i ∈ range n, f i) :
    ∑ i ∈ range n, ‖m - f i‖ ^ 2 ≤ ∑ i ∈ range n, ‖t - f i‖ ^ 2 := by
  have e : ∀ i, ‖t - f i‖ ^ 2 = ‖m - f i‖ ^ 2 + 2 * RCLike.re (inner 𝕜 (m - f i) (t - m)) + ‖t - m‖ ^ 2 := by
    intro i
    rw [← norm_add_sq (𝕜 := 𝕜)]
    congr 2; ring
  simp_rw [e]
  rw [Finset.sum_add_distrib, Finset.sum_add_distrib]
  have z : ∑ i ∈ range n, 2 * RCLike.re (inner 𝕜 (m - f i) (t - m)) = 0 := by
    rw [← Finset.mul_sum, ← map_sum, ← sum_inner, Finset.sum_sub_distrib, Finset.sum_const, card_range, nsmul_eq_mul, hm, sub_self, inner_zero_left]
    simp
  rw [z, add_zero]
  have : 0 ≤ ∑ _i ∈ range n, ‖t - m‖ ^ 2 := Finset.sum_nonneg fun _ _ => sq_nonneg _
  linarith

theorem Solves.leastSquares {a b x : Arr 𝕜} (h : Solves a b x) : LeastSquares a b x := by
  refine ⟨h.1, h.2.1, fun y _ _ => ?_⟩
  have : residual a b x = 0 := by
    unfold residual
    refine Finset.sum_eq_zero fun i hi => Finset.sum_eq_zero fun j hj => ?_
    rw [mem_range] at hi hj
    have h3 := h.2.2
    rw [h3.2.2 i (by rw [h3.1]; exact hi) j (by rw [h3.2.1]; exact hj), sub_self, norm_zero]
    simp
  rw [this]
  exact Finset.sum_nonneg fun _ _ => Finset.sum_nonneg fun _ _ => sq_nonneg _

theorem residual_congr {a b x y : Arr 𝕜} (h : x.Same y) (hr : x.rows = a.cols) (hc : x.cols = b.cols) : residual a b x = residual a b y := by
  unfold residual
  refine Finset.sum_congr rfl fun i _ => Finset.sum_congr rfl fun j hj => ?_
  rw [mem_range] at hj
  simp only [Arr.mul]
  rw [Finset.sum_congr rfl fun k hk => ?_]
  rw [mem_range] at hk
  rw [h.2.2 k (by omega) j (by omega)]

theorem LeastSquares.congr {a b x y : Arr 𝕜} (h : x.Same y) (hs : LeastSquares a b x) : LeastSquares a b y := by
  refine ⟨h.1 ▸ hs.1, h.2.1 ▸ hs.2.1, fun z h1 h2 => ?_⟩
  rw [← residual_congr h hs.1 hs.2.1]
  exact hs.2.2 z h1 h2

theorem const_leastSquares {a b : Obj 𝕜} (ha : a.WF) (hc : a.constObj) (hsq : a.rows = a.cols) (hr : a.rows = b.rows)
    (h0 : (a.cols : 𝕜) * a.constVal ≠ 0) : LeastSquares a.toArr b.toArr (b.toArr.map (· / ((a.cols : 𝕜) * a.constVal))) := by
  refine ⟨by show b.rows = a.cols; omega, rfl, fun y hy1 hy2 => ?_⟩
  have hmul : ∀ (z : Arr 𝕜) (i : ℕ), i < a.rows → ∀ j, (a.toArr.mul z).get i j = a.constVal * ∑ k ∈ range a.cols, z.get k j := by
    intro z i hi j
    simp only [Arr.mul]
    rw [Finset.mul_sum]
    refine Finset.sum_congr rfl fun k hk => ?_
    rw [mem_range] at hk
    rw [ha.const_get hc hi hk]
  unfold residual
  rw [Finset.sum_comm, Finset.sum_comm (s := range b.rows)]
  refine Finset.sum_le_sum fun j hj => ?_
  have key := mean_min b.rows (fun i => b.get i j) (a.constVal * ∑ k ∈ range a.cols, b.get k j / ((a.cols : 𝕜) * a.constVal))
    (a.constVal * ∑ k ∈ range a.cols, y.get k j) (by
      rw [← Finset.sum_div, ← hr, hsq]
      have hca : a.constVal ≠ 0 := right_ne_zero_of_mul h0
      have hn : (a.cols : 𝕜) ≠ 0 := left_ne_zero_of_mul h0
      field_simp)
  refine le_trans (le_of_eq ?_) (key.trans (le_of_eq ?_))
  · refine Finset.sum_congr rfl fun i hi => ?_
    rw [mem_range] at hi
    rw [hmul _ i (by omega) j]
    rfl
  · refine Finset.sum_congr rfl fun i hi => ?_
    rw [mem_range] at hi
    rw [hmul _ i (by omega) j]

theorem zero_leastSquares {a b : Obj 𝕜} (ha : a.WF) (hz : a.zero) (hr : a.rows = b.rows) {x : Arr 𝕜} (h1 : x.rows = a.cols) (h2 : x.cols = b.cols) :
    LeastSquares a.toArr b.toArr x := by
  refine ⟨h1, h2, fun y _ _ => le_of_eq ?_⟩
  unfold residual
  refine Finset.sum_congr rfl fun i hi => Finset.sum_congr rfl fun j _ => ?_
  rw [mem_range] at hi
  have : ∀ z : Arr 𝕜, (a.toArr.mul z).get i j = 0 := by
    intro z
    simp only [Arr.mul]
    refine Finset.sum_eq_zero fun k hk => ?_
    rw [mem_range] at hk
    rw [ha.zero_get hz (by omega) hk, zero_mul]
  rw [this, this]

open Obj in
theorem solve_leastSquares {a b x : Obj 𝕜} (lib : Obj 𝕜 → Obj 𝕜 → Except Err (Arr 𝕜)) (ha : a.WF) (hb : b.WF) (hc : a.constObj) (hsq : a.rows = a.cols)
    (hbsq : b.constDiag → ¬ b.constObj → b.rows = b.cols) (h : solve lib false false a b = .ok x) : LeastSquares a.toArr b.toArr x.toArr := by
  rw [solve_const_lib lib (fun _ _ => .error .illFormed) hc] at h
  by_cases hA : (b.constObj ∨ a.constDiag ∨ (a.colsIs 1 ∧ (a.rowsIs 1 ∨ b.rowsIs 1))) ∧ (a.zero → b.zero)
  · refine Solves.leastSquares (solve_sound (fun _ _ => .error .illFormed) false false ha hb (by simp) ?_ (fun _ => hA.1) hbsq (by simp) ?_ (by simp) h)
    · intro hz i hi j hj; exact hb.zero_get (hA.2 hz) hi hj
    · intro _ h'; exact absurd hc h'
  · unfold solve at h
    by_cases c1 : solveRequires false false a b
    swap
    · rw [if_pos c1] at h; cases h
    rw [if_neg (not_not.2 c1)] at h
    by_cases c2 : a.statRows = true ∧ b.statRows = true ∧ a.rows ≠ b.rows
    · rw [if_pos c2] at h; cases h
    rw [if_neg c2] at h
    have c3 : ¬ b.zero := fun g => hA ⟨Or.inl (Or.inr (Or.inl g)), fun _ => g⟩
    rw [if_neg c3] at h
    by_cases c4 : a.zero
    · rw [if_pos c4] at h
      obtain ⟨hr, h⟩ := rowsMatch_ok h c2
      cases h
      exact zero_leastSquares ha c4 hr rfl rfl
    rw [if_neg c4] at h
    have hA' : ¬ (b.constObj ∨ a.constDiag ∨ (a.colsIs 1 ∧ (a.rowsIs 1 ∨ b.rowsIs 1))) := fun g => hA ⟨g, fun g' => absurd g' c4⟩
    rw [not_or, not_or] at hA'
    rw [if_neg hA'.2.2, if_neg (fun g => hA'.2.1 g.1), if_neg (fun g => hA'.1 g.2), if_pos ⟨hc, Or.inr (Or.inr ⟨rfl, Or.inl rfl⟩)⟩] at h
    · obtain ⟨hr, h⟩ := rowsMatch_ok h c2
      obtain ⟨h0, h⟩ := divE_ok h
      obtain ⟨q, hq, h⟩ := bind_ok h
      obtain ⟨q', hq', hqs, hqw⟩ := scalarQuotient_ok (o := b) (s := (a.cols : 𝕜) * a.constVal) (fixed := a.valFixed && a.statCols) (sc := a.cplx) hb
        (fun hcx => by rw [star_mul', ha.realConst hcx (Or.inl hc)]; simp) hbsq
      rw [hq] at hq'; cases hq'
      have hqr : q.rows = b.rows := hqs.1
      have hqc : q.cols = b.cols := hqs.2.1
      have hqg : ∀ i < b.rows, ∀ j < b.cols, q.get i j = b.get i j / ((a.cols : 𝕜) * a.constVal) := fun i hi j hj => hqs.2.2 i (by omega) j (by omega)
      refine LeastSquares.congr ((wrapSolve_same hqw h ?_ ?_).trans hqs).symm (const_leastSquares ha hc hsq hr h0)
      · intro i hi j hj hm
        rw [hqg i (by omega) j (by omega), hb.triOf_get (by omega) (by omega) (commonTri_mem hm b (by simp)), zero_div]
      · rintro - (hh | hh) - i hi j hj hij
        · exact absurd hh.1 hA'.2.1
        · have hbd := WF.constDiag_diagonal hh.1
          have hbs := hbsq hh.1 hA'.1
          rw [hqg i (by omega) j (by omega), hqg j (by omega) i (by omega), hb.diagonal_get hbd (by omega) (by omega) (by omega),
            hb.diagonal_get hbd (by omega) (by omega) (by omega)]
          simp

end
end OpenKalman.LinAlg
