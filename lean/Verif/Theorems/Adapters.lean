import Mathlib.Analysis.Complex.Basic
import Verif.Proof.Adapters

/-!
# C80, C81: what towers of adapters say about themselves, and the checks when adapters are made
-/

namespace OpenKalman.Adapters
open Shape (Extent dimAt Size sizeComparesWith statics indexCount)
open LinAlg (Tri)
open Obj Tensor PatternDims
open scoped Classical
variable {𝕜 : Type} [RCLike 𝕜]

/-- Towers of adapters on arrays and constants.  The flag: a transposition changes the first dimension of what lies inside.  The conditions on
`conj`, `transpose` and `pattern` keep to the cases in which the code is right; the theorems ending in `violated` are about the others. -/
inductive Tower : Bool → Obj 𝕜 → Prop
  | raw {exts : List Extent} {get : (ℕ → ℕ) → 𝕜} {cplx : Bool} :
      Shape.Valid exts → (cplx = false → ∀ ix, star (get ix) = get ix) → Tower false (raw exts get cplx)
  | const {exts : List Extent} {c : 𝕜} {fixed cplx : Bool} :
      Shape.Valid exts → (cplx = false → star c = c) → Tower false (const c fixed exts cplx)
  | conj {b : Bool} {o : Obj 𝕜} : Tower b o → (∀ c f, o.cst = some (c, f) → star c = c) → Tower b o.conj
  | transpose {b : Bool} {o : Obj 𝕜} : Tower b o → Tower true (o.transpose 0 1)
  | triangular {b : Bool} {o : Obj 𝕜} (t : Tri) : Tower b o → Tower b (o.triangularAdapter t)
  | hermitian {b : Bool} {o : Obj 𝕜} {t : Tri} :
      Tower b o → t = .lower ∨ t = .upper → o.tensor.dim 0 = o.tensor.dim 1 → Tower false (o.hermitianAdapter t)
  | toDiagonal {b : Bool} {o : Obj 𝕜} {p : List Extent} :
      Tower b o → Shape.Valid p → o.tensor.dim 0 = min (dimAt p 0).value (dimAt p 1).value →
      (∀ k, o.tensor.dim (k + 1) = (dimAt p (k + 2)).value) → Tower false (o.toDiagonalAdapter p)
  | diagonalOf {b : Bool} {o r : Obj 𝕜} : Tower b o → o.diagonalOfAdapter = some r → Tower false r
  | pattern {b : Bool} {o : Obj 𝕜} {p : List Extent} :
      Tower b o → Shape.Valid p → (∀ k, (dimAt p k).value = o.tensor.dim k) →
      (o.cst = none ∨ ∀ k, (dimAt p k).fixed = (dimAt o.exts k).fixed) → (p.length = 1 → b = false) → Tower b (o.patternAdapter p)

theorem first_of_none {o : Obj 𝕜} (hv : Shape.Valid o.exts) (h : o.sq = none) : First o := by
  rintro ⟨-, h1 | ⟨f, hf, -⟩ | h1⟩
  · exact .inl (sdim_dim hv ((dimIs_iff 0 1).1 h1.2))
  · rw [h] at hf; cases hf
  · exact absurd rfl h1.1

theorem first_of_some {o : Obj 𝕜} (hv : Shape.Valid o.exts) {f : ℕ → Bool → Bool} (h : o.sq = some f)
    (hf : f 1 true = true → o.tensor.dim 0 = 1 ∨ o.tensor.dim 0 = o.tensor.dim 1) : First o := by
  rintro ⟨-, h1 | ⟨g, hg, h1⟩ | h1⟩
  · exact .inl (sdim_dim hv ((dimIs_iff 0 1).1 h1.2))
  · rw [h] at hg; cases hg; exact hf h1
  · exact absurd rfl h1.1

theorem tower_truthful {b : Bool} {o : Obj 𝕜} (h : Tower b o) : Truthful o ∧ (b = false → First o) := by
  induction h with
  | raw hv hr => exact ⟨raw_truthful hv fun hc ix _ => hr hc ix, fun _ => first_of_none hv rfl⟩
  | const hv hr => exact ⟨const_truthful hv hr, fun _ => first_of_none hv rfl⟩
  | conj _ hr ih =>
    exact ⟨conj_truthful ih.1 hr, fun hb => first_of_some ih.1.valid rfl fun h1 => ih.2 hb (of_decide_eq_true h1)⟩
  | transpose _ ih => exact ⟨transpose_truthful ih.1, fun hb => by cases hb⟩
  | triangular t _ ih =>
    exact ⟨triangular_truthful ih.1 t, fun hb => first_of_some ih.1.valid rfl fun h1 => ih.2 hb (of_decide_eq_true h1)⟩
  | hermitian _ ht hs ih => exact ⟨hermitian_truthful ih.1 ht hs, fun _ => first_of_some ih.1.valid rfl fun _ => .inr hs⟩
  | toDiagonal _ hp h0 hk ih => exact ⟨toDiagonal_truthful ih.1 hp h0 hk, fun _ => first_of_none hp rfl⟩
  | @diagonalOf b o r _ hr ih =>
    have := diagonalOf_truthful ih.1 hr
    refine ⟨this, fun _ => first_of_none this.valid ?_⟩
    unfold diagonalOfAdapter at hr
    by_cases hn : o.cst ≠ none ∧ ¬ (o.constObj ∨ o.constDiag)
    · rw [if_pos hn] at hr; cases hr
    · rw [if_neg hn] at hr
      rw [← Option.some.inj hr]
  | pattern _ hp hd hc hl ih =>
    refine ⟨pattern_truthful ih.1 hp hd hc fun h1 => ih.2 (hl h1), fun hb => first_of_some hp rfl fun h1 => ?_⟩
    rcases ih.2 hb (of_decide_eq_true h1) with e | e
    · exact .inl ((hd 0).trans e)
    · exact .inr ((hd 0).trans (e.trans (hd 1).symm))

theorem truthful_triangles {o : Obj 𝕜} (h : Truthful o) :
    (o.triangular .lower → o.tensor.Lower) ∧ (o.triangular .upper → o.tensor.Upper) := by
  constructor
  · rintro (e | ⟨-, e⟩) ix hi hlt <;> refine h.tri ix hi ?_
    · rw [← e]; simpa [Tri.mem] using hlt
    · rw [e]; simp only [Tri.mem]; omega
  · rintro (e | ⟨-, e⟩) ix hi hlt <;> refine h.tri ix hi ?_
    · rw [← e]; simpa [Tri.mem] using hlt
    · rw [e]; simp only [Tri.mem]; omega

/-- **C80** (partial: transpositions exchange indices 0 and 1; the constant inside a conjugate is real; a pattern put on an object with a constant fixes
the same dimensions, and one of rank 1 is not put on a transpose).  Whatever the tower of adapters, an object that satisfies a concept for sure has the
property that the concept stands for, and an object that has the property is not ruled out. -/
theorem C80_tower_partial {b : Bool} {o : Obj 𝕜} (h : Tower b o) :
    (o.zero → o.tensor.Constant 0) ∧ (o.oneDim → o.tensor.OneDim) ∧
    (∀ N, 2 ≤ N → o.squareShaped N true → o.tensor.Square N) ∧ (∀ N, 2 ≤ N → o.tensor.Square N → o.squareShaped N false) ∧
    (o.triangular .lower → o.tensor.Lower) ∧ (o.triangular .upper → o.tensor.Upper) ∧
    (o.diagonal → o.tensor.Lower ∧ o.tensor.Upper) ∧ (o.constObj → o.tensor.Constant o.constVal) ∧
    (o.constDiag → o.tensor.ConstantDiagonal o.constVal) ∧ (o.identity → o.tensor.ConstantDiagonal 1) ∧
    (o.hermitian → o.tensor.Hermitian) ∧ (o.cplx = false → o.tensor.Real) := by
  have t := (tower_truthful h).1
  obtain ⟨hl, hu⟩ := truthful_triangles t
  refine ⟨t.isZero, t.oneDim, fun N => t.square, fun N => t.squareMay, hl, hu, fun hd => ?_, t.isConst, t.isConstDiag, fun hi => ?_, t.isHerm, t.real⟩
  · have e := diag_iff.1 hd
    exact ⟨hl (.inr ⟨.inr rfl, e⟩), hu (.inr ⟨.inl rfl, e⟩)⟩
  · rw [← hi.2.2]; exact t.isConstDiag hi.1

/-! ### Evaluation of the concepts on given objects -/

theorem not_oneDim {o : Obj 𝕜} (h : compareWithDimensionConcept POrd.isEq none true o.collType 1 = false)
    (h' : o.exts.length ≠ 1 ∧ ∀ i < o.exts.length, o.dimIs i 1 true = false) : ¬ o.oneDim := by
  rintro (e | ⟨-, e | ⟨i, hi, e⟩⟩)
  · rw [h] at e; cases e
  · exact h'.1 e
  · rw [h'.2 i hi] at e; cases e

theorem triOf_impl {o : Obj 𝕜} (h0 : ¬ o.zero) (h1 : ¬ o.oneDim) (h2 : ¬ o.vector 0) (h3 : ¬ o.vector 1) : o.triOf = o.triImpl := by
  unfold triOf
  by_cases hd : o.triImpl = .diagonal
  · rw [if_pos (.inr (.inr hd)), hd]
  · rw [if_neg (by rintro (h | h | h) <;> [exact h0 h; exact h1 h; exact hd h]), if_neg h2, if_neg h3]

/-- A fixed dimension. -/
def fx (n : ℕ) : Extent := ⟨some n, n⟩
/-- A dimension known at run time. -/
def dy (n : ℕ) : Extent := ⟨none, n⟩

/-- The identity from its parts: the diagonal of a 2×2×1 array of ones put on a diagonal is found to be an identity. -/
example : ∃ o r : Obj ℝ, o.diagonalOfAdapter = some r ∧ Tower false (r.toDiagonalAdapter [fx 2, fx 2]) ∧
    (r.toDiagonalAdapter [fx 2, fx 2]).identity ∧ (r.toDiagonalAdapter [fx 2, fx 2]).tensor.ConstantDiagonal 1 := by
  have hv : ∀ l : List ℕ, Shape.Valid (l.map fx) := by
    intro l e he n hn
    obtain ⟨m, -, rfl⟩ := List.mem_map.1 he
    exact Option.some.inj hn
  have hconst : (const (1 : ℝ) true [fx 2, fx 2] false).constObj := .inr (.inl (by simp [const]))
  have hr : (const (1 : ℝ) true [fx 2, fx 2] false).diagonalOfAdapter = some
      ⟨[fx 2], 1, fun _ => 1, false, some 1, some (1, true), none, none, false⟩ := by
    unfold diagonalOfAdapter
    rw [if_neg (fun h => h.2 (.inl hconst)), if_pos (by simp [const])]
    rfl
  have hrc : (⟨[fx 2], 1, fun _ => 1, false, some 1, some (1, true), none, none, false⟩ : Obj ℝ).constObj := .inr (.inl (by simp))
  have ht : Tower false ((⟨[fx 2], 1, fun _ => 1, false, some 1, some (1, true), none, none, false⟩ : Obj ℝ).toDiagonalAdapter [fx 2, fx 2]) := by
    refine .toDiagonal (.diagonalOf (.const (hv [2, 2]) fun _ => star_trivial _) hr) (hv [2, 2]) (by decide) fun k => ?_
    show (dimAt [fx 2] (k + 1)).value = _
    rw [dimAt_beyond (by simp), dimAt_beyond (by simp)]
  have hid : ((⟨[fx 2], 1, fun _ => 1, false, some 1, some (1, true), none, none, false⟩ : Obj ℝ).toDiagonalAdapter [fx 2, fx 2]).identity := by
    have hc : ((⟨[fx 2], 1, fun _ => 1, false, some 1, some (1, true), none, none, false⟩ : Obj ℝ).toDiagonalAdapter [fx 2, fx 2]).cst = some (1, true) := by
      unfold toDiagonalAdapter
      simp only [if_pos hrc]
      rfl
    refine ⟨.inl ⟨by rw [hc]; simp, diag_iff.2 ?_⟩, ?_, ?_⟩
    · unfold triOf; exact if_pos (.inr (.inr rfl))
    · unfold valFixed; rw [hc]
    · unfold constVal; rw [hc]
  exact ⟨_, _, hr, ht, hid, (C80_tower_partial ht).2.2.2.2.2.2.2.2.2.1 hid⟩

/-! ### Where the traits are wrong -/

/-- **C80 is violated** (a transposition of other indices): the traits of the nested object are passed on.  A 2×2×3 array with indices 0 and 2 exchanged is
3×2×2 and is said for sure to be square. -/
theorem C80_transpose_square_violated (get : (ℕ → ℕ) → ℝ) :
    ((raw [fx 2, fx 2, fx 3] get false).transpose 0 2).squareShaped 2 true ∧
    ¬ ((raw [fx 2, fx 2, fx 3] get false).transpose 0 2).tensor.Square 2 := by
  constructor
  · refine ⟨by decide, .inr (.inl ⟨_, rfl, decide_eq_true ?_⟩)⟩
    exact ⟨by decide, .inr (.inr ⟨by decide, rfl, rfl⟩)⟩
  · intro h
    have := h 1 (by decide)
    revert this
    show ¬ (dimAt (transposeExts 0 2 [fx 2, fx 2, fx 3]) 1).value = (dimAt (transposeExts 0 2 [fx 2, fx 2, fx 3]) 0).value
    decide

/-- **C80 is violated** (a transposition of other indices): a lower-triangular 2×2×2 array with indices 0 and 2 exchanged is said to be upper-triangular. -/
theorem C80_transpose_triangle_violated :
    ∃ o : Obj ℝ, Tower false o ∧ (o.transpose 0 2).triangular .upper ∧ ¬ (o.transpose 0 2).tensor.Upper := by
  have hv : Shape.Valid [fx 2, fx 2, fx 2] := by
    intro e he n hn
    simp only [List.mem_cons, List.not_mem_nil, or_false, or_self] at he
    subst he; exact Option.some.inj hn
  have ht : Tower false ((raw [fx 2, fx 2, fx 2] (fun _ => (1 : ℝ)) false).triangularAdapter .lower) :=
    .triangular _ (.raw hv fun _ _ => star_trivial _)
  have hraw : (raw [fx 2, fx 2, fx 2] (fun _ => (1 : ℝ)) false).triOf = .none := by
    rw [triOf_impl]
    · rfl
    · rintro (h | h) <;> cases h
    · exact not_oneDim (by decide) (by decide)
    · intro h; exact absurd (h 1 (by decide)) (by decide)
    · intro h; exact absurd (h 0 (by decide)) (by decide)
  have htri : ((raw [fx 2, fx 2, fx 2] (fun _ => (1 : ℝ)) false).triangularAdapter .lower).triOf = .lower := by
    rw [triOf_impl]
    · show Tri.times .lower (raw [fx 2, fx 2, fx 2] (fun _ => (1 : ℝ)) false).triOf = _
      rw [hraw]; rfl
    · rintro (h | h) <;> cases h
    · exact not_oneDim (by decide) (by decide)
    · intro h; exact absurd (h 1 (by decide)) (by decide)
    · intro h; exact absurd (h 0 (by decide)) (by decide)
  refine ⟨_, ht, ?_, ?_⟩
  · left
    rw [triOf_impl]
    · show _ = flip ((raw [fx 2, fx 2, fx 2] (fun _ => (1 : ℝ)) false).triangularAdapter .lower).triOf
      rw [htri]; rfl
    · rintro (h | h) <;> cases h
    · exact not_oneDim (by decide) (by decide)
    · intro h; exact absurd (h 1 (by decide)) (by decide)
    · intro h; exact absurd (h 0 (by decide)) (by decide)
  · intro h
    have := h (fun k => if k = 0 ∨ k = 2 then 1 else 0) (fun k => ?_) (by decide)
    · revert this
      show ¬ (if Tri.mem .lower (if Equiv.swap 0 2 0 = 0 ∨ Equiv.swap 0 2 0 = 2 then 1 else 0) (if Equiv.swap 0 2 1 = 0 ∨ Equiv.swap 0 2 1 = 2 then 1 else 0)
        then (1 : ℝ) else 0) = 0
      rw [if_pos (by show _ ≤ _; decide)]
      exact one_ne_zero
    · show (if k = 0 ∨ k = 2 then 1 else 0) < (dimAt (transposeExts 0 2 [fx 2, fx 2, fx 2]) k).value
      rcases k with _ | _ | _ | k
      · decide
      · decide
      · decide
      · rw [if_neg (by omega), dimAt_beyond (by simp [transposeExts, dimAt, fx])]; decide

/-- **C80 is violated** (conjugates of complex constants): `conjugate_adapter` gives the constant of the nested object without conjugating it. -/
theorem C80_conjugate_violated :
    ∃ o : Obj ℂ, Tower false o ∧ o.conj.constObj ∧ ¬ o.conj.tensor.Constant o.conj.constVal := by
  have hv : Shape.Valid [fx 2, fx 2] := by
    intro e he n hn
    simp only [List.mem_cons, List.not_mem_nil, or_false, or_self] at he
    subst he; exact Option.some.inj hn
  have hz : ∀ o : Obj ℂ, o.cst = some (Complex.I, false) → o.elemFixed = none → ¬ o.zero := by
    rintro o h1 h2 (h | h)
    · rw [h1] at h; simp at h
    · rw [h2] at h; cases h
  have h0 : (const Complex.I false [fx 2, fx 2] true).triOf = .none := by
    rw [triOf_impl (hz _ rfl rfl)]
    · rfl
    · exact not_oneDim (by decide) (by decide)
    · intro h; exact absurd (h 1 (by decide)) (by decide)
    · intro h; exact absurd (h 0 (by decide)) (by decide)
  refine ⟨const Complex.I false [fx 2, fx 2] true, .const hv (by simp), .inl ⟨by simp [Obj.conj, const], .inl ?_⟩, ?_⟩
  · rw [triOf_impl (hz _ rfl rfl)]
    · exact h0
    · exact not_oneDim (by decide) (by decide)
    · intro h; exact absurd (h 1 (by decide)) (by decide)
    · intro h; exact absurd (h 0 (by decide)) (by decide)
  · intro h
    have := h (fun _ => 0) fun k => ?_
    · have e : star Complex.I = Complex.I := this
      have := congrArg Complex.im e
      simp at this
      norm_num at this
    · show 0 < (dimAt [fx 2, fx 2] k).value
      rcases k with _ | _ | k
      · decide
      · decide
      · rw [dimAt_beyond (by simp)]; decide

/-- **C80 is violated** (a pattern that fixes dimensions): the upper triangle of a constant whose dimensions are known at run time is not said to be constant, but is
when a pattern 3×1 is put on it. -/
theorem C80_pattern_constant_violated :
    ∃ o : Obj ℝ, Tower false o ∧ Shape.Valid [fx 3, fx 1] ∧ (∀ k, (dimAt [fx 3, fx 1] k).value = o.tensor.dim k) ∧
      (o.patternAdapter [fx 3, fx 1]).constObj ∧ ¬ (o.patternAdapter [fx 3, fx 1]).tensor.Constant (o.patternAdapter [fx 3, fx 1]).constVal := by
  have hv : Shape.Valid [dy 3, dy 1] := by
    intro e he n hn
    simp only [List.mem_cons, List.not_mem_nil, or_false] at he
    rcases he with rfl | rfl <;> cases hn
  have hz : ∀ o : Obj ℝ, o.cst = some (1, false) → o.elemFixed = none → ¬ o.zero := by
    rintro o h1 h2 (h | h)
    · rw [h1] at h; simp at h
    · rw [h2] at h; cases h
  have h0 : (const (1 : ℝ) false [dy 3, dy 1] false).triOf = .none := by
    rw [triOf_impl (hz _ rfl rfl)]
    · rfl
    · exact not_oneDim (by decide) (by decide)
    · intro h; exact absurd (h 1 (by decide)) (by decide)
    · intro h; exact absurd (h 0 (by decide)) (by decide)
  have h1 : ((const (1 : ℝ) false [dy 3, dy 1] false).triangularAdapter .upper).triOf = .upper := by
    rw [triOf_impl (hz _ rfl rfl)]
    · show Tri.times .upper (const (1 : ℝ) false [dy 3, dy 1] false).triOf = _
      rw [h0]; rfl
    · exact not_oneDim (by decide) (by decide)
    · intro h; exact absurd (h 1 (by decide)) (by decide)
    · intro h; exact absurd (h 0 (by decide)) (by decide)
  have hvec : (((const (1 : ℝ) false [dy 3, dy 1] false).triangularAdapter .upper).patternAdapter [fx 3, fx 1]).vector 0 := by
    intro i hi
    have hi : i < 2 := hi
    rcases i with _ | _ | i
    · exact .inl rfl
    · exact .inr (by decide)
    · omega
  have hsq : ¬ ((const (1 : ℝ) false [dy 3, dy 1] false).triangularAdapter .upper).squareShaped 2 true := by
    rintro ⟨-, h | ⟨f, hf, h⟩ | h⟩
    · exact absurd h.1 (by decide)
    · cases hf
      have h := of_decide_eq_true h
      rcases h with ⟨-, h | ⟨f, hf, h⟩ | h⟩
      · exact absurd h.1 (by decide)
      · cases hf
      · exact absurd h.2.2 (by decide)
    · exact absurd h.2.1 (by simp [triangularAdapter])
  have hnone : ¬ (((const (1 : ℝ) false [dy 3, dy 1] false).triangularAdapter .upper).patternAdapter [fx 3, fx 1]).oneDim := by
    rintro (h | ⟨⟨-, h | ⟨f, hf, h⟩ | h⟩, -⟩)
    · exact absurd h (by decide)
    · exact absurd h.1 (by decide)
    · cases hf; exact hsq (of_decide_eq_true h)
    · exact absurd h.2.1 (by simp [patternAdapter])
  have h2 : (((const (1 : ℝ) false [dy 3, dy 1] false).triangularAdapter .upper).patternAdapter [fx 3, fx 1]).triOf = .lower := by
    unfold triOf
    rw [if_neg, if_pos hvec]
    rintro (h | h | h)
    · exact hz _ rfl rfl h
    · exact hnone h
    · have h : ((const (1 : ℝ) false [dy 3, dy 1] false).triangularAdapter .upper).triOf = .diagonal := h
      rw [h1] at h; cases h
  refine ⟨_, .triangular .upper (.const hv fun _ => star_trivial _), ?_, ?_, .inl ⟨by simp [patternAdapter, triangularAdapter, const], .inr (.inl ⟨h2, hvec⟩)⟩, ?_⟩
  · intro e he n hn
    simp only [List.mem_cons, List.not_mem_nil, or_false] at he
    rcases he with rfl | rfl <;> exact Option.some.inj hn
  · intro k
    show _ = (dimAt [dy 3, dy 1] k).value
    rcases k with _ | _ | k
    · rfl
    · rfl
    · rw [dimAt_beyond (by simp), dimAt_beyond (by simp)]
  · intro h
    have := h (fun k => if k = 0 then 1 else 0) fun k => ?_
    · have e : (if Tri.mem .upper 1 0 then (1 : ℝ) else 0) = 1 := this
      rw [if_neg (by simp [Tri.mem])] at e
      exact zero_ne_one e
    · show (if k = 0 then 1 else 0) < (dimAt [fx 3, fx 1] k).value
      rcases k with _ | _ | k
      · decide
      · decide
      · rw [dimAt_beyond (by simp)]; exact Nat.one_pos

/-- **C80 is violated** (a pattern of rank 1 on a transpose): the transpose of a row with 3 elements, given the pattern 3, is said to have one element. -/
theorem C80_pattern_rank1_violated (get : (ℕ → ℕ) → ℝ) :
    (((raw [fx 1, dy 3] get false).transpose 0 1).patternAdapter [fx 3]).oneDim ∧
    ¬ (((raw [fx 1, dy 3] get false).transpose 0 1).patternAdapter [fx 3]).tensor.OneDim ∧
    ∀ k, (dimAt [fx 3] k).value = ((raw [fx 1, dy 3] get false).transpose 0 1).tensor.dim k := by
  refine ⟨.inr ⟨⟨Nat.one_pos, .inr (.inl ⟨_, rfl, decide_eq_true ?_⟩)⟩, .inl rfl⟩, fun h => absurd (h 0) (show ¬ (3 = 1) by decide), fun k => ?_⟩
  · refine ⟨Nat.one_pos, .inr (.inl ⟨_, rfl, decide_eq_true ?_⟩)⟩
    exact ⟨Nat.one_pos, .inl ⟨rfl, rfl⟩⟩
  · show _ = (dimAt (transposeExts 0 1 [fx 1, dy 3]) k).value
    rcases k with _ | _ | k
    · decide
    · decide
    · rw [dimAt_beyond (by simp), dimAt_beyond (by simp [transposeExts, dimAt, fx, dy])]

/-- **C80 is violated** (the diagonal of a constant triangle): `diagonal_of_adapter` says that it has a constant but cannot give it. -/
theorem C80_diagonal_constant_violated :
    ∃ o : Obj ℝ, Tower false o ∧ o.tensor.Lower ∧ (∀ ix, o.tensor.Inb ix → ix 0 = ix 1 → o.get ix = 1) ∧ o.diagonalOfAdapter = none := by
  have hv : Shape.Valid [fx 2, fx 2] := by
    intro e he n hn
    simp only [List.mem_cons, List.not_mem_nil, or_false, or_self] at he
    subst he; exact Option.some.inj hn
  have hz : ∀ o : Obj ℝ, o.cst = some (1, false) → o.elemFixed = none → ¬ o.zero := by
    rintro o h1 h2 (h | h)
    · rw [h1] at h; simp at h
    · rw [h2] at h; cases h
  have h0 : (const (1 : ℝ) false [fx 2, fx 2] false).triOf = .none := by
    rw [triOf_impl (hz _ rfl rfl)]
    · rfl
    · exact not_oneDim (by decide) (by decide)
    · intro h; exact absurd (h 1 (by decide)) (by decide)
    · intro h; exact absurd (h 0 (by decide)) (by decide)
  have hno : ¬ ((const (1 : ℝ) false [fx 2, fx 2] false).triangularAdapter .lower).oneDim := not_oneDim (by decide) (by decide)
  have hv0 : ¬ ((const (1 : ℝ) false [fx 2, fx 2] false).triangularAdapter .lower).vector 0 := fun h => absurd (h 1 (by decide)) (by decide)
  have h1 : ((const (1 : ℝ) false [fx 2, fx 2] false).triangularAdapter .lower).triOf = .lower := by
    rw [triOf_impl (hz _ rfl rfl) hno hv0]
    · show Tri.times .lower (const (1 : ℝ) false [fx 2, fx 2] false).triOf = _
      rw [h0]; rfl
    · intro h; exact absurd (h 0 (by decide)) (by decide)
  have ht : Tower false ((const (1 : ℝ) false [fx 2, fx 2] false).triangularAdapter .lower) :=
    .triangular .lower (.const hv fun _ => star_trivial _)
  refine ⟨_, ht, (C80_tower_partial ht).2.2.2.2.1 (.inl h1.symm), fun ix _ hd => ?_, ?_⟩
  · show (if Tri.mem .lower (ix 0) (ix 1) then (1 : ℝ) else 0) = 1
    exact if_pos (mem_diag hd)
  · unfold diagonalOfAdapter
    refine if_pos ⟨by simp [triangularAdapter, const], ?_⟩
    rintro ((⟨-, h | h | h⟩ | h | h | h) | (⟨-, h⟩ | h | h))
    · rw [h1] at h; cases h
    · exact hv0 h.2
    · rw [h1] at h; exact absurd h.1 (by decide)
    · exact h rfl
    · exact hz _ rfl rfl h
    · exact hno h
    · rw [diag_iff, h1] at h; cases h
    · exact hz _ rfl rfl h
    · exact hno h

/-- **C80 is violated** (square in one dimension): a 3×3 Hermitian adapter satisfies `square_shaped<1>` for sure, which stands for a first dimension of 1. -/
theorem C80_hermitian_square_violated (get : (ℕ → ℕ) → ℝ) :
    ((raw [fx 3, fx 3] get false).hermitianAdapter .lower).squareShaped 1 true ∧
    ((raw [fx 3, fx 3] get false).hermitianAdapter .lower).tensor.dim 0 = 3 ∧ ¬ (raw [fx 3, fx 3] get false).squareShaped 1 true := by
  refine ⟨⟨by decide, .inr (.inl ⟨_, rfl, by simp⟩)⟩, rfl, ?_⟩
  rintro ⟨-, h | ⟨f, hf, -⟩ | h⟩
  · exact absurd h.2 Bool.false_ne_true
  · cases hf
  · exact absurd rfl h.1

/-- **C80 is violated** (patterns with fixed dimensions): a pattern 3×3 put on an array with dimensions known at run time does not make it square for sure,
although the same dimensions without an adapter do. -/
theorem C80_pattern_square_violated (get : (ℕ → ℕ) → ℝ) :
    ¬ ((raw [dy 3, dy 3] get false).patternAdapter [fx 3, fx 3]).squareShaped 2 true ∧ (raw [fx 3, fx 3] get false).squareShaped 2 true := by
  constructor
  · rintro ⟨-, h | ⟨f, hf, h⟩ | h⟩
    · exact absurd h.1 (by decide)
    · cases hf
      have h := of_decide_eq_true h
      rcases h with ⟨-, h | ⟨f, hf, h⟩ | h⟩
      · exact absurd h.1 (by decide)
      · cases hf
      · exact absurd h.2.2 Bool.false_ne_true
    · exact absurd h.2.1 (by simp [patternAdapter])
  · exact ⟨by decide, .inr (.inr ⟨by decide, rfl, rfl⟩)⟩

/-! ## C81 -/

theorem commonDimension_square {o : Obj 𝕜} (hv : Shape.Valid o.exts) :
    commonDimension (some 2) o.coll ≠ none ↔ o.tensor.dim 0 = o.tensor.dim 1 := by
  obtain ⟨h1, h2⟩ := C76_common_partial (some 2) (by decide) o.coll (coll_valid hv) (by simp [coll])
  constructor
  · intro h
    obtain ⟨d, hd⟩ := Option.ne_none_iff_exists'.1 h
    have hc := h1 d hd
    have e0 := hc 0 (show 0 < 2 by decide)
    have e1 := hc 1 (show 1 < 2 by decide)
    rw [coll_padded] at e0 e1
    rw [e0, e1]
  · intro he hn
    refine h2 hn ⟨o.tensor.dim 0, fun i hi => ?_⟩
    have hi : i < 2 := hi
    rw [coll_padded]
    rcases i with _ | _ | i
    · rfl
    · exact he.symm
    · omega

theorem square2 {t : Tensor 𝕜} : t.Square 2 ↔ t.dim 0 = t.dim 1 := by
  constructor
  · intro h; exact (h 1 (by decide)).symm
  · intro h i hi
    rcases i with _ | _ | i
    · rfl
    · exact h.symm
    · omega

/-- **C81** (Hermitian adapters): for a tower of adapters, a triangle and a constant that, if known at compile time, is real, making a `hermitian_adapter`
succeeds if and only if the object is square.  What is made keeps the triangle and the real parts on the diagonal, is Hermitian, and is known to be. -/
theorem C81_hermitian {b : Bool} {o : Obj 𝕜} (h : Tower b o) {t : Tri} (ht : t = .lower ∨ t = .upper)
    (hc : (o.constObj ∨ o.constDiag) → o.valFixed = true → star o.constVal = o.constVal) :
    (o.tensor.dim 0 = o.tensor.dim 1 → o.makeHermitian t = .ok (o.hermitianAdapter t)) ∧
    (o.tensor.dim 0 ≠ o.tensor.dim 1 → o.makeHermitian t = .throws ∨ o.makeHermitian t = .illFormed) ∧
    (∀ r, o.makeHermitian t = .ok r → r.tensor.Hermitian ∧ r.hermitian ∧ r.tensor.dim = o.tensor.dim ∧
      (∀ ix, r.tensor.Inb ix → ix 0 ≠ ix 1 → t.mem (ix 0) (ix 1) → r.get ix = o.get ix) ∧
      (∀ ix, r.tensor.Inb ix → ix 0 = ix 1 → r.get ix = ((RCLike.re (o.get ix) : ℝ) : 𝕜))) := by
  have tr := (tower_truthful h).1
  have hcc : ¬ (o.constObj ∨ o.constDiag) ∨ o.valFixed = false ∨ star o.constVal = o.constVal := by
    by_cases h1 : o.constObj ∨ o.constDiag
    · cases h2 : o.valFixed
      · exact .inr (.inl rfl)
      · exact .inr (.inr (hc h1 h2))
    · exact .inl h1
  have hok : o.tensor.dim 0 = o.tensor.dim 1 → o.makeHermitian t = .ok (o.hermitianAdapter t) := by
    intro he
    unfold makeHermitian
    rw [if_pos ⟨tr.squareMay le_rfl (square2.2 he), ht, hcc⟩, if_neg]
    rintro ⟨-, hn⟩
    exact (commonDimension_square tr.valid).2 he hn
  have hno : o.tensor.dim 0 ≠ o.tensor.dim 1 → o.makeHermitian t = .throws ∨ o.makeHermitian t = .illFormed := by
    intro he
    unfold makeHermitian
    split_ifs with h1 h2
    · exact .inl rfl
    · exfalso
      refine h2 ⟨fun hs => he (square2.1 (tr.square le_rfl hs)), ?_⟩
      by_contra hn
      exact he ((commonDimension_square tr.valid).1 hn)
    · exact .inr rfl
  refine ⟨hok, hno, fun r hr => ?_⟩
  by_cases he : o.tensor.dim 0 = o.tensor.dim 1
  · rw [hok he] at hr
    cases hr
    refine ⟨((hermitian_truthful tr ht he).herm) rfl, ⟨⟨by decide, .inr (.inl ⟨_, rfl, by simp⟩)⟩, .inl rfl⟩, rfl, fun ix _ hne hm => ?_, fun ix _ hd => ?_⟩
    · show hermGet t o.get ix = _
      unfold hermGet
      rw [if_neg hne, if_pos hm]
    · show hermGet t o.get ix = _
      unfold hermGet
      rw [if_pos hd]
  · rcases hno he with e | e <;> rw [e] at hr <;> cases hr

/-- `to_hermitian` returns Hermitian objects unchanged and otherwise makes an adapter; what it returns is Hermitian. -/
theorem C81_to_hermitian {b : Bool} {o : Obj 𝕜} (h : Tower b o) {t : Tri} (ht : t = .lower ∨ t = .upper)
    (hc : (o.constObj ∨ o.constDiag) → o.valFixed = true → star o.constVal = o.constVal) :
    (o.hermitian → o.toHermitian t = .ok o) ∧
    ((∃ r, o.toHermitian t = .ok r) ↔ o.tensor.dim 0 = o.tensor.dim 1) ∧
    (∀ r, o.toHermitian t = .ok r → r.tensor.Hermitian ∧ r.tensor.dim = o.tensor.dim ∧
      ∀ ix, r.tensor.Inb ix → ix 0 ≠ ix 1 → t.mem (ix 0) (ix 1) → r.get ix = o.get ix) := by
  have tr := (tower_truthful h).1
  obtain ⟨h1, h2, h3⟩ := C81_hermitian h ht hc
  have hcc : ¬ (o.constObj ∨ o.constDiag) ∨ o.valFixed = false ∨ star o.constVal = o.constVal := by
    by_cases h1 : o.constObj ∨ o.constDiag
    · cases h2 : o.valFixed
      · exact .inr (.inl rfl)
      · exact .inr (.inr (hc h1 h2))
    · exact .inl h1
  have hself : o.hermitian → o.toHermitian t = .ok o := by
    intro hh
    unfold toHermitian
    rw [if_pos ⟨tr.squareMay le_rfl (square2.2 (tr.isHerm hh).1), ht, hcc⟩, if_pos hh]
  have hmake : ¬ o.hermitian → ∀ r, o.toHermitian t = .ok r → o.makeHermitian t = .ok r := by
    intro hn r hr
    unfold toHermitian at hr
    split_ifs at hr
    exact hr
  refine ⟨hself, ⟨fun ⟨r, hr⟩ => ?_, fun he => ?_⟩, fun r hr => ?_⟩
  · by_cases hh : o.hermitian
    · exact (tr.isHerm hh).1
    · by_contra he
      have := hmake hh r hr
      rcases h2 he with e | e <;> rw [e] at this <;> cases this
  · by_cases hh : o.hermitian
    · exact ⟨o, hself hh⟩
    · refine ⟨o.hermitianAdapter t, ?_⟩
      unfold toHermitian
      rw [if_pos ⟨tr.squareMay le_rfl (square2.2 he), ht, hcc⟩, if_neg hh, h1 he]
  · by_cases hh : o.hermitian
    · rw [hself hh] at hr
      cases hr
      exact ⟨tr.isHerm hh, rfl, fun _ _ _ _ => rfl⟩
    · obtain ⟨a, -, c, d, -⟩ := h3 r (hmake hh r hr)
      exact ⟨a, c, d⟩

/-- Not square at run time: an array of 2×3 throws. -/
example : (raw [dy 2, dy 3] (fun _ => (1 : ℝ)) false).makeHermitian .lower = .throws := by
  have hv : Shape.Valid [dy 2, dy 3] := by
    intro e he n hn
    simp only [List.mem_cons, List.not_mem_nil, or_false] at he
    rcases he with rfl | rfl <;> cases hn
  have ht : Tower false (raw [dy 2, dy 3] (fun _ => (1 : ℝ)) false) := .raw hv fun _ _ => star_trivial _
  rcases (C81_hermitian ht (t := .lower) (.inl rfl) fun _ _ => star_trivial _).2.1 (show ¬ (2 = 3) by decide) with h | h
  · exact h
  · unfold makeHermitian at h
    rw [if_pos ⟨⟨by decide, .inr (.inr ⟨by decide, rfl, by decide⟩)⟩, .inl rfl, .inr (.inr (star_trivial _))⟩] at h
    split_ifs at h

theorem extsCompare_guaranteed {p e : List Extent} (hp : Shape.Valid p) (he : Shape.Valid e) (h : extsCompare true p e = true) (k : ℕ) :
    (dimAt p k).value = (dimAt e k).value := by
  rcases Nat.lt_or_ge k (max p.length e.length) with hk | hk
  · have := List.all_eq_true.1 h k (List.mem_range.2 hk)
    rcases hf : (dimAt e k).fixed with _ | n
    · rw [hf] at this
      rcases hg : (dimAt p k).fixed with _ | m <;> rw [hg] at this <;> simp [Size.ofOption, sizeComparesWith] at this
      exact absurd this.2 (by decide)
    · rw [hf] at this
      rw [dimAt_valid he k hf, dimAt_valid hp k ((guaranteed_one _ _).1 this)]
  · rw [dimAt_beyond (le_trans (le_max_left _ _) hk), dimAt_beyond (le_trans (le_max_right _ _) hk)]

theorem extsCompare_may {p e : List Extent} (h : extsCompare true p e = true) : extsCompare false p e = true := by
  refine List.all_eq_true.2 fun k hk => ?_
  have := List.all_eq_true.1 h k hk
  revert this
  rcases (dimAt p k).fixed with _ | m <;> rcases (dimAt e k).fixed with _ | n <;> simp [Size.ofOption, sizeComparesWith]
  · exact fun _ h => absurd h (by decide)
  · exact fun _ h => absurd h (by decide)

/-- **C81** (partial: dimensions that match for sure at compile time).  `pattern_adapter` and `to_diagonal_adapter` are made, with or without assertions, and have
the dimensions of the pattern. -/
theorem C81_pattern_partial (o : Obj 𝕜) (hv : Shape.Valid o.exts) (p : List Extent) (hp : Shape.Valid p) (debug : Bool) :
    (extsCompare true p o.exts = true → o.makePattern debug p = .ok (o.patternAdapter p) ∧ ∀ k, (o.patternAdapter p).tensor.dim k = o.tensor.dim k) ∧
    (extsCompare true (diagonalExts p) o.exts = true → o.makeToDiagonal debug p = .ok (o.toDiagonalAdapter p) ∧
      o.tensor.dim 0 = min (dimAt p 0).value (dimAt p 1).value ∧ ∀ k, o.tensor.dim (k + 1) = (dimAt p (k + 2)).value) := by
  have hd : Shape.Valid (diagonalExts p) := valid_of_dimAt fun k n hk => (diagonalExts_value hp k).2 n hk
  constructor
  · intro h
    refine ⟨?_, extsCompare_guaranteed hp hv h⟩
    unfold makePattern
    rw [if_pos (extsCompare_may h), h]; rfl
  · intro h
    refine ⟨?_, ?_, fun k => ?_⟩
    · unfold makeToDiagonal
      rw [if_pos (extsCompare_may h), h]; rfl
    · rw [show o.tensor.dim 0 = _ from (extsCompare_guaranteed hd hv h 0).symm]; exact (diagonalExts_value hp 0).1
    · rw [show o.tensor.dim (k + 1) = _ from (extsCompare_guaranteed hd hv h (k + 1)).symm]; exact (diagonalExts_value hp (k + 1)).1

/-- **C81** (dimensions that differ at compile time): neither is made. -/
theorem C81_pattern_mismatch (o : Obj 𝕜) (p : List Extent) (debug : Bool) :
    (∀ k m n, (dimAt p k).fixed = some m → (dimAt o.exts k).fixed = some n → m ≠ n → o.makePattern debug p = .illFormed) ∧
    (∀ k m n, (dimAt (diagonalExts p) k).fixed = some m → (dimAt o.exts k).fixed = some n → m ≠ n → o.makeToDiagonal debug p = .illFormed) := by
  have key : ∀ p : List Extent, ∀ k m n, (dimAt p k).fixed = some m → (dimAt o.exts k).fixed = some n → m ≠ n → extsCompare false p o.exts = false := by
    intro p k m n h1 h2 hne
    rw [Bool.eq_false_iff]
    intro h
    rcases Nat.lt_or_ge k (max p.length o.exts.length) with hk | hk
    · have := List.all_eq_true.1 h k (List.mem_range.2 hk)
      rw [h1, h2] at this
      simp [Size.ofOption, sizeComparesWith, POrd.isEq] at this
      revert this
      rcases lt_trichotomy m n with h | h | h
      · simp [Collections.cmpNat, h]
      · exact absurd h hne
      · simp [Collections.cmpNat, hne, not_lt_of_gt h]
    · rw [dimAt_beyond (le_trans (le_max_left _ _) hk)] at h1
      rw [dimAt_beyond (le_trans (le_max_right _ _) hk)] at h2
      simp only [Option.some.injEq] at h1 h2
      exact hne (h1.symm.trans h2)
  constructor
  · intro k m n h1 h2 hne
    unfold makePattern
    rw [key p k m n h1 h2 hne]; rfl
  · intro k m n h1 h2 hne
    unfold makeToDiagonal
    rw [key _ k m n h1 h2 hne]; rfl

/-- **C81 is violated** (patterns known at run time): with assertions on, `pattern_adapter` aborts for the pattern that the object has and accepts another
one; with assertions off it accepts any.  `to_diagonal_adapter` aborts for a 3×3 pattern on 3 elements and accepts the pattern 1. -/
theorem C81_assertions_violated (get : (ℕ → ℕ) → ℝ) :
    (raw [dy 3] get false).makePattern true [dy 3] = .aborts ∧
    (raw [dy 3] get false).makePattern true [dy 4] = .ok ((raw [dy 3] get false).patternAdapter [dy 4]) ∧
    (raw [dy 3] get false).makePattern false [dy 4] = .ok ((raw [dy 3] get false).patternAdapter [dy 4]) ∧
    (raw [dy 3] get false).makeToDiagonal true [dy 3, dy 3] = .aborts ∧
    (raw [dy 3] get false).makeToDiagonal true [dy 1] = .ok ((raw [dy 3] get false).toDiagonalAdapter [dy 1]) ∧
    (raw [dy 3] get false).makeToDiagonal false [dy 4, dy 4] = .ok ((raw [dy 3] get false).toDiagonalAdapter [dy 4, dy 4]) :=
  ⟨rfl, rfl, rfl, rfl, rfl, rfl⟩

end OpenKalman.Adapters
