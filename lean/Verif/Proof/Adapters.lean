import Verif.Model.Adapters
import Verif.Theorems.Shape
import Verif.Theorems.PatternDims

/-!
# Proofs about the adapters on tensors
-/

namespace OpenKalman.Adapters

open Shape (Extent Size sizeComparesWith dimAt statics indexCount)
open PatternDims (CollType Coll compareWithDimensionConcept haveSameDimensionConcept commonDimension)
open LinAlg (Tri)
open Tensor (swapIx)
open scoped Classical

/-! ## Extents -/

theorem dimAt_valid {e : List Extent} (h : Shape.Valid e) (k : ℕ) {n : ℕ} (hn : (dimAt e k).fixed = some n) : (dimAt e k).value = n := by
  unfold dimAt at hn ⊢
  rw [List.getD_eq_getElem?_getD] at hn ⊢
  rcases hk : e[k]? with _ | x
  · rw [hk] at hn; simpa using hn
  · rw [hk] at hn; exact h x (List.mem_of_getElem? hk) n hn

theorem dimAt_beyond {e : List Extent} {k : ℕ} (h : e.length ≤ k) : dimAt e k = ⟨some 1, 1⟩ := by
  unfold dimAt
  rw [List.getD_eq_getElem?_getD, List.getElem?_eq_none h]; rfl

theorem guaranteed_one (d : Option ℕ) (v : ℕ) : sizeComparesWith POrd.isEq true (Size.ofOption d) (.fixed v) = true ↔ d = some v := by
  have h := Shape.scw_guaranteed_iff .eq d v
  rw [show Shape.Rel.test .eq = POrd.isEq from rfl] at h
  rw [h]
  constructor
  · intro hx
    cases d with
    | none =>
      have h1 : (v + 1 : ℕ) = v := hx (v + 1) (by simp)
      omega
    | some n => exact congrArg some (hx n (by simp))
  · rintro rfl x hx; exact hx v rfl

theorem count_static {e : List Extent} {k : ℕ} (h : indexCount (statics e) ≤ k) : (dimAt e k).fixed = some 1 := by
  rcases Nat.lt_or_ge k e.length with hk | hk
  · have := Shape.indexCount_one h (by simpa [statics] using hk)
    unfold dimAt
    rw [List.getD_eq_getElem?_getD]
    simp only [statics, List.getElem?_map, Option.map_eq_some_iff] at this
    obtain ⟨x, hx, h1⟩ := this
    rw [hx]; exact h1
  · rw [dimAt_beyond hk]

theorem transposeExts_dimAt {e : List Extent} (h : Shape.Valid e) {a b : ℕ} (hab : a < b) (k : ℕ) :
    dimAt (Obj.transposeExts a b e) k = dimAt e (Equiv.swap a b k) := by
  unfold Obj.transposeExts
  split_ifs with hc
  · obtain ⟨h1, h2⟩ := hc
    have heq : dimAt e a = dimAt e b := by
      obtain ⟨n, hn⟩ := Option.ne_none_iff_exists'.1 h1
      ext1
      · exact h2
      · rw [dimAt_valid h a hn, dimAt_valid h b (h2 ▸ hn)]
    rcases eq_or_ne k a with rfl | hka
    · rw [Equiv.swap_apply_left, heq]
    · rcases eq_or_ne k b with rfl | hkb
      · rw [Equiv.swap_apply_right, heq]
      · rw [Equiv.swap_apply_of_ne_of_ne hka hkb]
  · rcases Nat.lt_or_ge k (max e.length (b + 1)) with hk | hk
    · conv_lhs => unfold dimAt
      rw [List.getD_eq_getElem?_getD]
      simp only [List.getElem?_map, List.getElem?_range hk, Option.map_some, Option.getD_some]
      exact List.getD_eq_getElem?_getD
    · have h1 : e.length ≤ k := le_trans (le_max_left _ _) hk
      have h2 : b + 1 ≤ k := le_trans (le_max_right _ _) hk
      rw [dimAt_beyond (by simpa using hk), Equiv.swap_apply_of_ne_of_ne (by omega) (by omega), dimAt_beyond h1]

theorem valid_of_dimAt {e : List Extent} (h : ∀ k n, (dimAt e k).fixed = some n → (dimAt e k).value = n) : Shape.Valid e := by
  intro x hx n hn
  obtain ⟨k, hk, rfl⟩ := List.getElem_of_mem hx
  have hd : dimAt e k = e[k] := by unfold dimAt; rw [List.getD_eq_getElem?_getD, List.getElem?_eq_getElem hk]; rfl
  have := h k n (by rw [hd]; exact hn)
  rwa [hd] at this

theorem transposeExts_valid {e : List Extent} (h : Shape.Valid e) {a b : ℕ} (hab : a < b) : Shape.Valid (Obj.transposeExts a b e) :=
  valid_of_dimAt fun k n hn => by rw [transposeExts_dimAt h hab] at hn ⊢; exact dimAt_valid h _ hn

theorem smallerExt_value {a b : Extent} (ha : ∀ n, a.fixed = some n → a.value = n) (hb : ∀ n, b.fixed = some n → b.value = n) :
    (Obj.smallerExt a b).value = min a.value b.value ∧ ∀ n, (Obj.smallerExt a b).fixed = some n → (Obj.smallerExt a b).value = n := by
  have mem : ∀ x : Extent, (∀ n, x.fixed = some n → x.value = n) → x.value ∈ (Size.ofOption x.fixed).values := by
    intro x hx
    cases hf : x.fixed with
    | none => simp [Size.ofOption, Shape.Size.values]
    | some n => simpa [Size.ofOption, Shape.Size.values] using hx n hf
  have nu : ∀ d : Option ℕ, Size.ofOption d ≠ .unbounded := by intro d; cases d <;> simp [Size.ofOption]
  unfold Obj.smallerExt
  split_ifs with h1 h2
  · have := Shape.scw_sound _ _ _ (nu _) (nu _) h1 _ (mem a ha) _ (mem b hb)
    rw [PatternDims.isLteq_test, Shape.test_natCmp] at this
    exact ⟨(min_eq_left this).symm, ha⟩
  · have := Shape.scw_sound _ _ _ (nu _) (nu _) h2 _ (mem a ha) _ (mem b hb)
    rw [show POrd.isGt = Shape.Rel.test .gt by funext o; cases o <;> rfl, Shape.test_natCmp] at this
    exact ⟨(min_eq_right (le_of_lt this)).symm, hb⟩
  · exact ⟨rfl, by simp⟩

theorem diagonalExts_value {e : List Extent} (h : Shape.Valid e) (k : ℕ) :
    (dimAt (Obj.diagonalExts e) k).value = (if k = 0 then min (dimAt e 0).value (dimAt e 1).value else (dimAt e (k + 1)).value) ∧
    ∀ n, (dimAt (Obj.diagonalExts e) k).fixed = some n → (dimAt (Obj.diagonalExts e) k).value = n := by
  rcases e with _ | ⟨a, _ | ⟨b, rest⟩⟩
  · have hd : ∀ j, dimAt [] j = ⟨some 1, 1⟩ := fun j => dimAt_beyond (by simp)
    simp only [Obj.diagonalExts, hd]
    exact ⟨by split_ifs <;> rfl, by simp⟩
  · have ha : ∀ n, a.fixed = some n → a.value = n := h a (by simp)
    have hs := smallerExt_value (b := ⟨some 1, 1⟩) ha (by simp)
    simp only [Obj.diagonalExts]
    cases k with
    | zero => exact ⟨by simpa [dimAt] using hs.1, by simpa [dimAt] using hs.2⟩
    | succ k => simp [dimAt]
  · have ha : ∀ n, a.fixed = some n → a.value = n := h a (by simp)
    have hb : ∀ n, b.fixed = some n → b.value = n := h b (by simp)
    have hs := smallerExt_value ha hb
    simp only [Obj.diagonalExts]
    cases k with
    | zero => exact ⟨by simpa [dimAt] using hs.1, by simpa [dimAt] using hs.2⟩
    | succ k =>
      have hd : dimAt (Obj.smallerExt a b :: rest) (k + 1) = dimAt (a :: b :: rest) (k + 1 + 1) := by simp [dimAt]
      rw [hd]
      exact ⟨by simp, fun n hn => dimAt_valid h _ hn⟩

/-! ## Triangles -/

theorem mem_diag {t : Tri} {i j : ℕ} (h : i = j) : t.mem i j := by subst h; cases t <;> simp [Tri.mem]

theorem mem_times {a b : Tri} {i j : ℕ} : (a.times b).mem i j ↔ a.mem i j ∧ b.mem i j := by
  cases a <;> cases b <;> simp [Tri.times, Tri.mem] <;> omega

theorem mem_flip {t : Tri} {i j : ℕ} : (Obj.flip t).mem i j ↔ t.mem j i := by cases t <;> simp [Obj.flip, Tri.mem]; exact eq_comm

namespace Obj
variable {𝕜 : Type} [RCLike 𝕜]

/-! ## Facts that the traits must get right -/

/-- What the traits say apart from triangles and constants is true. -/
structure Base (o : Obj 𝕜) : Prop where
  valid : Shape.Valid o.exts
  count : ∀ k, o.count ≤ k → o.tensor.dim k = 1
  real : o.cplx = false → o.tensor.Real
  elem : ∀ c, o.elemFixed = some c → o.tensor.Constant c
  sq : ∀ f, o.sq = some f → ∀ N, 2 ≤ N → f N true = true → o.tensor.Square N
  sq1 : o.exts.length = 1 → ∀ f, o.sq = some f → f 1 true = true → o.tensor.dim 0 = 1
  sqMay : ∀ f, o.sq = some f → ∀ N, 2 ≤ N → o.tensor.Square N → f N false = true
  herm : o.herm = true → o.tensor.Hermitian

/-- Everything the traits say is true. -/
structure Truthful (o : Obj 𝕜) : Prop extends Base o where
  tri : ∀ ix, o.tensor.Inb ix → ¬ o.triOf.mem (ix 0) (ix 1) → o.get ix = 0
  cst : ∀ c b, o.cst = some (c, b) → ∀ ix, o.tensor.Inb ix → o.triOf.mem (ix 0) (ix 1) → o.get ix = c

variable {o : Obj 𝕜}

theorem dimIs_iff (i v : ℕ) : o.dimIs i v true = true ↔ o.sdim i = some v := guaranteed_one _ _

theorem sdim_dim (hv : Shape.Valid o.exts) {i n : ℕ} (h : o.sdim i = some n) : o.tensor.dim i = n := dimAt_valid hv i h

theorem coherent (o : Obj 𝕜) : PatternDims.Coherent o.collType := by intro n f _ h; simp [collType, CollType.fixedCommon] at h

theorem coll_valid (hv : Shape.Valid o.exts) : PatternDims.Valid o.coll := by
  refine ⟨?_, ?_, ?_, ?_, ?_⟩
  · intro n hn; simp only [coll, collType, Size.fixed.injEq] at hn ⊢; rw [hn]
  · intro h; simp [coll, collType] at h
  · intro h; simp [coll, collType] at h
  · intro n _ i _ f hf; exact dimAt_valid hv i hf
  · intro f hf; simp [coll, collType, CollType.fixedCommon] at hf

theorem coll_padded (o : Obj 𝕜) (i : ℕ) : o.coll.dims.padded i = o.tensor.dim i := by
  unfold PatternDims.Dims.padded
  by_cases hi : i < o.exts.length
  · rw [if_pos ((PatternDims.has_of_len (c := o.coll.dims) rfl i).2 hi)]; rfl
  · rw [if_neg fun h => hi ((PatternDims.has_of_len (c := o.coll.dims) rfl i).1 h)]
    show 1 = (dimAt o.exts i).value
    rw [dimAt_beyond (by omega)]

theorem haveSame_sound (hv : Shape.Valid o.exts) {N : ℕ} (h : haveSameDimensionConcept (some N) true o.collType = true) : o.tensor.Square N := by
  have h1 := ((PatternDims.C76_same_concept_partial (some N) o.collType _ rfl o.coherent).1 (by simp)).1 h o.coll (coll_valid hv) rfl
  obtain ⟨d, hd⟩ := h1
  intro i hi
  have e1 := hd i hi
  have e0 := hd 0 (show 0 < N by omega)
  rw [coll_padded] at e1 e0
  rw [e1, e0]

theorem haveSame_may (hv : Shape.Valid o.exts) {N : ℕ} (h : o.tensor.Square N) : haveSameDimensionConcept (some N) false o.collType = true := by
  refine (PatternDims.C76_same_concept_partial (some N) o.collType _ rfl o.coherent).2.2 ⟨o.coll, coll_valid hv, rfl, o.tensor.dim 0, ?_⟩
  intro i hi
  rw [coll_padded]; exact h i hi

theorem compare_sound (hv : Shape.Valid o.exts) (h : compareWithDimensionConcept POrd.isEq none true o.collType 1 = true) : o.tensor.OneDim := by
  have h1 := (PatternDims.C76_compare_concept .eq none o.collType _ 1 rfl o.coherent).1.1 h o.coll (coll_valid hv) rfl
  intro k
  rcases Nat.lt_or_ge k o.exts.length with hk | hk
  · have := h1 k ((PatternDims.has_of_len (c := o.coll.dims) rfl k).2 hk)
    rw [coll_padded] at this; exact this
  · show (dimAt o.exts k).value = 1
    rw [dimAt_beyond hk]

theorem compare_of_static (h : ∀ k, o.sdim k = some 1) : compareWithDimensionConcept POrd.isEq none true o.collType 1 = true := by
  simp only [compareWithDimensionConcept, collType, Option.getD_none, List.all_eq_true, List.mem_range]
  intro i hi
  rw [guaranteed_one]
  simp [CollType.elemFixed, hi, h]

theorem Base.square (b : Base o) {N : ℕ} (hN : 2 ≤ N) (h : o.squareShaped N true) : o.tensor.Square N := by
  obtain ⟨_, h | ⟨f, hf, h⟩ | ⟨_, _, h⟩⟩ := h
  · omega
  · exact b.sq f hf N hN h
  · exact haveSame_sound b.valid h

theorem Base.squareMay (b : Base o) {N : ℕ} (hN : 2 ≤ N) (h : o.tensor.Square N) : o.squareShaped N false := by
  refine ⟨by omega, ?_⟩
  rcases hs : o.sq with _ | f
  · exact .inr (.inr ⟨by omega, rfl, haveSame_may b.valid h⟩)
  · exact .inr (.inl ⟨f, rfl, b.sqMay f hs N hN h⟩)

theorem Base.square1 (b : Base o) (hl : o.exts.length = 1) (h : o.squareShaped 1 true) : o.tensor.dim 0 = 1 := by
  obtain ⟨_, ⟨_, h⟩ | ⟨f, hf, h⟩ | ⟨h, _⟩⟩ := h
  · exact sdim_dim b.valid ((dimIs_iff 0 1).1 h)
  · exact b.sq1 hl f hf h
  · exact absurd rfl h

theorem Base.oneDim (b : Base o) (h : o.oneDim) : o.tensor.OneDim := by
  rcases h with h | ⟨hs, h⟩
  · exact compare_sound b.valid h
  · have hd : ∀ k, o.exts.length ≤ k → o.tensor.dim k = 1 := fun k hk => by
      show (dimAt o.exts k).value = 1
      rw [dimAt_beyond hk]
    have hpos : 0 < o.exts.length := hs.1
    rcases Nat.lt_or_ge o.exts.length 2 with hl | hl
    · have hl1 : o.exts.length = 1 := by omega
      rw [hl1] at hs
      have h0 := b.square1 hl1 hs
      intro k
      rcases Nat.eq_zero_or_pos k with rfl | hk
      · exact h0
      · exact hd k (by omega)
    · have hsq := b.square hl hs
      obtain ⟨i, hi, h1⟩ : ∃ i < o.exts.length, o.dimIs i 1 true = true := by
        rcases h with h | h
        · omega
        · exact h
      have h1' := sdim_dim b.valid ((dimIs_iff i 1).1 h1)
      intro k
      rcases Nat.lt_or_ge k o.exts.length with hk | hk
      · rw [hsq k hk, ← hsq i hi, h1']
      · exact hd k hk

theorem Base.vector (b : Base o) {N : ℕ} (h : o.vector N) {i : ℕ} (hi : i ≠ N) : o.tensor.dim i = 1 := by
  rcases Nat.lt_or_ge i o.count with hc | hc
  · rcases h i hc with e | e
    · exact absurd e.symm hi
    · exact sdim_dim b.valid ((dimIs_iff i 1).1 e)
  · exact b.count i hc

/-- Triangles and constants are true if the traits' own triangle is, and does not clash with the shape of a vector. -/
theorem Truthful.of (b : Base o) (himp : ∀ ix, o.tensor.Inb ix → ¬ o.triImpl.mem (ix 0) (ix 1) → o.get ix = 0)
    (hc : ∀ c f, o.cst = some (c, f) → ∀ ix, o.tensor.Inb ix → o.triImpl.mem (ix 0) (ix 1) → o.get ix = c)
    (hv0 : o.cst ≠ none → o.vector 0 → o.triImpl ≠ .upper ∨ o.tensor.OneDim)
    (hv1 : o.cst ≠ none → o.vector 1 → ¬ o.vector 0 → o.triImpl ≠ .lower ∨ o.tensor.OneDim) : Truthful o := by
  have hone : o.tensor.OneDim → ∀ ix, o.tensor.Inb ix → ix 0 = ix 1 := by
    intro h ix hi
    have h0 := hi 0; have h1 := hi 1
    rw [h] at h0 h1
    omega
  have hz : o.zero → ∀ ix, o.tensor.Inb ix → o.get ix = 0 := by
    rintro (h | h) ix hi
    · by_cases hm : o.triImpl.mem (ix 0) (ix 1)
      · exact hc 0 true h ix hi hm
      · exact himp ix hi hm
    · exact b.elem 0 h ix hi
  have v0 : o.vector 0 → ∀ ix, o.tensor.Inb ix → ix 1 = 0 := by
    intro h ix hi
    have := hi 1
    rw [b.vector h (by decide)] at this; omega
  have v1 : o.vector 1 → ∀ ix, o.tensor.Inb ix → ix 0 = 0 := by
    intro h ix hi
    have := hi 0
    rw [b.vector h (by decide)] at this; omega
  refine ⟨b, ?_, ?_⟩
  · intro ix hi hm
    unfold triOf at hm
    split_ifs at hm with h1 h2 h3
    · rcases h1 with h | h | h
      · exact hz h ix hi
      · exact absurd (hone (b.oneDim h) ix hi) hm
      · exact himp ix hi (by rw [h]; exact hm)
    · exact absurd (show ix 1 ≤ ix 0 by rw [v0 h2 ix hi]; omega) hm
    · exact absurd (show ix 0 ≤ ix 1 by rw [v1 h3 ix hi]; omega) hm
    · exact himp ix hi hm
  · intro c f hcst ix hi hm
    have hne : o.cst ≠ none := by rw [hcst]; simp
    unfold triOf at hm
    split_ifs at hm with h1 h2 h3
    · exact hc c f hcst ix hi (mem_diag hm)
    · have hd : o.triImpl ≠ .diagonal := fun h => h1 (.inr (.inr h))
      apply hc c f hcst ix hi
      rcases hv0 hne h2 with h | h
      · cases ht : o.triImpl with
        | none => trivial
        | lower => exact hm
        | upper => exact absurd ht h
        | diagonal => exact absurd ht hd
      · exact mem_diag (hone h ix hi)
    · have hd : o.triImpl ≠ .diagonal := fun h => h1 (.inr (.inr h))
      apply hc c f hcst ix hi
      rcases hv1 hne h3 h2 with h | h
      · cases ht : o.triImpl with
        | none => trivial
        | upper => exact hm
        | lower => exact absurd ht h
        | diagonal => exact absurd ht hd
      · exact mem_diag (hone h ix hi)
    · exact hc c f hcst ix hi hm

theorem triOf_vector0 (h : o.vector 0) : o.triOf = .diagonal ∨ o.triOf = .lower := by
  unfold triOf
  split_ifs
  · exact .inl rfl
  · exact .inr rfl

theorem triOf_vector1 (h : o.vector 1) (h0 : ¬ o.vector 0) : o.triOf = .diagonal ∨ o.triOf = .upper := by
  unfold triOf
  split_ifs
  · exact .inl rfl
  · exact .inr rfl

/-! ## What the concepts say about an object whose traits are true -/

theorem Truthful.isZero (h : Truthful o) (hz : o.zero) : o.tensor.Constant 0 := by
  intro ix hi
  rcases hz with hz | hz
  · by_cases hm : o.triOf.mem (ix 0) (ix 1)
    · exact h.cst 0 true hz ix hi hm
    · exact h.tri ix hi hm
  · exact h.elem 0 hz ix hi

theorem diag_iff : o.diagonal ↔ o.triOf = .diagonal := by simp [Obj.diagonal, triangular, eq_comm]

theorem oneDim_ix (h : o.tensor.OneDim) {ix : ℕ → ℕ} (hi : o.tensor.Inb ix) : ix = fun _ => 0 := by
  funext k
  have := hi k
  rw [h k] at this; omega

/-- The constant value is the element at every position of the diagonal of a constant-diagonal object and everywhere in a constant one. -/
theorem Truthful.constVal_of (h : Truthful o) (hc : o.constObj ∨ o.constDiag) {ix : ℕ → ℕ} (hi : o.tensor.Inb ix)
    (hm : o.constObj ∨ ix 0 = ix 1) : o.get ix = o.constVal := by
  unfold constVal
  rcases hcst : o.cst with _ | ⟨c, f⟩
  · rcases he : o.elemFixed with _ | c
    · have hz : ¬ o.zero := by rintro (h | h) <;> simp_all
      have h1 : o.oneDim := by
        rcases hc with (⟨h, _⟩ | h | h | h) | ⟨h, _⟩ | h | h
        · exact absurd hcst h
        · exact absurd he h
        · exact absurd h hz
        · exact h
        · exact absurd hcst h
        · exact absurd h hz
        · exact h
      rw [oneDim_ix (h.oneDim h1) hi]
    · exact h.elem c he ix hi
  · show o.get ix = c
    by_cases hdg : ix 0 = ix 1
    · exact h.cst c f hcst ix hi (mem_diag hdg)
    · have hco : o.constObj := hm.resolve_right hdg
      have hone : ¬ o.oneDim := fun h1 => hdg (by rw [oneDim_ix (h.oneDim h1) hi])
      have h00 : o.tensor.Inb (fun _ => 0) := fun k => lt_of_le_of_lt (Nat.zero_le _) (hi k)
      have hc0 : o.get (fun _ => 0) = c := h.cst c f hcst _ h00 (mem_diag rfl)
      have v0 : o.vector 0 → ix 1 = 0 := by
        intro hv
        have := hi 1
        rw [h.vector hv (by decide)] at this; omega
      have v1 : o.vector 1 → ix 0 = 0 := by
        intro hv
        have := hi 0
        rw [h.vector hv (by decide)] at this; omega
      rcases hco with ⟨_, ht | ⟨ht, hv⟩ | ⟨ht, hv⟩⟩ | he | hz | h1
      · exact h.cst c f hcst ix hi (by rw [ht]; trivial)
      · exact h.cst c f hcst ix hi (by rw [ht, v0 hv]; exact Nat.zero_le _)
      · exact h.cst c f hcst ix hi (by rw [ht, v1 hv]; exact Nat.zero_le _)
      · obtain ⟨d, hd⟩ := Option.ne_none_iff_exists'.1 he
        exact ((h.elem d hd ix hi).trans (h.elem d hd _ h00).symm).trans hc0
      · exact ((h.isZero hz ix hi).trans (h.isZero hz _ h00).symm).trans hc0
      · exact absurd h1 hone

theorem Truthful.isConst (h : Truthful o) (hc : o.constObj) : o.tensor.Constant o.constVal :=
  fun _ hi => h.constVal_of (.inl hc) hi (.inl hc)

theorem Truthful.isConstDiag (h : Truthful o) (hc : o.constDiag) : o.tensor.ConstantDiagonal o.constVal := by
  intro ix hi
  split_ifs with hd
  · exact h.constVal_of (.inr hc) hi (.inr hd)
  · rcases hc with ⟨_, hc⟩ | hc | hc
    · exact h.tri ix hi (by rw [diag_iff.1 hc]; exact hd)
    · exact h.isZero hc ix hi
    · exact absurd (by rw [oneDim_ix (h.oneDim hc) hi]) hd

theorem Truthful.isHerm (h : Truthful o) (hh : o.hermitian) : o.tensor.Hermitian := by
  obtain ⟨hs, hh | ⟨hh, hc⟩⟩ := hh
  · exact h.herm hh
  · have hsq : o.tensor.dim 0 = o.tensor.dim 1 := (h.square (le_refl 2) hs 1 (by decide)).symm
    refine ⟨hsq, fun ix hi => ?_⟩
    have hsw : o.tensor.Inb (swapIx 0 1 ix) := by
      intro k
      unfold swapIx
      rcases eq_or_ne k 0 with rfl | h0
      · rw [Equiv.swap_apply_left, hsq]; exact hi 1
      · rcases eq_or_ne k 1 with rfl | h1
        · rw [Equiv.swap_apply_right, ← hsq]; exact hi 0
        · rw [Equiv.swap_apply_of_ne_of_ne h0 h1]; exact hi k
    rw [h.real hc ix hi]
    rcases hh with hh | hh
    · exact (h.isConst hh _ hsw).trans (h.isConst hh _ hi).symm
    · by_cases hd : ix 0 = ix 1
      · congr 1
        funext k
        unfold swapIx
        rcases eq_or_ne k 0 with rfl | h0
        · rw [Equiv.swap_apply_left, hd]
        · rcases eq_or_ne k 1 with rfl | h1
          · rw [Equiv.swap_apply_right, hd]
          · rw [Equiv.swap_apply_of_ne_of_ne h0 h1]
      · have e1 : o.get ix = 0 := h.tri ix hi (by rw [diag_iff.1 hh]; exact hd)
        have e2 : o.get (swapIx 0 1 ix) = 0 := h.tri _ hsw (by
          rw [diag_iff.1 hh]
          show ¬ ix (Equiv.swap 0 1 0) = ix (Equiv.swap 0 1 1)
          rw [Equiv.swap_apply_left, Equiv.swap_apply_right]
          exact fun h => hd h.symm)
        show o.get (swapIx 0 1 ix) = o.get ix
        rw [e1, e2]

/-! ## The adapters keep the traits true -/

theorem swap_inb {t : Tensor 𝕜} (h : t.dim 0 = t.dim 1) {ix : ℕ → ℕ} (hi : t.Inb ix) : t.Inb (swapIx 0 1 ix) := by
  intro k
  unfold swapIx
  rcases eq_or_ne k 0 with rfl | h0
  · rw [Equiv.swap_apply_left, h]; exact hi 1
  · rcases eq_or_ne k 1 with rfl | h1
    · rw [Equiv.swap_apply_right, ← h]; exact hi 0
    · rw [Equiv.swap_apply_of_ne_of_ne h0 h1]; exact hi k

theorem swap_swap (a b : ℕ) (ix : ℕ → ℕ) : swapIx a b (swapIx a b ix) = ix := by
  funext k; simp [swapIx]

theorem swap_eq {ix : ℕ → ℕ} (h : ix 0 = ix 1) : swapIx 0 1 ix = ix := by
  funext k
  unfold swapIx
  rcases eq_or_ne k 0 with rfl | h0
  · rw [Equiv.swap_apply_left, h]
  · rcases eq_or_ne k 1 with rfl | h1
    · rw [Equiv.swap_apply_right, h]
    · rw [Equiv.swap_apply_of_ne_of_ne h0 h1]

theorem swap_zero (ix : ℕ → ℕ) : swapIx 0 1 ix 0 = ix 1 := by unfold swapIx; rw [Equiv.swap_apply_left]
theorem swap_one (ix : ℕ → ℕ) : swapIx 0 1 ix 1 = ix 0 := by unfold swapIx; rw [Equiv.swap_apply_right]

theorem count_dim {e : List Extent} (h : Shape.Valid e) {k : ℕ} (hk : indexCount (statics e) ≤ k) : (dimAt e k).value = 1 :=
  dimAt_valid h k (count_static hk)

theorem raw_truthful {exts : List Extent} {get : (ℕ → ℕ) → 𝕜} {cplx : Bool} (hv : Shape.Valid exts)
    (hr : cplx = false → (raw exts get cplx).tensor.Real) : Truthful (raw exts get cplx) := by
  refine Truthful.of ⟨hv, fun k hk => count_dim hv hk, hr, ?_, ?_, ?_, ?_, ?_⟩ ?_ ?_ ?_ ?_
  · intro c h; cases h
  · intro f h; cases h
  · intro _ f h; cases h
  · intro f h; cases h
  · intro h; cases h
  · intro ix _ h; exact absurd trivial h
  · intro c f h; cases h
  · intro h; exact absurd rfl h
  · intro h; exact absurd rfl h

theorem const_truthful {exts : List Extent} {c : 𝕜} {fixed cplx : Bool} (hv : Shape.Valid exts) (hr : cplx = false → star c = c) :
    Truthful (const c fixed exts cplx) := by
  refine Truthful.of ⟨hv, fun k hk => count_dim hv hk, fun h _ _ => hr h, ?_, ?_, ?_, ?_, ?_⟩ ?_ ?_ ?_ ?_
  · intro d h
    cases fixed <;> simp [const] at h
    intro ix _; exact h
  · intro f h; cases h
  · intro _ f h; cases h
  · intro f h; cases h
  · intro h; cases h
  · intro ix _ h; exact absurd trivial h
  · intro d f h ix _ _
    simp only [const, Option.some.injEq, Prod.mk.injEq] at h
    exact h.1
  · intro _ _; exact .inl (by simp [triImpl, const])
  · intro _ _ _; exact .inl (by simp [triImpl, const])

theorem conj_truthful (h : Truthful o) (hr : ∀ c b, o.cst = some (c, b) → star c = c) : Truthful o.conj := by
  refine Truthful.of ⟨h.valid, h.count, ?_, ?_, ?_, ?_, ?_, ?_⟩ ?_ ?_ ?_ ?_
  · intro hc ix hi
    show star (star (o.get ix)) = star (o.get ix)
    rw [show star (o.get ix) = o.get ix from h.real hc ix hi, show star (o.get ix) = o.get ix from h.real hc ix hi]
  · intro c hc ix hi
    obtain ⟨d, hd, rfl⟩ := Option.map_eq_some_iff.1 hc
    show star (o.get ix) = star d
    rw [show o.get ix = d from h.elem d hd ix hi]
  · rintro f ⟨⟩ N hN hf; exact h.square hN (of_decide_eq_true hf)
  · rintro hl f ⟨⟩ hf; exact h.square1 hl (of_decide_eq_true hf)
  · rintro f ⟨⟩ N hN hs; exact decide_eq_true (h.squareMay hN hs)
  · intro hh
    obtain ⟨h1, h2⟩ := h.isHerm (of_decide_eq_true hh)
    exact ⟨h1, fun ix hi => congrArg star (h2 ix hi)⟩
  · intro ix hi hm
    show star (o.get ix) = 0
    rw [h.tri ix hi hm, star_zero]
  · intro c f hc ix hi hm
    show star (o.get ix) = c
    rw [h.cst c f hc ix hi hm, hr c f hc]
  · intro _ hv
    left
    show o.triOf ≠ .upper
    rcases triOf_vector0 (o := o) hv with e | e <;> rw [e] <;> simp
  · intro _ hv h0
    left
    show o.triOf ≠ .lower
    rcases triOf_vector1 (o := o) hv h0 with e | e <;> rw [e] <;> simp

theorem triangular_truthful (h : Truthful o) (t : Tri) : Truthful (o.triangularAdapter t) := by
  refine Truthful.of ⟨h.valid, h.count, ?_, ?_, ?_, ?_, ?_, ?_⟩ ?_ ?_ ?_ ?_
  · intro hc ix hi
    show star (if t.mem (ix 0) (ix 1) then o.get ix else 0) = if t.mem (ix 0) (ix 1) then o.get ix else 0
    split_ifs
    · exact h.real hc ix hi
    · exact star_zero _
  · intro c hc; cases hc
  · rintro f ⟨⟩ N hN hf; exact h.square hN (of_decide_eq_true hf)
  · rintro hl f ⟨⟩ hf; exact h.square1 hl (of_decide_eq_true hf)
  · rintro f ⟨⟩ N hN hs; exact decide_eq_true (h.squareMay hN hs)
  · intro hh; cases hh
  · intro ix hi hm
    show (if t.mem (ix 0) (ix 1) then o.get ix else 0) = 0
    split_ifs with ht
    · exact h.tri ix hi fun hn => hm (mem_times.2 ⟨ht, hn⟩)
    · rfl
  · intro c f hc ix hi hm
    obtain ⟨h1, h2⟩ := mem_times.1 hm
    show (if t.mem (ix 0) (ix 1) then o.get ix else 0) = c
    rw [if_pos h1, h.cst c f hc ix hi h2]
  · intro _ hv
    left
    show t.times o.triOf ≠ .upper
    rcases triOf_vector0 (o := o) hv with e | e <;> rw [e] <;> cases t <;> decide
  · intro _ hv h0
    left
    show t.times o.triOf ≠ .lower
    rcases triOf_vector1 (o := o) hv h0 with e | e <;> rw [e] <;> cases t <;> decide

theorem re_of_real {x : 𝕜} (h : star x = x) : ((RCLike.re x : ℝ) : 𝕜) = x := RCLike.conj_eq_iff_re.1 h

theorem hermGet_swap (t : Tri) (ht : t = .lower ∨ t = .upper) (get : (ℕ → ℕ) → 𝕜) (ix : ℕ → ℕ) :
    hermGet t get (swapIx 0 1 ix) = star (hermGet t get ix) := by
  unfold hermGet
  rw [swap_zero, swap_one, swap_swap]
  by_cases hd : ix 0 = ix 1
  · rw [if_pos hd.symm, if_pos hd, swap_eq hd]
    exact (RCLike.conj_ofReal _).symm
  · rw [if_neg (fun e => hd e.symm), if_neg hd]
    by_cases hm : t.mem (ix 0) (ix 1)
    · have hm' : ¬ t.mem (ix 1) (ix 0) := by
        rcases ht with rfl | rfl <;> simp only [Tri.mem] at hm ⊢ <;> omega
      rw [if_pos hm, if_neg hm']
    · have hm' : t.mem (ix 1) (ix 0) := by
        rcases ht with rfl | rfl <;> simp only [Tri.mem] at hm ⊢ <;> omega
      rw [if_neg hm, if_pos hm', star_star]

theorem constDiag_offdiag (hc : o.constObj ∨ o.constDiag) (hn : o.triOf ≠ .diagonal) : o.constObj := by
  rcases hc with h | ⟨_, h⟩ | h | h
  · exact h
  · exact absurd (diag_iff.1 h) hn
  · exact .inr (.inr (.inl h))
  · exact .inr (.inr (.inr h))

theorem hermitian_truthful (h : Truthful o) {t : Tri} (ht : t = .lower ∨ t = .upper) (hsq : o.tensor.dim 0 = o.tensor.dim 1) :
    Truthful (o.hermitianAdapter t) := by
  have hdiag : ∀ {ix : ℕ → ℕ}, (if o.triOf.times t = .diagonal then Tri.diagonal else .none).mem (ix 0) (ix 1) → ix 0 ≠ ix 1 →
      o.triOf.times t ≠ .diagonal := by
    intro ix hm hne he
    rw [if_pos he] at hm
    exact hne hm
  refine Truthful.of ⟨h.valid, h.count, ?_, ?_, ?_, ?_, ?_, ?_⟩ ?_ ?_ ?_ ?_
  · intro hc ix hi
    show star (hermGet t o.get ix) = hermGet t o.get ix
    unfold hermGet
    split_ifs
    · exact RCLike.conj_ofReal _
    · exact h.real hc ix hi
    · rw [star_star]; exact (h.real hc _ (swap_inb hsq hi)).symm
  · intro c hc; cases hc
  · rintro f ⟨⟩ N hN hf
    rcases (Bool.or_eq_true_iff).1 hf with hf | hf
    · have hN2 : N = 2 := le_antisymm (of_decide_eq_true hf) hN
      subst hN2
      intro i hi
      rcases i with _ | _ | i
      · rfl
      · exact hsq.symm
      · omega
    · exact h.square hN (of_decide_eq_true hf)
  · intro hl f _ _
    show o.tensor.dim 0 = 1
    rw [hsq]
    show (dimAt o.exts 1).value = 1
    rw [dimAt_beyond (show o.exts.length ≤ 1 from le_of_eq hl)]
  · rintro f ⟨⟩ N hN hs
    exact (Bool.or_eq_true_iff).2 (.inr (decide_eq_true (h.squareMay hN hs)))
  · intro _; exact ⟨hsq, fun ix _ => hermGet_swap t ht o.get ix⟩
  · intro ix hi hm
    have hm : ¬ (if o.triOf.times t = .diagonal then Tri.diagonal else .none).mem (ix 0) (ix 1) := hm
    split_ifs at hm with he
    · have hne : ix 0 ≠ ix 1 := hm
      have key : ∀ i j : ℕ, i ≠ j → t.mem i j → ¬ o.triOf.mem i j := by
        intro i j hij h1 h2
        have := (mem_times (a := o.triOf) (b := t)).2 ⟨h2, h1⟩
        rw [he] at this
        exact hij this
      show hermGet t o.get ix = 0
      unfold hermGet
      rw [if_neg hne]
      split_ifs with h1
      · exact h.tri ix hi (key _ _ hne h1)
      · have hm' : t.mem (ix 1) (ix 0) := by
          rcases ht with rfl | rfl <;> simp only [Tri.mem] at h1 ⊢ <;> omega
        rw [h.tri _ (swap_inb hsq hi) (by rw [swap_zero, swap_one]; exact key _ _ hne.symm hm'), star_zero]
    · exact absurd trivial hm
  · intro c f hc ix hi hm
    have hc : (if o.constNotComplex then some (o.constVal, o.valFixed) else none) = some (c, f) := hc
    split_ifs at hc with hcn
    have hcv : o.constVal = c := by simpa using congrArg (Option.map Prod.fst) hc
    subst hcv
    obtain ⟨hco, _, hst⟩ := hcn
    show hermGet t o.get ix = o.constVal
    unfold hermGet
    by_cases hd : ix 0 = ix 1
    · rw [if_pos hd, h.constVal_of hco hi (.inr hd), re_of_real hst]
    · have hnd := hdiag hm hd
      have hco' : o.constObj := constDiag_offdiag hco fun e => hnd (by rw [e]; simp [Tri.times])
      rw [if_neg hd]
      split_ifs
      · exact h.isConst hco' ix hi
      · rw [show o.get (swapIx 0 1 ix) = o.constVal from h.isConst hco' _ (swap_inb hsq hi), hst]
  · intro _ _
    left
    show (if o.triOf.times t = .diagonal then Tri.diagonal else .none) ≠ .upper
    split_ifs <;> simp
  · intro _ _ _
    left
    show (if o.triOf.times t = .diagonal then Tri.diagonal else .none) ≠ .lower
    split_ifs <;> simp

theorem toDiagonal_truthful (h : Truthful o) {p : List Extent} (hp : Shape.Valid p)
    (h0 : o.tensor.dim 0 = min (dimAt p 0).value (dimAt p 1).value) (hk : ∀ k, o.tensor.dim (k + 1) = (dimAt p (k + 2)).value) :
    Truthful (o.toDiagonalAdapter p) := by
  have hin : ∀ ix, (o.toDiagonalAdapter p).tensor.Inb ix → ix 0 = ix 1 → o.tensor.Inb fun k => if k = 0 then ix 0 else ix (k + 1) := by
    intro ix hi hd k
    rcases k with _ | k
    · have i0 : ix 0 < (dimAt p 0).value := hi 0
      have i1 : ix 1 < (dimAt p 1).value := hi 1
      show ix 0 < o.tensor.dim 0
      rw [h0]
      exact lt_min i0 (hd ▸ i1)
    · show ix (k + 2) < o.tensor.dim (k + 1)
      rw [hk]; exact hi (k + 2)
  refine Truthful.of ⟨hp, fun k hk => count_dim hp hk, ?_, ?_, ?_, ?_, ?_, ?_⟩ ?_ ?_ ?_ ?_
  · intro hc ix hi
    show star (if ix 0 = ix 1 then _ else 0) = if ix 0 = ix 1 then _ else 0
    split_ifs with hd
    · exact h.real hc _ (hin ix hi hd)
    · exact star_zero _
  · intro c hc; cases hc
  · intro f h; cases h
  · intro _ f h; cases h
  · intro f h; cases h
  · intro h; cases h
  · intro ix _ hm
    exact if_neg hm
  · intro c f hc ix hi hm
    have hc : (if o.constObj then some (o.constVal, o.valFixed) else none) = some (c, f) := hc
    split_ifs at hc with hco
    have hcv : o.constVal = c := by simpa using congrArg (Option.map Prod.fst) hc
    have hd : ix 0 = ix 1 := hm
    show (if ix 0 = ix 1 then o.get _ else 0) = c
    rw [if_pos hd, ← hcv]
    exact h.isConst hco _ (hin ix hi hd)
  · intro _ _; exact .inl (by simp [triImpl, toDiagonalAdapter])
  · intro _ _ _; exact .inl (by simp [triImpl, toDiagonalAdapter])

theorem diagonalOf_truthful (h : Truthful o) {r : Obj 𝕜} (hr : o.diagonalOfAdapter = some r) : Truthful r := by
  unfold diagonalOfAdapter at hr
  by_cases hn : o.cst ≠ none ∧ ¬ (o.constObj ∨ o.constDiag)
  · rw [if_pos hn] at hr; cases hr
  rw [if_neg hn] at hr
  have hn' : o.cst ≠ none → o.constObj ∨ o.constDiag := fun h1 => by by_contra h2; exact hn ⟨h1, h2⟩
  have hr := Option.some.inj hr
  have hin : ∀ ix, r.tensor.Inb ix → o.tensor.Inb fun k => if k = 0 then ix 0 else ix (k - 1) := by
    intro ix hi k
    have hi0 : ix 0 < r.tensor.dim 0 := hi 0
    have e0 : r.tensor.dim 0 = min (dimAt o.exts 0).value (dimAt o.exts 1).value := by
      subst hr; exact (diagonalExts_value h.valid 0).1
    rw [e0] at hi0
    obtain ⟨i0, i1⟩ := lt_min_iff.1 hi0
    rcases k with _ | _ | k
    · exact i0
    · exact i1
    · have hk : ix (k + 1) < r.tensor.dim (k + 1) := hi (k + 1)
      have ek : r.tensor.dim (k + 1) = (dimAt o.exts (k + 2)).value := by
        subst hr; exact (diagonalExts_value h.valid (k + 1)).1
      rw [ek] at hk
      exact hk
  have hval : Shape.Valid (diagonalExts o.exts) := valid_of_dimAt fun k n hk => (diagonalExts_value h.valid k).2 n hk
  subst hr
  refine Truthful.of ⟨hval, fun k hk => count_dim hval hk, ?_, ?_, ?_, ?_, ?_, ?_⟩ ?_ ?_ ?_ ?_
  · intro hc ix hi; exact h.real hc _ (hin ix hi)
  · intro c hc ix hi; exact h.elem c hc _ (hin ix hi)
  · intro f h; cases h
  · intro _ f h; cases h
  · intro f h; cases h
  · intro h; cases h
  · intro ix _ hm; exact absurd trivial hm
  · intro c f hc ix hi _
    have hc : (if o.cst ≠ none then some (o.constVal, o.valFixed) else none) = some (c, f) := hc
    split_ifs at hc with hco
    have hcv : o.constVal = c := by simpa using congrArg (Option.map Prod.fst) hc
    rw [← hcv]
    exact h.constVal_of (hn' hco) (hin ix hi) (.inr rfl)
  · intro _ _; exact .inl (by simp [triImpl])
  · intro _ _ _; exact .inl (by simp [triImpl])

/-- The first dimension is 1, or the second, when the object is said to be square in one dimension. -/
def First (o : Obj 𝕜) : Prop := o.squareShaped 1 true → o.tensor.dim 0 = 1 ∨ o.tensor.dim 0 = o.tensor.dim 1

theorem pattern_truthful (h : Truthful o) {p : List Extent} (hp : Shape.Valid p) (hd : ∀ k, (dimAt p k).value = o.tensor.dim k)
    (hc : o.cst = none ∨ ∀ k, (dimAt p k).fixed = (dimAt o.exts k).fixed) (h1 : p.length = 1 → First o) : Truthful (o.patternAdapter p) := by
  have ht : (o.patternAdapter p).tensor.dim = o.tensor.dim := funext hd
  have hi' : ∀ ix, (o.patternAdapter p).tensor.Inb ix → o.tensor.Inb ix := fun ix hi k => by
    have := hi k
    rw [ht] at this; exact this
  have hvec : o.cst ≠ none → ∀ N, (o.patternAdapter p).vector N ↔ o.vector N := by
    intro hne N
    have hs := hc.resolve_left hne
    have hsd : ∀ i, (o.patternAdapter p).dimIs i 1 true = o.dimIs i 1 true := by
      intro i
      unfold dimIs sdim
      show sizeComparesWith _ _ (Size.ofOption (dimAt p i).fixed) _ = _
      rw [hs i]
    unfold Obj.vector
    simp only [hsd]
    rfl
  refine Truthful.of ⟨hp, ?_, ?_, ?_, ?_, ?_, ?_, ?_⟩ ?_ ?_ ?_ ?_
  · intro k hk; rw [ht]; exact h.count k hk
  · intro hc ix hi; exact h.real hc ix (hi' ix hi)
  · intro c hc ix hi; exact h.elem c hc ix (hi' ix hi)
  · rintro f ⟨⟩ N hN hf
    intro i hi
    rw [ht]; exact h.square hN (of_decide_eq_true hf) i hi
  · rintro hl f ⟨⟩ hf
    rw [ht]
    rcases h1 hl (of_decide_eq_true hf) with e | e
    · exact e
    · rw [e, ← hd 1, dimAt_beyond (show p.length ≤ 1 from le_of_eq hl)]
  · rintro f ⟨⟩ N hN hs
    exact decide_eq_true (h.squareMay hN fun i hi => by have := hs i hi; rw [ht] at this; exact this)
  · intro hh
    obtain ⟨e, h2⟩ := h.isHerm (of_decide_eq_true hh)
    exact ⟨by rw [ht]; exact e, fun ix hi => h2 ix (hi' ix hi)⟩
  · intro ix hi hm; exact h.tri ix (hi' ix hi) hm
  · intro c f hcst ix hi hm; exact h.cst c f hcst ix (hi' ix hi) hm
  · intro hne hv
    left
    show o.triOf ≠ .upper
    rcases triOf_vector0 ((hvec hne 0).1 hv) with e | e <;> rw [e] <;> simp
  · intro hne hv h0
    left
    show o.triOf ≠ .lower
    rcases triOf_vector1 ((hvec hne 1).1 hv) (fun h => h0 ((hvec hne 0).2 h)) with e | e <;> rw [e] <;> simp

theorem transpose_truthful (h : Truthful o) : Truthful (o.transpose 0 1) := by
  have hdim : ∀ k, (o.transpose 0 1).tensor.dim k = o.tensor.dim (Equiv.swap 0 1 k) := fun k => by
    show (dimAt (transposeExts 0 1 o.exts) k).value = _
    rw [transposeExts_dimAt h.valid (by decide)]; rfl
  have hsd : ∀ k, (o.transpose 0 1).sdim k = o.sdim (Equiv.swap 0 1 k) := fun k => by
    show (dimAt (transposeExts 0 1 o.exts) k).fixed = _
    rw [transposeExts_dimAt h.valid (by decide)]; rfl
  have hi' : ∀ ix, (o.transpose 0 1).tensor.Inb ix → o.tensor.Inb (swapIx 0 1 ix) := fun ix hi k => by
    have := hi (Equiv.swap 0 1 k)
    rw [hdim, Equiv.swap_apply_self] at this
    exact this
  have hvalid : Shape.Valid (transposeExts 0 1 o.exts) := transposeExts_valid h.valid (by decide)
  have hswap : ∀ {i N : ℕ}, 2 ≤ N → i < N → Equiv.swap 0 1 i < N := by
    intro i N hN hi
    rcases eq_or_ne i 0 with rfl | h0
    · rw [Equiv.swap_apply_left]; omega
    · rcases eq_or_ne i 1 with rfl | h1
      · rw [Equiv.swap_apply_right]; omega
      · rw [Equiv.swap_apply_of_ne_of_ne h0 h1]; exact hi
  have hsquare : ∀ {N : ℕ}, 2 ≤ N → ((o.transpose 0 1).tensor.Square N ↔ o.tensor.Square N) := by
    intro N hN
    constructor
    · intro hs i hi
      have e1 := hs _ (hswap hN hi)
      have e0 := hs _ (hswap hN (show 0 < N by omega))
      rw [hdim, hdim, Equiv.swap_apply_self] at e1
      rw [hdim, hdim, Equiv.swap_apply_self] at e0
      rw [e1, e0]
    · intro hs i hi
      rw [hdim, hdim, hs _ (hswap hN hi), hs _ (hswap hN (show 0 < N by omega))]
  have hvec : ∀ N, (o.transpose 0 1).vector (Equiv.swap 0 1 N) → ∀ i, i ≠ N → o.sdim i = some 1 := by
    intro N hv i hi
    rw [← Equiv.swap_apply_self 0 1 i, ← hsd]
    rcases Nat.lt_or_ge (Equiv.swap 0 1 i) (o.transpose 0 1).count with hc | hc
    · rcases hv _ hc with e | e
      · exact absurd ((Equiv.swap 0 1).injective e).symm hi
      · exact (dimIs_iff _ _).1 e
    · exact count_static hc
  have hone : (∀ i, i ≠ 1 → o.sdim i = some 1) → (∀ i, i ≠ 0 → o.tensor.dim i = 1) → (o.transpose 0 1).tensor.OneDim := by
    intro h1 h2 k
    rw [hdim]
    by_cases hk : Equiv.swap 0 1 k = 0
    · rw [hk]; exact sdim_dim h.valid (h1 0 (by decide))
    · exact h2 _ hk
  refine Truthful.of ⟨hvalid, fun k hk => count_dim hvalid hk, ?_, ?_, ?_, ?_, ?_, ?_⟩ ?_ ?_ ?_ ?_
  · intro hc ix hi; exact h.real hc _ (hi' ix hi)
  · intro c hc ix hi; exact h.elem c hc _ (hi' ix hi)
  · rintro f ⟨⟩ N hN hf; exact (hsquare hN).2 (h.square hN (of_decide_eq_true hf))
  · intro hl f _ _
    have hl : (transposeExts 0 1 o.exts).length = 1 := hl
    unfold transposeExts at hl
    split_ifs at hl with hk
    · rw [hdim, Equiv.swap_apply_left]
      show (dimAt o.exts 1).value = 1
      rw [dimAt_beyond (le_of_eq hl)]
    · rw [List.length_map, List.length_range] at hl
      omega
  · rintro f ⟨⟩ N hN hs; exact decide_eq_true (h.squareMay hN ((hsquare hN).1 hs))
  · intro hh
    obtain ⟨e, h2⟩ := h.isHerm (of_decide_eq_true hh)
    refine ⟨by rw [hdim, hdim, Equiv.swap_apply_left, Equiv.swap_apply_right, e], fun ix hi => ?_⟩
    exact h2 _ (hi' ix hi)
  · intro ix hi hm
    refine h.tri _ (hi' ix hi) fun hn => hm ?_
    rw [swap_zero, swap_one] at hn
    exact mem_flip.2 hn
  · intro c f hcst ix hi hm
    refine h.cst c f hcst _ (hi' ix hi) ?_
    rw [swap_zero, swap_one]
    exact mem_flip.1 hm
  · intro _ hv
    have h1 := hvec 1 (by rw [Equiv.swap_apply_right]; exact hv)
    have hv1 : o.vector 1 := fun i _ => by
      by_cases hi : 1 = i
      · exact .inl hi
      · exact .inr ((dimIs_iff i 1).2 (h1 i fun e => hi e.symm))
    by_cases hv0 : o.vector 0
    · right; exact hone h1 fun i hi => h.vector hv0 hi
    · left
      show flip o.triOf ≠ .upper
      rcases triOf_vector1 hv1 hv0 with e | e <;> rw [e] <;> decide
  · intro _ hv _
    have h1 := hvec 0 (by rw [Equiv.swap_apply_left]; exact hv)
    have hv0 : o.vector 0 := fun i _ => by
      by_cases hi : 0 = i
      · exact .inl hi
      · exact .inr ((dimIs_iff i 1).2 (h1 i fun e => hi e.symm))
    left
    show flip o.triOf ≠ .lower
    rcases triOf_vector0 hv0 with e | e <;> rw [e] <;> decide

end Obj
end OpenKalman.Adapters
