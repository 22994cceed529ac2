import Verif.Proof.PatternDims

/-!
# C76: statements about the dimensions of the patterns in a collection
-/

namespace OpenKalman.PatternDims

open Shape

/-- Three patterns in a tuple: of dimension 2, of unknown dimension, of dimension 2. -/
def exT : CollType := ⟨.fixed 3, fun i => if i = 1 then none else some 2, some none⟩
/-- A vector of patterns of dimension 3. -/
def vecT : CollType := ⟨.dynamic, fun _ => none, some (some 3)⟩

theorem exT_coherent : Coherent exT := by intro n f _ h; simp [exT, CollType.fixedCommon] at h

/-- The function `compare_collection_patterns_with_dimension` says whether the first `N` patterns, padded with 1, have a dimension in the given
relation to `d`.  Missing: collections without a size and without a fixed common dimension, and collections of no elements whose type has a fixed
common dimension; see `C76_compare_violated`. -/
theorem C76_compare_partial (r : Rel) (N : Option Nat) (hN : N ≠ some 0) (c : Coll) (hv : Valid c) (d : Nat)
    (hu : c.dims.len = none → c.type.fixedCommon ≠ none) (he : c.type.fixedCommon ≠ none → ∃ i, c.dims.Among N i) :
    compareWithDimension r.test N c d = true ↔ AllCompare r N c.dims d := by
  have himpl : ∀ n, compareImpl r.test c.dims d 0 n = true ↔ ∀ i < n, r.holds (c.dims.padded i) d := by
    intro n
    rw [compareImpl_iff]
    exact ⟨fun h i hi => h i (Nat.zero_le _) (by omega), fun h i _ hi => h i (by omega)⟩
  have hcom : ∀ f, c.type.fixedCommon = some f → (∀ i, c.dims.Among N i → c.dims.Has i) →
      (r.test (Collections.cmpNat f d) = true ↔ AllCompare r N c.dims d) := by
    intro f hf hle
    rw [cmpNat_natCmp, test_natCmp]
    constructor
    · intro h i hi
      rw [common_padded hv hf (hle i hi)]; exact h
    · intro h
      obtain ⟨i, hi⟩ := he (by simp [hf])
      have := h i hi
      rwa [common_padded hv hf (hle i hi)] at this
  unfold compareWithDimension
  cases hl : c.dims.len with
  | none =>
    obtain ⟨f, hf⟩ := Option.ne_none_iff_exists'.1 (hu hl)
    simp only [hf]
    exact hcom f hf (fun i _ => has_of_none hl i)
  | some len =>
    cases N with
    | some n =>
      cases hf : c.type.fixedCommon with
      | none => exact himpl n
      | some f =>
        simp only
        split_ifs with hsz
        · refine hcom f hf (fun i hi => ?_)
          have hi' : i < n := hi
          cases hs : c.type.size with
          | unbounded => rw [hv.unbounded hs] at hl; cases hl
          | dynamic =>
            rw [hs, isLteq_test] at hsz
            have := scw_sound _ _ _ (by simp) (by simp) hsz n rfl 0 trivial
            rw [test_natCmp] at this
            simp [Rel.holds] at this
            subst this; exact absurd rfl hN
          | fixed m =>
            rw [hs, isLteq_test] at hsz
            have := scw_sound _ _ _ (by simp) (by simp) hsz n rfl m rfl
            rw [test_natCmp] at this
            have hnm : n ≤ m := this
            exact (has_of_len (hv.fixedLen m hs) i).2 (by omega)
        · exact himpl n
    | none =>
      cases hs : c.type.size with
      | unbounded => rw [hv.unbounded hs] at hl; cases hl
      | dynamic =>
        simp only [compareLoop_eq]
        rw [himpl]
        exact ⟨fun h i hi => h i ((has_of_len hl i).1 hi), fun h i hi => h i ((has_of_len hl i).2 hi)⟩
      | fixed n =>
        have hln := hv.fixedLen n hs
        have himpl' : compareImpl r.test c.dims d 0 n = true ↔ AllCompare r none c.dims d := by
          rw [himpl]
          exact ⟨fun h i hi => h i ((has_of_len hln i).1 hi), fun h i hi => h i ((has_of_len hln i).2 hi)⟩
        cases hf : c.type.fixedCommon with
        | none => exact himpl'
        | some f =>
          simp only
          split_ifs
          · exact hcom f hf (fun i hi => hi)
          · exact himpl'

example : Valid (choose exT 3 fun _ => 2) ∧ compareWithDimension (Rel.test .eq) (some 3) (choose exT 3 fun _ => 2) 2 = true ∧
    compareWithDimension (Rel.test .gteq) (some 4) (choose exT 3 fun _ => 2) 2 = false := by
  refine ⟨choose_valid rfl exT_coherent _, ?_, ?_⟩
  · rw [C76_compare_partial _ _ (by simp) _ (choose_valid rfl exT_coherent _) _ (by simp [choose]) (by simp [choose, exT, CollType.fixedCommon])]
    intro i hi
    have hi' : i < 3 := hi
    rw [choose_padded]
    rcases i with _ | _ | _ | i <;> simp [exT, CollType.elemFixed, Rel.holds] ; omega
  · rw [← Bool.not_eq_true, C76_compare_partial _ _ (by simp) _ (choose_valid rfl exT_coherent _) _ (by simp [choose])
      (by simp [choose, exT, CollType.fixedCommon])]
    intro h
    have := h 3 (show 3 < 4 by omega)
    rw [choose_padded] at this
    simp [exT, CollType.elemFixed, Rel.holds] at this

/-- Where the function is wrong: for a collection without end whose first two patterns have dimension 2, the answer is no; and for an array of no
patterns of type `Dimensions<3>`, the claim that all of them have dimension 1 is denied, although it is true and is confirmed for a vector of no such patterns. -/
theorem C76_compare_violated :
    (∃ c, Valid c ∧ AllCompare .eq (some 2) c.dims 2 ∧ compareWithDimension (Rel.test .eq) (some 2) c 2 = false) ∧
    (∃ c, Valid c ∧ AllCompare .eq none c.dims 1 ∧ compareWithDimension (Rel.test .eq) none c 1 = false) := by
  refine ⟨⟨⟨⟨.unbounded, fun _ => none, some none⟩, ⟨none, fun _ => 2⟩⟩, ⟨?_, ?_, ?_, ?_, ?_⟩, ?_, by decide⟩,
    ⟨⟨⟨.fixed 0, fun _ => none, some (some 3)⟩, ⟨some 0, fun _ => 3⟩⟩, ⟨?_, ?_, ?_, ?_, ?_⟩, ?_, by decide⟩⟩
  · intro n h; simp at h
  · intro h; simp at h
  · intro _; rfl
  · intro n h; simp at h
  · intro f h; simp [CollType.fixedCommon] at h
  · intro i _
    unfold Dims.padded
    rw [if_pos (has_of_none rfl i)]; rfl
  · intro n h; simp only [Size.fixed.injEq] at h; rw [h]
  · intro h; simp at h
  · intro h; simp at h
  · intro n h i hi; simp only [Size.fixed.injEq] at h; omega
  · intro f h i _; simp [CollType.fixedCommon] at h; exact h
  · intro i hi
    have : i < 0 := hi 0 rfl
    omega

/-- The function `get_common_pattern_collection_dimension` (and with it `is_square_shaped`) yields a dimension that all of the first `N` patterns have,
and nothing only if there is none.  Missing: collections without a size and without a fixed common dimension; see `C76_common_violated`. -/
theorem C76_common_partial (N : Option Nat) (hN : N ≠ some 0) (c : Coll) (hv : Valid c) (hu : c.dims.len = none → c.type.fixedCommon ≠ none) :
    (∀ d, commonDimension N c = some d → Common N c.dims d) ∧ (commonDimension N c = none → ¬ AllSame N c.dims) := by
  have himpl : ∀ n, (∀ i, c.dims.Among N i ↔ i < n) →
      (∀ d, commonImpl c.dims 0 (n - 1) = some d → Common N c.dims d) ∧ (commonImpl c.dims 0 (n - 1) = none → ¬ AllSame N c.dims) := by
    intro n hn
    rcases commonImpl_iff c.dims (n - 1) 0 with ⟨h1, h2⟩ | ⟨h1, j, -, h3, h4⟩
    · rw [h1]
      refine ⟨fun d hd i hi => ?_, by simp⟩
      cases hd
      exact h2 i (Nat.zero_le _) (by have := (hn i).1 hi; omega)
    · rw [h1]
      refine ⟨by simp, fun _ => ?_⟩
      rintro ⟨d, hd⟩
      have hj : j ≠ 0 := by rintro rfl; exact h4 rfl
      exact h4 ((hd j ((hn j).2 (by omega))).trans (hd 0 ((hn 0).2 (by omega))).symm)
  have hcom : ∀ f, c.type.fixedCommon = some f → (∀ i, c.dims.Among N i → c.dims.Has i) →
      (∀ d, some f = some d → Common N c.dims d) ∧ (False → ¬ AllSame N c.dims) := by
    intro f hf hle
    refine ⟨fun d hd i hi => ?_, False.elim⟩
    cases hd
    exact common_padded hv hf (hle i hi)
  unfold commonDimension
  cases hl : c.dims.len with
  | none =>
    obtain ⟨f, hf⟩ := Option.ne_none_iff_exists'.1 (hu hl)
    simp only [hf, reduceCtorEq]
    exact hcom f hf (fun i _ => has_of_none hl i)
  | some len =>
    cases N with
    | some n =>
      cases hf : c.type.fixedCommon with
      | none => exact himpl n (fun i => Iff.rfl)
      | some f =>
        simp only
        split_ifs with hsz
        · refine hcom f hf (fun i hi => ?_)
          have hi' : i < n := hi
          cases hs : c.type.size with
          | unbounded => rw [hv.unbounded hs] at hl; cases hl
          | dynamic =>
            rw [hs, isLteq_test] at hsz
            have := scw_sound _ _ _ (by simp) (by simp) hsz n rfl 0 trivial
            rw [test_natCmp] at this
            simp [Rel.holds] at this
            subst this; exact absurd rfl hN
          | fixed m =>
            rw [hs, isLteq_test] at hsz
            have := scw_sound _ _ _ (by simp) (by simp) hsz n rfl m rfl
            rw [test_natCmp] at this
            have hnm : n ≤ m := this
            exact (has_of_len (hv.fixedLen m hs) i).2 (by omega)
        · exact himpl n (fun i => Iff.rfl)
    | none =>
      cases hs : c.type.size with
      | unbounded => rw [hv.unbounded hs] at hl; cases hl
      | dynamic =>
        simp only
        rcases commonLoop_iff c.dims (c.dims.padded 0) (len - 1) 1 with ⟨h1, h2⟩ | ⟨h1, j, h2, h3, h4⟩
        · rw [h1]
          refine ⟨fun d hd i hi => ?_, by simp⟩
          cases hd
          have hi' := (has_of_len hl i).1 hi
          by_cases h0 : i = 0
          · rw [h0]
          · exact h2 i (by omega) (by omega)
        · rw [h1]
          refine ⟨by simp, fun _ => ?_⟩
          rintro ⟨d, hd⟩
          exact h4 ((hd j ((has_of_len hl j).2 (by omega))).trans (hd 0 ((has_of_len hl 0).2 (by omega))).symm)
      | fixed n =>
        have hln := hv.fixedLen n hs
        cases hf : c.type.fixedCommon with
        | none => exact himpl n (fun i => has_of_len hln i)
        | some f =>
          simp only
          split_ifs
          · exact hcom f hf (fun i hi => hi)
          · exact himpl n (fun i => has_of_len hln i)

example : commonDimension none (choose exT 3 fun _ => 2) = some 2 ∧ commonDimension none (choose exT 3 fun _ => 5) = none ∧
    commonDimension (some 4) (choose exT 3 fun _ => 2) = none := by decide

/-- For a collection without end whose first two patterns have the same dimension, no common dimension is found. -/
theorem C76_common_violated : ∃ c, Valid c ∧ AllSame (some 2) c.dims ∧ commonDimension (some 2) c = none := by
  refine ⟨⟨⟨.unbounded, fun _ => none, some none⟩, ⟨none, fun _ => 2⟩⟩, ⟨?_, ?_, ?_, ?_, ?_⟩, ⟨2, ?_⟩, by decide⟩
  · intro n h; simp at h
  · intro h; simp at h
  · intro _; rfl
  · intro n h; simp at h
  · intro f h; simp [CollType.fixedCommon] at h
  · intro i _
    unfold Dims.padded
    rw [if_pos (has_of_none rfl i)]

/-- For types of compile-time size, the concept `collection_patterns_compare_with_dimension` is exact: it is guaranteed iff it is true of every
collection of the type, and permitted iff it is true of one. -/
theorem C76_compare_concept (r : Rel) (N : Option Nat) (t : CollType) (n d : Nat) (hs : t.size = .fixed n) (hc : Coherent t) :
    (compareWithDimensionConcept r.test N true t d = true ↔ ∀ c, Valid c → c.type = t → AllCompare r N c.dims d) ∧
    (compareWithDimensionConcept r.test N false t d = true ↔ ∃ c, Valid c ∧ c.type = t ∧ AllCompare r N c.dims d) := by
  unfold compareWithDimensionConcept
  simp only [hs, List.all_eq_true, List.mem_range, scw_guaranteed_iff, scw_permitted_iff]
  constructor
  · constructor
    · rintro h c hv rfl i hi
      rw [among_fixed hv hs] at hi
      exact h i hi _ (fun f hf => elemFixed_padded hv hs hf)
    · intro h i hi x hx
      have := h _ (choose_valid hs hc fun _ => x) rfl i ((among_fixed (choose_valid hs hc fun _ => x) hs N i).2 hi)
      rw [choose_padded] at this
      cases he : t.elemFixed n i with
      | none => rw [he] at this; exact this
      | some f => rw [he] at this; rw [hx f he]; exact this
  · constructor
    · intro h
      have hch : ∀ i, ∃ x, i < N.getD n → (∀ f, t.elemFixed n i = some f → x = f) ∧ r.holds x d := by
        intro i
        by_cases hi : i < N.getD n
        · obtain ⟨x, hx⟩ := h i hi
          exact ⟨x, fun _ => hx⟩
        · exact ⟨0, fun h => absurd h hi⟩
      obtain ⟨g, hg⟩ := Classical.axiomOfChoice hch
      refine ⟨choose t n g, choose_valid hs hc _, rfl, fun i hi => ?_⟩
      rw [among_fixed (choose_valid hs hc _) hs] at hi
      obtain ⟨h1, h2⟩ := hg i hi
      rw [choose_padded]
      cases he : t.elemFixed n i with
      | none => exact h2
      | some f => rw [h1 f he] at h2; exact h2
    · rintro ⟨c, hv, rfl, h⟩ i hi
      exact ⟨c.dims.padded i, fun f hf => elemFixed_padded hv hs hf, h i ((among_fixed hv hs N i).2 hi)⟩

example : compareWithDimensionConcept (Rel.test .eq) none true exT 2 = false ∧ compareWithDimensionConcept (Rel.test .eq) none false exT 2 = true ∧
    compareWithDimensionConcept (Rel.test .eq) (some 1) true exT 2 = true ∧ compareWithDimensionConcept (Rel.test .gteq) none true exT 0 = true := by decide

/-- For types of other sizes, the guarantee is true of all patterns of a collection, and, for a collection without end, of its first `N`; and what is
true of a collection that has patterns is permitted.  Missing: a number `N` for a type of run-time size; see `C76_compare_concept_violated`. -/
theorem C76_compare_concept_partial (r : Rel) (N : Option Nat) (c : Coll) (hv : Valid c) (d : Nat) (hs : ∀ n, c.type.size ≠ .fixed n)
    (hcd : ∀ f, c.type.common = some f → ∀ x, f = some x → ∀ i, c.dims.Has i → c.dims.dim i = x)
    (hN : N = none ∨ c.type.size = .unbounded) :
    (compareWithDimensionConcept r.test N true c.type d = true → AllCompare r N c.dims d) ∧
    ((∃ i, c.dims.Among N i) → AllCompare r N c.dims d → compareWithDimensionConcept r.test N false c.type d = true) := by
  have hle : ∀ i, c.dims.Among N i → c.dims.Has i := by
    intro i hi
    rcases hN with rfl | hN
    · exact hi
    · exact has_of_none (hv.unbounded hN) i
  have hex : ∀ g, compareWithDimensionConcept r.test N g c.type d = match c.type.common with
      | some f => sizeComparesWith r.test g (Size.ofOption f) (.fixed d)
      | none => !g := by
    intro g
    unfold compareWithDimensionConcept
    cases h : c.type.size with
    | fixed n => exact absurd h (hs n)
    | dynamic => rfl
    | unbounded => rfl
  rw [hex, hex]
  cases hc : c.type.common with
  | none => simp
  | some f =>
    simp only [scw_guaranteed_iff, scw_permitted_iff]
    constructor
    · intro h i hi
      refine h _ (fun x hx => ?_)
      unfold Dims.padded
      rw [if_pos (hle i hi)]
      exact hcd f hc x hx i (hle i hi)
    · rintro ⟨i, hi⟩ h
      refine ⟨c.dims.padded i, fun x hx => ?_, h i hi⟩
      unfold Dims.padded
      rw [if_pos (hle i hi)]
      exact hcd f hc x hx i (hle i hi)

theorem vec_valid (n : Nat) : Valid ⟨vecT, ⟨some n, fun _ => 3⟩⟩ := by
  refine ⟨?_, ?_, ?_, ?_, ?_⟩
  · intro m h; simp [vecT] at h
  · intro _; simp
  · intro h; simp [vecT] at h
  · intro m h; simp [vecT] at h
  · intro f h i _; simp [vecT, CollType.fixedCommon] at h; exact h

example : compareWithDimensionConcept (Rel.test .eq) none true vecT 3 = true ∧ compareWithDimensionConcept (Rel.test .eq) none false vecT 1 = false := by decide

/-- A vector of patterns `Dimensions<3>` is guaranteed to have dimension 3 at its first two positions, although a vector with one pattern is padded
with dimension 1; the function gives the right answer.  And dimension 1 is not even permitted, although a vector of no patterns has no others. -/
theorem C76_compare_concept_violated :
    (∃ c, Valid c ∧ compareWithDimensionConcept (Rel.test .eq) (some 2) true c.type 3 = true ∧ ¬ AllCompare .eq (some 2) c.dims 3 ∧
      compareWithDimension (Rel.test .eq) (some 2) c 3 = false) ∧
    (∃ c, Valid c ∧ compareWithDimensionConcept (Rel.test .eq) none false c.type 1 = false ∧ AllCompare .eq none c.dims 1 ∧
      compareWithDimension (Rel.test .eq) none c 1 = true) := by
  refine ⟨⟨⟨vecT, ⟨some 1, fun _ => 3⟩⟩, vec_valid 1, by decide, ?_, by decide⟩, ⟨⟨vecT, ⟨some 0, fun _ => 3⟩⟩, vec_valid 0, by decide, ?_, by decide⟩⟩
  · intro h
    have := h 1 (show 1 < 2 by omega)
    have hp : (⟨some 1, fun _ => 3⟩ : Dims).padded 1 = 1 := by decide
    simp [hp, Rel.holds] at this
  · intro i hi
    have : i < 0 := hi 0 rfl
    omega

/-- For types of compile-time size, the concept `collection_patterns_have_same_dimension` is exact, guaranteed (unless exactly one pattern is looked
at and no number of patterns is given) and permitted.  Missing: that case; see `C76_same_concept_violated`. -/
theorem C76_same_concept_partial (N : Option Nat) (t : CollType) (n : Nat) (hs : t.size = .fixed n) (hc : Coherent t) :
    ((N = none → n ≠ 1) → (haveSameDimensionConcept N true t = true ↔ ∀ c, Valid c → c.type = t → AllSame N c.dims)) ∧
    (haveSameDimensionConcept N false t = true ↔ ∃ c, Valid c ∧ c.type = t ∧ AllSame N c.dims) := by
  unfold haveSameDimensionConcept
  simp only [hs]
  cases N with
  | none =>
    exact ⟨fun h => same_guaranteed_iff hs hc n (h rfl) none rfl, same_permitted_iff hs hc n none rfl⟩
  | some k =>
    have hsmall : k < 2 → ∀ c : Coll, AllSame (some k) c.dims := by
      intro hk c
      refine ⟨c.dims.padded 0, fun i hi => ?_⟩
      have hi' : i < k := hi
      have : i = 0 := by omega
      rw [this]
    simp only [Bool.or_eq_true, decide_eq_true_eq]
    constructor
    · intro _
      by_cases hk : k < 2
      · simp only [hk, true_or, true_iff]; intro c _ _; exact hsmall hk c
      · simp only [hk, false_or]; exact same_guaranteed_iff hs hc k (by omega) (some k) rfl
    · by_cases hk : k < 2
      · simp only [hk, true_or, true_iff]
        exact ⟨_, choose_valid hs hc (fun _ => 0), rfl, hsmall hk _⟩
      · simp only [hk, false_or]; exact same_permitted_iff hs hc k (some k) rfl

example : haveSameDimensionConcept none true exT = false ∧ haveSameDimensionConcept none false exT = true ∧
    haveSameDimensionConcept (some 4) false exT = false ∧ haveSameDimensionConcept none true ⟨.fixed 2, fun _ => some 2, some (some 2)⟩ = true := by decide

/-- For types of other sizes, all patterns of a collection have the same dimension when that is guaranteed.  Missing: a number `N` for a type of
run-time size; see `C76_same_concept_violated`. -/
theorem C76_same_concept_dynamic_partial (N : Option Nat) (c : Coll) (hv : Valid c) (hs : ∀ n, c.type.size ≠ .fixed n)
    (hN : N = none ∨ c.type.size = .unbounded) (h : haveSameDimensionConcept N true c.type = true) : AllSame N c.dims := by
  have hle : ∀ i, c.dims.Among N i → c.dims.Has i := by
    intro i hi
    rcases hN with rfl | hN
    · exact hi
    · exact has_of_none (hv.unbounded hN) i
  have hf : (∃ k, N = some k ∧ k < 2) ∨ c.type.fixedCommon.isSome = true := by
    unfold haveSameDimensionConcept at h
    cases hsz : c.type.size with
    | fixed n => exact absurd hsz (hs n)
    | dynamic => rw [hsz] at h; cases N <;> simpa using h
    | unbounded => rw [hsz] at h; cases N <;> simpa using h
  rcases hf with ⟨k, rfl, hk⟩ | hf
  · refine ⟨c.dims.padded 0, fun i hi => ?_⟩
    have hi' : i < k := hi
    have : i = 0 := by omega
    rw [this]
  · obtain ⟨f, hf⟩ := Option.isSome_iff_exists.1 hf
    exact ⟨f, fun i hi => common_padded hv hf (hle i hi)⟩

example : haveSameDimensionConcept none true vecT = true := by decide

/-- One pattern of unknown dimension is documented always to have a common dimension, but the concept denies it (and the function does not); and a
vector of patterns `Dimensions<3>` is guaranteed to have the same dimension in its first two positions, although a vector with one pattern is padded
with dimension 1 (and the function finds no common dimension). -/
theorem C76_same_concept_violated :
    (∃ t, t.size = .fixed 1 ∧ Coherent t ∧ (∀ c, Valid c → c.type = t → AllSame none c.dims) ∧ haveSameDimensionConcept none true t = false) ∧
    (∃ c, Valid c ∧ haveSameDimensionConcept (some 2) true c.type = true ∧ ¬ AllSame (some 2) c.dims ∧ commonDimension (some 2) c = none) := by
  refine ⟨⟨⟨.fixed 1, fun _ => none, some none⟩, rfl, ?_, ?_, by decide⟩, ⟨⟨vecT, ⟨some 1, fun _ => 3⟩⟩, vec_valid 1, by decide, ?_, by decide⟩⟩
  · intro n f _ h; simp [CollType.fixedCommon] at h
  · intro c hv hct
    refine ⟨c.dims.padded 0, fun i hi => ?_⟩
    have hl := hv.fixedLen 1 (by rw [hct])
    have : i < 1 := (has_of_len hl i).1 hi
    have : i = 0 := by omega
    rw [this]
  · rintro ⟨d, hd⟩
    have h0 := hd 0 (show 0 < 2 by omega)
    have h1 := hd 1 (show 1 < 2 by omega)
    rw [← h1] at h0
    revert h0; decide

end OpenKalman.PatternDims
