import Verif.Spec.Shape
import Verif.Proof.Shape
import Verif.Theorems.Collections
import Verif.Theorems.PatternColl

/-!
# C72 to C75: shape of tensors, access to components, matching patterns, extents
-/

namespace OpenKalman.Shape

open PatternColl (Theory)

/-! ## C72: shape queries -/

/-- A 2-by-n-by-1 object with an unknown second extent. -/
def exS : List (Option Nat) := [some 2, none, some 1]
/-- One such object, with second extent 4. -/
def exM : List Extent := [⟨some 2, 2⟩, ⟨none, 4⟩, ⟨some 1, 1⟩]

theorem exM_valid : Valid exM := by
  intro e he n hn
  simp only [exM, List.mem_cons, List.not_mem_nil, or_false] at he
  rcases he with rfl | rfl | rfl <;> simp_all

example : Instance exS [2, 4, 1] := ⟨rfl, by
  intro i n h
  rcases i with _ | _ | _ | i <;> simp [exS] at h ⊢ <;> exact h⟩

/-- The index count is the least number of indices from which on the extent is 1 in every object of the type. -/
theorem C72_index_count (s : List (Option Nat)) : IsLeast {n | ∀ v, Instance s v → ∀ i, n ≤ i → extentOf v i = 1} (indexCount s) :=
  ⟨fun _ hv _ hi => indexCount_extent hv hi, fun n hn => indexCount_least s n hn⟩

example : indexCount exS = 2 := by decide

/-- The extent of an index is that of the shape for every index, in range or not, and for compile-time and run-time indices. -/
theorem C72_extent (m : List Extent) (h : Valid m) (fixedI : Bool) (i : Nat) : getIndexExtent m fixedI i = some (extentOf (shapeOf m) i) :=
  getIndexExtent_eq h fixedI i

example : getIndexExtent exM true 1 = some 4 ∧ getIndexExtent exM false 7 = some 1 := by
  rw [C72_extent exM exM_valid, C72_extent exM exM_valid]; decide

/-- What a type guarantees about the extent of an index is what holds for all its objects, for each of the six comparisons. -/
theorem C72_dimension_guaranteed (s : List (Option Nat)) (i v : Nat) (r : Rel) :
    dimensionSizeOfIndexIs s i v r.test true = true ↔ ∀ w, Instance s w → r.holds (extentOf w i) v := dimIs_guaranteed s i v r

/-- What a type permits is what holds for one of its objects. -/
theorem C72_dimension_permitted (s : List (Option Nat)) (i v : Nat) (r : Rel) :
    dimensionSizeOfIndexIs s i v r.test false = true ↔ ∃ w, Instance s w ∧ r.holds (extentOf w i) v := dimIs_permitted s i v r

example : dimensionSizeOfIndexIs exS 1 0 (Rel.test .gteq) true = true ∧ dimensionSizeOfIndexIs exS 1 0 (Rel.test .lt) false = false ∧
    dimensionSizeOfIndexIs exS 1 3 (Rel.test .eq) true = false ∧ dimensionSizeOfIndexIs exS 1 3 (Rel.test .eq) false = true := by decide

/-- For any predicate of orderings, sizes that are guaranteed to compare do so whatever their values, and sizes that compare for some values are
permitted to. -/
theorem C72_size_compares (comp : POrd → Bool) (a b : Size) (ha : a ≠ .unbounded) (hb : b ≠ .unbounded) :
    (sizeComparesWith comp true a b = true → ∀ x ∈ a.values, ∀ y ∈ b.values, comp (natCmp x y) = true) ∧
    ((∃ x ∈ a.values, ∃ y ∈ b.values, comp (natCmp x y) = true) → sizeComparesWith comp false a b = true) := by
  refine ⟨scw_sound comp a b ha hb, ?_⟩
  rintro ⟨x, hx, y, hy, h⟩
  exact scw_permitted comp a b ha hb hx hy h

/-- An unbounded size is above every other size and equivalent to itself, whatever is asked of the comparison. -/
theorem C72_size_unbounded (comp : POrd → Bool) (g : Bool) (a : Size) (ha : a ≠ .unbounded) :
    sizeComparesWith comp g a .unbounded = comp .less ∧ sizeComparesWith comp g .unbounded a = comp .greater ∧
    sizeComparesWith comp g .unbounded .unbounded = comp .equivalent := by
  cases a with
  | unbounded => exact absurd rfl ha
  | fixed n => simp [sizeComparesWith, doComps]
  | dynamic => simp [sizeComparesWith, doComps]

example : sizeComparesWith POrd.isEq true (.fixed 3) .unbounded = false ∧ sizeComparesWith POrd.isEq false .unbounded .unbounded = true := by
  have h := C72_size_unbounded POrd.isEq true (.fixed 3) (by simp)
  have h' := C72_size_unbounded POrd.isEq false (.fixed 3) (by simp)
  exact ⟨h.1.trans rfl, h'.2.2.trans rfl⟩

/-- The tensor order is as documented if no extent is 0, or if no extent above 1 precedes the first 0.  Missing: the other objects with an extent
0, for which `C72_order_violated` shows that it is not. -/
theorem C72_order_partial (m : List Extent) (h : Valid m)
    (hz : 0 ∉ shapeOf m ∨ ∃ k, (∀ i < k, extentOf (shapeOf m) i = 1) ∧ k < m.length ∧ extentOf (shapeOf m) k = 0) :
    tensorOrder m = some (orderOf (shapeOf m)) := by
  rw [tensorOrder_eq h]
  rcases hz with hz | ⟨k, h1, hk, h0⟩
  · rw [orderUpToZero_eq _ hz, orderOf, if_neg hz]
  · have key : ∀ (l : List Nat) (k : Nat), (∀ i < k, extentOf l i = 1) → k < l.length → extentOf l k = 0 →
        orderUpToZero l = 0 ∧ 0 ∈ l := by
      intro l
      induction l with
      | nil => intro k _ hk; simp at hk
      | cons d l ih =>
        intro k h1 hk h0
        rcases k with _ | k
        · have : d = 0 := by simpa [extentOf] using h0
          subst this; simp [orderUpToZero]
        · have hd : d = 1 := by simpa [extentOf] using h1 0 (by omega)
          subst hd
          have := ih k (fun i hi => by simpa [extentOf] using h1 (i + 1) (by omega)) (by simpa using hk) (by simpa [extentOf] using h0)
          exact ⟨by simpa [orderUpToZero] using this.1, List.mem_cons_of_mem _ this.2⟩
    obtain ⟨h2, h3⟩ := key (shapeOf m) k h1 (by simpa [shapeOf] using hk) h0
    rw [h2, orderOf, if_pos h3]

example : tensorOrder exM = some 2 := by
  rw [C72_order_partial exM exM_valid (.inl (by decide))]; decide

/-- The other version in the source, a loop for a number of indices known only at run time, would be right for every object. -/
theorem C72_order_loop (m : List Extent) (h : Valid m) :
    tensorOrderLoop m (List.range (indexCount (statics m))) 0 = some (orderOf (shapeOf m)) := by
  rw [tensorOrderLoop_eq h]
  obtain ⟨k, hk⟩ := shape_split (valid_instance h)
  conv_rhs => rw [hk, order_split]
  unfold orderOf
  simp

/-- The order of a 2-by-0 object is reported as 1 instead of 0: a zero extent is only noticed if it comes before all extents above 1. -/
theorem C72_order_violated : ∃ m, Valid m ∧ tensorOrder m ≠ some (orderOf (shapeOf m)) := by
  refine ⟨[⟨some 2, 2⟩, ⟨some 0, 0⟩], ?_, ?_⟩
  · intro e he n hn
    simp only [List.mem_cons, List.not_mem_nil, or_false] at he
    rcases he with rfl | rfl <;> simp_all
  · decide

/-- The maximum order of a type is the largest documented order of an object of the type. -/
theorem C72_max_order (s : List (Option Nat)) : IsGreatest {k | ∃ v, Instance s v ∧ orderOf v = k} (maxTensorOrder s) := by
  have hmax : maxTensorOrder s = if some 0 ∈ s then 0 else (List.range (indexCount s)).countP fun j => indexDimensionOf s j ≠ some 1 := by
    unfold maxTensorOrder
    rw [maxFrom_eq]
    have : (∃ j < indexCount s, indexDimensionOf s j = some 0) ↔ some 0 ∈ s := by
      rw [← emptyObject_iff]
      unfold emptyObject
      rw [List.any_eq_true]
      constructor
      · rintro ⟨j, hj, h⟩
        refine ⟨j, by simpa using hj, ?_⟩
        simp [dimensionSizeOfIndexIs, h, Size.ofOption, sizeComparesWith, Collections.cmpNat, POrd.isEq]
      · rintro ⟨j, hj, h⟩
        refine ⟨j, by simpa using hj, ?_⟩
        unfold dimensionSizeOfIndexIs at h
        cases hd : indexDimensionOf s j with
        | none => rw [hd] at h; simp [Size.ofOption, sizeComparesWith, doComps, POrd.isEq] at h
        | some n =>
          rw [hd] at h
          simp only [Size.ofOption, sizeComparesWith, Collections.cmpNat] at h
          split_ifs at h with h1 h2 <;> simp [POrd.isEq] at h
          rw [h2]
    simp only [this, zero_add]
  have hinst : ∀ v, Instance s v → orderOf v = if 0 ∈ v then 0 else (List.range (indexCount s)).countP fun j => 1 < extentOf v j := by
    intro v hv
    obtain ⟨k, hk⟩ := shape_split hv
    conv_lhs => rw [hk, order_split]
    have hmem : (0 ∈ (List.range (indexCount s)).map (extentOf v)) ↔ 0 ∈ v := by
      conv_rhs => rw [hk]
      simp [List.mem_replicate]
    unfold orderOf
    simp only [hmem, List.countP_map]
    rfl
  have hzero : ∀ v, Instance s v → some 0 ∈ s → 0 ∈ v := by
    intro v hv h
    obtain ⟨i, hi, h⟩ := List.getElem_of_mem h
    exact List.mem_of_getElem? (hv.2 i 0 (by rw [List.getElem?_eq_getElem hi, h]))
  constructor
  · refine ⟨fill 2 s, fill_instance 2 s, ?_⟩
    rw [hinst _ (fill_instance 2 s), hmax]
    by_cases h0 : some 0 ∈ s
    · rw [if_pos h0, if_pos (hzero _ (fill_instance 2 s) h0)]
    · have hn : 0 ∉ fill 2 s := by
        intro h
        obtain ⟨o, ho, h⟩ := List.mem_map.1 h
        cases o with
        | none => simp at h
        | some n => simp at h; subst h; exact h0 ho
      rw [if_neg h0, if_neg hn]
      apply List.countP_congr
      intro j hj
      have hj' : j < indexCount s := by simpa using hj
      have hl : j < s.length := by have := indexCount_le s; omega
      rw [extentOf_fill _ _ _ hl]
      unfold indexDimensionOf
      rw [if_pos hj', List.getElem?_eq_getElem hl]
      cases hs : s[j] with
      | none => simp
      | some n =>
        have : n ≠ 0 := by rintro rfl; exact h0 (hs ▸ List.getElem_mem hl)
        simp; omega
  · rintro _ ⟨v, hv, rfl⟩
    rw [hinst v hv, hmax]
    by_cases h0 : some 0 ∈ s
    · rw [if_pos h0, if_pos (hzero v hv h0)]
    · rw [if_neg h0]
      split_ifs
      · exact Nat.zero_le _
      · apply List.countP_mono_left
        intro j hj hlt
        have hj' : j < indexCount s := by simpa using hj
        have hl : j < s.length := by have := indexCount_le s; omega
        unfold indexDimensionOf
        rw [if_pos hj', List.getElem?_eq_getElem hl]
        simp only [Option.join_some, ne_eq, decide_eq_true_eq] at hlt ⊢
        intro h1
        have := hv.2 j 1 (by rw [List.getElem?_eq_getElem hl, h1])
        simp [extentOf, List.getD, this] at hlt

example : maxTensorOrder exS = 2 ∧ maxTensorOrder [none, some 0] = 0 := by decide

/-- `is_vector` holds of an object iff every extent except that of index `N` is 1. -/
theorem C72_is_vector (m : List Extent) (h : Valid m) (N : Nat) : ∃ b, isVector m N = some b ∧ (b = true ↔ VectorAlong N (shapeOf m)) := by
  refine ⟨_, isVectorFrom_eq h N 0 _, ?_⟩
  rw [decide_eq_true_eq]
  constructor
  · intro hv j hj
    rcases Nat.lt_or_ge j (indexCount (statics m)) with hl | hl
    · exact hv j (Nat.zero_le _) (by omega) hj
    · exact indexCount_extent (valid_instance h) hl
  · intro hv j _ _ hj; exact hv j hj

/-- The concept `vector` holds (guaranteed) iff every object of the type is a vector along `N`, and is permitted iff one is. -/
theorem C72_vector (s : List (Option Nat)) (N : Nat) :
    (vectorConcept s N true = true ↔ ∀ v, Instance s v → VectorAlong N v) ∧
    (vectorConcept s N false = true ↔ ∃ v, Instance s v ∧ VectorAlong N v) := by
  unfold vectorConcept
  simp only [List.all_eq_true, List.mem_range, Bool.or_eq_true, decide_eq_true_eq, isEq_test, dimIs_guaranteed, dimIs_permitted]
  constructor
  · constructor
    · intro h v hv i hi
      rcases Nat.lt_or_ge i (indexCount s) with hl | hl
      · rcases h i hl with e | e
        · exact absurd e.symm hi
        · exact e v hv
      · exact indexCount_extent hv hl
    · intro h i hi
      by_cases hN : N = i
      · exact .inl hN
      · exact .inr fun v hv => h v hv i (fun e => hN e.symm)
  · constructor
    · intro h
      refine ⟨fill 1 s, fill_instance 1 s, fun i hi => ?_⟩
      rcases Nat.lt_or_ge i (indexCount s) with hl | hl
      · have hs : i < s.length := by have := indexCount_le s; omega
        rcases h i hl with e | ⟨w, hw, e⟩
        · exact absurd e.symm hi
        · rw [extentOf_fill _ _ _ hs]
          cases hx : s[i] with
          | none => rfl
          | some n =>
            have := hw.2 i n (by rw [List.getElem?_eq_getElem hs, hx])
            simp only [Rel.holds, extentOf, List.getD, this, Option.getD_some] at e
            simp [e]
      · exact indexCount_extent (fill_instance 1 s) hl
    · rintro ⟨v, hv, h⟩ i hi
      by_cases hN : N = i
      · exact .inl hN
      · exact .inr ⟨v, hv, h i (fun e => hN e.symm)⟩

example : vectorConcept exS 1 true = false ∧ vectorConcept exS 1 false = false ∧ vectorConcept [some 3, none] 0 true = false ∧
    vectorConcept [some 3, none] 0 false = true ∧ vectorConcept [some 1, none] 1 true = true := by decide

/-- The concept `empty_object` holds iff every object of the type has an extent 0. -/
theorem C72_empty (s : List (Option Nat)) : emptyObject s = true ↔ ∀ v, Instance s v → 0 ∈ v := by
  rw [emptyObject_iff]
  constructor
  · intro h v hv
    obtain ⟨i, hi, h⟩ := List.getElem_of_mem h
    exact List.mem_of_getElem? (hv.2 i 0 (by rw [List.getElem?_eq_getElem hi, h]))
  · intro h
    obtain ⟨o, ho, h0⟩ := List.mem_map.1 (h _ (fill_instance 1 s))
    cases o with
    | none => simp at h0
    | some n => simp at h0; subst h0; exact ho

/-- The dynamic index count is the number of extents not known at compile time. -/
theorem C72_dynamic_count (s : List (Option Nat)) : dynamicIndexCount s = s.count none := dynamicIndexCount_eq s

example : dynamicIndexCount exS = 1 ∧ emptyObject exS = false ∧ emptyObject [none, some 0] = true := by decide

/-! ## C73: access to components -/

/-- Checked access with at least as many indices as the rank of the mdspan yields the component at the given indices if each of them is below the
extent (an index beyond the rank has to be 0), and otherwise throws.  Missing: collections with fewer indices than the rank; see
`C73_access_violated`. -/
theorem C73_access_at_partial (m : List Extent) (h : Valid m) (x : Indices) (hlen : m.length ≤ x.items.length) (hne : some 0 ∉ statics m) :
    ((∀ i < x.items.length, x.items.getD i 0 < extentOf (shapeOf m) i) → accessAt m x = .component (x.items.take m.length)) ∧
    (¬ (∀ i < x.items.length, x.items.getD i 0 < extentOf (shapeOf m) i) → accessAt m x = .outOfRange) := by
  have hic : indexCount (statics m) ≤ x.items.length := by
    exact (indexCount_le (statics m)).trans (by simpa [statics] using hlen)
  have hpre : (!indexCollectionFor (statics m) x || emptyObject (statics m)) = false := by
    rw [indexCollectionFor_eq _ _ hne]
    have : emptyObject (statics m) = false := by
      rw [← Bool.not_eq_true, emptyObject_iff]; exact hne
    simp [this, hic]
  have hmd : ∀ i, i < m.length → (mdExtent m i).getD 0 = extentOf (shapeOf m) i := by
    intro i hi; simp [mdExtent, extentOf, shapeOf, List.getD, hi]
  have hbeyond : ∀ i, ¬ i < m.length → extentOf (shapeOf m) i = 1 := by
    intro i hi; simp [extentOf, shapeOf, List.getD, hi]
  have hcmp : Collections.compareIndices (· == .less) ⟨fun i => x.items.getD i 0, some x.items.length, x.fixedSize⟩
      ⟨fun i => if i < m.length then (mdExtent m i).getD 0 else 1, none, false⟩ = true ↔
      ∀ i < x.items.length, x.items.getD i 0 < extentOf (shapeOf m) i := by
    rw [Collections.C20_common_prefix _ _ _ (by simp)]
    constructor
    · intro hk i hi
      have := hk i ⟨by simpa using hi, by simp⟩
      have hlt : ∀ a b, (Collections.cmpNat a b == POrd.less) = true → a < b := by
        intro a b; unfold Collections.cmpNat; split_ifs <;> simp [*]
      have := hlt _ _ this
      simp only at this
      split_ifs at this with hc
      · rwa [hmd i hc] at this
      · rwa [hbeyond i hc]
    · intro hk i hi
      have hi' : i < x.items.length := hi.1 _ rfl
      have := hk i hi'
      have hlt : ∀ a b, a < b → (Collections.cmpNat a b == POrd.less) = true := by
        intro a b hab; simp [Collections.cmpNat, hab]
      apply hlt
      simp only
      split_ifs with hc
      · rwa [hmd i hc]
      · rwa [hbeyond i hc] at this
  constructor
  · intro hall
    unfold accessAt access
    rw [hpre, hcmp.2 hall]
    simp only [Bool.false_eq_true, if_false, Bool.not_true, if_pos hlen]
    rw [if_pos]
    rw [List.all_eq_true]
    intro i hi
    have hi' : i < m.length := by simpa using hi
    rw [hmd i hi', decide_eq_true_eq]
    exact hall i (by omega)
  · intro hall
    unfold accessAt
    have : Collections.compareIndices (· == .less) ⟨fun i => x.items.getD i 0, some x.items.length, x.fixedSize⟩
      ⟨fun i => if i < m.length then (mdExtent m i).getD 0 else 1, none, false⟩ = false := by
      rw [← Bool.not_eq_true, hcmp]; exact hall
    rw [hpre, this]
    simp

example : accessAt exM ⟨true, [1, 3, 0]⟩ = .component [1, 3, 0] := by
  have := (C73_access_at_partial exM exM_valid ⟨true, [1, 3, 0]⟩ (by decide) (by decide)).1 (by decide)
  simpa [exM] using this
example : accessAt exM ⟨false, [1, 4, 0]⟩ = .outOfRange :=
  (C73_access_at_partial exM exM_valid ⟨false, [1, 4, 0]⟩ (by decide) (by decide)).2 (by decide)

/-- Unchecked access is the same where the indices are within the extents, and undefined otherwise. -/
theorem C73_access_partial (m : List Extent) (h : Valid m) (x : Indices) (hlen : m.length ≤ x.items.length) (hne : some 0 ∉ statics m) :
    ((∀ i < m.length, x.items.getD i 0 < extentOf (shapeOf m) i) → access m x = .component (x.items.take m.length)) ∧
    (access m x = .undefined ↔ ¬ ∀ i < m.length, x.items.getD i 0 < extentOf (shapeOf m) i) := by
  have hic : indexCount (statics m) ≤ x.items.length := by
    exact (indexCount_le (statics m)).trans (by simpa [statics] using hlen)
  have hpre : (!indexCollectionFor (statics m) x || emptyObject (statics m)) = false := by
    rw [indexCollectionFor_eq _ _ hne]
    have : emptyObject (statics m) = false := by
      rw [← Bool.not_eq_true, emptyObject_iff]; exact hne
    simp [this, hic]
  have hall : ((List.range m.length).all fun i => decide (x.items.getD i 0 < (mdExtent m i).getD 0)) = true ↔
      ∀ i < m.length, x.items.getD i 0 < extentOf (shapeOf m) i := by
    rw [List.all_eq_true]
    constructor
    · intro hk i hi
      have := hk i (by simpa using hi)
      simpa [mdExtent, extentOf, shapeOf, List.getD, hi] using this
    · intro hk i hi
      have hi' : i < m.length := by simpa using hi
      have := hk i hi'
      simpa [mdExtent, extentOf, shapeOf, List.getD, hi'] using this
  unfold access
  rw [hpre]
  simp only [Bool.false_eq_true, if_false, if_pos hlen]
  by_cases hc : ∀ i < m.length, x.items.getD i 0 < extentOf (shapeOf m) i
  · rw [if_pos (hall.2 hc)]
    exact ⟨fun _ => rfl, ⟨by simp, fun hn => absurd hc hn⟩⟩
  · rw [if_neg (fun e => hc (hall.1 e))]
    exact ⟨fun h' => absurd h' hc, ⟨fun _ => hc, fun _ => rfl⟩⟩

example : access exM ⟨true, [1, 3, 0]⟩ = .component [1, 3, 0] := by
  simpa [exM] using (C73_access_partial exM exM_valid ⟨true, [1, 3, 0]⟩ (by decide) (by decide)).1 (by decide)

/-- The index count is documented as the number of indices that suffice, and it is the number that the constraints ask for; but the component of a
3-by-1 object cannot be accessed with one index: an index array of length 1 does not compile, and a vector of indices of length 1, which is accepted,
makes even the checked access undefined.  The same holds for a vector of too few indices and any shape. -/
theorem C73_access_violated :
    (∃ m x, Valid m ∧ x.fixedSize = true ∧ indexCount (statics m) ≤ x.items.length ∧
      (∀ i < x.items.length, x.items.getD i 0 < extentOf (shapeOf m) i) ∧ accessAt m x = .illFormed) ∧
    (∃ m x, Valid m ∧ indexCount (statics m) ≤ x.items.length ∧
      (∀ i < x.items.length, x.items.getD i 0 < extentOf (shapeOf m) i) ∧ accessAt m x = .undefined) ∧
    (∃ m x, Valid m ∧ x.items.length < indexCount (statics m) ∧ accessAt m x = .undefined) := by
  have hv : Valid [⟨some 3, 3⟩, ⟨some 1, 1⟩] := by
    intro e he n hn
    simp only [List.mem_cons, List.not_mem_nil, or_false] at he
    rcases he with rfl | rfl <;> simp_all
  have hv2 : Valid [⟨some 3, 3⟩, ⟨some 2, 2⟩] := by
    intro e he n hn
    simp only [List.mem_cons, List.not_mem_nil, or_false] at he
    rcases he with rfl | rfl <;> simp_all
  have key : ∀ (m : List Extent) (f : Bool), (!indexCollectionFor (statics m) ⟨f, [2]⟩ || emptyObject (statics m)) = false → 0 < m.length →
      2 < (mdExtent m 0).getD 0 → accessAt m ⟨f, [2]⟩ = access m ⟨f, [2]⟩ := by
    intro m f hpre h0 hk
    have : Collections.compareIndices (· == .less) ⟨fun i => [2].getD i 0, some [2].length, f⟩
      ⟨fun i => if i < m.length then (mdExtent m i).getD 0 else 1, none, false⟩ = true := by
      rw [Collections.C20_common_prefix _ _ _ (by simp)]
      rintro i ⟨hi, -⟩
      have hi0 : i < 1 := hi 1 rfl
      have : i = 0 := by omega
      subst this
      simp [Collections.cmpNat, h0, hk]
    unfold accessAt
    rw [hpre, this]
    simp
  refine ⟨⟨[⟨some 3, 3⟩, ⟨some 1, 1⟩], ⟨true, [2]⟩, hv, rfl, by decide, by decide, ?_⟩,
    ⟨[⟨some 3, 3⟩, ⟨some 1, 1⟩], ⟨false, [2]⟩, hv, by decide, by decide, ?_⟩,
    ⟨[⟨some 3, 3⟩, ⟨some 2, 2⟩], ⟨false, [2]⟩, hv2, by decide, ?_⟩⟩
  · rw [key _ _ (by decide) (by decide) (by decide)]; decide
  · rw [key _ _ (by decide) (by decide) (by decide)]; decide
  · rw [key _ _ (by decide) (by decide) (by decide)]; decide

/-! ## C74: matching patterns -/

section
variable {T : Theory} (ofDim : Nat → T.α)

/-- `patterns_match` holds iff the pattern collections agree up to the largest index count; the loop version gives the same answer.  Missing: the
patterns of later indices; see `C74_match_violated`. -/
theorem C74_match_partial (h1 : ofDim 1 = T.one) (t : Obj T) (ts : List (Obj T)) (hv : ∀ o ∈ t :: ts, Valid o.exts) :
    (patternsMatch ofDim (t :: ts) = true ↔ ∀ i < maxCount (t :: ts), ∀ u ∈ ts,
      (T.cmp (PatternColl.padded T.one (getPatternCollection ofDim t) i)
        (PatternColl.padded T.one (getPatternCollection ofDim u) i)).isEq = true) ∧
    patternsMatchLoop ofDim t ts 0 (maxCount (t :: ts)) = patternsMatch ofDim (t :: ts) := by
  constructor
  · rw [patternsMatch_cons]
    constructor
    · intro h i hi u hu
      have := h i hi u hu
      rwa [getIndexPattern_eq ofDim h1 t (hv t (List.mem_cons_self ..)), getIndexPattern_eq ofDim h1 u (hv u (List.mem_cons_of_mem _ hu))] at this
    · intro h i hi u hu
      rw [getIndexPattern_eq ofDim h1 t (hv t (List.mem_cons_self ..)), getIndexPattern_eq ofDim h1 u (hv u (List.mem_cons_of_mem _ hu))]
      exact h i hi u hu
  · rw [Bool.eq_iff_iff, patternsMatch_cons, patternsMatchLoop_iff]
    simp

/-- If each object's patterns beyond its own index count are equivalent to the one-dimensional Euclidean pattern (as they are for an object without
patterns of its own), `patterns_match` says exactly whether all the pattern collections are equivalent, padded with one-dimensional patterns. -/
theorem C74_match (h1 : ofDim 1 = T.one) (hl : Collections.OrderLaws T.cmp) (t : Obj T) (ts : List (Obj T)) (hv : ∀ o ∈ t :: ts, Valid o.exts)
    (hp : ∀ o ∈ t :: ts, ∀ i, indexCount (statics o.exts) ≤ i → T.cmp (PatternColl.padded T.one (getPatternCollection ofDim o) i) T.one = .equivalent) :
    patternsMatch ofDim (t :: ts) = true ↔ ∀ u ∈ ts,
      PatternColl.AgreePadded (fun a b => T.cmp a b = .equivalent) T.one (getPatternCollection ofDim t) (getPatternCollection ofDim u) := by
  rw [(C74_match_partial ofDim h1 t ts hv).1]
  constructor
  · intro h u hu i
    rcases Nat.lt_or_ge i (maxCount (t :: ts)) with hi | hi
    · exact (PatternColl.isEq_iff _).1 (h i hi u hu)
    · have ht := hp t (List.mem_cons_self ..) i ((maxCount_ge (List.mem_cons_self ..)).trans hi)
      have hu' := hp u (List.mem_cons_of_mem _ hu) i ((maxCount_ge (List.mem_cons_of_mem _ hu)).trans hi)
      have := hl.eq_left _ _ (PatternColl.padded T.one (getPatternCollection ofDim u) i) ht
      rw [this, hl.rev, hu']; rfl
  · intro h i _ u hu
    exact (PatternColl.isEq_iff _).2 (h u hu i)

end

/-- Two patterns of dimension 1 that are not equivalent (say `Dimensions<1>` and `angle::Radians`), and one of dimension 3. -/
def demoTheory : Theory where
  α := Nat
  τ := Unit
  ty := fun _ => ()
  cmp := fun a b => if a = b then .equivalent else .unordered
  one := 1
  dim := fun a => if a = 100 then 1 else a

/-- The patterns of plain dimensions. -/
def demoDim : Nat → demoTheory.α := fun d => d

/-- A 3-by-1 object with an angle as the pattern of its columns, and one without patterns, match according to `patterns_match`, although their
patterns for index 1 differ: the trailing extent 1 is not counted, and its pattern is not looked at. -/
theorem C74_match_violated : ∃ (t u : Obj demoTheory),
    Valid t.exts ∧ Valid u.exts ∧ patternsMatch demoDim [t, u] = true ∧
    ¬ PatternColl.AgreePadded (fun a b => demoTheory.cmp a b = .equivalent) demoTheory.one
      (getPatternCollection demoDim t) (getPatternCollection demoDim u) := by
  have hv : Valid [⟨some 3, 3⟩, ⟨some 1, 1⟩] := by
    intro e he n hn
    simp only [List.mem_cons, List.not_mem_nil, or_false] at he
    rcases he with rfl | rfl <;> simp_all
  refine ⟨⟨[⟨some 3, 3⟩, ⟨some 1, 1⟩], some [(3 : Nat), (100 : Nat)]⟩, ⟨[⟨some 3, 3⟩, ⟨some 1, 1⟩], none⟩, hv, hv, ?_, ?_⟩
  · rw [patternsMatch_cons]
    intro i hi u hu
    simp only [List.mem_singleton] at hu
    subst hu
    have hi' : i < 1 := hi
    have : i = 0 := by omega
    subst this
    decide
  · intro h
    have := h 1
    revert this
    decide

/-- Objects that meet the hypotheses of `C74_match`: 3-by-1 objects without patterns of their own. -/
example : ∀ i, indexCount (statics [⟨some 3, 3⟩, ⟨some 1, 1⟩]) ≤ i →
    demoTheory.cmp (PatternColl.padded demoTheory.one
      (getPatternCollection demoDim ⟨[⟨some 3, 3⟩, ⟨some 1, 1⟩], none⟩) i) demoTheory.one = .equivalent := by
  intro i hi
  have hi' : 1 ≤ i := hi
  rcases i with _ | _ | i
  · omega
  · decide
  · simp only [PatternColl.padded]
    rw [List.getD_eq_default]
    · decide
    · show 2 ≤ i + 1 + 1
      omega

/-! ## C75: extents of a pattern collection -/

/-- Conversion to extents keeps the shape: the extents are the dimensions of the patterns, padded with 1.  With a rank, the conversion is accepted
iff the rank is at least the number of dimensions left after removing trailing dimensions known to be 1. -/
theorem C75_to_extents (isExtents : Bool) (p : List Extent) (h : Valid p) :
    (∀ rank r, toExtents isExtents rank p = some r → Valid r ∧ SameShape (shapeOf r) (shapeOf p)) ∧
    (∃ r, toExtents isExtents none p = some r ∧ r.length = indexCount (statics p)) ∧
    (∀ k, (∃ r, toExtents isExtents (some k) p = some r) ↔ indexCount (statics p) ≤ k) := by
  have hN : deriveRank (p.map (·.fixed)) p.length = indexCount (statics p) := by
    rw [deriveRank_eq _ _ (by simp)]; simp [indexCount, statics]
  refine ⟨?_, ?_, ?_⟩
  · intro rank r hr
    unfold toExtents at hr
    simp only [hN] at hr
    rcases rank with _ | k
    · simp only [derive_eq h, Option.some.injEq] at hr
      subst hr
      exact ⟨dimAt_valid h _, extentOf_derive h (le_refl _)⟩
    · simp only at hr
      split_ifs at hr with h1 h2
      · simp only [Option.some.injEq] at hr; subst hr; exact ⟨h, fun _ => rfl⟩
      · rw [derive_eq h, Option.some.injEq] at hr
        subst hr
        exact ⟨dimAt_valid h _, extentOf_derive h (by omega)⟩
  · refine ⟨(List.range (indexCount (statics p))).map (dimAt p), ?_, ?_⟩
    · unfold toExtents; simp only [hN]; exact derive_eq h _
    · simp
  · intro k
    unfold toExtents
    simp only [hN]
    constructor
    · rintro ⟨r, hr⟩
      split_ifs at hr with h1 <;> omega
    · intro hk
      rw [if_neg (by omega)]
      split_ifs
      · exact ⟨p, rfl⟩
      · exact ⟨_, derive_eq h k⟩

/-- The result has the requested rank, unless the argument is a `std::extents` and the rank is the smallest possible.  Missing: that case; see
`C75_rank_violated`. -/
theorem C75_rank_partial (isExtents : Bool) (p : List Extent) (h : Valid p) (k : Nat) (r : List Extent)
    (hk : isExtents = false ∨ indexCount (statics p) < k) (hr : toExtents isExtents (some k) p = some r) : r.length = k := by
  have hN : deriveRank (p.map (·.fixed)) p.length = indexCount (statics p) := by
    rw [deriveRank_eq _ _ (by simp)]; simp [indexCount, statics]
  unfold toExtents at hr
  simp only [hN] at hr
  have hc : ¬ ((isExtents && !decide (indexCount (statics p) < k)) = true) := by
    rcases hk with hk | hk <;> simp [hk]
  rw [if_neg hc] at hr
  split_ifs at hr
  rw [derive_eq h, Option.some.injEq] at hr
  subst hr; simp

example : toExtents true (some 4) exM = some [⟨some 2, 2⟩, ⟨none, 4⟩, ⟨some 1, 1⟩, ⟨some 1, 1⟩] := by
  decide +kernel

/-- Converting `std::extents<std::size_t, 2, 1>` to extents of rank 1 yields extents of rank 2. -/
theorem C75_rank_violated : ∃ p k r, Valid p ∧ toExtents true (some k) p = some r ∧ r.length ≠ k := by
  refine ⟨[⟨some 2, 2⟩, ⟨some 1, 1⟩], 1, [⟨some 2, 2⟩, ⟨some 1, 1⟩], ?_, rfl, by decide⟩
  intro e he n hn
  simp only [List.mem_cons, List.not_mem_nil, or_false] at he
  rcases he with rfl | rfl <;> simp_all

end OpenKalman.Shape
