import Verif.Spec.Shape
import Verif.Spec.PatternColl
import Verif.Model.Shape
import Verif.Proof.Collections
import Verif.Proof.PatternColl

/-!
# Lemmas for the shape queries
-/

namespace OpenKalman.Shape

open Collections (cmpNat IxColl compareIndices)

/-! ## Comparisons -/

theorem cmpNat_natCmp (a b : Nat) : cmpNat a b = natCmp a b := rfl

theorem test_natCmp (r : Rel) (a b : Nat) : r.test (natCmp a b) = true ↔ r.holds a b := by
  cases r <;> simp only [Rel.test, Rel.holds, natCmp] <;> split_ifs <;> simp [POrd.isEq] <;> omega

/-- The sizes a size type stands for. -/
def Size.values : Size → Set Nat
  | .fixed n => {n}
  | .dynamic => Set.univ
  | .unbounded => ∅

theorem scw_sound (comp : POrd → Bool) (a b : Size) (ha : a ≠ .unbounded) (hb : b ≠ .unbounded)
    (h : sizeComparesWith comp true a b = true) : ∀ x ∈ a.values, ∀ y ∈ b.values, comp (natCmp x y) = true := by
  intro x hx y hy
  rcases a with a | _ | _ <;> rcases b with b | _ | _ <;> simp [Size.values, sizeComparesWith] at hx hy h ha hb
  · subst hx hy; exact h
  · obtain ⟨h0, h⟩ := h
    subst h0 hx
    simp [doComps] at h
    unfold natCmp; split_ifs <;> simp_all
  · obtain ⟨h0, h⟩ := h
    subst h0 hy
    simp [doComps] at h
    unfold natCmp; split_ifs <;> simp_all

theorem scw_permitted (comp : POrd → Bool) (a b : Size) (ha : a ≠ .unbounded) (hb : b ≠ .unbounded)
    {x y : Nat} (hx : x ∈ a.values) (hy : y ∈ b.values) (h : comp (natCmp x y) = true) : sizeComparesWith comp false a b = true := by
  rcases a with a | _ | _ <;> rcases b with b | _ | _ <;> simp [Size.values, sizeComparesWith] at hx hy ha hb ⊢
  · subst hx hy; exact h
  · by_cases h0 : a = 0
    swap; · exact .inl h0
    right
    subst h0 hx
    simp [doComps]
    unfold natCmp at h; split_ifs at h <;> simp_all
  · by_cases h0 : b = 0
    swap; · exact .inl h0
    right
    subst h0 hy
    simp [doComps]
    unfold natCmp at h; split_ifs at h <;> simp_all

theorem scw_guaranteed_iff (r : Rel) (d : Option Nat) (v : Nat) :
    sizeComparesWith r.test true (Size.ofOption d) (.fixed v) = true ↔ ∀ x, (∀ n, d = some n → x = n) → r.holds x v := by
  constructor
  · intro h x hx
    rw [← test_natCmp]
    refine scw_sound _ _ _ (by cases d <;> simp [Size.ofOption]) (by simp) h x ?_ v rfl
    cases d with
    | none => trivial
    | some n => exact hx n rfl
  · intro h
    cases d with
    | some n => exact (test_natCmp r n v).2 (h n (by simp))
    | none =>
      have h0 := h 0 (by simp)
      have h1 := h v (by simp)
      have h2 := h (v + 1) (by simp)
      simp only [Size.ofOption, sizeComparesWith]
      cases r <;> simp [Rel.holds, doComps, Rel.test, POrd.isEq] at h0 h1 h2 ⊢ <;> omega

theorem scw_permitted_iff (r : Rel) (d : Option Nat) (v : Nat) :
    sizeComparesWith r.test false (Size.ofOption d) (.fixed v) = true ↔ ∃ x, (∀ n, d = some n → x = n) ∧ r.holds x v := by
  constructor
  · intro h
    cases d with
    | some n => exact ⟨n, by simp, (test_natCmp r n v).1 h⟩
    | none =>
      simp only [Size.ofOption, sizeComparesWith] at h
      cases r with
      | eq => exact ⟨v, by simp, rfl⟩
      | neq => exact ⟨v + 1, by simp, by simp [Rel.holds]⟩
      | lt =>
        refine ⟨0, by simp, ?_⟩
        simp only [Rel.holds]
        by_cases h0 : v = 0
        · subst h0; simp [doComps, Rel.test] at h
        · omega
      | gt => exact ⟨v + 1, by simp, by simp [Rel.holds]⟩
      | lteq => exact ⟨0, by simp, by simp [Rel.holds]⟩
      | gteq => exact ⟨v, by simp, by simp [Rel.holds]⟩
  · rintro ⟨x, hx, h⟩
    refine scw_permitted (x := x) (y := v) _ _ _ (by cases d <;> simp [Size.ofOption]) (by simp) ?_ rfl ((test_natCmp r x v).2 h)
    cases d with
    | none => trivial
    | some n => exact hx n rfl

/-! ## The index count -/

theorem removeTrailing_le (s : List (Option Nat)) : ∀ i, removeTrailing s i ≤ i
  | 0 => le_refl _
  | i + 1 => by
    unfold removeTrailing
    split
    · exact (removeTrailing_le s i).trans (Nat.le_succ i)
    · exact le_refl _

theorem removeTrailing_one (s : List (Option Nat)) : ∀ i j, removeTrailing s i ≤ j → j < i → s[j]? = some (some 1)
  | 0, j, _, h => by omega
  | i + 1, j, h1, h2 => by
    unfold removeTrailing at h1
    split at h1
    · rename_i hs
      rcases Nat.lt_or_ge j i with h | h
      · exact removeTrailing_one s i j h1 h
      · have : j = i := by omega
        subst this; exact hs
    · omega

theorem removeTrailing_last (s : List (Option Nat)) : ∀ i k, removeTrailing s i = k + 1 → s[k]? ≠ some (some 1)
  | 0, k, h => by simp [removeTrailing] at h
  | i + 1, k, h => by
    unfold removeTrailing at h
    split at h
    · exact removeTrailing_last s i k h
    · rename_i hs
      have : i = k := by omega
      subst this; exact hs

theorem indexCount_le (s : List (Option Nat)) : indexCount s ≤ s.length := removeTrailing_le s _

theorem indexCount_one {s : List (Option Nat)} {j : Nat} (h : indexCount s ≤ j) (hj : j < s.length) : s[j]? = some (some 1) :=
  removeTrailing_one s _ j h hj

theorem indexCount_extent {s : List (Option Nat)} {v : List Nat} (hv : Instance s v) {i : Nat} (h : indexCount s ≤ i) : extentOf v i = 1 := by
  unfold extentOf
  rcases Nat.lt_or_ge i s.length with hi | hi
  · have := hv.2 i 1 (indexCount_one h hi)
    simp [List.getD, this]
  · rw [List.getD_eq_default _ _ (by rw [hv.1]; exact hi)]

/-- An instance in which every unknown extent is `d`. -/
def fill (d : Nat) (s : List (Option Nat)) : List Nat := s.map (·.getD d)

theorem fill_instance (d : Nat) (s : List (Option Nat)) : Instance s (fill d s) := by
  refine ⟨by simp [fill], fun i n h => by simp [fill, h]⟩

theorem extentOf_fill (d : Nat) (s : List (Option Nat)) (i : Nat) (hi : i < s.length) : extentOf (fill d s) i = s[i].getD d := by
  simp [extentOf, fill, List.getD, hi]

/-- An instance with a chosen value at an unknown extent. -/
theorem instance_at (s : List (Option Nat)) (i x : Nat) (hi : i < s.length) (hx : ∀ n, s[i]? = some (some n) → x = n) :
    ∃ v, Instance s v ∧ extentOf v i = x := by
  refine ⟨(fill 2 s).set i x, ⟨by simp [fill], fun j n h => ?_⟩, ?_⟩
  · by_cases hj : i = j
    · subst hj
      have := hx n h
      subst this
      simp [fill, hi]
    · rw [List.getElem?_set_ne hj]
      simp [fill, h]
  · simp [extentOf, List.getD, fill, hi]

theorem indexCount_least (s : List (Option Nat)) (n : Nat) (h : ∀ v, Instance s v → ∀ i, n ≤ i → extentOf v i = 1) : indexCount s ≤ n := by
  by_contra hc
  obtain ⟨k, hk⟩ : ∃ k, indexCount s = k + 1 := ⟨indexCount s - 1, by omega⟩
  have hl := removeTrailing_last s _ k hk
  have hks : k < s.length := by have := indexCount_le s; omega
  have h1 := h (fill 2 s) (fill_instance 2 s) k (by omega)
  rw [extentOf_fill _ _ _ hks] at h1
  apply hl
  rw [List.getElem?_eq_getElem hks]
  cases hs : s[k] with
  | none => rw [hs] at h1; simp at h1
  | some x => rw [hs] at h1; simp at h1; rw [h1]

/-! ## Extents of an object -/

/-- The values of an mdspan's extents agree with the compile-time ones. -/
def Valid (m : List Extent) : Prop := ∀ e ∈ m, ∀ n, e.fixed = some n → e.value = n

/-- The shape of an mdspan. -/
def shapeOf (m : List Extent) : List Nat := m.map (·.value)

theorem valid_instance {m : List Extent} (h : Valid m) : Instance (statics m) (shapeOf m) := by
  refine ⟨by simp [statics, shapeOf], fun i n hi => ?_⟩
  simp only [statics, shapeOf, List.getElem?_map, Option.map_eq_some_iff] at hi ⊢
  obtain ⟨e, he, hn⟩ := hi
  exact ⟨e, he, h e (List.mem_of_getElem? he) n hn⟩

theorem getIndexExtent_eq {m : List Extent} (h : Valid m) (fixedI : Bool) (i : Nat) :
    getIndexExtent m fixedI i = some (extentOf (shapeOf m) i) := by
  have hone : ∀ j, indexCount (statics m) ≤ j → extentOf (shapeOf m) j = 1 := fun j hj => indexCount_extent (valid_instance h) hj
  have hlen : indexCount (statics m) ≤ m.length := by simpa [statics] using indexCount_le (statics m)
  have hmd : ∀ j, j < m.length → mdExtent m j = some (extentOf (shapeOf m) j) := by
    intro j hj
    simp [mdExtent, extentOf, shapeOf, List.getD, hj]
  have hst : ∀ j (hj : j < m.length) ex, (statics m)[j]? = some (some ex) → some ex = some (extentOf (shapeOf m) j) := by
    intro j hj ex he
    have := (valid_instance h).2 j ex he
    simp [extentOf, List.getD, this]
  unfold getIndexExtent
  cases fixedI with
  | true =>
    simp only [if_true, sizeComparesWith]
    by_cases hi : i < indexCount (statics m)
    · have hc : cmpNat i (indexCount (statics m)) = .less := by simp [cmpNat, hi]
      have hil : i < m.length := by omega
      simp only [hc]
      have hs : i < (statics m).length := by simpa [statics] using hil
      rw [List.getElem?_eq_getElem hs]
      cases hx : (statics m)[i] with
      | none => simpa using hmd i hil
      | some ex => simpa using hst i hil ex (by rw [List.getElem?_eq_getElem hs, hx])
    · have h1 := hone i (by omega)
      have hc : cmpNat i (indexCount (statics m)) ≠ .less ∧ (cmpNat i (indexCount (statics m)) = .greater ∨
          cmpNat i (indexCount (statics m)) = .equivalent) := by
        unfold cmpNat; split_ifs <;> simp
      rcases hc.2 with hc | hc <;> simp [hc, h1]
  | false =>
    have e1 : sizeComparesWith (fun o => o == .greater || o == .equivalent) true .dynamic (.fixed (indexCount (statics m))) =
        decide (indexCount (statics m) = 0) := by
      simp only [sizeComparesWith, doComps]; split_ifs with h0 <;> simp [h0]
    have e2 : sizeComparesWith (· == .less) true .dynamic (.fixed (indexCount (statics m))) = false := by
      simp only [sizeComparesWith, doComps]; split_ifs <;> simp
    simp only [Bool.false_eq_true, if_false, e1, e2, decide_eq_true_eq]
    by_cases h0 : indexCount (statics m) = 0
    · rw [if_pos h0, hone i (by omega)]
    · rw [if_neg h0]
      by_cases hi : i < indexCount (statics m)
      · rw [if_pos hi]; exact hmd i (by omega)
      · rw [if_neg hi, hone i (by omega)]

theorem indexDimensionOf_spec (s : List (Option Nat)) (i x : Nat) :
    (∀ n, indexDimensionOf s i = some n → x = n) ↔ ∃ v, Instance s v ∧ extentOf v i = x := by
  unfold indexDimensionOf
  by_cases hi : i < indexCount s
  · have hl : i < s.length := by have := indexCount_le s; omega
    rw [if_pos hi, List.getElem?_eq_getElem hl]
    constructor
    · intro h
      exact instance_at s i x hl (fun n hn => h n (by rw [List.getElem?_eq_getElem hl] at hn; simpa using hn))
    · rintro ⟨v, hv, rfl⟩ n hn
      have := hv.2 i n (by rw [List.getElem?_eq_getElem hl]; simpa using hn)
      simp [extentOf, List.getD, this]
  · rw [if_neg hi]
    constructor
    · intro h
      exact ⟨fill 0 s, fill_instance 0 s, by rw [h 1 rfl]; exact indexCount_extent (fill_instance 0 s) (by omega)⟩
    · rintro ⟨v, hv, rfl⟩ n hn
      rw [indexCount_extent hv (by omega)]
      simpa using hn

theorem dimIs_guaranteed (s : List (Option Nat)) (i v : Nat) (r : Rel) :
    dimensionSizeOfIndexIs s i v r.test true = true ↔ ∀ w, Instance s w → r.holds (extentOf w i) v := by
  unfold dimensionSizeOfIndexIs
  rw [scw_guaranteed_iff]
  constructor
  · intro h w hw
    exact h _ ((indexDimensionOf_spec s i _).2 ⟨w, hw, rfl⟩)
  · intro h x hx
    obtain ⟨w, hw, rfl⟩ := (indexDimensionOf_spec s i x).1 hx
    exact h w hw

theorem dimIs_permitted (s : List (Option Nat)) (i v : Nat) (r : Rel) :
    dimensionSizeOfIndexIs s i v r.test false = true ↔ ∃ w, Instance s w ∧ r.holds (extentOf w i) v := by
  unfold dimensionSizeOfIndexIs
  rw [scw_permitted_iff]
  constructor
  · rintro ⟨x, hx, h⟩
    obtain ⟨w, hw, rfl⟩ := (indexDimensionOf_spec s i x).1 hx
    exact ⟨w, hw, h⟩
  · rintro ⟨w, hw, h⟩
    exact ⟨_, (indexDimensionOf_spec s i _).2 ⟨w, hw, rfl⟩, h⟩

theorem isEq_test : POrd.isEq = Rel.test .eq := rfl

/-! ## Tensor order -/

/-- The number of extents above 1 before the first 0. -/
def orderUpToZero : List Nat → Nat
  | [] => 0
  | 0 :: _ => 0
  | 1 :: l => orderUpToZero l
  | (_ + 2) :: l => 1 + orderUpToZero l

theorem orderUpToZero_cons (d : Nat) (l : List Nat) :
    orderUpToZero (d :: l) = if d = 0 then 0 else if d = 1 then orderUpToZero l else 1 + orderUpToZero l := by
  rcases d with _ | _ | d <;> simp [orderUpToZero]

theorem tensorOrderFrom_eq {m : List Extent} (h : Valid m) (is : List Nat) :
    tensorOrderFrom m is = some (orderUpToZero (is.map (extentOf (shapeOf m)))) := by
  induction is with
  | nil => rfl
  | cons i is ih =>
    simp only [tensorOrderFrom, getIndexExtent_eq h, List.map_cons, orderUpToZero_cons, ih]
    simp only [bind, Option.bind, pure]
    split_ifs <;> simp_all

theorem orderUpToZero_eq (l : List Nat) (h : 0 ∉ l) : orderUpToZero l = l.countP (1 < ·) := by
  induction l with
  | nil => rfl
  | cons d l ih =>
    simp only [List.mem_cons, not_or] at h
    rw [orderUpToZero_cons, if_neg (fun e => h.1 e.symm), List.countP_cons, ih h.2]
    split_ifs with h1 h2 h2 <;> simp at h2 <;> omega

theorem tensorOrderLoop_eq {m : List Extent} (h : Valid m) (is : List Nat) (c : Nat) :
    tensorOrderLoop m is c = some (if 0 ∈ is.map (extentOf (shapeOf m)) then 0 else c + (is.map (extentOf (shapeOf m))).countP (1 < ·)) := by
  induction is generalizing c with
  | nil => simp [tensorOrderLoop]
  | cons i is ih =>
    simp only [tensorOrderLoop, getIndexExtent_eq h, List.map_cons, List.mem_cons, List.countP_cons, ih]
    simp only [bind, Option.bind, pure]
    by_cases h1 : 1 < extentOf (shapeOf m) i
    · rw [if_pos h1]
      have : ¬ 0 = extentOf (shapeOf m) i := by omega
      simp only [this, false_or, decide_eq_true h1, if_true]
      split_ifs <;> simp; omega
    · rw [if_neg h1]
      by_cases h0 : extentOf (shapeOf m) i = 0
      · simp [h0]
      · have : ¬ 0 = extentOf (shapeOf m) i := by omega
        rw [if_neg h0]
        simp [this, h1]

/-- The extents below the index count are the whole shape, as far as values other than 1 go. -/
theorem shape_split {s : List (Option Nat)} {v : List Nat} (hv : Instance s v) :
    ∃ k, v = (List.range (indexCount s)).map (extentOf v) ++ List.replicate k 1 := by
  refine ⟨v.length - indexCount s, ?_⟩
  have hle : indexCount s ≤ v.length := by rw [hv.1]; exact indexCount_le s
  apply List.ext_getElem
  · simp; omega
  · intro i h1 h2
    by_cases hi : i < indexCount s
    · rw [List.getElem_append_left (by simpa using hi)]
      simp [extentOf, List.getD, h1]
    · rw [List.getElem_append_right (by simpa using hi)]
      have := indexCount_extent hv (i := i) (by omega)
      simp only [extentOf, List.getD, List.getElem?_eq_getElem h1, Option.getD_some] at this
      simpa using this

theorem order_split (l : List Nat) (k : Nat) : orderOf (l ++ List.replicate k 1) = orderOf l := by
  unfold orderOf
  have : (List.replicate k 1).countP (1 < ·) = 0 := by
    rw [List.countP_eq_zero]; intro a ha; rw [List.eq_of_mem_replicate ha]; simp
  simp [List.countP_append, this, List.mem_replicate]

theorem orderUpToZero_append_ones (l : List Nat) (k : Nat) : orderUpToZero (l ++ List.replicate k 1) = orderUpToZero l := by
  induction l with
  | nil =>
    induction k with
    | zero => rfl
    | succ k ih => simpa [List.replicate_succ, orderUpToZero] using ih
  | cons d l ih => simp only [List.cons_append, orderUpToZero_cons, ih]

theorem tensorOrder_eq {m : List Extent} (h : Valid m) : tensorOrder m = some (orderUpToZero (shapeOf m)) := by
  obtain ⟨k, hk⟩ := shape_split (valid_instance h)
  unfold tensorOrder
  rw [tensorOrderFrom_eq h]
  conv_rhs => rw [hk, orderUpToZero_append_ones]

/-! ## Largest order -/

theorem maxFrom_eq (s : List (Option Nat)) : ∀ i r, maxTensorOrderFrom s i r =
    if ∃ j < i, indexDimensionOf s j = some 0 then 0
    else r + ((List.range i).countP fun j => indexDimensionOf s j ≠ some 1)
  | 0, r => by simp [maxTensorOrderFrom]
  | i + 1, r => by
    have h1 : dimensionSizeOfIndexIs s i 1 POrd.isEq true = decide (indexDimensionOf s i = some 1) := by
      unfold dimensionSizeOfIndexIs
      cases indexDimensionOf s i with
      | none => simp [Size.ofOption, sizeComparesWith]
      | some n => simp only [Size.ofOption, sizeComparesWith, cmpNat]; split_ifs <;> simp [POrd.isEq] <;> omega
    have h0 : dimensionSizeOfIndexIs s i 0 POrd.isEq true = decide (indexDimensionOf s i = some 0) := by
      unfold dimensionSizeOfIndexIs
      cases indexDimensionOf s i with
      | none => simp [Size.ofOption, sizeComparesWith, doComps, POrd.isEq]
      | some n => simp only [Size.ofOption, sizeComparesWith, cmpNat]; split_ifs <;> simp [POrd.isEq] <;> omega
    have hex : (∃ j < i + 1, indexDimensionOf s j = some 0) ↔ (∃ j < i, indexDimensionOf s j = some 0) ∨ indexDimensionOf s i = some 0 := by
      constructor
      · rintro ⟨j, hj, h⟩
        rcases Nat.lt_succ_iff_lt_or_eq.1 hj with h' | h'
        · exact .inl ⟨j, h', h⟩
        · subst h'; exact .inr h
      · rintro (⟨j, hj, h⟩ | h)
        · exact ⟨j, by omega, h⟩
        · exact ⟨i, by omega, h⟩
    unfold maxTensorOrderFrom
    rw [h1, h0, maxFrom_eq s i r, maxFrom_eq s i (r + 1), List.range_succ, List.countP_append]
    simp only [hex, decide_eq_true_eq]
    by_cases c1 : indexDimensionOf s i = some 1
    · simp [c1]
    · by_cases c0 : indexDimensionOf s i = some 0
      · simp [c0]
      · simp only [c1, c0, if_false, or_false]
        split_ifs with hz
        · rfl
        · simp [c1]; omega

/-! ## Vectors -/

theorem isVectorFrom_eq {m : List Extent} (h : Valid m) (N : Nat) : ∀ i k,
    isVectorFrom m N i k = some (decide (∀ j, i ≤ j → j < i + k → j ≠ N → extentOf (shapeOf m) j = 1))
  | i, 0 => by
    have : ∀ j, i ≤ j → j < i + 0 → j ≠ N → extentOf (shapeOf m) j = 1 := by intro j h1 h2; omega
    rw [decide_eq_true this]; rfl
  | i, k + 1 => by
    simp only [isVectorFrom, getIndexExtent_eq h, isVectorFrom_eq h N (i + 1) k, bind, Option.bind, pure, Option.some.injEq]
    rw [Bool.eq_iff_iff]
    simp only [Bool.and_eq_true, Bool.or_eq_true, decide_eq_true_eq]
    constructor
    · rintro ⟨h1, h2⟩ j hj1 hj2 hj3
      rcases Nat.eq_or_lt_of_le hj1 with e | e
      · subst e
        rcases h1 with h1 | h1
        · exact absurd h1.symm hj3
        · exact h1
      · exact h2 j e (by omega) hj3
    · intro hall
      refine ⟨?_, fun j h1 h2 h3 => hall j (by omega) (by omega) h3⟩
      by_cases hN : N = i
      · exact .inl hN
      · exact .inr (hall i (le_refl _) (by omega) (fun e => hN e.symm))

theorem emptyObject_iff (s : List (Option Nat)) : emptyObject s = true ↔ some 0 ∈ s := by
  unfold emptyObject
  rw [List.any_eq_true]
  constructor
  · rintro ⟨i, hi, h⟩
    have hi' : i < indexCount s := by simpa using hi
    have hl : i < s.length := by have := indexCount_le s; omega
    rw [isEq_test, dimIs_guaranteed] at h
    have h1 := h (fill 1 s) (fill_instance 1 s)
    rw [extentOf_fill _ _ _ hl] at h1
    cases hs : s[i] with
    | none => rw [hs] at h1; simp [Rel.holds] at h1
    | some n =>
      rw [hs] at h1
      simp only [Rel.holds, Option.getD_some] at h1
      rw [← h1, ← hs]
      exact List.getElem_mem hl
  · intro h
    obtain ⟨i, hi, h⟩ := List.getElem_of_mem h
    refine ⟨i, ?_, ?_⟩
    · by_contra hc
      have := indexCount_one (s := s) (j := i) (by simpa using hc) hi
      rw [List.getElem?_eq_getElem hi, h] at this
      simp at this
    · rw [isEq_test, dimIs_guaranteed]
      intro w hw
      have := hw.2 i 0 (by rw [List.getElem?_eq_getElem hi, h])
      simp [Rel.holds, extentOf, List.getD, this]

theorem indexCollectionFor_eq (s : List (Option Nat)) (x : Indices) (h0 : some 0 ∉ s) :
    indexCollectionFor s x = (!x.fixedSize || decide (indexCount s ≤ x.items.length)) := by
  have h1 : ∀ i, sizeComparesWith (fun o => o == .greater || o == .equivalent) true .dynamic (Size.ofOption (indexDimensionOf s i)) = false := by
    intro i
    have hne : indexDimensionOf s i ≠ some 0 := by
      unfold indexDimensionOf
      split
      · intro h
        apply h0
        rw [Option.join_eq_some_iff] at h
        exact List.mem_of_getElem? h
      · simp
    cases hd : indexDimensionOf s i with
    | none => rfl
    | some n =>
      have : n ≠ 0 := by rintro rfl; exact hne hd
      simp [Size.ofOption, sizeComparesWith, this]
  unfold indexCollectionFor Indices.size
  simp only [h1]
  cases x.fixedSize with
  | true =>
    have hall : ((List.range x.items.length).all fun _ => !false) = true := by simp
    simp only [if_true, sizeComparesWith, cmpNat, hall, Bool.or_true, Bool.and_true, Bool.not_true, Bool.false_or]
    rcases Nat.lt_trichotomy x.items.length (indexCount s) with h | h | h
    · rw [if_pos h, decide_eq_false (by omega)]; rfl
    · rw [if_neg (by omega), if_pos h, decide_eq_true (by omega)]; rfl
    · rw [if_neg (by omega), if_neg (by omega), decide_eq_true (by omega)]; rfl
  | false =>
    simp only [Bool.false_eq_true, if_false, sizeComparesWith, doComps]
    split_ifs <;> simp

theorem dynamicIndexCount_eq (s : List (Option Nat)) : dynamicIndexCount s = s.count none := by
  have key : ∀ k, k ≤ s.length → (∀ j, k ≤ j → j < s.length → s[j]? = some (some 1)) →
      (((List.range k).map fun i => if s[i]? = some none then 1 else 0).sum) = s.count none := by
    intro k hk h
    have e : s.count none = (s.take k).count none := by
      conv_lhs => rw [← List.take_append_drop k s, List.count_append]
      have : (s.drop k).count none = 0 := by
        rw [List.count_eq_zero]
        intro hm
        obtain ⟨j, hj, hm⟩ := List.getElem_of_mem hm
        have hj' : k + j < s.length := by simp at hj; omega
        have := h (k + j) (by omega) hj'
        rw [List.getElem_drop] at hm
        rw [List.getElem?_eq_getElem hj', hm] at this
        simp at this
      omega
    rw [e]
    clear e h
    induction k with
    | zero => simp
    | succ k ih =>
      have hk' : k < s.length := by omega
      rw [List.range_succ, List.map_append, List.sum_append, ih (by omega), List.take_add_one, List.count_append]
      have := List.getElem?_eq_getElem hk'
      cases hs : s[k] <;> simp [this, hs]
  rw [← key (indexCount s) (indexCount_le s) (fun j h1 h2 => indexCount_one h1 h2)]
  unfold dynamicIndexCount
  congr 1
  apply List.map_congr_left
  intro i hi
  have hi' : i < indexCount s := by simpa using hi
  have hl : i < s.length := by have := indexCount_le s; omega
  unfold indexDimensionOf
  rw [if_pos hi', List.getElem?_eq_getElem hl]
  cases s[i] <;> simp

/-! ## patterns_match -/

open PatternColl (Theory)

theorem maxCount_ge {T : Theory} {os : List (Obj T)} {o : Obj T} (h : o ∈ os) : indexCount (statics o.exts) ≤ maxCount os := by
  unfold maxCount
  induction os with
  | nil => simp at h
  | cons a os ih =>
    simp only [List.map_cons, List.foldr_cons]
    rcases List.mem_cons.1 h with rfl | h
    · exact le_max_left _ _
    · exact (ih h).trans (le_max_right _ _)

theorem patternsMatch_cons {T : Theory} (ofDim : Nat → T.α) (t : Obj T) (ts : List (Obj T)) :
    patternsMatch ofDim (t :: ts) = true ↔ ∀ i < maxCount (t :: ts), ∀ u ∈ ts,
      (T.cmp (getIndexPattern ofDim t i) (getIndexPattern ofDim u i)).isEq = true := by
  simp [patternsMatch, List.all_eq_true]

theorem patternsMatchLoop_iff {T : Theory} (ofDim : Nat → T.α) (t : Obj T) (ts : List (Obj T)) : ∀ i k,
    patternsMatchLoop ofDim t ts i k = true ↔ ∀ j, i ≤ j → j < i + k → ∀ u ∈ ts,
      (T.cmp (getIndexPattern ofDim t j) (getIndexPattern ofDim u j)).isEq = true
  | i, 0 => by simp only [patternsMatchLoop, true_iff]; intro j h1 h2; omega
  | i, k + 1 => by
    unfold patternsMatchLoop
    have hany : (ts.any fun u => !(T.cmp (getIndexPattern ofDim t i) (getIndexPattern ofDim u i)).isEq) = true ↔
        ¬ ∀ u ∈ ts, (T.cmp (getIndexPattern ofDim t i) (getIndexPattern ofDim u i)).isEq = true := by
      simp [List.any_eq_true]
    by_cases hc : ∀ u ∈ ts, (T.cmp (getIndexPattern ofDim t i) (getIndexPattern ofDim u i)).isEq = true
    · rw [if_neg (by rw [hany]; exact not_not.2 hc), patternsMatchLoop_iff ofDim t ts (i + 1) k]
      constructor
      · intro h j h1 h2
        rcases Nat.eq_or_lt_of_le h1 with e | e
        · subst e; exact hc
        · exact h j e (by omega)
      · intro h j h1 h2; exact h j (by omega) (by omega)
    · rw [if_pos (hany.2 hc)]
      simp only [Bool.false_eq_true, false_iff]
      intro h; exact hc (h i (le_refl _) (by omega))

theorem getIndexPattern_eq {T : Theory} (ofDim : Nat → T.α) (h1 : ofDim 1 = T.one) (o : Obj T) (ho : Valid o.exts) (i : Nat) :
    getIndexPattern ofDim o i = PatternColl.padded T.one (getPatternCollection ofDim o) i := by
  unfold getIndexPattern getPatternCollection
  cases o.pats with
  | some p => simpa using PatternColl.getPattern_eq p i
  | none =>
    simp only [Option.getD_none, PatternColl.padded]
    have hlen : indexCount (statics o.exts) ≤ o.exts.length := by simpa [statics] using indexCount_le (statics o.exts)
    by_cases hi : i < indexCount (statics o.exts)
    · have hl : i < o.exts.length := by omega
      rw [if_pos hi]
      simp [List.getD, mdExtent, hl]
    · rw [if_neg hi]
      have := indexCount_extent (valid_instance ho) (i := i) (by omega)
      by_cases hl : i < o.exts.length
      · simp only [extentOf, shapeOf, List.getD, List.getElem?_map, List.getElem?_eq_getElem hl, Option.map_some,
          Option.getD_some] at this
        simp [List.getD, hl, this]
      · simp only [List.getD, List.getElem?_map, List.getElem?_eq_none (by omega : o.exts.length ≤ i), Option.map_none,
          Option.getD_none, h1]

/-! ## to_extents -/

theorem deriveRank_eq (s : List (Option Nat)) : ∀ k, k ≤ s.length → deriveRank s k = removeTrailing s k
  | 0, _ => rfl
  | k + 1, h => by
    have hk : k < s.length := by omega
    unfold deriveRank removeTrailing
    rw [deriveRank_eq s k (by omega)]
    simp [List.getD, hk]

theorem deriveExtents_eq (p : List Extent) : ∀ k sds ds,
    deriveExtents p k sds ds = ((List.range k).map (fun i => (dimAt p i).fixed) ++ sds,
      ((List.range k).filterMap fun i => if (dimAt p i).fixed = none then some (dimAt p i).value else none) ++ ds)
  | 0, sds, ds => by simp [deriveExtents]
  | k + 1, sds, ds => by
    unfold deriveExtents
    cases h : (dimAt p k).fixed with
    | some d => simp [deriveExtents_eq p k, List.range_succ, h]
    | none => simp [deriveExtents_eq p k, List.range_succ, h]

theorem makeExtents_eq (es : List Extent) (h : Valid es) :
    makeExtents (es.map (·.fixed)) (es.filterMap fun e => if e.fixed = none then some e.value else none) = some es := by
  induction es with
  | nil => rfl
  | cons e es ih =>
    have ih' := ih (fun x hx => h x (List.mem_cons_of_mem _ hx))
    obtain ⟨f, v⟩ := e
    cases f with
    | some n =>
      have hv := h ⟨some n, v⟩ (List.mem_cons_self ..) n rfl
      simp only at hv
      subst hv
      simp [makeExtents, ih']
    | none => simp [makeExtents, ih']

theorem dimAt_valid {p : List Extent} (h : Valid p) (k : Nat) : Valid ((List.range k).map (dimAt p)) := by
  intro e he n hn
  obtain ⟨i, -, rfl⟩ := List.mem_map.1 he
  unfold dimAt at hn ⊢
  by_cases hi : i < p.length
  · simp only [List.getD, List.getElem?_eq_getElem hi, Option.getD_some] at hn ⊢
    exact h _ (List.getElem_mem hi) n hn
  · simp only [List.getD, List.getElem?_eq_none (by omega : p.length ≤ i), Option.getD_none] at hn ⊢
    simpa using hn

theorem derive_eq {p : List Extent} (h : Valid p) (k : Nat) :
    makeExtents (deriveExtents p k [] []).1 (deriveExtents p k [] []).2 = some ((List.range k).map (dimAt p)) := by
  rw [deriveExtents_eq]
  have := makeExtents_eq _ (dimAt_valid h k)
  rw [List.map_map, List.filterMap_map] at this
  simpa [Function.comp_def] using this

theorem extentOf_derive {p : List Extent} (h : Valid p) {k : Nat} (hk : indexCount (statics p) ≤ k) (i : Nat) :
    extentOf (shapeOf ((List.range k).map (dimAt p))) i = extentOf (shapeOf p) i := by
  by_cases hi : i < k
  · have e1 : extentOf (shapeOf ((List.range k).map (dimAt p))) i = (dimAt p i).value := by
      simp [extentOf, shapeOf, List.getD, hi]
    rw [e1]
    unfold dimAt extentOf shapeOf
    simp only [List.getD, List.getElem?_map]
    cases p[i]? <;> simp
  · rw [indexCount_extent (valid_instance h) (by omega)]
    simp [extentOf, shapeOf, List.getD, hi]

end OpenKalman.Shape
