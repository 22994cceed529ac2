import Verif.Spec.Pattern
import Verif.Spec.Descriptors
import Verif.Model.Pattern
import Mathlib.Tactic.Linarith
import Mathlib.Tactic.Ring
import Mathlib.Tactic.SplitIfs
import Mathlib.Data.List.Infix

/-! # Lemmas for C09–C13 -/

namespace OpenKalman.Patterns
open OpenKalman.Collections (cmpNat OrderLaws)

/-! ## Conversions -/

theorem mapM_some {α β : Type} (f : α → Option β) (g : α → β) (L : List α) (h : ∀ x ∈ L, f x = some (g x)) : L.mapM f = some (L.map g) := by
  induction L with
  | nil => rfl
  | cons a L ih =>
    rw [List.mapM_cons, h a (by simp), ih fun x hx => h x (by simp [hx])]
    rfl

theorem mapM_range_getElem (l : List ℝ) : (List.range l.length).mapM (l[·]?) = some l := by
  rw [mapM_some _ (fun i => l.getD i 0)]
  · congr 1
    apply List.ext_getElem
    · simp
    · intro i h1 h2
      simp [List.getElem?_eq_getElem h2]
  · intro i hi
    simp only [List.mem_range] at hi
    simp [List.getElem?_eq_getElem hi]

theorem viaAny_eq {f : List ℝ → Option (List ℝ)} {nIn nOut : Nat} {l o : List ℝ} (hl : l.length = nIn) (hf : f l = some o) (ho : o.length = nOut) :
    viaAny f nIn nOut l = some o := by
  unfold viaAny
  subst hl ho
  rw [mapM_range_getElem]
  simp [hf, mapM_range_getElem]

theorem SphOrd.ordered_length (o : SphOrd) (d i a : ℝ) : (o.ordered d i a).length = 3 := by
  unfold SphOrd.ordered; split_ifs <;> rfl

theorem len1 {l : List ℝ} (h : l.length = 1) : ∃ a, l = [a] := List.length_eq_one_iff.mp h
theorem len2 {l : List ℝ} (h : l.length = 2) : ∃ a b, l = [a, b] := List.length_eq_two.mp h
theorem len3 {l : List ℝ} (h : l.length = 3) : ∃ a b c, l = [a, b, c] := List.length_eq_three.mp h
theorem len4 {l : List ℝ} (h : l.length = 4) : ∃ a b c d, l = [a, b, c, d] := by
  match l, h with
  | [a, b, c, d], _ => exact ⟨a, b, c, d, rfl⟩

theorem Descriptor.toStat_total (d : Descriptor) (l : List ℝ) (h : l.length = d.dimension) :
    ∃ o, d.toStat l = some o ∧ o.length = d.statDimension := by
  cases d with
  | dim n => exact ⟨l, rfl, h⟩
  | distance => obtain ⟨a, rfl⟩ := len1 h; exact ⟨_, rfl, rfl⟩
  | angle L => obtain ⟨a, rfl⟩ := len1 h; exact ⟨_, rfl, rfl⟩
  | inclination I => obtain ⟨a, rfl⟩ := len1 h; exact ⟨_, rfl, rfl⟩
  | polar af L => obtain ⟨a, b, rfl⟩ := len2 h; cases af <;> exact ⟨_, rfl, rfl⟩
  | spherical o S => obtain ⟨a, b, c, rfl⟩ := len3 h; cases o <;> exact ⟨_, rfl, rfl⟩

theorem Descriptor.fromStat_total (d : Descriptor) (l : List ℝ) (h : l.length = d.statDimension) :
    ∃ o, d.fromStat l = some o ∧ o.length = d.dimension := by
  cases d with
  | dim n => exact ⟨l, rfl, h⟩
  | distance => exact ⟨l, rfl, h⟩
  | angle L => obtain ⟨a, b, rfl⟩ := len2 h; exact ⟨_, rfl, rfl⟩
  | inclination I => obtain ⟨a, b, rfl⟩ := len2 h; exact ⟨_, rfl, rfl⟩
  | polar af L => obtain ⟨a, b, c, rfl⟩ := len3 h; cases af <;> exact ⟨_, rfl, rfl⟩
  | spherical o S => obtain ⟨a, b, c, e, rfl⟩ := len4 h; exact ⟨_, rfl, o.ordered_length _ _ _⟩

theorem Descriptor.wrap_total (d : Descriptor) (l : List ℝ) (h : l.length = d.dimension) :
    ∃ o, d.wrap l = some o ∧ o.length = d.dimension := by
  cases d with
  | dim n => exact ⟨l, rfl, h⟩
  | distance => obtain ⟨a, rfl⟩ := len1 h; exact ⟨_, rfl, rfl⟩
  | angle L => obtain ⟨a, rfl⟩ := len1 h; exact ⟨_, rfl, rfl⟩
  | inclination I => obtain ⟨a, rfl⟩ := len1 h; exact ⟨_, rfl, rfl⟩
  | polar af L => obtain ⟨a, b, rfl⟩ := len2 h; cases af <;> exact ⟨_, rfl, rfl⟩
  | spherical o S => obtain ⟨a, b, c, rfl⟩ := len3 h; cases o <;> exact ⟨_, rfl, rfl⟩

theorem Elem.toStat_eq (e : Elem) (l : List ℝ) (h : l.length = e.d.dimension) : e.toStat l = e.d.toStat l := by
  unfold Elem.toStat
  split_ifs
  · obtain ⟨o, h1, h2⟩ := e.d.toStat_total l h
    rw [viaAny_eq h h1 h2, h1]
  · rfl

theorem Elem.fromStat_eq (e : Elem) (l : List ℝ) (h : l.length = e.d.statDimension) : e.fromStat l = e.d.fromStat l := by
  unfold Elem.fromStat
  split_ifs
  · obtain ⟨o, h1, h2⟩ := e.d.fromStat_total l h
    rw [viaAny_eq h h1 h2, h1]
  · rfl

theorem Elem.wrap_eq (e : Elem) (l : List ℝ) (h : l.length = e.d.dimension) : e.wrap l = e.d.wrap l := by
  unfold Elem.wrap
  split_ifs
  · obtain ⟨o, h1, h2⟩ := e.d.wrap_total l h
    rw [viaAny_eq h h1 h2, h1]
  · rfl

/-- The result of walking over a pattern, as a concatenation of converted blocks. -/
def blocks (dimOf : Elem → Nat) (g : Elem → List ℝ → List ℝ) (es : List Elem) (data : List ℝ) : List (List ℝ) :=
  List.zipWith g es (splitBy (es.map dimOf) data)

theorem walkTuple_eq {dimOf : Elem → Nat} {f : Elem → List ℝ → Option (List ℝ)} {g : Elem → List ℝ → List ℝ}
    (hf : ∀ e l, l.length = dimOf e → f e l = some (g e l)) (data : List ℝ) (es : List Elem) (i : Nat) (outs : List (List ℝ))
    (hl : i + (es.map dimOf).sum ≤ data.length) :
    walkTuple dimOf f data es i outs = some (outs ++ blocks dimOf g es (data.drop i)).flatten := by
  induction es generalizing i outs with
  | nil => simp [walkTuple, blocks]
  | cons e es ih =>
    simp only [List.map_cons, List.sum_cons] at hl
    have h1 : sliceData data i (dimOf e) = some ((data.drop i).take (dimOf e)) := by
      unfold sliceData; rw [if_pos (by omega)]
    have h2 : ((data.drop i).take (dimOf e)).length = dimOf e := by simp; omega
    unfold walkTuple
    simp only [h1, hf e _ h2, Option.bind_eq_bind, Option.bind_some]
    rw [ih _ _ (by omega)]
    simp [blocks, splitBy, List.drop_drop]

theorem walkLoop_aux {dimOf : Elem → Nat} {f : Elem → List ℝ → Option (List ℝ)} {g : Elem → List ℝ → List ℝ}
    (hf : ∀ e l, l.length = dimOf e → f e l = some (g e l)) (data : List ℝ) (es : List Elem) (i : Nat) (out : List ℝ)
    (hl : i + (es.map dimOf).sum ≤ data.length) :
    es.foldlM (fun (s : Nat × List ℝ) e => do
      let o ← f e (← sliceData data s.1 (dimOf e))
      pure (s.1 + dimOf e, s.2 ++ o)) (i, out) = some (i + (es.map dimOf).sum, out ++ (blocks dimOf g es (data.drop i)).flatten) := by
  induction es generalizing i out with
  | nil => simp [blocks]
  | cons e es ih =>
    simp only [List.map_cons, List.sum_cons] at hl
    have h1 : sliceData data i (dimOf e) = some ((data.drop i).take (dimOf e)) := by
      unfold sliceData; rw [if_pos (by omega)]
    have h2 : ((data.drop i).take (dimOf e)).length = dimOf e := by simp; omega
    rw [List.foldlM_cons]
    simp only [h1, hf e _ h2, Option.bind_eq_bind, Option.bind_some, Option.pure_def]
    have := ih (i + dimOf e) (out ++ g e ((data.drop i).take (dimOf e))) (by omega)
    simp only [Option.bind_eq_bind, Option.pure_def] at this
    rw [this]
    simp [blocks, splitBy, List.drop_drop, Nat.add_assoc]

theorem walkLoop_eq {dimOf : Elem → Nat} {f : Elem → List ℝ → Option (List ℝ)} {g : Elem → List ℝ → List ℝ}
    (hf : ∀ e l, l.length = dimOf e → f e l = some (g e l)) (data : List ℝ) (es : List Elem)
    (hl : (es.map dimOf).sum ≤ data.length) : walkLoop dimOf f data es = some (blocks dimOf g es data).flatten := by
  unfold walkLoop
  rw [walkLoop_aux hf data es 0 [] (by omega)]
  simp

theorem splitBy_append {α : Type} (ns ms : List Nat) (x y : List α) (h : x.length = ns.sum) :
    splitBy (ns ++ ms) (x ++ y) = splitBy ns x ++ splitBy ms y := by
  induction ns generalizing x with
  | nil => simp at h; simp [h, splitBy]
  | cons n ns ih =>
    simp only [List.sum_cons] at h
    simp only [List.cons_append, splitBy]
    rw [List.take_append_of_le_length (by omega), List.drop_append_of_le_length (by omega), ih _ (by simp; omega)]

theorem splitBy_length {α : Type} (ns : List Nat) (x : List α) : (splitBy ns x).length = ns.length := by
  induction ns generalizing x with
  | nil => rfl
  | cons n ns ih => simp [splitBy, ih]

theorem splitBy_lengths {α : Type} (ns : List Nat) (x : List α) (h : x.length = ns.sum) : (splitBy ns x).map List.length = ns := by
  induction ns generalizing x with
  | nil => rfl
  | cons n ns ih =>
    simp only [List.sum_cons] at h
    simp only [splitBy, List.map_cons, List.length_take]
    rw [ih _ (by simp; omega)]
    congr 1; omega

theorem splitBy_flatten {α : Type} (ns : List Nat) (x : List α) (h : x.length = ns.sum) : (splitBy ns x).flatten = x := by
  induction ns generalizing x with
  | nil => simp at h; simp [splitBy, h]
  | cons n ns ih =>
    simp only [List.sum_cons] at h
    simp only [splitBy, List.flatten_cons]
    rw [ih _ (by simp; omega), List.take_append_drop]

theorem blocks_append (dimOf : Elem → Nat) (g : Elem → List ℝ → List ℝ) (es fs : List Elem) (x y : List ℝ)
    (h : x.length = (es.map dimOf).sum) : blocks dimOf g (es ++ fs) (x ++ y) = blocks dimOf g es x ++ blocks dimOf g fs y := by
  unfold blocks
  rw [List.map_append, splitBy_append _ _ _ _ h, List.zipWith_append (by simp [splitBy_length])]

theorem blocks_lengths (dimOf outOf : Elem → Nat) (g : Elem → List ℝ → List ℝ) (hg : ∀ e l, l.length = dimOf e → (g e l).length = outOf e)
    (es : List Elem) (x : List ℝ) (h : x.length = (es.map dimOf).sum) : (blocks dimOf g es x).map List.length = es.map outOf := by
  induction es generalizing x with
  | nil => rfl
  | cons e es ih =>
    simp only [List.map_cons, List.sum_cons] at h
    simp only [blocks, List.map_cons, splitBy, List.zipWith_cons_cons]
    rw [hg e _ (by simp; omega)]
    congr 1
    exact ih _ (by simp; omega)

/-! ## Comparison -/

theorem prefixCmp_cons {α : Type} [DecidableEq α] (a : α) (l r : List α) : prefixCmp (a :: l) (a :: r) = prefixCmp l r := by
  unfold prefixCmp; simp

theorem prefixCmp_append {α : Type} [DecidableEq α] (p l r : List α) : prefixCmp (p ++ l) (p ++ r) = prefixCmp l r := by
  induction p with
  | nil => rfl
  | cons a p ih => rw [List.cons_append, List.cons_append, prefixCmp_cons, ih]

theorem prefixCmp_spec {α : Type} [DecidableEq α] (l r : List α) :
    (prefixCmp l r = .equivalent ↔ l = r) ∧ (prefixCmp l r = .less ↔ l <+: r ∧ l ≠ r) ∧ (prefixCmp l r = .greater ↔ r <+: l ∧ l ≠ r) ∧
    (prefixCmp l r = .unordered ↔ ¬ l <+: r ∧ ¬ r <+: l) := by
  unfold prefixCmp
  have e1 : l.isPrefixOf r = true ↔ l <+: r := List.isPrefixOf_iff_prefix
  have e2 : r.isPrefixOf l = true ↔ r <+: l := List.isPrefixOf_iff_prefix
  have anti : l <+: r → r <+: l → l = r := fun h1 h2 => h1.eq_of_length (le_antisymm h1.length_le h2.length_le)
  by_cases h0 : l = r
  · subst h0; simp
  · by_cases h1 : l <+: r <;> by_cases h2 : r <+: l
    · exact absurd (anti h1 h2) h0
    all_goals simp [h0, e1, e2, h1, h2]

theorem prefixCmp_order {α : Type} [DecidableEq α] : OrderLaws (prefixCmp : List α → List α → POrd) := by
  constructor
  · intro a; simp [prefixCmp]
  · intro a b
    have h := prefixCmp_spec a b
    have h' := prefixCmp_spec b a
    cases hc : prefixCmp a b
    · exact h'.2.2.1.mpr ⟨(h.2.1.mp hc).1, Ne.symm (h.2.1.mp hc).2⟩
    · exact h'.1.mpr (h.1.mp hc).symm
    · exact h'.2.1.mpr ⟨(h.2.2.1.mp hc).1, Ne.symm (h.2.2.1.mp hc).2⟩
    · exact h'.2.2.2.mpr ⟨(h.2.2.2.mp hc).2, (h.2.2.2.mp hc).1⟩
  · intro a b c h; rw [(prefixCmp_spec a b).1.mp h]
  · intro a b c h1 h2
    obtain ⟨p1, n1⟩ := (prefixCmp_spec a b).2.1.mp h1
    obtain ⟨p2, n2⟩ := (prefixCmp_spec b c).2.1.mp h2
    refine (prefixCmp_spec a c).2.1.mpr ⟨p1.trans p2, ?_⟩
    rintro rfl
    exact n1 (p1.eq_of_length (le_antisymm p1.length_le p2.length_le))

/-- Common plain axes cancel. -/
theorem prefixCmp_replicate {κ : Type} [DecidableEq κ] (m n : Nat) (l r : List (Axis κ)) :
    prefixCmp (List.replicate m .plain ++ l) (List.replicate n .plain ++ r) =
      prefixCmp (List.replicate (m - n) .plain ++ l) (List.replicate (n - m) .plain ++ r) := by
  rcases Nat.le_total m n with h | h
  · obtain ⟨k, rfl⟩ := Nat.exists_eq_add_of_le h
    rw [List.replicate_add, List.append_assoc, prefixCmp_append]
    simp
  · obtain ⟨k, rfl⟩ := Nat.exists_eq_add_of_le h
    rw [List.replicate_add, List.append_assoc, prefixCmp_append]
    simp

theorem prefixCmp_special {κ : Type} [DecidableEq κ] (m n : Nat) (x y : κ) (l r : List (Axis κ)) :
    prefixCmp (List.replicate m .plain ++ .special x :: l) (List.replicate n .plain ++ .special y :: r) =
      if m = n ∧ x = y then prefixCmp l r else .unordered := by
  rw [prefixCmp_replicate]
  rcases Nat.lt_trichotomy m n with h | h | h
  · obtain ⟨k, hk⟩ : ∃ k, n - m = k + 1 := ⟨n - m - 1, by omega⟩
    have h0 : m - n = 0 := by omega
    simp [hk, h0, List.replicate_succ, prefixCmp, show m ≠ n by omega]
  · subst h
    simp only [Nat.sub_self, List.replicate_zero, List.nil_append, true_and]
    split_ifs with hxy
    · subst hxy; exact prefixCmp_cons _ _ _
    · simp [prefixCmp, hxy, Ne.symm hxy]
  · obtain ⟨k, hk⟩ : ∃ k, m - n = k + 1 := ⟨m - n - 1, by omega⟩
    have h0 : n - m = 0 := by omega
    simp [hk, h0, List.replicate_succ, prefixCmp, show m ≠ n by omega]

theorem prefixCmp_special_nil {κ : Type} [DecidableEq κ] (m n : Nat) (x : κ) (l : List (Axis κ)) :
    prefixCmp (List.replicate m .plain ++ .special x :: l) (List.replicate n .plain) = if m ≥ n then .greater else .unordered := by
  have := prefixCmp_replicate m n (.special x :: l) []
  rw [List.append_nil, List.append_nil] at this
  rw [this]
  split_ifs with h
  · have h0 : n - m = 0 := by omega
    rw [h0]
    cases hk : m - n <;> simp [prefixCmp, List.replicate_succ]
  · obtain ⟨k, hk⟩ : ∃ k, n - m = k + 1 := ⟨n - m - 1, by omega⟩
    have h0 : m - n = 0 := by omega
    simp [hk, h0, List.replicate_succ, prefixCmp]

theorem prefixCmp_nil_special {κ : Type} [DecidableEq κ] (m n : Nat) (y : κ) (r : List (Axis κ)) :
    prefixCmp (List.replicate m .plain) (List.replicate n .plain ++ .special y :: r) = if m ≤ n then .less else .unordered := by
  rw [prefixCmp_order.rev, prefixCmp_special_nil]
  split_ifs <;> rfl

theorem prefixCmp_plain {κ : Type} [DecidableEq κ] (m n : Nat) :
    prefixCmp (List.replicate m (Axis.plain (κ := κ))) (List.replicate n .plain) = cmpNat m n := by
  have := prefixCmp_replicate (κ := κ) m n [] []
  simp only [List.append_nil] at this
  rw [this]
  unfold cmpNat
  rcases Nat.lt_trichotomy m n with h | h | h
  · obtain ⟨k, hk⟩ : ∃ k, n - m = k + 1 := ⟨n - m - 1, by omega⟩
    have h0 : m - n = 0 := by omega
    simp [hk, h0, List.replicate_succ, prefixCmp, h]
  · subst h; simp [prefixCmp]
  · obtain ⟨k, hk⟩ : ∃ k, m - n = k + 1 := ⟨m - n - 1, by omega⟩
    have h0 : n - m = 0 := by omega
    simp [hk, h0, List.replicate_succ, prefixCmp, show ¬ m < n by omega, show m ≠ n by omega]

/-- The part of a pattern an element contributes. -/
noncomputable def Elem.part (e : Elem) : Part Nat := if e.d.isEuclidean then .plain e.d.dimension else .special e.d.hash

/-- The same when type-erased elements are always taken as non-Euclidean (as `compare_three_way_fixed` does). -/
noncomputable def Elem.staticPart (e : Elem) : Part Nat := if e.staticEuclidean then .plain e.d.dimension else .special e.d.hash

theorem axesOf_cons {κ : Type} (p : Part κ) (l : List (Part κ)) : axesOf (p :: l) = p.axes ++ axesOf l := rfl

theorem replicate_shift {κ : Type} (m n : Nat) (l : List (Axis κ)) :
    List.replicate m Axis.plain ++ (List.replicate n .plain ++ l) = List.replicate (m + n) .plain ++ l := by
  rw [List.replicate_add, List.append_assoc]

theorem compareFixed_eq (as bs : List Elem) (m n : Nat) :
    compareFixed as bs m n = prefixCmp (List.replicate m .plain ++ axesOf (as.map Elem.staticPart)) (List.replicate n .plain ++ axesOf (bs.map Elem.staticPart)) := by
  fun_induction compareFixed as bs m n with
  | case1 a as b bs m n h ih =>
    simp only [Bool.and_eq_true] at h
    simp only [List.map_cons, axesOf_cons, Elem.staticPart, h.1, h.2, if_true, Part.axes, replicate_shift, ih]
  | case2 a as b bs m n h h1 ih =>
    simp only [List.map_cons, axesOf_cons, Elem.staticPart, h1, if_true, Part.axes, replicate_shift] at ih ⊢
    exact ih
  | case3 a as b bs m n h h1 h2 ih =>
    simp only [List.map_cons, axesOf_cons, Elem.staticPart, h2, if_true, Part.axes, replicate_shift] at ih ⊢
    exact ih
  | case4 a as b bs m h h1 h2 h3 ih =>
    simp only [List.map_cons, axesOf_cons, Elem.staticPart, h1, h2, if_false, Part.axes, List.singleton_append, Bool.false_eq_true]
    rw [prefixCmp_special, if_pos ⟨rfl, h3⟩, ih]; simp
  | case5 a as b bs m h h1 h2 h3 =>
    simp only [List.map_cons, axesOf_cons, Elem.staticPart, h1, h2, if_false, Part.axes, List.singleton_append, Bool.false_eq_true]
    rw [prefixCmp_special, if_neg (fun hh => h3 hh.2)]
  | case6 a as b bs m n h h1 h2 h3 =>
    simp only [List.map_cons, axesOf_cons, Elem.staticPart, h1, h2, if_false, Part.axes, List.singleton_append, Bool.false_eq_true]
    rw [prefixCmp_special, if_neg (fun hh => h3 hh.1)]
  | case7 a as m n h ih =>
    simp only [List.map_cons, axesOf_cons, Elem.staticPart, h, if_true, Part.axes, replicate_shift] at ih ⊢
    exact ih
  | case8 a as m n h h1 =>
    simp only [List.map_cons, axesOf_cons, Elem.staticPart, h, if_false, Part.axes, List.singleton_append, Bool.false_eq_true]
    rw [show axesOf (List.map _ ([] : List Elem)) = [] from rfl, List.append_nil, prefixCmp_special_nil, if_pos h1]
  | case9 a as m n h h1 =>
    simp only [List.map_cons, axesOf_cons, Elem.staticPart, h, if_false, Part.axes, List.singleton_append, Bool.false_eq_true]
    rw [show axesOf (List.map _ ([] : List Elem)) = [] from rfl, List.append_nil, prefixCmp_special_nil, if_neg h1]
  | case10 b bs m n h ih =>
    simp only [List.map_cons, axesOf_cons, Elem.staticPart, h, if_true, Part.axes, replicate_shift] at ih ⊢
    exact ih
  | case11 b bs m n h h1 =>
    simp only [List.map_cons, axesOf_cons, Elem.staticPart, h, if_false, Part.axes, List.singleton_append, Bool.false_eq_true]
    rw [show axesOf (List.map _ ([] : List Elem)) = [] from rfl, List.append_nil, prefixCmp_nil_special, if_pos h1]
  | case12 b bs m n h h1 =>
    simp only [List.map_cons, axesOf_cons, Elem.staticPart, h, if_false, Part.axes, List.singleton_append, Bool.false_eq_true]
    rw [show axesOf (List.map _ ([] : List Elem)) = [] from rfl, List.append_nil, prefixCmp_nil_special, if_neg h1]
  | case13 m n =>
    rw [show axesOf (List.map Elem.staticPart ([] : List Elem)) = [] from rfl, List.append_nil, List.append_nil, prefixCmp_plain]

theorem compareImpl_eq (as bs : List Elem) (m n : Nat) :
    compareImpl as bs m n = prefixCmp (List.replicate m .plain ++ axesOf (as.map Elem.part)) (List.replicate n .plain ++ axesOf (bs.map Elem.part)) := by
  fun_induction compareImpl as bs m n with
  | case1 a as b bs m n h ih =>
    refine Eq.trans ih ?_
    cases ha : a.d.isEuclidean <;> cases hb : b.d.isEuclidean <;>
      simp_all [axesOf_cons, Elem.part, Part.axes, replicate_shift]
  | case2 a as b bs m n h h1 ih =>
    simp only [not_or, Bool.not_eq_true] at h
    simp only [List.map_cons, axesOf_cons, Elem.part, h.1, h.2, if_false, Part.axes, List.singleton_append, Bool.false_eq_true]
    rw [prefixCmp_special, if_pos ⟨h1.2, h1.1⟩, ih]; simp
  | case3 a as b bs m n h h1 =>
    simp only [not_or, Bool.not_eq_true] at h
    simp only [List.map_cons, axesOf_cons, Elem.part, h.1, h.2, if_false, Part.axes, List.singleton_append, Bool.false_eq_true]
    rw [prefixCmp_special, if_neg (fun hh => h1 ⟨hh.2, hh.1⟩)]
  | case4 a as m n h ih =>
    simp only [List.map_cons, axesOf_cons, Elem.part, h, if_true, Part.axes, replicate_shift] at ih ⊢
    exact ih
  | case5 a as m n h h1 =>
    simp only [List.map_cons, axesOf_cons, Elem.part, h, if_false, Part.axes, List.singleton_append, Bool.false_eq_true]
    rw [show axesOf (List.map _ ([] : List Elem)) = [] from rfl, List.append_nil, prefixCmp_special_nil, if_pos h1]
  | case6 a as m n h h1 =>
    simp only [List.map_cons, axesOf_cons, Elem.part, h, if_false, Part.axes, List.singleton_append, Bool.false_eq_true]
    rw [show axesOf (List.map _ ([] : List Elem)) = [] from rfl, List.append_nil, prefixCmp_special_nil, if_neg h1]
  | case7 b bs m n h ih =>
    simp only [List.map_cons, axesOf_cons, Elem.part, h, if_true, Part.axes, replicate_shift] at ih ⊢
    exact ih
  | case8 b bs m n h h1 =>
    simp only [List.map_cons, axesOf_cons, Elem.part, h, if_false, Part.axes, List.singleton_append, Bool.false_eq_true]
    rw [show axesOf (List.map _ ([] : List Elem)) = [] from rfl, List.append_nil, prefixCmp_nil_special, if_pos h1]
  | case9 b bs m n h h1 =>
    simp only [List.map_cons, axesOf_cons, Elem.part, h, if_false, Part.axes, List.singleton_append, Bool.false_eq_true]
    rw [show axesOf (List.map _ ([] : List Elem)) = [] from rfl, List.append_nil, prefixCmp_nil_special, if_neg h1]
  | case10 m n =>
    rw [show axesOf (List.map Elem.part ([] : List Elem)) = [] from rfl, List.append_nil, List.append_nil, prefixCmp_plain]

end OpenKalman.Patterns
