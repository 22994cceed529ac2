import Verif.Proof.Compat

/-!
# Replacements for parts of the standard library (C98–C102)
-/

namespace OpenKalman.Compat

/-! ## C98: comparisons -/

/-- The comparison functions compare the numbers themselves, whatever the types. -/
theorem C98_integers (T U : IntTy) (hT : T.Std) (hU : U.Std) (t u : ℤ) (ht : T.Has t) (hu : U.Has u) :
    (cmpEqual T U t u = true ↔ t = u) ∧ (cmpNotEqual T U t u = true ↔ t ≠ u) ∧ (cmpLess T U t u = true ↔ t < u) ∧
    (cmpGreater T U t u = true ↔ t > u) ∧ (cmpLessEqual T U t u = true ↔ t ≤ u) ∧ (cmpGreaterEqual T U t u = true ↔ t ≥ u) := by
  rw [cmpNotEqual, cmpGreater, cmpLessEqual, cmpGreaterEqual, cmpEqual_eq hT hU ht hu, cmpLess_eq hT hU ht hu, cmpLess_eq hU hT hu ht]
  simp

/-- `compare_three_way` of integers gives their order. -/
theorem C98_three_way (T U : IntTy) (hT : T.Std) (hU : U.Std) (t u : ℤ) (ht : T.Has t) (hu : U.Has u) :
    compareThreeWay T U t u = order t u := by
  rw [compareThreeWay, cmpGreater, cmpEqual_eq hT hU ht hu, cmpLess_eq hT hU ht hu, cmpLess_eq hU hT hu ht, order]
  rcases lt_trichotomy t u with h | h | h
  · rw [if_neg (by simp; omega), if_pos (by simpa using h), if_pos h]
  · subst h; simp
  · rw [if_neg (by simp; omega), if_neg (by simp; omega), if_pos (by simpa using h), if_neg (by omega), if_neg (by omega)]

/-- The operators of `partial_ordering` say what the ordering means, with the zero on either side. -/
theorem C98_ordering (o : POrd) :
    (poEq (ordValue o) = true ↔ o = .equivalent) ∧ (poNe (ordValue o) = true ↔ o ≠ .equivalent) ∧
    (poLt (ordValue o) = true ↔ o = .less) ∧ (poGt (ordValue o) = true ↔ o = .greater) ∧
    (poLe (ordValue o) = true ↔ o = .less ∨ o = .equivalent) ∧ (poGe (ordValue o) = true ↔ o = .greater ∨ o = .equivalent) ∧
    (zeroLt (ordValue o) = true ↔ o = .greater) ∧ (zeroGt (ordValue o) = true ↔ o = .less) ∧
    (zeroLe (ordValue o) = true ↔ o = .greater ∨ o = .equivalent) ∧ (zeroGe (ordValue o) = true ↔ o = .less ∨ o = .equivalent) := by
  cases o <;> decide

/-- The comparison of two ranges is decided by the first elements that are not equivalent, or else by the lengths, and nothing else. -/
theorem C98_lexicographic {α β : Type} (c : α → β → POrd) (l : List α) (r : List β) (o : POrd) : LexResult c l r o ↔ o = lexCompare c l r :=
  ⟨fun h => lexResult_unique h (lexCompare_result c l r), fun h => h ▸ lexCompare_result c l r⟩

/-- Not so if the ordering is made from a number (line 120) other than that of a constant: `-2` is at most zero but neither less nor equivalent. -/
theorem C98_from_number_violated : ∃ v : ℤ, (∀ o, ordValue o ≠ v) ∧ poLe v = true ∧ poLt v = false ∧ poEq v = false :=
  ⟨-2, fun o => by cases o <;> decide, by decide, by decide, by decide⟩

/-- The numbers −1 and 2³²−1: the operator of the language takes them for equal, `cmp_equal` does not. -/
example : builtinEq ⟨true, 32⟩ ⟨false, 32⟩ (-1) (2 ^ 32 - 1) = true ∧ cmpEqual ⟨true, 32⟩ ⟨false, 32⟩ (-1) (2 ^ 32 - 1) = false ∧
    cmpLess ⟨true, 32⟩ ⟨false, 64⟩ (-1) 0 = true ∧ compareThreeWay ⟨false, 16⟩ ⟨true, 8⟩ 65535 (-1) = .greater := by decide +kernel

/-- The hypotheses hold for them. -/
example : (⟨true, 32⟩ : IntTy).Std ∧ (⟨false, 32⟩ : IntTy).Std ∧ (⟨true, 32⟩ : IntTy).Has (-1) ∧ (⟨false, 32⟩ : IntTy).Has (2 ^ 32 - 1) := by
  refine ⟨Or.inr (Or.inr (Or.inl rfl)), Or.inr (Or.inr (Or.inl rfl)), ?_, ?_⟩ <;> norm_num [IntTy.Has]

/-- Lists that differ in the third element, and a list that begins another. -/
example : lexCompare order [1, 2, 5] [1, 2, 4, 0] = .greater ∧ lexCompare order [1, 2] [1, 2, 4] = .less := by decide

/-! ## C99: moving iterators -/

/-- Moving by a number of steps. -/
theorem C99_by (random bidirectional : Bool) (p n : ℤ) (h : random = true ∨ bidirectional = true ∨ 0 ≤ n) :
    advance random bidirectional p n = p + n := advance_eq _ _ _ _ h

/-- Moving to a bound that lies ahead ends there, after as many steps as it is away. -/
theorem C99_to (assignable sized random bidirectional : Bool) (p b : ℤ) (h : p ≤ b) :
    advanceTo assignable sized random bidirectional (b - p).toNat p b = some b := by
  unfold advanceTo
  split_ifs
  · rfl
  · rw [advance_eq _ _ _ _ (Or.inr (Or.inr (by omega)))]; congr 1; omega
  · exact advanceLoop_eq b _ p (by omega)

/-- Moving by a number of steps up to a bound in that direction, where the distance to the bound has to be found by walking. -/
theorem C99_bounded_partial (assignable random bidirectional : Bool) (p n b : ℤ) (h : (0 ≤ n ∧ p ≤ b) ∨ (n < 0 ∧ b ≤ p ∧ bidirectional = true)) :
    advanceBounded assignable false random bidirectional p n b = bounded p n b := by
  unfold advanceBounded bounded
  rw [if_neg (by simp)]
  rcases h with ⟨h1, h2⟩ | ⟨h1, h2, rfl⟩
  · rw [abs_of_nonneg (by omega), abs_of_nonneg h1]
    by_cases hn : n > 0
    · rw [if_pos hn, upTo_eq b _ p h2]
      by_cases hb : b - p ≤ n
      · rw [if_pos (by omega), if_pos hb]; ext <;> simp; omega
      · rw [if_neg (by omega), if_neg hb]; ext <;> simp; omega
    · obtain rfl : n = 0 := by omega
      rw [if_neg hn]
      by_cases hb : b - p ≤ 0
      · obtain rfl : b = p := by omega
        simp [downTo]
      · rw [if_neg hb]; simp [downTo]
  · rw [abs_of_nonpos (by omega), abs_of_nonpos (by omega), if_neg (by omega), if_pos rfl, downTo_eq b _ p h2]
    by_cases hb : -(b - p) ≤ -n
    · rw [if_pos (by omega), if_pos hb]; ext <;> simp; omega
    · rw [if_neg (by omega), if_neg hb]; ext <;> simp; omega

/-- Where the distance is known by subtraction, the test is the wrong way round: only if there are as many steps as the bound is away is the result right. -/
theorem C99_sized_exact (assignable random bidirectional : Bool) (p n b : ℤ) (h : (0 ≤ n ∧ p ≤ b) ∨ (n < 0 ∧ b ≤ p ∧ (random = true ∨ bidirectional = true))) :
    advanceBounded assignable true random bidirectional p n b = bounded p n b ↔ |n| = |b - p| := by
  have hadv : advance random bidirectional p n = p + n := advance_eq _ _ _ _ (by rcases h with h | h; exacts [Or.inr (Or.inr h.1), h.2.2.elim Or.inl (Or.inr ∘ Or.inl)])
  have hb : (if assignable then b else advance random bidirectional p (b - p)) = b := by
    split_ifs
    · rfl
    · rw [advance_eq _ _ _ _ (by rcases h with h | h; exacts [Or.inr (Or.inr (by omega)), h.2.2.elim Or.inl (Or.inr ∘ Or.inl)])]; omega
  unfold advanceBounded bounded
  rw [if_pos rfl, hadv, hb]
  rcases h with ⟨h1, h2⟩ | ⟨h1, h2, _⟩
  · rw [abs_of_nonneg (a := n) h1, abs_of_nonneg (a := b - p) (by omega)]
    simp only
    split_ifs <;> simp only [Prod.mk.injEq] <;> omega
  · rw [abs_of_nonpos (a := n) (by omega), abs_of_nonpos (a := b - p) (by omega)]
    simp only
    split_ifs <;> simp only [Prod.mk.injEq] <;> omega

/-- One step from the beginning of five elements goes to the end, and ten steps go beyond it. -/
theorem C99_bounded_violated :
    advanceBounded true true true true 0 1 5 = (5, 4) ∧ bounded 0 1 5 = (1, 0) ∧
    advanceBounded true true true true 0 10 5 = (10, 0) ∧ bounded 0 10 5 = (5, 5) := by decide

/-- Walking: three steps of seven, seven steps of three, and backwards. -/
example : advanceBounded false false false true 0 3 7 = (3, 0) ∧ advanceBounded false false false true 0 7 3 = (3, 4) ∧
    advanceBounded false false false true 4 (-6) 1 = (1, -3) := by decide

/-! ## C100: views -/

variable {α : Type}

/-- Every view, however it is composed, has as many elements as it should and element `i` is the one that should be there. -/
theorem C100_elements (v : View α) : v.size = v.elems.length ∧ ∀ i : ℕ, i < v.size → v.at i = v.elems[i]? := view_spec v

/-- Going through the indices gives the elements in order. -/
theorem C100_walk (v : View α) : (List.range v.size).filterMap (fun i : ℕ => v.at i) = v.elems := by
  obtain ⟨h1, h2⟩ := view_spec v
  have : (List.range v.size).filterMap (fun i : ℕ => v.at i) = (List.range v.elems.length).filterMap (fun i : ℕ => v.elems[i]?) := by
    rw [← h1]
    exact List.filterMap_congr fun i hi => h2 i (by simpa using hi)
  rw [this]
  refine List.ext_getElem? fun i => ?_
  generalize v.elems = l
  induction l generalizing i with
  | nil => simp
  | cons a l ih =>
    rw [List.length_cons, List.range_succ_eq_map, List.filterMap_cons]
    simp only [List.getElem?_cons_zero, List.filterMap_map]
    cases i with
    | zero => simp
    | succ i => simpa [Function.comp_def] using ih i

/-- `empty`, `front` and `back`. -/
theorem C100_ends (v : View α) : (v.empty = true ↔ v.elems = []) ∧ (v.elems ≠ [] → v.front = v.elems.head? ∧ v.back = v.elems.getLast?) := by
  obtain ⟨h1, h2⟩ := view_spec v
  refine ⟨by simp [View.empty, h1], fun h => ?_⟩
  have hpos : 0 < v.size := by rw [h1]; exact List.length_pos_iff.mpr h
  refine ⟨?_, ?_⟩
  · have := h2 0 hpos
    rw [View.front, List.head?_eq_getElem?]; simpa using this
  · have hc : (v.size : ℤ) - 1 = ((v.size - 1 : ℕ) : ℤ) := by omega
    rw [View.back, hc, h2 _ (by omega), List.getLast?_eq_getElem?, h1]

/-- The adaptors: reversing unwraps a reversed view, concatenating one view gives that view, with the same elements all the same. -/
theorem C100_adaptors (v : View α) (vs : List (View α)) :
    (reverseAdaptor v).elems = v.elems.reverse ∧ (reverseAdaptor (reverseAdaptor v)).elems = v.elems ∧
    (concatAdaptor vs).elems = (vs.map View.elems).flatten := by
  have h : ∀ v : View α, (reverseAdaptor v).elems = v.elems.reverse := by
    intro v; cases v <;> simp [reverseAdaptor, View.elems]
  refine ⟨h v, by rw [h, h, List.reverse_reverse], ?_⟩
  match vs with
  | [] => simp [concatAdaptor, View.elems]
  | [v] => simp [concatAdaptor]
  | v :: w :: vs => simp [concatAdaptor, View.elems]

/-- The tables of a concatenation are made when it is constructed.  If a container it refers to has grown since, elements that the size
(computed anew) includes cannot be reached, and others are taken from the wrong place. -/
theorem C100_stale_violated : ∃ before after : List (View ℕ), before.length = after.length ∧
    (∃ i : ℕ, i < (View.concat after).size ∧ concatAt (before.map View.size) (after.map View.at) i = none) ∧
    (∃ i : ℕ, concatAt (before.map View.size) (after.map View.at) i ≠ (View.concat after).elems[i]? ∧
      (concatAt (before.map View.size) (after.map View.at) i).isSome) := by
  refine ⟨[.base [1], .base [5, 6]], [.base [1, 2], .base [5, 6]], rfl, ⟨3, ?_, ?_⟩, 1, ?_, ?_⟩
  all_goals simp [View.size, View.at, View.elems, concatAt, indexTable, startTable, List.replicate]

/-- A view of views, with an empty part. -/
example : let v : View ℕ := .reverse (.concat [.base [1, 2], .base [], .transform (· + 10) (.repeat 7 2), .single 4])
    v.elems = [4, 17, 17, 2, 1] ∧ v.size = 5 ∧ v.at 1 = some 17 ∧ v.at 4 = some 1 ∧ v.back = some 1 := by
  simp [View.size, View.at, View.elems, View.back, concatAt, indexTable, startTable, List.replicate]

/-! ## C101: ranges of integers -/

/-- The arithmetic of the iterators is that of the numbers, as long as these are in the type and differ by less than 2⁶³: moving forth and back, access by index and the difference. -/
theorem C101_arithmetic (W : IntTy) (hW : W.Std) (v n : ℤ) (hv : W.Has v) (h : W.Has (v + n)) (hb : |n| < 2 ^ 63) :
    iotaPlus W v n = some (v + n) ∧ iotaMinus W (v + n) n = some v ∧ iotaAt W v n = some (v + n) ∧ iotaSub W (v + n) v = some n ∧ iotaSub W v (v + n) = some (-n) := by
  obtain ⟨hn, hn'⟩ := iotaDiff_has hW hv h hb
  refine ⟨iotaPlus_eq hW hv hn hn' h, ?_, iotaAt_eq hW hv hn h, ?_, ?_⟩
  · have := iotaMinus_eq (n := n) hW h hn hn' (by simpa using hv); simpa using this
  · have := iotaSub_eq hW h hv (by simpa using hn) (by simpa using hn'); simpa using this
  · have := iotaSub_eq hW hv h (by simpa using hn') (by simpa using hn); simpa using this

/-- Going from the first number to the bound, which has to be in the type of the numbers, gives the numbers between them. -/
theorem C101_walk (W B : IntTy) (hW : W.Std) (hB : B.Std) (hs : W.signed = B.signed) (v b : ℤ) (hv : W.Has v) (hb : W.Has b) (hb' : B.Has b) (h : v ≤ b) :
    iotaWalk W B b (b - v).toNat v = some ((List.range (b - v).toNat).map fun i : ℕ => v + (i : ℤ)) :=
  iotaWalk_eq hW hB hs hb hb' _ v hv (by omega)

/-- The size is the number of numbers, unless a bound is the least of a signed type of at least 32 bits. -/
theorem C101_size_partial (W B : IntTy) (hW : W.Std) (hB : B.Std) (hs : W.signed = B.signed) (v b : ℤ) (hv : W.Has v) (hb : B.Has b) (h : v ≤ b)
    (hv' : 32 ≤ W.bits → v ≠ -2 ^ (W.bits - 1)) (hb' : 32 ≤ B.bits → b ≠ -2 ^ (B.bits - 1)) : iotaSize W B v b = some (b - v) :=
  iotaSize_eq hW hB hs hv hb h (fun h0 => promote_has hW hv h0 hv') (fun h0 => promote_has hB hb h0 hb')

/-- From the least `int`, the size overflows although the numbers are few. -/
theorem C101_size_violated : iotaSize ⟨true, 32⟩ ⟨true, 32⟩ (-2 ^ 31) (-2 ^ 31 + 3) = none ∧
    iotaWalk ⟨true, 32⟩ ⟨true, 32⟩ (-2 ^ 31 + 3) 3 (-2 ^ 31) = some [-2 ^ 31, -2 ^ 31 + 1, -2 ^ 31 + 2] := by decide +kernel

/-- The distance from an iterator to the end and back, if it is in the signed type of as many bits. -/
theorem C101_distance_partial (W : IntTy) (hW : W.Std) (v b : ℤ) (hv : W.Has v) (hb : W.Has b) (h : |b - v| < 2 ^ (max 32 W.bits - 1)) :
    iotaBoundSub W W v b = some (b - v) ∧ iotaSubBound W W v b = some (v - b) := by
  obtain ⟨h1, h2⟩ := iterDiff_has hW h
  exact iotaBoundSub_eq hW hv hb h1 (by simpa using h2)

/-- Of 3·10⁹ unsigned numbers the distance is negative, though their size is right. -/
theorem C101_distance_violated : iotaBoundSub ⟨false, 32⟩ ⟨false, 32⟩ 0 3000000000 = some (-1294967296) ∧
    iotaSize ⟨false, 32⟩ ⟨false, 32⟩ 0 3000000000 = some 3000000000 := by decide +kernel

/-- Unsigned bytes going down, and unsigned numbers of 64 bits. -/
example : iotaPlus ⟨false, 8⟩ 200 (-150) = some 50 ∧ iotaSub ⟨false, 8⟩ 50 200 = some (-150) ∧ iotaPlus ⟨false, 64⟩ (2 ^ 63 + 5) (-6) = some (2 ^ 63 - 1) ∧
    iotaSize ⟨true, 8⟩ ⟨true, 16⟩ (-128) 300 = some 428 := by decide +kernel

/-- The hypotheses hold for them. -/
example : (⟨false, 8⟩ : IntTy).Has 200 ∧ (⟨false, 8⟩ : IntTy).Has (200 + -150) ∧ |(-150 : ℤ)| < 2 ^ 63 ∧ (⟨true, 16⟩ : IntTy).Has 300 := by
  norm_num [IntTy.Has]

/-! ## C102: boxes -/

/-- With C++20 a box can be copied to another just if the type can be copied, and then holds the value. -/
theorem C102_copy20 (T : Traits) (a b : α) : copyAssign20 T a b = if T.copyCtor then .done b (some b) else .illFormed := by
  obtain ⟨c, m, ca, ma, nc, nm⟩ := T
  cases c <;> cases m <;> cases ca <;> cases ma <;> simp [copyAssign20, Traits.copyable, Traits.movable]

/-- With C++17 the same, if the type can also be assigned and its copy constructor does not throw. -/
theorem C102_copy17_partial (T : Traits) (a b : α) (hm : T.moveCtor = true ∧ T.moveAssign = true) (hc : T.copyCtor = true ∧ T.copyAssign = true)
    (hn : T.nothrowCopy = true) : copyAssign17 T a b = .done b (some b) := by
  simp [copyAssign17, Traits.direct, Traits.copyable, Traits.movable, hm, hc, hn]

/-- Otherwise not: copying a box of a function object, which cannot be assigned, compiles and does nothing;
so a `transform_view` gets the range of the other view but keeps its own function. -/
theorem C102_copy17_violated (T : Traits) (hT : T.Boxable) (a b : α) (hc : T.copyCtor = true) (hn : T.nothrowCopy = true ∧ T.nothrowMove = true)
    (ha : T.copyAssign = false) : copyAssign17 T a b = .done a (some b) := by
  simp [copyAssign17, Traits.direct, Traits.copyable, hc, hn, ha]

/-- And boxes of a type that can be copied, but whose copy constructor may throw, such as a function object with a `std::vector`, cannot be assigned. -/
theorem C102_copy17_throwing_violated (T : Traits) (a b : α) (hn : T.nothrowCopy = false) : copyAssign17 T a b = .illFormed := by
  simp [copyAssign17, hn]

/-- Moving: with C++20 the target holds the value for every type a box can hold, unless the type can neither be copied nor assigned. -/
theorem C102_move20_exact (T : Traits) (hT : T.Boxable) (a b : α) :
    (∃ s, moveAssign20 T a b = .done b s) ↔ (T.copyCtor = true ∨ T.moveAssign = true ∨ T.nothrowMove = false) := by
  obtain ⟨c, m, ca, ma, nc, nm⟩ := T
  obtain ⟨h1, h2, h3⟩ := hT
  simp only at h1 h2
  subst h1
  cases c <;> cases ca <;> cases ma <;> cases nc <;> cases nm <;> simp_all [moveAssign20, Traits.direct, Traits.copyable, Traits.movable]

/-- Such a type: it can only be constructed by moving.  With C++17 no box of a type that cannot be assigned and does not throw can be moved. -/
theorem C102_move_violated (a b : α) :
    (∃ T : Traits, T.Boxable ∧ moveAssign20 T a b = .illFormed) ∧
    (∀ T : Traits, T.Boxable → T.nothrowCopy = true → T.nothrowMove = true → T.moveAssign = false → moveAssign17 T a b = .illFormed) := by
  refine ⟨⟨⟨false, true, false, false, false, true⟩, ⟨rfl, by simp, by simp⟩, by simp [moveAssign20, Traits.direct, Traits.copyable, Traits.movable]⟩, ?_⟩
  intro T hT h1 h2 h3
  have := hT.2.1 h1
  simp [moveAssign17, Traits.direct, Traits.movable, h1, h2, h3, this]

/-- Types that can be assigned and do not throw are moved in either version. -/
theorem C102_move_partial (T : Traits) (a b : α) (hm : T.moveCtor = true ∧ T.moveAssign = true) (hn : T.nothrowMove = true)
    (hc : T.copyCtor = true → T.copyAssign = true) : moveAssign17 T a b = .done b none ∧ moveAssign20 T a b = .done b none := by
  obtain ⟨c, m, ca, ma, nc, nm⟩ := T
  simp only at hm hn hc
  obtain ⟨rfl, rfl⟩ := hm
  subst hn
  cases c <;> simp_all [moveAssign17, moveAssign20, Traits.direct, Traits.copyable, Traits.movable]

/-- An integer, a lambda expression, and a function object with a vector. -/
example : copyAssign17 ⟨true, true, true, true, true, true⟩ 1 2 = .done 2 (some 2) ∧ copyAssign17 ⟨true, true, false, false, true, true⟩ 1 2 = .done 1 (some 2) ∧
    copyAssign20 ⟨true, true, false, false, true, true⟩ 1 2 = .done 2 (some 2) ∧ copyAssign17 ⟨true, true, true, true, false, true⟩ 1 2 = .illFormed ∧
    Traits.Boxable ⟨true, true, false, false, true, true⟩ := by
  refine ⟨by decide, by decide, by decide, by decide, rfl, by simp, by simp⟩

end OpenKalman.Compat
