import Verif.Proof.Containers

/-!
# C153 and C154: views of sequences, and arrays that own their elements
-/

namespace OpenKalman.Containers

open OpenKalman.Mdspan

variable {α : Type}

/-! ## C153: spans -/

/-- **C153** (chains): every chain of `first`, `last`, `subspan` and conversions, with static and dynamic arguments, shows the elements that the same steps select from
the list; it may be compiled with or without checks. With checks, it ends in a violation of a contract if a step asks for too many elements.

Not covered, since the code does not check it: a conversion to a static extent that is not the number of elements, and parts whose end is beyond all numbers (below). -/
theorem C153_chain_partial (M : ℕ) (mem : List α) : (ops : List Op) → (s : Span) → (l : List α) → Shows M mem s l → TameAll M ops l →
    (∀ l', steps (ops.map (Op.step M)) l = some l' → ∀ check, ∃ s', runs M check ops s = .ok s' ∧ Shows M mem s' l') ∧
    (steps (ops.map (Op.step M)) l = none → runs M true ops s = .violation)
  | [], s, l, h, _ => ⟨fun l' hl _ => ⟨s, rfl, by obtain rfl := Option.some.inj hl; exact h⟩, fun hl => by cases hl⟩
  | o :: os, s, l, h, ht => by
    simp only [List.map_cons, steps]
    cases ho : (o.step M).on l with
    | none =>
      refine ⟨fun l' hl => (by cases hl), fun _ => ?_⟩
      rw [runs, op_violation h o ht.1 ho]
      rfl
    | some l1 =>
      simp only [Option.bind_some]
      refine ⟨fun l' hl check => ?_, fun hl => ?_⟩
      · obtain ⟨s1, h1, h2⟩ := op_ok h check o ht.1 ho
        obtain ⟨s', h3, h4⟩ := (C153_chain_partial M mem os s1 l1 h2 (ht.2 l1 ho)).1 l' hl check
        exact ⟨s', by rw [runs, h1]; exact h3, h4⟩
      · obtain ⟨s1, h1, h2⟩ := op_ok h true o ht.1 ho
        rw [runs, h1]
        exact (C153_chain_partial M mem os s1 l1 h2 (ht.2 l1 ho)).2 hl

/-- **C153** (elements): reading by number, first and last elements, and loops in both directions read the list that is shown; with checks, an element that
does not exist is a violation of a contract. -/
theorem C153_elements (M : ℕ) (mem : List α) (s : Span) (l : List α) (h : Shows M mem s l) :
    (∀ check i (hi : i < l.length), s.get M check mem i = .ok l[i]) ∧ (∀ i, l.length ≤ i → s.get M true mem i = .violation) ∧
    (∀ check (hl : l ≠ []), s.front M check mem = .ok (l.head hl) ∧ s.back M check mem = .ok (l.getLast hl)) ∧
    (l = [] → s.front M true mem = .violation ∧ s.back M true mem = .violation) ∧
    s.elements M mem = .ok l ∧ s.reversed M mem = .ok l.reverse := by
  have hlt := h.lt
  have hload : ∀ i (hi : i < l.length), load mem (s.base + i) = .ok l[i] := fun i hi => by
    rw [load, h.get i hi, List.getElem?_eq_getElem hi]
  refine ⟨fun check i hi => ?_, fun i hi => ?_, fun check hl => ?_, fun hl => ?_, ?_, ?_⟩
  · rw [Span.get, expect_true _ (by rw [h.size]; exact decide_eq_true hi), hload i hi]
  · rw [Span.get, expect_false (by rw [h.size]; exact decide_eq_false (by omega))]
  · have hp : 0 < l.length := List.length_pos_iff.mpr hl
    have hs : (!(s.size M == 0)) = true := by rw [h.size]; simp [hl]
    constructor
    · rw [Span.front, expect_true _ hs, ← Nat.add_zero s.base, hload 0 hp, List.head_eq_getElem]
    · rw [Span.back, expect_true _ hs, h.size, minus_eq (by omega) (by omega), hload _ (by omega), List.getLast_eq_getElem]
  · have hs : (!(s.size M == 0)) = false := by rw [h.size]; simp [hl]
    exact ⟨by rw [Span.front, expect_false hs], by rw [Span.back, expect_false hs]⟩
  · rw [Span.elements, h.size, loads_eq mem _ _ h.inside, ← h.eq]
  · rw [Span.reversed, h.size, loadsDown_eq mem _ _ h.inside, ← h.eq]

/-- **C153** (arrays): a span of an array shows it, with the static extent that the array has or with a dynamic one; with another static extent there is none. -/
theorem C153_array (M : ℕ) (before l after : List α) (hM : (before ++ l ++ after).length < dyn M) (ext : ℕ) :
    (∀ s, Span.ofArray M ext before.length l.length = .ok s → Shows M (before ++ l ++ after) s l) ∧
    (Span.ofArray M ext before.length l.length = .refused ↔ ext ≠ dyn M ∧ ext ≠ l.length) := by
  constructor
  · intro s hs
    unfold Span.ofArray at hs
    split at hs
    · rename_i hc
      obtain rfl := Out.ok.inj hs
      refine ⟨?_, by simp, by simp, hM⟩
      unfold Span.size
      rcases hc with hc | hc
      · simp [hc]
      · by_cases hd : ext = dyn M
        · simp [hd]
        · simp [hd, hc]
    · cases hs
  · unfold Span.ofArray
    split
    · rename_i hc
      simp
      rcases hc with hc | hc
      · intro h; exact absurd hc h
      · intro _; exact hc.symm
    · rename_i hc
      simp
      push Not at hc
      exact ⟨hc.1, fun h => hc.2 h.symm⟩

/-- **C153** (bytes): the bytes of a span are those of its elements, in order. -/
theorem C153_bytes {β : Type} (M : ℕ) (check : Bool) (w : ℕ) (enc : α → List β) (hw : ∀ a, (enc a).length = w) (mem : List α) (s : Span) (l : List α)
    (h : Shows M mem s l) (hM : mem.length * w < dyn M) :
    ∃ b, s.asBytes M check w = .ok b ∧ Shows M (mem.flatMap enc) b (l.flatMap enc) := by
  have hlen : ∀ l : List α, (l.flatMap enc).length = l.length * w := fun l => by
    induction l with
    | nil => simp
    | cons a l ih => rw [List.flatMap_cons, List.length_append, hw, ih, List.length_cons]; ring
  have hdrop : ∀ (n : ℕ) (l : List α), (l.drop n).flatMap enc = (l.flatMap enc).drop (n * w) := by
    intro n
    induction n with
    | zero => intro l; simp
    | succ n ih =>
      intro l
      cases l with
      | nil => simp
      | cons a l =>
        rw [List.drop_succ_cons, ih, List.flatMap_cons]
        have : (n + 1) * w = (enc a).length + n * w := by rw [hw]; ring
        rw [this, List.drop_length_add_append]
  have htake : ∀ (n : ℕ) (l : List α), (l.take n).flatMap enc = (l.flatMap enc).take (n * w) := by
    intro n
    induction n with
    | zero => intro l; simp
    | succ n ih =>
      intro l
      cases l with
      | nil => simp
      | cons a l =>
        rw [List.take_succ_cons, List.flatMap_cons, ih, List.flatMap_cons]
        have : (n + 1) * w = (enc a).length + n * w := by rw [hw]; ring
        rw [this, List.take_length_add_append]
  have hlt := h.lt
  have hi := h.inside
  have hlw : l.length * w < dyn M := lt_of_le_of_lt (Nat.mul_le_mul_right _ (by omega)) hM
  have hm : s.size M * w % M = l.length * w := by rw [h.size, Nat.mod_eq_of_lt (by omega)]
  have hext : (if s.ext = dyn M then dyn M else w * s.ext % M) = dyn M ∨ (if s.ext = dyn M then dyn M else w * s.ext % M) = l.length * w := by
    by_cases he : s.ext = dyn M
    · left; simp [he]
    · right
      have : s.ext = l.length := by rw [← h.size]; simp [Span.size, he]
      rw [if_neg he, this, Nat.mul_comm, Nat.mod_eq_of_lt (by omega)]
  refine ⟨⟨s.base * w, _, l.length * w⟩, by rw [Span.asBytes, hm, make_eq _ _ _ _ _ hext], ?_, ?_, ?_, ?_⟩
  · rw [hlen]
    unfold Span.size
    rcases hext with h1 | h1
    · simp [h1]
    · simp [h1]
  · rw [hlen, hlen]
    show s.base * w + l.length * w ≤ _
    rw [← Nat.add_mul]
    exact Nat.mul_le_mul_right _ hi
  · rw [hlen]
    show _ = ((mem.flatMap enc).drop (s.base * w)).take _
    rw [← hdrop, ← htake, ← h.eq]
  · rw [hlen]; exact hM

/-- **C153** (violated: conversion): a span of three elements becomes one of five, without any check; then the check of the index does not help, and memory is read
that was not given. -/
theorem C153_convert_violated : Shows (2 ^ 64) [1, 2, 3] ⟨0, dyn (2 ^ 64), 3⟩ [1, 2, 3] ∧
    runs (2 ^ 64) true [.convert 5] ⟨0, dyn (2 ^ 64), 3⟩ = .ok ⟨0, 5, 3⟩ ∧ Span.get (2 ^ 64) true [1, 2, 3] ⟨0, 5, 3⟩ 4 = .undefined :=
  ⟨⟨by decide, by decide, by decide, by decide⟩, by decide, by decide⟩

/-- **C153** (violated: overflow): the end of a part is computed modulo `2 ^ 64`, so that the part of almost `2 ^ 64` elements from the third on is not refused. -/
theorem C153_overflow_violated : Shows (2 ^ 64) [1, 2, 3] ⟨0, dyn (2 ^ 64), 3⟩ [1, 2, 3] ∧
    runs (2 ^ 64) true [.sub 2 (2 ^ 64 - 2)] ⟨0, dyn (2 ^ 64), 3⟩ = .ok ⟨2, dyn (2 ^ 64), 2 ^ 64 - 2⟩ ∧
    Span.get (2 ^ 64) true [1, 2, 3] ⟨2, dyn (2 ^ 64), 2 ^ 64 - 2⟩ 1 = .undefined :=
  ⟨⟨by decide, by decide, by decide, by decide⟩, by decide, by decide⟩

/-- Some steps, static and dynamic. -/
def sampleOps : List Op := [.subFixed 1 (dyn (2 ^ 64)), .convert (dyn (2 ^ 64)), .last 4, .convert 4, .firstFixed 3, .sub 1 2]

example : ∃ s', runs (2 ^ 64) true sampleOps ⟨2, 6, 6⟩ = .ok s' ∧ Shows (2 ^ 64) [9, 9, 1, 2, 3, 4, 5, 6, 9] s' [4, 5] := by
  refine (C153_chain_partial (2 ^ 64) [9, 9, 1, 2, 3, 4, 5, 6, 9] sampleOps ⟨2, 6, 6⟩ [1, 2, 3, 4, 5, 6]
    ⟨by decide, by decide, by decide, by decide⟩ ?_).1 [4, 5] (by decide) true
  refine ⟨⟨by decide, Or.inl rfl⟩, fun l1 h1 => ?_⟩
  obtain rfl : [2, 3, 4, 5, 6] = l1 := Option.some.inj h1
  refine ⟨Or.inl rfl, fun l2 h2 => ?_⟩
  obtain rfl : [2, 3, 4, 5, 6] = l2 := Option.some.inj h2
  refine ⟨show 4 < 2 ^ 64 by decide, fun l3 h3 => ?_⟩
  obtain rfl : [3, 4, 5, 6] = l3 := Option.some.inj h3
  refine ⟨Or.inr rfl, fun l4 h4 => ?_⟩
  obtain rfl : [3, 4, 5, 6] = l4 := Option.some.inj h4
  refine ⟨show 3 < 2 ^ 64 by decide, fun l5 h5 => ?_⟩
  obtain rfl : [3, 4, 5] = l5 := Option.some.inj h5
  exact ⟨⟨by decide, Or.inr (by decide)⟩, fun _ _ => trivial⟩

/-! ## C154: arrays that own their elements -/

/-- **C154** (construction): an array made of extents, with a vector, has a value at every index, the same everywhere; and so has an array made of a container that is
large enough. With assertions, a smaller container is refused. -/
theorem C154_construct (M : ℕ) (m : Mapping) (hm : Sound M m) (z : α) (c : List α) (ndebug : Bool) :
    Holds M (MdArray.make M .vector z m) ⟨m.exts.shape, fun _ => z⟩ ∧
    (m.span M ≤ c.length → ∃ a v, MdArray.ofContainer M ndebug c m = some a ∧ a.ctr = c ∧ v.shape = m.exts.shape ∧ Holds M a v) ∧
    (c.length < m.span M → MdArray.ofContainer M false c m = none) := by
  refine ⟨⟨rfl, hm.unique, fun idx hi => ?_⟩, fun hc => ?_, fun hc => ?_⟩
  · show (List.replicate (m.span M) z)[m.offset M idx]? = some z
    rw [List.getElem?_replicate, if_pos (hm.needed.1 idx hi)]
  · refine ⟨⟨m, c⟩, ⟨m.exts.shape, fun idx => c.getD (m.offset M idx) z⟩, by simp [MdArray.ofContainer, hc], rfl, rfl, rfl, hm.unique, fun idx hi => ?_⟩
    have : m.offset M idx < c.length := lt_of_lt_of_le (hm.needed.1 idx hi) hc
    show c[m.offset M idx]? = some (c.getD (m.offset M idx) z)
    rw [List.getD_eq_getElem?_getD, List.getElem?_eq_getElem this]
    rfl
  · have : ¬ m.span M ≤ c.length := by omega
    simp [MdArray.ofContainer, this]

/-- **C154** (values): arrays are values. Whatever is written, copied and moved between them, every array that has a value has the one it should have, at every index;
nothing is read or written outside a container. -/
theorem C154_values (M : ℕ) (k : Kind) : (as : List (Act α)) → (st : List (MdArray α)) → (σ σ' : List (Option (Value α))) → HoldsAll M st σ → acts as σ = some σ' →
    ∃ st', actAll M k as st = some st' ∧ HoldsAll M st' σ'
  | [], st, σ, σ', h, ha => ⟨st, rfl, by obtain rfl := Option.some.inj ha; exact h⟩
  | a :: as, st, σ, σ', h, ha => by
    rw [acts] at ha
    cases h1 : a.on σ with
    | none => rw [h1] at ha; cases ha
    | some σ1 =>
      rw [h1, Option.bind_some] at ha
      obtain ⟨st1, h2, h3⟩ := act_holds k h a h1
      obtain ⟨st', h4, h5⟩ := C154_values M k as st1 σ1 σ' h3 ha
      exact ⟨st', by rw [actAll, h2, Option.bind_some, h4], h5⟩

/-- **C154** (layouts): an array made of one of another layout has the same value, if the conversion of the mapping keeps positions: conversion to strides, and, with
assertions, from strides. -/
theorem C154_convert_partial (M : ℕ) (a : MdArray α) (v : Value α) (h : Holds M a v) :
    (a.map.WellFormed → Holds M (a.ofOther (a.map.toStride M)) v) ∧
    (∀ e s m, a.map = .stride e s → s.length = e.rank → (toLeft M false e s = some m ∨ toRight M false e s = some m) → Holds M (a.ofOther m) v) := by
  have key : ∀ m : Mapping, m.exts.shape = v.shape → (∀ i, InBounds v.shape i → m.offset M i = a.map.offset M i) → Holds M (a.ofOther m) v :=
    fun m h1 h2 => ⟨h1, fun i j hi hj hij => h.unique i j hi hj (by rw [← h2 i hi, ← h2 j hj]; exact hij), fun i hi => by
      show a.ctr[m.offset M i]? = _
      rw [h2 i hi]
      exact h.get i hi⟩
  refine ⟨fun hw => key _ h.shape fun i hi => ?_, fun e s m hs hl hm => key m ?_ fun i hi => ?_⟩
  · exact (C112_toStride M a.map hw i (h.shape ▸ hi)).2
  · have hsh := h.shape
    rw [hs] at hsh
    rcases hm with hm | hm
    · unfold toLeft at hm; split at hm
      · obtain rfl := Option.some.inj hm; exact hsh
      · cases hm
    · unfold toRight at hm; split at hm
      · obtain rfl := Option.some.inj hm; exact hsh
      · cases hm
  · have hsh := h.shape
    rw [hs] at hsh ⊢
    exact (C112_fromStride_partial M e s hl m hm i (hsh ▸ hi)).2

/-- **C154** (size): the size of an array made of extents, with a vector, is the number of its elements if its layout has no gaps. -/
theorem C154_size_partial (M : ℕ) (m : Mapping) (hm : Sound M m) (hM : m.span M < M) (z : α) :
    (MdArray.make M .vector z m).size M = m.exts.shape.prod ↔ Onto m.exts.shape (m.offset M) (m.span M) := by
  rw [unique_onto m.exts.shape _ _ hm.unique hm.needed.1]
  show (List.replicate (m.span M) z).length % M = _ ↔ _
  rw [List.length_replicate, Nat.mod_eq_of_lt hM]

/-- **C154** (violated: size): the size is that of the container, which is not that of the array if there are gaps, or if a larger container is given. -/
theorem C154_size_violated :
    (MdArray.make (2 ^ 64) .vector 0 (.stride ⟨[none, none], [3, 2]⟩ [1, 4])).size (2 ^ 64) = 7 ∧ (⟨[none, none], [3, 2]⟩ : Ext).shape.prod = 6 ∧
    (MdArray.ofContainer (2 ^ 64) false [1, 2, 3, 4, 5] (.left ⟨[none, none], [2, 2]⟩)).map (·.size (2 ^ 64)) = some 5 := by
  refine ⟨by decide, by decide, by decide⟩

/-- **C154** (violated: arrays of a fixed size): nothing compares the size of such an array with that needed, not even an assertion; the elements are outside. -/
theorem C154_array_violated : (MdArray.make (2 ^ 64) (.array 3) 0 (.right ⟨[none, none], [2, 2]⟩)).get (2 ^ 64) [1, 1] = none ∧
    InBounds (MdArray.make (2 ^ 64) (.array 3) 0 (.right ⟨[none, none], [2, 2]⟩)).map.exts.shape [1, 1] :=
  ⟨by decide, .cons (by decide) (.cons (by decide) .nil)⟩

/-- **C154** (violated: moves): an array that has been moved from still has its extents, but no elements. -/
theorem C154_moved_violated : ∃ b c : MdArray ℕ, actAll (2 ^ 64) .vector [.move 1 0]
      [MdArray.make (2 ^ 64) .vector 7 (.right ⟨[none, none], [2, 2]⟩), MdArray.make (2 ^ 64) .vector 0 (.right ⟨[none, none], [0, 0]⟩)] = some [b, c] ∧
    b.map.exts.shape = [2, 2] ∧ b.get (2 ^ 64) [0, 0] = none ∧ b.size (2 ^ 64) = 0 ∧ c.get (2 ^ 64) [0, 0] = some 7 :=
  ⟨_, _, rfl, by decide, by decide, by decide, by decide⟩

/-- A column-major array, a copy that is changed, and a move. -/
example : ∃ st', actAll (2 ^ 64) .vector [.copy 1 0, .write 1 [1, 2] 5, .move 0 1]
      [MdArray.make (2 ^ 64) .vector 7 (.left ⟨[none, some 3], [2]⟩), MdArray.make (2 ^ 64) .vector 0 (.left ⟨[none, some 3], [0]⟩)] = some st' ∧
    HoldsAll (2 ^ 64) st' [some ⟨[2, 3], fun j => if j = [1, 2] then 5 else 7⟩, none] := by
  have h1 := (C154_construct (2 ^ 64) _ (sound_dense (2 ^ 64) ⟨[none, some 3], [2]⟩ (by decide)).1 7 [] true).1
  have h2 := (C154_construct (2 ^ 64) _ (sound_dense (2 ^ 64) ⟨[none, some 3], [0]⟩ (by decide)).1 0 [] true).1
  refine C154_values (2 ^ 64) .vector _ _ [some ⟨[2, 3], fun _ => 7⟩, some ⟨[0, 3], fun _ => 0⟩] _
    (.cons (fun v hv => by obtain rfl := Option.some.inj hv; exact h1) (.cons (fun v hv => by obtain rfl := Option.some.inj hv; exact h2) .nil)) ?_
  have hi : InBounds [2, 3] [1, 2] := .cons (by decide) (.cons (by decide) .nil)
  simp [acts, Act.on, hi]

end OpenKalman.Containers
