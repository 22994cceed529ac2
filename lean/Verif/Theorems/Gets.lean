import Verif.Proof.Gets
import Mathlib.Data.List.Induction

/-!
# C103: sizes of collections, C104: access to their elements, C105: flattening tuples
-/

namespace OpenKalman.Gets

/-- C103: the number of elements that a type tells is the number of elements, for tuples, arrays, ranges and all towers of views on them.
What is missing: subranges of the standard library and arrays of unknown bound; see `C103_subrange_violated` and `C103_unknown_bound_violated`. -/
theorem C103_extent_partial {c : Coll} (hc : c.Plain) {n : ℕ} (h : extent c = some n) : c.elems.length = n := extent_length hc n h

/-- C103: the type tells the number of elements whenever the types of the parts do. -/
theorem C103_fixed_partial {c : Coll} (hc : c.Plain) (h : c.FixedSize) : extent c = some c.elems.length := by
  obtain ⟨n, hn⟩ := extent_known hc h
  rw [hn, extent_length hc n hn]

/-- C103: `get_size` gives the number of elements if all parts have a size, and otherwise nothing wrong. -/
theorem C103_size_partial {c : Coll} (hc : c.Plain) : (c.Sized → getSize c = some c.elems.length) ∧ ∀ n, getSize c = some n → n = c.elems.length := by
  unfold getSize
  cases he : extent c with
  | some n =>
    have := extent_length hc n he
    simp [this]
  | none =>
    refine ⟨fun h => ?_, ?_⟩
    · simp [isSized_of hc h]
    · intro n
      dsimp only
      split
      · intro h; exact (Option.some.inj h).symm
      · intro h; cases h

/-- Three elements. -/
def abc : List Elem := [.atom 1, .atom 2, .atom 3]

/-- A tower: the pairs of an element of a tuple and one of a reversed array, followed by the windows of two elements of a vector. -/
def tower : Coll := .concat [.cartesian [.tuple abc, .reverse (.array abc)], .adjacent .tup 2 (.vector abc)]

example : tower.Plain ∧ tower.Sized ∧ ¬ tower.FixedSize ∧ getSize tower = some 11 := by
  have hp : tower.Plain := .concat (by
    intro c hc
    simp only [List.mem_cons, List.not_mem_nil, or_false] at hc
    obtain rfl | rfl := hc
    · exact .cartesian (by
        intro c hc
        simp only [List.mem_cons, List.not_mem_nil, or_false] at hc
        obtain rfl | rfl := hc
        · exact .tuple _
        · exact .reverse (.array _))
    · exact .adjacent _ _ (by omega) (.vector _))
  have hs : tower.Sized := by simp [tower, Coll.Sized]
  refine ⟨hp, hs, by simp [tower, Coll.FixedSize], ?_⟩
  rw [(C103_size_partial hp).1 hs]
  simp [tower, Coll.elems, abc, windows, products]

/-- C103: `get_size` of a `std::ranges::subrange` is always 2, since it is also a pair of iterators. -/
theorem C103_subrange_violated (c : Coll) (h : c.elems.length ≠ 2) : getSize (.subrange c) ≠ some (Coll.subrange c).elems.length := by
  unfold getSize
  rw [extent, Coll.elems]
  simpa using Ne.symm h

/-- C103: an array of unknown bound is taken to have no elements. -/
theorem C103_unknown_bound_violated {l : List Elem} (h : l ≠ []) : getSize (.unknownArray l) ≠ some (Coll.unknownArray l).elems.length := by
  unfold getSize
  rw [extent, Coll.elems]
  have : l.length ≠ 0 := by simpa using h
  simpa using Ne.symm this

/-- C104: with an index known when compiling, the element given is that at the index, and none if there is none.
What is missing: subranges; see `C104_subrange_violated`. -/
theorem C104_fixed_partial {c : Coll} (hc : c.Plain) (i : ℕ) : getFixed c i = c.elems[i]? := getFixed_plain hc i

/-- C104: with an index known at run time, the same element is given (except for tuples, which need a known index). -/
theorem C104_agree_partial {c : Coll} (hc : c.Plain) (ht : ∀ l, c ≠ .tuple l) (i : ℕ) : getRun c i = c.elems[i]? ∧ getRun c i = getFixed c i := by
  have : getRun c i = c.elems[i]? := by
    cases c <;> first | rfl | exact absurd rfl (ht _)
  exact ⟨this, by rw [this, getFixed_plain hc]⟩

example : getRun (.reverse (.array abc)) 0 = some (.atom 3) ∧ getFixed (.reverse (.array abc)) 3 = none := by
  rw [getFixed_plain (.reverse (.array _))]
  simp [getRun, Coll.elems, abc]

/-- C104: for a subrange, a known index gives the iterators, and an index known at run time gives the elements. -/
theorem C104_subrange_violated : getFixed (.subrange (.vector abc)) 1 = some (.atom 3) ∧ getRun (.subrange (.vector abc)) 1 = some (.atom 2) ∧
    getFixed (.subrange (.vector abc)) 2 = none ∧ getRun (.subrange (.vector abc)) 2 = some (.atom 3) := by
  simp [getFixed, getRun, beyond, extent, stdGet, Coll.elems, abc]

/-- C104: `apply` calls the function with all elements in order, and needs a size that the type tells. -/
theorem C104_apply_partial {c : Coll} (hc : c.Plain) : (c.FixedSize → applyArgs c = some c.elems) ∧ ∀ l, applyArgs c = some l → l = c.elems := by
  have key : ∀ n, extent c = some n → applyArgs c = some c.elems := by
    intro n hn
    have hl := extent_length hc n hn
    unfold applyArgs
    rw [hn]
    show (List.range n).mapM (getFixed c) = _
    rw [funext (getFixed_plain hc), ← hl]
    generalize c.elems = l
    clear hl hn hc
    induction l using List.reverseRecOn with
    | nil => rfl
    | append_singleton l a ih =>
      rw [List.length_append, List.length_singleton, List.range_succ, List.mapM_append]
      have : (List.range l.length).mapM (fun i => (l ++ [a])[i]?) = (List.range l.length).mapM fun i => l[i]? := by
        have : ∀ m ≤ l.length, (List.range m).mapM (fun i => (l ++ [a])[i]?) = (List.range m).mapM fun i => l[i]? := by
          intro m hm
          induction m with
          | zero => rfl
          | succ m ih =>
            rw [List.range_succ, List.mapM_append, List.mapM_append, ih (by omega)]
            simp only [List.mapM_cons, List.mapM_nil]
            rw [List.getElem?_append_left (by omega)]
        exact this _ le_rfl
      rw [this, ih]
      simp
  refine ⟨fun h => ?_, ?_⟩
  · obtain ⟨n, hn⟩ := extent_known hc h
    exact key n hn
  · intro l h
    cases hn : extent c with
    | none => unfold applyArgs at h; rw [hn] at h; cases h
    | some n => rw [key n hn] at h; exact (Option.some.inj h).symm

/-- C104: an element of the extents of an mdspan is the same for both kinds of index, whether or not its type tells it. -/
theorem C104_extents {static : List (Option ℕ)} {es : List ℕ} (h : List.Forall₂ (fun s e => ∀ n, s = some n → e = n) static es) (i : ℕ) :
    extentFixed static es i = es[i]? ∧ extentRun static es i = es[i]? := by
  have hl := h.length_eq
  constructor
  · unfold extentFixed
    by_cases hi : i < static.length
    · rw [List.getElem?_eq_getElem hi]
      have hr := h.get hi (by omega)
      cases hs : static[i] with
      | none => rfl
      | some n =>
        rw [List.getElem?_eq_getElem (by omega)]
        exact congrArg some (hr n hs).symm
    · rw [List.getElem?_eq_none (by omega), List.getElem?_eq_none (by omega)]
  · unfold extentRun
    split
    · rfl
    · rw [List.getElem?_eq_none (by omega)]

example : List.Forall₂ (fun s e => ∀ n, s = some n → e = n) [some 2, none, some 4] [2, 7, 4] := by
  repeat' constructor
  all_goals intro n h; simp_all

/-- C105: flattening a tuple gives the tuple of everything inside that is not itself a tuple, in order. -/
theorem C105_flatten (e : Elem) : flatten e = leaves e := flatten_eq e

/-- C105: flattening is idempotent: what it gives contains no tuples. -/
theorem C105_flat (e : Elem) : flatten (.tup (flatten e)) = flatten e := by
  have hl : ∀ e : Elem, (∀ x ∈ leaves e, ∃ n, x = .atom n) := by
    intro e
    induction e using Elem.rec (motive_2 := fun l => ∀ x ∈ leavesList l, ∃ n, x = .atom n) with
    | atom n => intro x hx; simp [leaves] at hx; exact ⟨n, hx⟩
    | tup l ih => intro x hx; rw [leaves] at hx; exact ih x hx
    | nil x hx => simp [leavesList] at hx
    | cons e l h1 h2 x hx =>
      rw [leavesList, List.mem_append] at hx
      exact hx.elim (h1 x) (h2 x)
  rw [flatten_eq e, flatten, if_neg]
  intro h
  obtain ⟨x, hx, ht⟩ := List.any_eq_true.mp h
  obtain ⟨n, rfl⟩ := hl e x hx
  simp [Elem.isTup] at ht

example : flatten (.tup [.atom 1, .tup [.atom 2, .tup []], .tup [.tup [.atom 3]]]) = [.atom 1, .atom 2, .atom 3] := by
  simp [flatten_eq, leaves, leavesList]

end OpenKalman.Gets
