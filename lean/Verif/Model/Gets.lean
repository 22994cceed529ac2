import Verif.Spec.Gets

/-!
# Model of size and element access of collections
(`OpenKalman/collections/functions/get_size.hpp`, `get_element.hpp`, `get.hpp`, `apply.hpp`, `internal/tuple_flatten.hpp`, `internal/tuple_like_to_tuple.hpp`,
`collections/traits/std-extents.hpp`)

Sizes are natural numbers; sums and products that do not fit `std::size_t` are left out.
-/

namespace OpenKalman.Gets

/-- All of a list of extents, if all are known. -/
def allKnown : List (Option ℕ) → Option (List ℕ)
  | [] => some []
  | none :: _ => none
  | some n :: l => (allKnown l).map (n :: ·)

/-- get_size.hpp:26-211 `range_extent` (with C++20): the number of elements that the type tells.
`std::tuple_size` (lines 32-33) is that of `std::tuple`, `std::array`, and also of `std::ranges::subrange`, which is a pair of iterators. -/
def extent : Coll → Option ℕ
  | .tuple l => some l.length
  | .stdArray l => some l.length
  | .array l => some l.length
  | .unknownArray _ => some 0
  | .vector _ => none
  | .constSize l => some l.length
  | .unsized _ => none
  | .all c => extent c
  | .transform _ c => extent c
  | .reverse c => extent c
  | .enumerate c => extent c
  | .concat cs => (allKnown (cs.map extent)).map List.sum
  | .zip _ cs => (allKnown (cs.map extent)).bind List.min?
  | .adjacent _ n c => (extent c).map fun e => if e ≥ n then e - n + 1 else 0
  | .cartesian cs => (allKnown (cs.map extent)).map List.prod
  | .subrange _ => some 2

/-- Whether the range is a `sized_range`.  (A tuple is not a range; inside of a view it is held by an object with a `size()`, and by itself its extent is known.) -/
def isSized : Coll → Bool
  | .unsized _ => false
  | .all c => isSized c
  | .transform _ c => isSized c
  | .reverse c => isSized c
  | .enumerate c => isSized c
  | .concat cs => (cs.map isSized).all id
  | .zip _ cs => (cs.map isSized).all id
  | .adjacent _ _ c => isSized c
  | .cartesian cs => (cs.map isSized).all id
  | _ => true

/-- get_size.hpp:219-233 `get_size`; `none` is `unbounded_size`.  `std::ranges::size` of a range is the number of its elements. -/
def getSize (c : Coll) : Option ℕ :=
  match extent c with
  | some n => some n
  | none => if isSized c then some c.elems.length else none

/-- Whether `get<i>` is found, as a member or otherwise (get_element.hpp:31-61), and what it gives: tuples and arrays have it,
and subranges, whose components are the iterators at the beginning and the end (written as positions). -/
def stdGet : Coll → ℕ → Option Elem
  | .tuple l, i => l[i]?
  | .stdArray l, i => l[i]?
  | .subrange _, 0 => some (.atom 0)
  | .subrange c, 1 => some (.atom c.elems.length)
  | _, _ => none

/-- `values::size_compares_with<I, size_of<Arg>, &stdex::is_gteq>` for a known index (get_element.hpp:113, 119): it is not if the size is not known. -/
def beyond : Option ℕ → ℕ → Bool
  | some n, i => decide (n ≤ i)
  | none, _ => false

/-- `get_element` with an index known when compiling, get_element.hpp:64-90, 111-126; `none` if it does not compile or reads outside of the elements. -/
def getFixed (c : Coll) (i : ℕ) : Option Elem :=
  if beyond (extent c) i then none
  else
    match c with
    | .tuple l => stdGet (.tuple l) i
    | .stdArray l => stdGet (.stdArray l) i
    | .subrange c => stdGet (.subrange c) i
    | c => c.elems[i]?

/-- `get_element` with an index known at run time: tuples have no subscript. -/
def getRun (c : Coll) (i : ℕ) : Option Elem :=
  match c with
  | .tuple _ => none
  | c => c.elems[i]?

/-- apply.hpp:28-52: the arguments with which the function is called; `none` if it does not compile or an element is not there. -/
def applyArgs (c : Coll) : Option (List Elem) :=
  match extent c with
  | none => none
  | some n => (List.range n).mapM (getFixed c)

/-- std-extents.hpp:33-49: element `i` of the extents, of which some are known from the type. -/
def extentFixed (static : List (Option ℕ)) (dyn : List ℕ) (i : ℕ) : Option ℕ :=
  match static[i]? with
  | none => none
  | some (some n) => some n
  | some none => dyn[i]?
def extentRun (static : List (Option ℕ)) (dyn : List ℕ) (i : ℕ) : Option ℕ := if i < static.length then dyn[i]? else none

/-- `uniformly_gettable` of an element, tuple_flatten.hpp:37, 48. -/
def Elem.isTup : Elem → Bool
  | .tup _ => true
  | .atom _ => false

mutual
/-- tuple_flatten.hpp:27-55 `tuple_flatten_impl`, for tuples of the standard library. -/
def flatten : Elem → List Elem
  | .atom n => [.atom n]
  | .tup l => if l.any Elem.isTup then flattenAll l else l
def flattenAll : List Elem → List Elem
  | [] => []
  | e :: l => flatten e ++ flattenAll l
end

end OpenKalman.Gets
