import Mathlib.Data.List.Forall2

/-!
# Specification of size and element access of collections (C103–C105)
-/

namespace OpenKalman.Gets

/-- What a collection can contain: simple things, and tuples of such. -/
inductive Elem
  | atom (n : ℕ)
  | tup (l : List Elem)

/-- Collections, by their types and with their elements. -/
inductive Coll
  /-- `std::tuple`, `std::pair` and the like -/
  | tuple (l : List Elem)
  | stdArray (l : List Elem)
  /-- an array of known bound -/
  | array (l : List Elem)
  /-- an array of unknown bound, as in `extern int a[];` -/
  | unknownArray (l : List Elem)
  /-- a container with a size known at run time -/
  | vector (l : List Elem)
  /-- a range whose `size()` is static or returns a constant -/
  | constSize (l : List Elem)
  /-- a range without a size -/
  | unsized (l : List Elem)
  /-- views of the elements themselves: `ref_view`, `owning_view`, `common_view`, `as_const_view`, `as_rvalue_view`, `cache_latest_view`, `to_input_view` -/
  | all (c : Coll)
  /-- `transform_view`, `elements_view` -/
  | transform (f : Elem → Elem) (c : Coll)
  | reverse (c : Coll)
  | enumerate (c : Coll)
  | concat (cs : List Coll)
  /-- `zip_view` and `zip_transform_view` of two or more ranges -/
  | zip (f : List Elem → Elem) (cs : List Coll)
  /-- `adjacent_view` and `adjacent_transform_view` of `n` elements each -/
  | adjacent (f : List Elem → Elem) (n : ℕ) (c : Coll)
  | cartesian (cs : List Coll)
  /-- `std::ranges::subrange` of a range -/
  | subrange (c : Coll)

/-- The windows of `n` elements. -/
def windows {α : Type} (n : ℕ) : List α → List (List α)
  | [] => []
  | a :: l => if n ≤ l.length + 1 then (a :: l).take n :: windows n l else []

/-- The lists with one element from each list. -/
def products {α : Type} : List (List α) → List (List α)
  | [] => [[]]
  | l :: ls => l.flatMap fun a => (products ls).map (a :: ·)

/-- The lists of the first elements, the second elements and so on, as long as there are such in all. -/
def zips {α : Type} : List (List α) → List (List α)
  | [] => []
  | [l] => l.map fun a => [a]
  | l :: ls => List.zipWith (· :: ·) l (zips ls)

/-- The elements of a collection. -/
def Coll.elems : Coll → List Elem
  | .tuple l => l
  | .stdArray l => l
  | .array l => l
  | .unknownArray l => l
  | .vector l => l
  | .constSize l => l
  | .unsized l => l
  | .all c => c.elems
  | .transform f c => c.elems.map f
  | .reverse c => c.elems.reverse
  | .enumerate c => c.elems.zipIdx.map fun p => .tup [.atom p.2, p.1]
  | .concat cs => (cs.map Coll.elems).flatten
  | .zip f cs => (zips (cs.map Coll.elems)).map f
  | .adjacent f n c => (windows n c.elems).map f
  | .cartesian cs => (products (cs.map Coll.elems)).map .tup
  | .subrange c => c.elems

/-- Nothing inside is a subrange or an array of unknown bound. -/
inductive Coll.Plain : Coll → Prop
  | tuple (l : List Elem) : Coll.Plain (.tuple l)
  | stdArray (l : List Elem) : Coll.Plain (.stdArray l)
  | array (l : List Elem) : Coll.Plain (.array l)
  | vector (l : List Elem) : Coll.Plain (.vector l)
  | constSize (l : List Elem) : Coll.Plain (.constSize l)
  | unsized (l : List Elem) : Coll.Plain (.unsized l)
  | all {c : Coll} (h : c.Plain) : Coll.Plain (.all c)
  | transform {c : Coll} (f : Elem → Elem) (h : c.Plain) : Coll.Plain (.transform f c)
  | reverse {c : Coll} (h : c.Plain) : Coll.Plain (.reverse c)
  | enumerate {c : Coll} (h : c.Plain) : Coll.Plain (.enumerate c)
  | concat {cs : List Coll} (h : ∀ c ∈ cs, c.Plain) : Coll.Plain (.concat cs)
  | zip (f : List Elem → Elem) {cs : List Coll} (h : ∀ c ∈ cs, c.Plain) (h' : cs ≠ []) : Coll.Plain (.zip f cs)
  | adjacent (f : List Elem → Elem) (n : ℕ) {c : Coll} (hn : 0 < n) (h : c.Plain) : Coll.Plain (.adjacent f n c)
  | cartesian {cs : List Coll} (h : ∀ c ∈ cs, c.Plain) : Coll.Plain (.cartesian cs)

/-- All parts have a size. -/
def Coll.Sized : Coll → Prop
  | .unsized _ => False
  | .all c => c.Sized
  | .transform _ c => c.Sized
  | .reverse c => c.Sized
  | .enumerate c => c.Sized
  | .concat cs => ∀ c ∈ cs, c.Sized
  | .zip _ cs => ∀ c ∈ cs, c.Sized
  | .adjacent _ _ c => c.Sized
  | .cartesian cs => ∀ c ∈ cs, c.Sized
  | _ => True

/-- The types of all parts tell their sizes. -/
def Coll.FixedSize : Coll → Prop
  | .unsized _ => False
  | .vector _ => False
  | .all c => c.FixedSize
  | .transform _ c => c.FixedSize
  | .reverse c => c.FixedSize
  | .enumerate c => c.FixedSize
  | .concat cs => ∀ c ∈ cs, c.FixedSize
  | .zip _ cs => ∀ c ∈ cs, c.FixedSize
  | .adjacent _ _ c => c.FixedSize
  | .cartesian cs => ∀ c ∈ cs, c.FixedSize
  | _ => True

mutual
/-- The simple things in an element, from left to right. -/
def leaves : Elem → List Elem
  | .atom n => [.atom n]
  | .tup l => leavesList l
def leavesList : List Elem → List Elem
  | [] => []
  | e :: l => leaves e ++ leavesList l
end

end OpenKalman.Gets
