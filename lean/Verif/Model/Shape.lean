import Verif.Spec.Order
import Verif.Model.Collections
import Verif.Model.PatternColl

/-!
# Model of the shape queries of tensors
(`OpenKalman/linear-algebra/traits`, `OpenKalman/linear-algebra/concepts`, `OpenKalman/patterns`)

An mdspan is the list of its extents; each extent is a number, known at compile time or not.  `applicability` is a Boolean: `true` for `guaranteed`.
-/

namespace OpenKalman.Shape

open Collections (cmpNat IxColl compareIndices)

/-- An extent of an mdspan: `static_extent` (`none`: `dynamic_extent`) and `extent`. -/
@[ext] structure Extent where
  fixed : Option Nat
  value : Nat
  deriving DecidableEq

/-! ## values/concepts/size_compares_with.hpp -/

/-- A size as a type: a fixed value, a value only known at run time, or `unbounded_size`. -/
inductive Size | fixed (n : Nat) | dynamic | unbounded

/-- The size with an optional fixed value. -/
def Size.ofOption : Option Nat → Size
  | some n => .fixed n
  | none => .dynamic

/-- Lines 28-34 `do_comps`. -/
def doComps (comp : POrd → Bool) (opIsAnd : Bool) (l : List POrd) : Bool := if opIsAnd then l.all comp else l.any comp

/-- Lines 39-87; `g`: applicability::guaranteed. -/
def sizeComparesWith (comp : POrd → Bool) (g : Bool) : Size → Size → Bool
  | .unbounded, .unbounded => doComps comp false [.equivalent]
  | _, .unbounded => doComps comp false [.less]
  | .unbounded, _ => doComps comp false [.greater]
  | .fixed a, .fixed b => comp (cmpNat a b)
  | .fixed a, .dynamic => if a = 0 then doComps comp g [.less, .equivalent] else !g
  | .dynamic, .fixed b => if b = 0 then doComps comp g [.greater, .equivalent] else !g
  | .dynamic, .dynamic => !g

/-! ## linear-algebra/traits -/

/-- count_indices.hpp:27-36 `remove_trailing_1D_indices<Mdspan, i>`. -/
def removeTrailing (s : List (Option Nat)) : Nat → Nat
  | 0 => 0
  | i + 1 => if s[i]? = some (some 1) then removeTrailing s i else i + 1

/-- index_count.hpp:46-47 and count_indices.hpp:51-55. -/
def indexCount (s : List (Option Nat)) : Nat := removeTrailing s s.length

/-- The compile-time extents of an mdspan. -/
def statics (m : List Extent) : List (Option Nat) := m.map (·.fixed)

/-- `mdspan::extent(i)`; undefined beyond the rank. -/
def mdExtent (m : List Extent) (i : Nat) : Option Nat := m[i]?.map (·.value)

/-- get_index_extent.hpp:36-58; `fixedI`: the type of the index fixes its value. -/
def getIndexExtent (m : List Extent) (fixedI : Bool) (i : Nat) : Option Nat :=
  let I := if fixedI then Size.fixed i else .dynamic
  let C := Size.fixed (indexCount (statics m))
  if sizeComparesWith (fun o => o == .greater || o == .equivalent) true I C then some 1
  else if sizeComparesWith (· == .less) true I C then
    match (statics m)[i]? with
    | some (some ex) => some ex
    | some none => mdExtent m i
    | none => none
  else if i < indexCount (statics m) then mdExtent m i
  else some 1

/-- index_dimension_of.hpp:38-45 through get_index_pattern.hpp:41-67, for an object without a pattern collection of its own. -/
def indexDimensionOf (s : List (Option Nat)) (i : Nat) : Option Nat := if i < indexCount s then s[i]?.join else some 1

/-- concepts/dimension_size_of_index_is.hpp:31-38. -/
def dimensionSizeOfIndexIs (s : List (Option Nat)) (i v : Nat) (comp : POrd → Bool) (g : Bool) : Bool :=
  sizeComparesWith comp g (Size.ofOption (indexDimensionOf s i)) (.fixed v)

/-- tensor_order.hpp:28-59: the recursion on the indices from `i` on; the compile-time and run-time branches compute the same number. -/
def tensorOrderFrom (m : List Extent) : List Nat → Option Nat
  | [] => some 0
  | i :: is => do
    let dim ← getIndexExtent m true i
    if dim = 0 then pure dim
    else
      let next ← tensorOrderFrom m is
      if dim = 1 then pure next else pure (1 + next)

/-- tensor_order.hpp:77-83. -/
def tensorOrder (m : List Extent) : Option Nat := tensorOrderFrom m (List.range (indexCount (statics m)))

/-- tensor_order.hpp:86-93: the loop (not reached, because `count_indices` is always fixed). -/
def tensorOrderLoop (m : List Extent) : List Nat → Nat → Option Nat
  | [], count => some count
  | i :: is, count => do
    let dim ← getIndexExtent m false i
    if 1 < dim then tensorOrderLoop m is (count + 1)
    else if dim = 0 then pure 0
    else tensorOrderLoop m is count

/-- max_tensor_order.hpp:25-32. -/
def maxTensorOrderFrom (s : List (Option Nat)) : Nat → Nat → Nat
  | 0, result => result
  | i + 1, result =>
    if dimensionSizeOfIndexIs s i 1 POrd.isEq true then maxTensorOrderFrom s i result
    else if dimensionSizeOfIndexIs s i 0 POrd.isEq true then 0
    else maxTensorOrderFrom s i (result + 1)

/-- max_tensor_order.hpp:52-59. -/
def maxTensorOrder (s : List (Option Nat)) : Nat := maxTensorOrderFrom s (indexCount s) 0

/-- is_vector.hpp:25-43 `get_is_vector_impl<N, i>`; `k` is the number of indices left, `i + k` the index count. -/
def isVectorFrom (m : List Extent) (N : Nat) : Nat → Nat → Option Bool
  | _, 0 => some true
  | i, k + 1 => do
    let e ← getIndexExtent m true i
    let rest ← isVectorFrom m N (i + 1) k
    pure ((decide (N = i) || decide (e = 1)) && rest)

/-- is_vector.hpp:60-72. -/
def isVector (m : List Extent) (N : Nat) : Option Bool := isVectorFrom m N 0 (indexCount (statics m))

/-- concepts/vector.hpp:26-42. -/
def vectorConcept (s : List (Option Nat)) (N : Nat) (g : Bool) : Bool :=
  (List.range (indexCount s)).all fun i => decide (N = i) || dimensionSizeOfIndexIs s i 1 POrd.isEq g

/-- concepts/empty_object.hpp:26-31, 50-52. -/
def emptyObject (s : List (Option Nat)) : Bool := (List.range (indexCount s)).any fun i => dimensionSizeOfIndexIs s i 0 POrd.isEq true

/-- dynamic_index_count.hpp:26-30, 50-57. -/
def dynamicIndexCount (s : List (Option Nat)) : Nat :=
  ((List.range (indexCount s)).map fun i => if indexDimensionOf s i = none then 1 else 0).sum

/-! ## access.hpp and access_at.hpp -/

/-- What a call may do: yield the component at an index array of the length of the rank, throw `std::out_of_range`, not compile, or run into
undefined behaviour. -/
inductive Access | component (ix : List Nat) | outOfRange | illFormed | undefined
  deriving DecidableEq

/-- A collection of indices: compile-time size or not, and its elements. -/
structure Indices where
  fixedSize : Bool
  items : List Nat

/-- `size_of<Indices>`. -/
def Indices.size (x : Indices) : Size := if x.fixedSize then .fixed x.items.length else .dynamic

/-- concepts/index_collection_for.hpp:27-36, 55-62, for indices whose elements are only known at run time. -/
def indexCollectionFor (s : List (Option Nat)) (x : Indices) : Bool :=
  !sizeComparesWith (· == .less) true x.size (.fixed (indexCount s)) &&
    (!x.fixedSize || (List.range x.items.length).all fun i =>
      !sizeComparesWith (fun o => o == .greater || o == .equivalent) true .dynamic (Size.ofOption (indexDimensionOf s i)))

/-- access.hpp:39-44 and 67-76: the first `rank` indices; `collections::get<ix>` of a collection of compile-time size does not compile beyond the
end, and is undefined for one of run-time size.  The bounds of the mdspan are not checked. -/
def access (m : List Extent) (x : Indices) : Access :=
  if !indexCollectionFor (statics m) x || emptyObject (statics m) then .illFormed
  else if m.length ≤ x.items.length then
    if (List.range m.length).all fun i => decide (x.items.getD i 0 < (mdExtent m i).getD 0) then .component (x.items.take m.length) else .undefined
  else if x.fixedSize then .illFormed else .undefined

/-- access_at.hpp:45-50; patterns/views/dimensions.hpp: the dimensions of a viewable collection are an unbounded generator, padded with 1. -/
def accessAt (m : List Extent) (x : Indices) : Access :=
  if !indexCollectionFor (statics m) x || emptyObject (statics m) then .illFormed
  else if !compareIndices (· == .less) ⟨fun i => x.items.getD i 0, some x.items.length, x.fixedSize⟩
      ⟨fun i => if i < m.length then (mdExtent m i).getD 0 else 1, none, false⟩ then .outOfRange
  else access m x

/-! ## patterns_match.hpp -/

open PatternColl (Theory)

/-- An indexible object: its mdspan and, if it has them, patterns of its own. -/
structure Obj (T : Theory) where
  exts : List Extent
  pats : Option (List T.α)

/-- get_index_pattern.hpp:41-67 with patterns/functions/get_pattern.hpp:39-49; `ofDim d` is the pattern `Dimensions<d>` or `d`. -/
def getIndexPattern {T : Theory} (ofDim : Nat → T.α) (o : Obj T) (i : Nat) : T.α :=
  match o.pats with
  | some p => PatternColl.getPattern p i
  | none => if i < indexCount (statics o.exts) then ofDim ((mdExtent o.exts i).getD 0) else ofDim 1

/-- traits/get_pattern_collection.hpp:36-48. -/
def getPatternCollection {T : Theory} (ofDim : Nat → T.α) (o : Obj T) : List T.α := o.pats.getD (o.exts.map fun e => ofDim e.value)

/-- Largest index count of the objects (`std::max`, patterns_match.hpp:46 and 69). -/
def maxCount {T : Theory} (os : List (Obj T)) : Nat := (os.map fun o => indexCount (statics o.exts)).foldr max 0

/-- patterns_match.hpp:28-38. -/
def patternsMatch {T : Theory} (ofDim : Nat → T.α) : List (Obj T) → Bool
  | [] => true
  | t :: ts => (List.range (maxCount (t :: ts))).all fun i =>
      ts.all fun u => (T.cmp (getIndexPattern ofDim t i) (getIndexPattern ofDim u i)).isEq

/-- patterns_match.hpp:41-50: the loop from `i` on, for `k` more indices. -/
def patternsMatchLoop {T : Theory} (ofDim : Nat → T.α) (t : Obj T) (ts : List (Obj T)) : Nat → Nat → Bool
  | _, 0 => true
  | i, k + 1 =>
    if ts.any fun u => !(T.cmp (getIndexPattern ofDim t i) (getIndexPattern ofDim u i)).isEq then false
    else patternsMatchLoop ofDim t ts (i + 1) k

/-! ## patterns/functions/to_extents.hpp -/

/-- Lines 27-37 `derive_rank<P, curr_rank>`: the fixed dimensions of the patterns. -/
def deriveRank (s : List (Option Nat)) : Nat → Nat
  | 0 => 0
  | k + 1 => if s.getD k (some 1) = some 1 then deriveRank s k else k + 1

/-- get_dimension of get_pattern, an element of a collection of compile-time size. -/
def dimAt (p : List Extent) (i : Nat) : Extent := p.getD i ⟨some 1, 1⟩

/-- Lines 40-57 `derive_extents<previous_i, SDs...>(p, ds...)`: the static extents and the dynamic values gathered so far. -/
def deriveExtents (p : List Extent) : Nat → List (Option Nat) → List Nat → List (Option Nat) × List Nat
  | 0, sds, ds => (sds, ds)
  | i + 1, sds, ds =>
    match (dimAt p i).fixed with
    | some d => deriveExtents p i (some d :: sds) ds
    | none => deriveExtents p i (none :: sds) ((dimAt p i).value :: ds)

/-- The constructor of `std::extents` from the values of its dynamic extents (C++23 [mdspan.extents.cons]): one value for each dynamic extent. -/
def makeExtents : List (Option Nat) → List Nat → Option (List Extent)
  | [], [] => some []
  | [], _ :: _ => none
  | some n :: s, ds => (makeExtents s ds).map (⟨some n, n⟩ :: ·)
  | none :: _, [] => none
  | none :: s, d :: ds => (makeExtents s ds).map (⟨none, d⟩ :: ·)

/-- Lines 130-133 (`rank = none`), 77-81 (other collections) and 89-113 (`isExtents`); `none`: a failed static assertion or constructor. -/
def toExtents (isExtents : Bool) (rank : Option Nat) (p : List Extent) : Option (List Extent) :=
  let N := deriveRank (p.map (·.fixed)) p.length
  match rank with
  | none => let r := deriveExtents p N [] []; makeExtents r.1 r.2
  | some k =>
    if k < N then none
    else if isExtents && !decide (N < k) then some p
    else let r := deriveExtents p k [] []; makeExtents r.1 r.2

end OpenKalman.Shape
