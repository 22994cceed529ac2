import Verif.Model.Shape
import Verif.Spec.PatternDims

/-!
# Model of the functions and concepts about the dimensions in a pattern collection
(`OpenKalman/patterns/functions`, `OpenKalman/patterns/concepts`)
-/

namespace OpenKalman.PatternDims

open Collections (cmpNat)
open Shape (Size sizeComparesWith)

/-- What a type knows about its collections: the size, the fixed dimension of each element of a collection of compile-time size
(`dimension_of`, `none` if dynamic), and `common_collection_type`, if there is one, with its fixed dimension, if there is one. -/
structure CollType where
  size : Size
  elem : Nat → Option Nat
  common : Option (Option Nat)

/-- `fixed_pattern<common_collection_type_t<T>>`, and its dimension. -/
def CollType.fixedCommon (t : CollType) : Option Nat := t.common.join

/-- A collection: its type and its dimensions. -/
structure Coll where
  type : CollType
  dims : Dims

/-- The fixed dimension of `pattern_collection_element_t<i, T>` (get_pattern.hpp:39-49) of a collection of compile-time size. -/
def CollType.elemFixed (t : CollType) (n i : Nat) : Option Nat := if i < n then t.elem i else some 1

/-- compare_collection_patterns_with_dimension.hpp:41-51: the recursion for `k` more elements from `i` on. -/
def compareImpl (comp : POrd → Bool) (c : Dims) (d : Nat) : Nat → Nat → Bool
  | _, 0 => true
  | i, k + 1 => comp (cmpNat (c.padded i) d) && compareImpl comp c d (i + 1) k

/-- compare_collection_patterns_with_dimension.hpp:107-109: the loop for `k` more elements from `i` on. -/
def compareLoop (comp : POrd → Bool) (c : Dims) (d : Nat) : Nat → Nat → Bool
  | _, 0 => true
  | i, k + 1 => if !comp (cmpNat (c.padded i) d) then false else compareLoop comp c d (i + 1) k

/-- compare_collection_patterns_with_dimension.hpp:72-121; `N`: the number of patterns to compare (`none`: `unbounded_size`). -/
def compareWithDimension (comp : POrd → Bool) (N : Option Nat) (c : Coll) (d : Nat) : Bool :=
  match c.dims.len with
  | some len =>
    match N, c.type.size with
    | some n, sz =>
      match c.type.fixedCommon with
      | some f => if sizeComparesWith POrd.isLteq true (.fixed n) sz then comp (cmpNat f d) else compareImpl comp c.dims d 0 n
      | none => compareImpl comp c.dims d 0 n
    | none, .fixed n =>
      match c.type.fixedCommon with
      | some f => if sizeComparesWith POrd.isLteq true (.fixed n) (.fixed n) then comp (cmpNat f d) else compareImpl comp c.dims d 0 n
      | none => compareImpl comp c.dims d 0 n
    | none, _ => compareLoop comp c.dims d 0 len
  | none =>
    match c.type.fixedCommon with
    | some f => comp (cmpNat f d)
    | none => false

/-- get_common_pattern_collection_dimension.hpp:37-56: the recursion from `i` on, for `k + 1` elements.  The compile-time branch for equal fixed
dimensions yields the same value. -/
def commonImpl (c : Dims) : Nat → Nat → Option Nat
  | i, 0 => some (c.padded i)
  | i, k + 1 =>
    match commonImpl c (i + 1) k with
    | some t => if t = c.padded i then some (c.padded i) else none
    | none => none

/-- get_common_pattern_collection_dimension.hpp:112-113: the loop for `k` more elements from `i` on. -/
def commonLoop (c : Dims) (d : Nat) : Nat → Nat → Option Nat
  | _, 0 => some d
  | i, k + 1 => if c.padded i ≠ d then none else commonLoop c d (i + 1) k

/-- get_common_pattern_collection_dimension.hpp:78-127.  A recursion asked for no element looks at one (`get_pattern<0>`). -/
def commonDimension (N : Option Nat) (c : Coll) : Option Nat :=
  match c.dims.len with
  | some len =>
    match N, c.type.size with
    | some n, sz =>
      match c.type.fixedCommon with
      | some f => if sizeComparesWith POrd.isLteq true (.fixed n) sz then some f else commonImpl c.dims 0 (n - 1)
      | none => commonImpl c.dims 0 (n - 1)
    | none, .fixed n =>
      match c.type.fixedCommon with
      | some f => if sizeComparesWith POrd.isLteq true (.fixed n) (.fixed n) then some f else commonImpl c.dims 0 (n - 1)
      | none => commonImpl c.dims 0 (n - 1)
    | none, _ => commonLoop c.dims (c.dims.padded 0) 1 (len - 1)
  | none => c.type.fixedCommon

/-- concepts/collection_patterns_compare_with_dimension.hpp:33-75; `g`: guaranteed. -/
def compareWithDimensionConcept (comp : POrd → Bool) (N : Option Nat) (g : Bool) (t : CollType) (d : Nat) : Bool :=
  match t.size with
  | .fixed n => (List.range (N.getD n)).all fun i => sizeComparesWith comp g (Size.ofOption (t.elemFixed n i)) (.fixed d)
  | _ =>
    match t.common with
    | some f => sizeComparesWith comp g (Size.ofOption f) (.fixed d)
    | none => !g

/-- concepts/collection_patterns_have_same_dimension.hpp:34-48 `best_comparison_dim`: the first fixed dimension. -/
def bestDim (t : CollType) (n : Nat) : Nat → Nat → Option Nat
  | _, 0 => none
  | i, k + 1 =>
    match t.elemFixed n i with
    | some f => some f
    | none => bestDim t n (i + 1) k

/-- concepts/collection_patterns_have_same_dimension.hpp:51-101. -/
def haveSameDimensionConcept (N : Option Nat) (g : Bool) (t : CollType) : Bool :=
  match t.size with
  | .fixed n =>
    match N with
    | none => (List.range n).all fun i => sizeComparesWith POrd.isEq g (Size.ofOption (t.elemFixed n i)) (Size.ofOption (bestDim t n 0 n))
    | some k => decide (k < 2) ||
        (List.range k).all fun i => sizeComparesWith POrd.isEq g (Size.ofOption (t.elemFixed n i)) (Size.ofOption (bestDim t n 0 k))
  | _ =>
    match N with
    | none => t.fixedCommon.isSome || !g
    | some k => decide (k < 2) || t.fixedCommon.isSome || !g

end OpenKalman.PatternDims
