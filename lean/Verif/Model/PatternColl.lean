import Verif.Spec.Order
import Verif.Model.Pattern

/-!
# Model of collections of patterns (`OpenKalman/patterns/functions`, `OpenKalman/patterns/views`)

The functions are generic in the patterns they hold: here the type `α` of patterns comes with its comparison `cmp`, its dimension `dim` and the
one-dimensional pattern `one` (`Dimensions<1>`).  What is known about a comparison at compile time (`compares_with`, guaranteed or permitted) is a
function `static` of the C++ types `ty` of the two patterns, giving `some b` when the outcome is known to be `b`.
-/

namespace OpenKalman.PatternColl

/-- The patterns in a collection, with the compile-time knowledge about comparisons. -/
structure Theory where
  α : Type
  τ : Type
  ty : α → τ
  cmp : α → α → POrd
  one : α
  dim : α → Nat

namespace Theory
variable (T : Theory)

/-- What `compares_with<A, B, comp, …>` knows: `some true` guaranteed, `some false` not permitted, `none` otherwise. -/
structure Static (comp : POrd → Bool) where
  known : T.τ → T.τ → Option Bool
  /-- The concept is taken to be sound here; patterns/concepts/compares_with.hpp is modelled in `Model/PatTypes.lean`, where C95 says how far it is. -/
  sound : ∀ x y b, known (T.ty x) (T.ty y) = some b → comp (T.cmp x y) = b

end Theory

variable {T : Theory}

/-- A sized collection: of compile-time size, or a range of patterns of one C++ type. -/
inductive Coll (T : Theory)
  | fixed (xs : List T.α)
  | dyn (t : T.τ) (xs : List T.α) (h : ∀ x ∈ xs, T.ty x = t)

/-- The patterns in a collection. -/
def Coll.items : Coll T → List T.α
  | .fixed xs => xs
  | .dyn _ xs _ => xs

/-! ## compare_pattern_collections.hpp -/

section
variable (comp : POrd → Bool)

/-- Lines 29-39. -/
def aTail : List T.α → Bool
  | [] => true
  | x :: xs => comp (T.cmp x T.one) && aTail xs

/-- Lines 42-51. -/
def bTail : List T.α → Bool
  | [] => true
  | y :: ys => comp (T.cmp T.one y) && bTail ys

/-- Lines 54-73 (`a` of fixed size); the final loop over the rest of `b` is `bTail`. -/
def iterA : List T.α → List T.α → Bool
  | x :: xs, y :: ys => comp (T.cmp x y) && iterA xs ys
  | x :: xs, [] => aTail comp (x :: xs)
  | [], ys => bTail comp ys

/-- Lines 76-96 (`b` of fixed size); the final loop over the rest of `a` is `aTail`. -/
def iterB : List T.α → List T.α → Bool
  | x :: xs, y :: ys => comp (T.cmp x y) && iterB xs ys
  | [], y :: ys => bTail comp (y :: ys)
  | xs, [] => aTail comp xs

/-- Lines 99-116 (both of fixed size). -/
def iterFixed : List T.α → List T.α → Bool
  | x :: xs, y :: ys => comp (T.cmp x y) && iterFixed xs ys
  | x :: xs, [] => aTail comp (x :: xs)
  | [], ys => bTail comp ys

/-- Lines 148-160: the three loops over two dynamic collections, from index `i` on. -/
def loopDyn (xs ys : List T.α) : Bool :=
  (List.range (min xs.length ys.length)).all (fun i => comp (T.cmp (xs.getD i T.one) (ys.getD i T.one))) &&
  ((List.range' (min xs.length ys.length) (xs.length - min xs.length ys.length)).all fun i => comp (T.cmp (xs.getD i T.one) T.one)) &&
  ((List.range' (min xs.length ys.length) (ys.length - min xs.length ys.length)).all fun i => comp (T.cmp T.one (ys.getD i T.one)))

variable (s : T.Static comp)

/-- concepts/collection_compares_with.hpp:28-94: every comparison is known with the outcome wanted (`want = some true`: guaranteed; for "permitted",
no comparison is known to fail). -/
def staticAll (ok : Option Bool → Bool) (ps : List (T.τ × T.τ)) : Bool := ps.all fun p => ok (s.known p.1 p.2)

/-- concepts/collection_compares_with.hpp:97-117: the type pairs that are looked at. -/
def staticPairs : Coll T → Coll T → List (T.τ × T.τ)
  | .fixed xs, .fixed ys =>
    (List.range (max xs.length ys.length)).map fun i => (T.ty (xs.getD i T.one), T.ty (ys.getD i T.one))
  | .fixed xs, .dyn t _ _ => xs.map fun x => (T.ty x, t)
  | .dyn t _ _, .fixed ys => ys.map fun y => (t, T.ty y)
  | .dyn t _ _, .dyn t' _ _ => [(t, t')]

/-- Lines 137-173. -/
def compareCollections (a b : Coll T) : Bool :=
  if staticAll comp s (· == some true) (staticPairs a b) then true
  else if !staticAll comp s (· != some false) (staticPairs a b) then false
  else match a, b with
    | .dyn _ xs _, .dyn _ ys _ => loopDyn comp xs ys
    | .fixed xs, .dyn _ ys _ => iterA comp xs ys
    | .dyn _ xs _, .fixed ys => iterB comp xs ys
    | .fixed xs, .fixed ys => iterFixed comp xs ys

end

/-! ## internal/strip_1D_tail.hpp -/

/-- Lines 47-51: the loop; `i` is the number of entries still under consideration. -/
def stripLoop (xs : List T.α) : Nat → Nat
  | 0 => 0
  | i + 1 => if !(T.cmp (xs.getD i T.one) T.one).isEq then i + 1 else stripLoop xs i

/-- Lines 34-43: the recursion with a compile-time index. -/
def stripDynFixed (xs : List T.α) : Nat → List T.α
  | 0 => xs.take 0
  | i + 1 => if (T.cmp (xs.getD i T.one) T.one).isEq then stripDynFixed xs i else xs.take (i + 1)

/-- Lines 56-81. -/
def stripFixed (s : T.Static POrd.isEq) (xs : List T.α) : Nat → List T.α
  | 0 => []
  | i + 1 =>
    match s.known (T.ty (xs.getD i T.one)) (T.ty T.one) with
    | some true => stripFixed s xs i
    | none => stripDynFixed xs (i + 1)
    | some false => xs.take (i + 1)

/-- Lines 98-104. -/
def strip1DTail (s : T.Static POrd.isEq) : Coll T → List T.α
  | .fixed xs => stripFixed s xs xs.length
  | .dyn _ xs _ => xs.take (stripLoop xs xs.length)

/-! ## views/transpose.hpp -/

/-- functions/get_pattern.hpp:39-49. -/
def getPattern (p : List T.α) (i : Nat) : T.α := if h : i < p.length then p[i] else T.one

/-- transpose.hpp:223-224. -/
def transposeSize (p : List T.α) (b : Nat) : Nat := max p.length (b + 1)

/-- transpose.hpp:236, 244, 252, 260, 268: the compile-time index. -/
def transposeIndex (a b i : Nat) : Nat := if i = a then b else if i = b then a else i

/-- transpose.hpp:232-270 `get<i>`. -/
def transposeGet (p : List T.α) (a b i : Nat) : T.α := getPattern p (transposeIndex a b i)

/-- transpose.hpp:72-80: dereferencing an iterator at position `cur`. -/
def transposeDeref (p : List T.α) (a b cur : Nat) : T.α := getPattern p (if cur = a then b else if cur = b then a else cur)

/-- transpose.hpp:82-90: subscripting an iterator at position `cur`. -/
def transposeSubscript (p : List T.α) (a b cur offset : Nat) : T.α :=
  getPattern p ((if cur = a then b else if cur = b then a else cur) + offset)

/-- The collection obtained by compile-time access or by iteration (168-207). -/
def transposeItems (p : List T.α) (a b : Nat) : List T.α := (List.range (transposeSize p b)).map (transposeDeref p a b)

/-- transpose.hpp:357-374: no view is made if the collection has compile-time size zero or the two patterns are known to be equal. -/
def transposeClosure (s : T.Static POrd.isEq) (p : Coll T) (a b : Nat) : List T.α :=
  let tyAt (i : Nat) : T.τ := match p with
    | .fixed xs => T.ty (getPattern xs i)
    | .dyn t _ _ => t
  if (match p with | .fixed xs => xs.length == 0 | _ => false) || s.known (tyAt a) (tyAt b) == some true then p.items
  else transposeItems p.items a b

/-! ## views/diagonal_of.hpp, views/to_diagonal.hpp -/

/-- Outcome of a function that can throw or be undefined. -/
inductive Res (β : Type) | ok (b : β) | throws | undefined
  deriving DecidableEq

/-- diagonal_of.hpp:64-102 (`isFixed`: compile-time size).  Where the comparison is known at compile time the same branch is taken (or the overload does
not exist, 41-49, which is the same as throwing).  Slicing from 2 a dynamic collection of fewer than two entries is undefined. -/
def diagonalOf (isFixed : Bool) (p : List T.α) : Res (List T.α) :=
  match p with
  | [] => if isFixed then .ok [] else .undefined
  | [x] =>
    if isFixed then
      if (T.cmp x T.one).isLteq then .ok [x] else if (T.cmp x T.one).isGt then .ok [T.one] else .throws
    else .undefined
  | x :: y :: rest => if (T.cmp x y).isLteq then .ok (x :: rest) else if (T.cmp x y).isGt then .ok (y :: rest) else .throws

/-- to_diagonal.hpp:43-49. -/
def toDiagonal (isFixed : Bool) (p : List T.α) : List T.α :=
  if isFixed && p.length == 0 then p else getPattern p 0 :: p

/-! ## internal/largest_pattern.hpp, internal/smallest_pattern.hpp -/

/-- largest_pattern.hpp:29-50. -/
def largestFixed : List Nat → Nat → Nat → Nat → Nat
  | [], _, mi, _ => mi
  | d :: ds, i, mi, mx => largestFixed ds (i + 1) (if d > mx then i else mi) (if d > mx then d else mx)

/-- smallest_pattern.hpp:29-50. -/
def smallestFixed : List Nat → Nat → Nat → Nat → Nat
  | [], _, mi, _ => mi
  | d :: ds, i, mi, mn => smallestFixed ds (i + 1) (if d < mn then i else mi) (if d < mn then d else mn)

/-- `std::max_element` / `std::ranges::max_element` with the comparison of lines 73-80: position of the current largest, updated when it is less than
the next entry. -/
def maxElement : List Nat → Nat
  | [] => 0
  | d :: ds => go ds 1 0 d
where go : List Nat → Nat → Nat → Nat → Nat
  | [], _, best, _ => best
  | d :: ds, i, best, bd => if bd < d then go ds (i + 1) i d else go ds (i + 1) best bd

/-- `std::min_element`: updated when the next entry is less than the current smallest. -/
def minElement : List Nat → Nat
  | [] => 0
  | d :: ds => go ds 1 0 d
where go : List Nat → Nat → Nat → Nat → Nat
  | [], _, best, _ => best
  | d :: ds, i, best, bd => if d < bd then go ds (i + 1) i d else go ds (i + 1) best bd

/-- largest_pattern.hpp:69-86, as a function of the dimensions. -/
def largestPattern (isFixed : Bool) (ds : List Nat) : Nat := if isFixed then largestFixed ds 0 0 0 else maxElement ds

/-- smallest_pattern.hpp:69-86. -/
def smallestPattern (isFixed : Bool) (ds : List Nat) : Nat := if isFixed then smallestFixed ds 0 0 (2 ^ 64 - 1) else minElement ds

end OpenKalman.PatternColl

namespace OpenKalman.Patterns

/-! ## get_uniform_pattern_component.hpp, is_uniform_pattern_component_of.hpp -/

/-- `compare(x, y)` of two descriptors. -/
noncomputable def eqElem (x y : Elem) : Bool := (compareThreeWay (.single x) (.single y)).isEq

/-- `std::adjacent_find` with `compare<is_neq>` finds nothing. -/
noncomputable def adjacentEqual : List Elem → Bool
  | x :: y :: l => eqElem x y && adjacentEqual (y :: l)
  | _ => true

/-- get_uniform_pattern_component.hpp:63-109.  For a fixed-size collection the common type is modelled only where the elements other than those of
dimension zero are of one type (`common`); otherwise it is `Any`. -/
noncomputable def getUniform (common : Option Descriptor) (p : Pat) : Option Descriptor :=
  if p.staticEuclidean then some (.dim 1)
  else match p with
    | .single e => if !e.erased && e.d.dimension == 1 then some e.d else none
    | .dynSame d _ => if d.dimension == 1 then some d else none
    | .dynDims _ => some (.dim 1)
    | .dynAny ds =>
      if p.getIsEuclidean then some (.dim 1)
      else if adjacentEqual (ds.map (⟨·, true⟩)) then ds.head? else none
    | .fixed es =>
      match common with
      | some d => if d.dimension == 1 then some d else none
      | none => match es with
        | [] => none
        | e :: es => if es.all (eqElem e) then some e.d else none

/-- is_uniform_pattern_component_of.hpp:64-88, for a dynamic range of `Any` and a single descriptor `a` (nothing is known at compile time). -/
noncomputable def isUniformComponentOf (a : Elem) (ds : List Descriptor) : Bool :=
  if a.d.dimension ≠ 1 then false
  else if (Pat.dynAny ds).getIsEuclidean then a.d.isEuclidean
  else ds.all fun x =>
    if x.dimension = 0 then true
    else if x.isEuclidean && a.d.isEuclidean then true
    else eqElem a ⟨x, true⟩

end OpenKalman.Patterns
