import Verif.Spec.FixedSize

/-!
# Model: `FixedSizeAdapter`

`OpenKalman/linear-algebra/adapters/interfaces/FixedSizeAdapter.hpp` and
`OpenKalman/linear-algebra/functions/internal/make_fixed_size_adapter.hpp`,
`make_fixed_square_adapter_like.hpp`.

Simplified: a pattern is its dimension; the elements of an object are left out, as the adapter hands
them through; `vector_space_descriptor_of_t<T, i>` and `compatible_with_vector_space_descriptor_collection`,
which are defined nowhere any more, are read as the claim about an index and as agreement of all claims
that are made on both sides; `smallest_pattern`, which has become an index, is read as the smaller of two
patterns.
-/

namespace OpenKalman.FixedSize

/-- An object of the underlying library. -/
structure Nested where
  claim : Claim
  dims : List Nat

/-- Trailing descriptors of dimension one are dropped — patterns/functions/internal/strip_1D_tail.hpp:56-81. -/
def stripTail : Claim → Claim
  | [] => []
  | c :: cs =>
    match c, stripTail cs with
    | some 1, [] => []
    | c, cs' => c :: cs'

/-- The first pattern that is fixed — most_fixed_pattern.hpp:29-36. -/
def mostFixed : Option Nat → Option Nat → Option Nat
  | some n, _ => some n
  | none, b => b

/-- Combine descriptors with the claims of an object, from index `k` on. -/
def fixClaims (n : Claim) : Nat → Claim → Claim
  | _, [] => []
  | k, d :: ds => mostFixed (claimAt n k) d :: fixClaims n (k + 1) ds

/-- An adapter: a tuple of descriptors, and the nested object (internal/FixedSizeAdapter.hpp:30). -/
structure Adapter where
  desc : Claim
  nested : Nested

/-- `not_more_fixed_than<NestedObject, Descriptors>`, a constraint of the class (internal/
FixedSizeAdapter.hpp:24, concepts/internal/not_more_fixed_than.hpp:27-52): descriptors are fixed where the
nested object is. -/
def WellMade (a : Adapter) : Prop :=
  ∀ i < a.desc.length, claimAt a.nested.claim i = none ∨ (claimAt a.desc i).isSome = true

/-- An object of the library, or an adapter around one. -/
inductive Obj where
  | plain (n : Nested)
  | fixed (a : Adapter)

/-- The descriptors of an adapter where they are fixed, otherwise those of the nested object — interfaces/
FixedSizeAdapter.hpp:49-66; from index `k` on. -/
def ownClaims (n : Claim) : Nat → Claim → Claim
  | _, [] => []
  | k, some d :: ds => some d :: ownClaims n (k + 1) ds
  | k, none :: ds => claimAt n k :: ownClaims n (k + 1) ds

/-- What the type of an object claims — `count_indices` and `get_pattern_collection`, interfaces/
FixedSizeAdapter.hpp:40-66. -/
def Obj.claim : Obj → Claim
  | .plain n => n.claim
  | .fixed a => ownClaims a.nested.claim 0 (stripTail a.desc)

/-- Sizes at run time are those of the nested object. -/
def Obj.dims : Obj → List Nat
  | .plain n => n.dims
  | .fixed a => a.nested.dims

/-- The nested object of an adapter, or the object. -/
def Obj.core : Obj → Nested
  | .plain n => n
  | .fixed a => a.nested

/-- Claims do not contradict each other. -/
def agree : Option Nat → Option Nat → Bool
  | some a, some b => a == b
  | _, _ => true

/-- `compatible_with_vector_space_descriptor_collection`. -/
def compatible (c d : Claim) : Bool :=
  (List.range (max c.length d.length)).all fun i => agree (claimAt c i) (claimAt d i)

/-- `less_fixed_than` — concepts/internal/less_fixed_than.hpp:24-70: a dimension is dynamic where the
descriptors have a fixed one, or beyond the descriptors. -/
def lessFixed (c d : Claim) : Bool :=
  (List.range (max c.length d.length)).any fun i => (claimAt c i).isNone && (claimAt d i).isSome

/-- `make_fixed_size_adapter<Descriptors>` on an object that is not an adapter —
make_fixed_size_adapter.hpp:24-31, 55-64. -/
def makeNested (d : Claim) (n : Nested) : Option Obj :=
  if compatible n.claim d then
    if lessFixed n.claim d then some (.fixed ⟨fixClaims n.claim 0 (stripTail d), n⟩)
    else some (.plain n)
  else none

/-- `make_fixed_size_adapter<Descriptors>` — make_fixed_size_adapter.hpp:49-65: an existing adapter is
taken off first. -/
def make (d : Claim) : Obj → Option Obj
  | .plain n => makeNested d n
  | .fixed a => if compatible (Obj.fixed a).claim d then makeNested d a.nested else none

/-- `make_fixed_square_adapter_like<D, Ds...>` — make_fixed_square_adapter_like.hpp:32-40, 58-61: the first
descriptor is not passed on.  Here for two indices. -/
def makeSquare (_first : Option Nat) (rest : List (Option Nat)) (n : Nested) : Option Obj :=
  let best := rest.foldr mostFixed (mostFixed (claimAt n.claim 0) (claimAt n.claim 1))
  make [best, best] (.plain n)

/-- Replace descriptors along reduced indices, from index `k` on — interfaces/FixedSizeAdapter.hpp:494-508. -/
def reduceDesc (along : List Nat) : Nat → Claim → Claim
  | _, [] => []
  | k, d :: ds => (if k ∈ along then some 1 else d) :: reduceDesc along (k + 1) ds

/-- The smaller of two dimensions if both are known. -/
def smaller : Option Nat → Option Nat → Option Nat
  | some m, some n => some (min m n)
  | _, _ => none

/-- Descriptors of the result of an operation whose first argument is an adapter —
interfaces/FixedSizeAdapter.hpp: same shape 216, 297, 312, 598 (`Descriptors`), transpose 646-647 and
671-672, contract 742-743, solve 878-879, reduce 498-508 and 519-523, diagonal 387-393 and 418-419. -/
def resultDesc : Op → Adapter → Obj → Claim
  | .same, a, _ => a.desc
  | .transpose, a, _ => [claimAt (Obj.fixed a).claim 1, claimAt (Obj.fixed a).claim 0]
  | .contract, a, b => [claimAt (Obj.fixed a).claim 0, claimAt b.claim 1]
  | .solve, a, b => [claimAt (Obj.fixed a).claim 1, claimAt b.claim 1]
  | .reduce along, a, _ => reduceDesc along 0 a.desc
  | .diagonal, a, _ =>
    smaller (claimAt (Obj.fixed a).claim 0) (claimAt (Obj.fixed a).claim 1) ::
      (Obj.fixed a).claim.drop 2 ++ [some 1, some 1]

/-- An operation, given what the underlying library returns for the nested object. -/
def apply (op : Op) (a b : Obj) (r : Nested) : Option Obj :=
  match a with
  | .plain _ => some (.plain r)
  | .fixed a => make (resultDesc op a b) (.plain r)

/-- A product in place, `on_the_right` or not — interfaces/FixedSizeAdapter.hpp:758-781: the adapter itself, if
the library returned a reference to the nested object. -/
def contractInPlace (onRight byReference : Bool) (a : Adapter) (b : Obj) (r : Nested) : Option Obj :=
  if byReference then some (.fixed ⟨a.desc, r⟩)
  else if onRight then make [claimAt (Obj.fixed a).claim 0, claimAt b.claim 1] (.plain r)
  else make [claimAt b.claim 0, claimAt (Obj.fixed a).claim 1] (.plain r)

/-- `*` of a pattern and a factor, both of which may be known or not. -/
def timesClaim : Option Nat → Option Nat → Option Nat
  | some a, some b => some (a * b)
  | _, _ => none

/-- `broadcast_for_index` for indices `0 … len - 1` — interfaces/FixedSizeAdapter.hpp:424-440: the pattern is
taken from the result `r`, and an index without a factor becomes an axis. -/
def broadcastDesc (r : Claim) (factors : List (Option Nat)) (len : Nat) : Claim :=
  (List.range len).map fun i =>
    match factors[i]? with
    | some f => timesClaim (claimAt r i) f
    | none => some 1

/-- `broadcast` — interfaces/FixedSizeAdapter.hpp:453-459. -/
def broadcast (a : Adapter) (factors : List (Option Nat)) (r : Nested) : Option Obj :=
  make (broadcastDesc r.claim factors (max (Obj.fixed a).claim.length factors.length)) (.plain r)

/-- Expressions. -/
inductive Expr where
  | leaf (o : Obj)
  | op (f : Op) (a b : Expr)

/-- The value of an expression; `lib` says what the types of the library's results claim. -/
def eval (lib : Op → Nested → Obj → Claim) : Expr → Option Obj
  | .leaf o => some o
  | .op f a b =>
    match eval lib a, eval lib b with
    | some a, some b => apply f a b ⟨lib f a.core b, resultSizes f a.dims b.dims⟩
    | _, _ => none

end OpenKalman.FixedSize
