import Verif.Spec.Layout

/-!
# Model of the `mdspan` layouts and accessors in `OpenKalman/linear-algebra/interfaces/stl`

Index arithmetic is on `Nat`: wrap-around of `index_type` is not modelled for layouts.  It is modelled for `size_t` in the accessors'
`offset`, where the code subtracts below zero.
-/

namespace OpenKalman.Layout

/-- A layout mapping: extents, index → offset, `required_span_size()`, `stride(r)` (`none`: precondition `r < rank` violated). -/
structure Mapping where
  extents : List Nat
  map : List Nat → Nat
  span : Nat
  stride : Nat → Option Nat

/-! ## Standard mappings, used as nested mappings (std::layout_right, std::layout_left) -/

/-- Offset under `std::layout_right` ([mdspan.layout.right]). -/
def rightMap : List Nat → List Nat → Nat
  | _ :: es, i :: is => i * es.prod + rightMap es is
  | _, _ => 0

/-- Offset under `std::layout_left` ([mdspan.layout.left]). -/
def leftMap : List Nat → List Nat → Nat
  | e :: es, i :: is => i + e * leftMap es is
  | _, _ => 0

/-- `std::layout_right::mapping`. -/
def layoutRight (ext : List Nat) : Mapping where
  extents := ext
  map := rightMap ext
  span := ext.prod
  stride r := if r < ext.length then some ((ext.drop (r + 1)).prod) else none

/-- `std::layout_left::mapping`. -/
def layoutLeft (ext : List Nat) : Mapping where
  extents := ext
  map := leftMap ext
  span := ext.prod
  stride r := if r < ext.length then some ((ext.take r).prod) else none

/-- layout_constant.hpp:39-63,73-74: every index goes to offset 0; span 1 unless some extent is 0. -/
def layoutConstant (ext : List Nat) : Mapping where
  extents := ext
  map _ := 0
  span := if 0 ∈ ext then 0 else 1
  stride _ := some 0

/-! ## Packed triangle -/

/-- packed_triangle_mdspan_policies.hpp:46-50 `large`. -/
def large : Triangle → Order → Bool
  | .lower, .columnMajor => true
  | .upper, .rowMajor => true
  | _, _ => false

/-- packed_triangle_mdspan_policies.hpp:119-125, the body after the swap test. -/
def packedBody (lg : Bool) (e0 e1 i0 i1 : Nat) : Nat :=
  if lg then i1 + e1 * i0 - i0 * (i0 + 1) / 2
  else if e0 < i1 then (3 + i0) * i0 / 2 + e0 * (i1 - e0) + i0
  else i0 + i1 * (i1 + 1) / 2

/-- packed_triangle_mdspan_policies.hpp:117-126 `operator()(i0, i1, is...)`; the trailing indices are ignored. -/
def packedMap (lg : Bool) (e0 e1 : Nat) : List Nat → Nat
  | i0 :: i1 :: _ => if i1 < i0 then packedBody lg e0 e1 i1 i0 else packedBody lg e0 e1 i0 i1
  | _ => 0

/-- packed_triangle_mdspan_policies.hpp:52-64,128-134 `required_span_size` for rank ≥ 2. -/
def packedSpan (lg : Bool) (e0 e1 : Nat) : Nat :=
  let mn := min e0 e1
  let mx := max e0 e1
  if lg then mn * (mn + 1) / 2 + mn * (mx - mn) else mn * (mn + 1) / 2

/-! ## Triangle partition -/

/-- layout_triangle_partition.hpp:69-130 `operator()`. -/
def partitionMap (t : Tri) (m : Mapping) : List Nat → Nat
  | [] => m.map []
  | [i0] =>
    if i0 = 0 then m.map [i0]
    else match t with
      | .lower => m.map [i0] + m.span
      | _ => m.map [i0] + 2 * m.span
  | i0 :: i1 :: is =>
    if i0 = i1 then m.map (i0 :: i0 :: is)
    else match t with
      | .lower => if i1 < i0 then m.map (i0 :: i1 :: is) + m.span else m.map (i1 :: i0 :: is) + 2 * m.span
      | .upper => if i0 < i1 then m.map (i0 :: i1 :: is) + m.span else m.map (i1 :: i0 :: is) + 2 * m.span
      | .diagonal => m.map (i0 :: i1 :: is) + 2 * m.span

/-- layout_triangle_partition.hpp:63-64 `extents`, 133-137 `required_span_size`, 184-188 `stride`. -/
def partition (t : Tri) (m : Mapping) : Mapping where
  extents := m.extents
  map := partitionMap t m
  span := 3 * m.span
  stride := m.stride

/-! ## Diagonal layouts -/

/-- layout_to_diagonal.hpp:46-54 / layout_diagonal_of.hpp:45-53 `access_with_padded_indices`: append zeros up to the nested rank.
(More indices than the nested rank is ill-formed in C++ and not reached by the model.) -/
def padded (m : Mapping) (is : List Nat) : Nat := m.map (is ++ List.replicate (m.extents.length - is.length) 0)

/-- layout_to_diagonal.hpp:65-110 `operator()`. -/
def toDiagonalMap (m : Mapping) : List Nat → Nat
  | [] => padded m []
  | [i0] => if i0 = 0 then padded m [] else m.span
  | i0 :: i1 :: is => if i0 = i1 then padded m (i1 :: is) else m.span

/-- layout_to_diagonal.hpp:56-63 constructor and `extents`, 112-117 `required_span_size`, 150-155 `stride` (asserts false). -/
def toDiagonal (m : Mapping) (e : List Nat) : Mapping where
  extents := e
  map := toDiagonalMap m
  span := if m.span ≤ 1 then m.span else m.span + 1
  stride _ := none

/-- layout_to_diagonal.hpp:134-142 `is_unique`, given the nested mapping's answer. -/
def toDiagonalIsUnique (nestedUnique : Bool) : List Nat → Bool
  | [] => nestedUnique
  | [e0] => nestedUnique && e0 ≤ 2
  | e0 :: e1 :: _ => nestedUnique && e0 ≤ 2 && e1 ≤ 2 && (e0 ≤ 1 || e1 ≤ 1)

/-- layout_diagonal_of.hpp:64-91 `operator()`. -/
def diagonalOfMap (m : Mapping) : List Nat → Nat
  | [] => padded m []
  | i0 :: is => padded m (i0 :: i0 :: is)

/-- layout_diagonal_of.hpp:57-62 constructor and `extents`, 93-94 `required_span_size`, 125-130 `stride`. -/
def diagonalOf (m : Mapping) (e : List Nat) : Mapping where
  extents := e
  map := diagonalOfMap m
  span := m.span
  stride r := if r = 0 then (m.stride 0).bind fun s0 => (m.stride 1).map (s0 + ·) else m.stride (r - 1)

/-! ## Transposed layout -/

/-- transpose_mdspan_policies.hpp:42-58 `access_with_indices_adjusted`: the argument tuple is padded with zeros up to the nested rank
`k`; nested index `i` is then picked out of the `N` arguments. -/
def adjust (k a b : Nat) (ix : List Nat) : List Nat :=
  let ix := ix ++ List.replicate (k - ix.length) 0
  let N := ix.length
  (List.range k).map fun i => ix.getD (if i = a ∧ b < N then b else if i = b ∧ a < N then a else i) 0

/-- transpose_mdspan_policies.hpp:62-86 `operator()`, `required_span_size`, 109-115 `stride`. -/
def transposed (m : Mapping) (a b : Nat) (e : List Nat) : Mapping where
  extents := e
  map ix := m.map (adjust m.extents.length a b ix)
  span := m.span
  stride r := m.stride (if r = a then b else if r = b then a else r)

/-! ## Accessors -/

/-- Data handle of the three accessors: the nested accessor bound to its handle (`none`: outside the accessible range) and the
partition offset (triangular_accessor.hpp:37-38). -/
structure Handle (α : Type) where
  nested : Nat → Option α
  P : Nat

/-- triangular_accessor.hpp:78-86 `access`. -/
def triangularAccess {α : Type} [Zero α] (p : Handle α) (i : Nat) : Option α :=
  if i < p.P then p.nested i
  else if i - p.P < p.P then p.nested (i - p.P)
  else some 0

/-- hermitian_accessor.hpp:78-89 `access`; `re` is `values::real`, `cj` is `values::conj` (the identity in the branch for a
non-complex reference type). -/
def hermitianAccess {α : Type} (re cj : α → α) (p : Handle α) (i : Nat) : Option α :=
  if i < p.P then (p.nested i).map re
  else if i - p.P < p.P then p.nested (i - p.P)
  else (p.nested (i - p.P - p.P)).map cj

/-- to_diagonal_accessor.hpp:79-85 `access`. -/
def toDiagonalAccess {α : Type} [Zero α] (p : Handle α) (i : Nat) : Option α :=
  if i < p.P then p.nested i else some 0

/-- triangular_accessor.hpp:88-94, hermitian_accessor.hpp:91-97, to_diagonal_accessor.hpp:87-93 `offset`; the subtraction is on a
64-bit `size_t`. -/
def Handle.offset {α : Type} (p : Handle α) (i : Nat) : Handle α :=
  if i = 0 then p else ⟨p.nested, (p.P + 2 ^ 64 - i) % 2 ^ 64⟩

/-- constant_accessor.hpp:48-52 `access` and `offset`: the handle is the constant itself. -/
def constantAccess {α : Type} (p : α) (_ : Nat) : α := p
/-- constant_accessor.hpp:51-52 `offset`. -/
def constantOffset {α : Type} (p : α) (_ : Nat) : α := p

/-! ## Adapters: layout and accessor put together -/

/-- triangular_adapter.hpp:89-110 `get_mdspan`, then reading one element. -/
def triangularRead {α : Type} [Zero α] (t : Tri) (m : Mapping) (nested : Nat → Option α) (idx : List Nat) : Option α :=
  triangularAccess ⟨nested, m.span⟩ ((partition t m).map idx)

/-- hermitian_adapter.hpp:136-157 `get_mdspan`, then reading one element. -/
def hermitianRead {α : Type} (re cj : α → α) (t : Tri) (m : Mapping) (nested : Nat → Option α) (idx : List Nat) : Option α :=
  hermitianAccess re cj ⟨nested, m.span⟩ ((partition t m).map idx)

/-- to_diagonal_adapter.hpp:128-150 `get_mdspan`, then reading one element. -/
def toDiagonalRead {α : Type} [Zero α] (m : Mapping) (e : List Nat) (nested : Nat → Option α) (idx : List Nat) : Option α :=
  toDiagonalAccess ⟨nested, m.span⟩ ((toDiagonal m e).map idx)

/-- diagonal_of_adapter.hpp:93-110 `get_mdspan`, then reading one element of an object whose mapping is `m` and whose accessor is
`acc`. -/
def diagonalOfRead {α : Type} (m : Mapping) (e : List Nat) (acc : Nat → Option α) (idx : List Nat) : Option α :=
  acc ((diagonalOf m e).map idx)

end OpenKalman.Layout
