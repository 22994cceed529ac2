import Mathlib.Analysis.RCLike.Basic
import Verif.Spec.Adapters
import Verif.Model.LinAlg
import Verif.Model.PatternDims

/-!
# Model of the adapters on tensors of any rank and of what their traits report
(`OpenKalman/linear-algebra/adapters`, `object_traits` and the concepts that read them)

An object is what `object_traits` says about it together with its elements.  Concepts and traits are functions of it, so a tower of adapters is a
composition of functions.  Elements are real or complex numbers; rounding is not modelled.  Patterns are dimensions.  That the mdspans of the adapters
have the elements given here is C21–C26.  A member template that is not defined is `none`.
-/

namespace OpenKalman.Adapters

open Shape (Extent Size sizeComparesWith dimAt statics indexCount)
open PatternDims (CollType Coll compareWithDimensionConcept haveSameDimensionConcept commonDimension)
open LinAlg (Tri Err)
open scoped Classical

/-- An object as its traits describe it, with its elements. -/
structure Obj (𝕜 : Type) where
  /-- the dimensions in `get_pattern_collection`, fixed or not -/
  exts : List Extent
  /-- `index_count`: the number of indices of the mdspan without trailing extents 1 (traits/count_indices.hpp:26-35) -/
  count : ℕ
  /-- the elements of `get_mdspan` -/
  get : (ℕ → ℕ) → 𝕜
  /-- `element_type` is complex -/
  cplx : Bool
  /-- the value, if `element_type` is a fixed value -/
  elemFixed : Option 𝕜
  /-- `get_constant`, if defined, and whether its type fixes the value -/
  cst : Option (𝕜 × Bool)
  /-- `triangle_type_value` -/
  tri : Option Tri
  /-- `is_square<N, b>`; the Boolean is `true` for `guaranteed` -/
  sq : Option (ℕ → Bool → Bool)
  /-- `is_hermitian` -/
  herm : Bool

namespace Obj
variable {𝕜 : Type} [RCLike 𝕜] (o : Obj 𝕜)

/-- The tensor that an object stands for. -/
def tensor : Tensor 𝕜 := ⟨fun k => (dimAt o.exts k).value, o.get⟩

/-- index_dimension_of.hpp:38-45 with get_index_pattern.hpp:41-46. -/
def sdim (i : ℕ) : Option ℕ := (dimAt o.exts i).fixed

/-- concepts/dimension_size_of_index_is.hpp:31-38 with `is_eq`. -/
def dimIs (i v : ℕ) (g : Bool) : Bool := sizeComparesWith POrd.isEq g (Size.ofOption (o.sdim i)) (.fixed v)

/-- The type of the pattern collection. -/
def collType : CollType := ⟨.fixed o.exts.length, o.sdim, none⟩

/-- concepts/zero.hpp:54-60 with `epsilon_factor` 0. -/
def zero : Prop := o.cst = some (0, true) ∨ o.elemFixed = some 0

/-- concepts/square_shaped.hpp:62-68. -/
def squareShaped (N : ℕ) (g : Bool) : Prop :=
  0 < N ∧ ((N = 1 ∧ o.dimIs 0 1 g = true) ∨ (∃ f, o.sq = some f ∧ f N g = true) ∨
    (N ≠ 1 ∧ o.sq = none ∧ haveSameDimensionConcept (some N) g o.collType = true))

/-- concepts/one_dimensional.hpp:72-80 (guaranteed). -/
def oneDim : Prop :=
  compareWithDimensionConcept POrd.isEq none true o.collType 1 = true ∨
    (o.squareShaped o.exts.length true ∧ (o.exts.length = 1 ∨ ∃ i < o.exts.length, o.dimIs i 1 true = true))

/-- concepts/vector.hpp:26-42 (guaranteed). -/
def vector (N : ℕ) : Prop := ∀ i < o.count, N = i ∨ o.dimIs i 1 true = true

/-- traits/triangle_type_of.hpp:27-53. -/
def triImpl : Tri := o.tri.getD .none

/-- traits/triangle_type_of.hpp:64-70. -/
noncomputable def triOf : Tri :=
  if o.zero ∨ o.oneDim ∨ o.triImpl = .diagonal then .diagonal
  else if o.vector 0 then .lower
  else if o.vector 1 then .upper
  else o.triImpl

/-- concepts/triangular_matrix.hpp:30-39. -/
def triangular (t : Tri) : Prop := t = o.triOf ∨ ((t = .upper ∨ t = .lower) ∧ o.triOf = .diagonal)

/-- concepts/diagonal_matrix.hpp:28-34. -/
def diagonal : Prop := o.triangular .diagonal

/-- concepts/constant_object.hpp:44-55. -/
def constObj : Prop :=
  (o.cst ≠ none ∧ (o.triOf = .none ∨ (o.triOf = .lower ∧ o.vector 0) ∨ (o.triOf = .upper ∧ o.vector 1))) ∨
    o.elemFixed ≠ none ∨ o.zero ∨ o.oneDim

/-- concepts/constant_diagonal_object.hpp:34-42. -/
def constDiag : Prop := (o.cst ≠ none ∧ o.diagonal) ∨ o.zero ∨ o.oneDim

/-- traits/constant_value.hpp:36-45. -/
def constVal : 𝕜 :=
  match o.cst, o.elemFixed with
  | some (c, _), _ => c
  | none, some c => c
  | none, none => o.get fun _ => 0

/-- The type of `constant_value` fixes the value (traits/constant_value_of.hpp:37-44). -/
def valFixed : Bool :=
  match o.cst, o.elemFixed with
  | some (_, b), _ => b
  | none, some _ => true
  | none, none => false

/-- concepts/identity_matrix.hpp:46-50. -/
def identity : Prop := o.constDiag ∧ o.valFixed = true ∧ o.constVal = 1

/-- concepts/hermitian_matrix.hpp:51-57. -/
def hermitian : Prop := o.squareShaped 2 true ∧ (o.herm = true ∨ ((o.constObj ∨ o.diagonal) ∧ o.cplx = false))

/-- `values::not_complex<constant_value_of<T>>` of an object with a constant value. -/
def constNotComplex : Prop := (o.constObj ∨ o.constDiag) ∧ o.valFixed = true ∧ star o.constVal = o.constVal

/-! ## Objects without adapters -/

/-- An mdspan or array without traits of its own (interfaces/stl/mdspan-object.hpp:29-40, array-object.hpp:28-69). -/
def raw (exts : List Extent) (get : (ℕ → ℕ) → 𝕜) (cplx : Bool) : Obj 𝕜 :=
  ⟨exts, indexCount (statics exts), get, cplx, none, none, none, none, false⟩

/-- `make_constant(c, p)`, functions/make_constant.hpp:33-49, 83-103; `fixed`: the type of `c` fixes its value. -/
def const (c : 𝕜) (fixed : Bool) (exts : List Extent) (cplx : Bool) : Obj 𝕜 :=
  ⟨exts, indexCount (statics exts), fun _ => c, cplx, if fixed then some c else none, some (c, fixed), none, none, false⟩

/-! ## Adapters -/

/-- `conjugate_adapter`, adapters/conjugate_adapter.hpp:78-147.  `get_constant` is that of the nested object. -/
noncomputable def conj : Obj 𝕜 :=
  { o with
    get := fun ix => star (o.get ix)
    elemFixed := o.elemFixed.map star
    tri := some o.triOf
    sq := some fun N g => decide (o.squareShaped N g)
    herm := decide o.hermitian }

/-- adapters/transpose_adapter.hpp:93-97. -/
def flip : Tri → Tri
  | .lower => .upper
  | .upper => .lower
  | t => t

/-- `patterns::views::transpose<a, b>` on dimensions (patterns/views/transpose.hpp; see C15): unchanged if the two are known to be equal. -/
def transposeExts (a b : ℕ) (e : List Extent) : List Extent :=
  if (dimAt e a).fixed ≠ none ∧ (dimAt e a).fixed = (dimAt e b).fixed then e
  else (List.range (max e.length (b + 1))).map fun k => dimAt e (Equiv.swap a b k)

/-- `transpose_adapter<a, b>`, adapters/transpose_adapter.hpp:88-166. -/
noncomputable def transpose (a b : ℕ) : Obj 𝕜 :=
  { o with
    exts := transposeExts a b o.exts
    count := indexCount (statics (transposeExts a b o.exts))
    get := fun ix => o.get (Tensor.swapIx a b ix)
    tri := some (flip o.triOf)
    sq := some fun N g => decide (o.squareShaped N g)
    herm := decide o.hermitian }

/-- `triangular_adapter<t>`, adapters/triangular_adapter.hpp:65-131; `element_type` of triangular_accessor.hpp:36. -/
noncomputable def triangularAdapter (t : Tri) : Obj 𝕜 :=
  { o with
    get := fun ix => if t.mem (ix 0) (ix 1) then o.get ix else 0
    elemFixed := none
    tri := some (t.times o.triOf)
    sq := some fun N g => decide (o.squareShaped N g)
    herm := false }

/-- The elements that `hermitian_accessor` and `layout_triangle_partition` give (hermitian_accessor.hpp:76-86). -/
noncomputable def hermGet (t : Tri) (get : (ℕ → ℕ) → 𝕜) (ix : ℕ → ℕ) : 𝕜 :=
  if ix 0 = ix 1 then ((RCLike.re (get ix) : ℝ) : 𝕜)
  else if t.mem (ix 0) (ix 1) then get ix
  else star (get (Tensor.swapIx 0 1 ix))

/-- `hermitian_adapter<t>` once constructed, adapters/hermitian_adapter.hpp:105-189. -/
noncomputable def hermitianAdapter (t : Tri) : Obj 𝕜 :=
  { o with
    get := hermGet t o.get
    elemFixed := none
    cst := if o.constNotComplex then some (o.constVal, o.valFixed) else none
    tri := some (if o.triOf.times t = .diagonal then .diagonal else .none)
    sq := some fun N g => decide (N ≤ 2) || decide (o.squareShaped N g)
    herm := true }

/-- `to_diagonal_adapter` with pattern `p`, adapters/to_diagonal_adapter.hpp:122-179. -/
noncomputable def toDiagonalAdapter (p : List Extent) : Obj 𝕜 :=
  { exts := p
    count := indexCount (statics p)
    get := fun ix => if ix 0 = ix 1 then o.get (fun k => if k = 0 then ix 0 else ix (k + 1)) else 0
    cplx := o.cplx
    elemFixed := none
    cst := if o.constObj then some (o.constVal, o.valFixed) else none
    tri := some .diagonal
    sq := none
    herm := false }

/-- The smaller of the first two dimensions, patterns/views/diagonal_of.hpp:73-102: fixed if the comparison is known at compile time. -/
def smallerExt (a b : Extent) : Extent :=
  if sizeComparesWith POrd.isLteq true (Size.ofOption a.fixed) (Size.ofOption b.fixed) then a
  else if sizeComparesWith POrd.isGt true (Size.ofOption a.fixed) (Size.ofOption b.fixed) then b
  else ⟨none, min a.value b.value⟩

/-- `patterns::views::diagonal_of` on dimensions, patterns/views/diagonal_of.hpp:57-102. -/
def diagonalExts : List Extent → List Extent
  | [] => []
  | [a] => [smallerExt a ⟨some 1, 1⟩]
  | a :: b :: rest => smallerExt a b :: rest

/-- `diagonal_of_adapter`, adapters/diagonal_of_adapter.hpp:88-138.  `get_constant` is enabled if the nested object has one, but calls
`constant_value`, which is only for constant and constant-diagonal objects; otherwise asking for it is ill-formed, and every concept asks. -/
noncomputable def diagonalOfAdapter : Option (Obj 𝕜) :=
  if o.cst ≠ none ∧ ¬ (o.constObj ∨ o.constDiag) then none
  else some
    { exts := diagonalExts o.exts
      count := indexCount (statics (diagonalExts o.exts))
      get := fun ix => o.get (fun k => if k = 0 then ix 0 else ix (k - 1))
      cplx := o.cplx
      elemFixed := o.elemFixed
      cst := if o.cst ≠ none then some (o.constVal, o.valFixed) else none
      tri := none
      sq := none
      herm := false }

/-- `pattern_adapter` with pattern `p`, adapters/pattern_adapter.hpp:139-186. -/
noncomputable def patternAdapter (p : List Extent) : Obj 𝕜 :=
  { o with
    exts := p
    tri := some o.triOf
    sq := some fun N g => decide (o.squareShaped N g)
    herm := decide o.hermitian }

/-! ## Constructors that check -/

/-- The pattern collection. -/
def coll : Coll := ⟨o.collType, ⟨some o.exts.length, fun i => (dimAt o.exts i).value⟩⟩

/-- The outcome of a construction. -/
inductive Built (α : Type) | ok (a : α) | illFormed | throws | aborts

/-- `hermitian_adapter<t>` from an object: constraints 41-46, constructor 73-85 of adapters/hermitian_adapter.hpp. -/
noncomputable def makeHermitian (t : Tri) : Built (Obj 𝕜) :=
  if o.squareShaped 2 false ∧ (t = .lower ∨ t = .upper) ∧
      (¬ (o.constObj ∨ o.constDiag) ∨ o.valFixed = false ∨ star o.constVal = o.constVal) then
    if ¬ o.squareShaped 2 true ∧ commonDimension (some 2) o.coll = none then .throws else .ok (o.hermitianAdapter t)
  else .illFormed

/-- `to_hermitian<t>`, functions/to_hermitian.hpp:55-69 (no specialisation). -/
noncomputable def toHermitian (t : Tri) : Built (Obj 𝕜) :=
  if o.squareShaped 2 false ∧ (t = .lower ∨ t = .upper) ∧
      (¬ (o.constObj ∨ o.constDiag) ∨ o.valFixed = false ∨ star o.constVal = o.constVal) then
    if o.hermitian then .ok o else o.makeHermitian t
  else .illFormed

/-- concepts/pattern_collection_for.hpp:50-56: the dimensions of two collections are (or may be) equal index by index, padded with 1. -/
def extsCompare (g : Bool) (p e : List Extent) : Bool :=
  (List.range (max p.length e.length)).all fun k =>
    sizeComparesWith POrd.isEq g (Size.ofOption (dimAt p k).fixed) (Size.ofOption (dimAt e k).fixed)

/-- patterns/compare_pattern_collections at run time, on dimensions. -/
def extsEqual (p e : List Extent) : Bool := (List.range (max p.length e.length)).all fun k => (dimAt p k).value == (dimAt e k).value

/-- The constructor of `pattern_adapter`, adapters/pattern_adapter.hpp:31-70; `debug`: assertions are on. -/
noncomputable def makePattern (debug : Bool) (p : List Extent) : Built (Obj 𝕜) :=
  if extsCompare false p o.exts then
    if !extsCompare true p o.exts && debug && !(!extsEqual p o.exts) then .aborts else .ok (o.patternAdapter p)
  else .illFormed

/-- The constructor of `to_diagonal_adapter`, adapters/to_diagonal_adapter.hpp:31-78.  The assertion compares the diagonal of the pattern with the
pattern itself. -/
noncomputable def makeToDiagonal (debug : Bool) (p : List Extent) : Built (Obj 𝕜) :=
  if extsCompare false (diagonalExts p) o.exts then
    if !extsCompare true (diagonalExts p) o.exts && debug && !extsEqual (diagonalExts p) p then .aborts else .ok (o.toDiagonalAdapter p)
  else .illFormed

end Obj
end OpenKalman.Adapters
