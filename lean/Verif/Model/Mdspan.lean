import Verif.Spec.Mdspan

/-!
# Model of the bundled reference implementation of `mdspan`

The files are in
`OpenKalman/basics/compatibility/std-lib-reference/mdspan-reference-implementation/include/experimental`
and are used if the standard library does not have `mdspan`
(`OpenKalman/basics/compatibility/mdspan.hpp`, lines 25-41).

Simplifications:
* The type of indices is unsigned and its arithmetic is modulo `M` (for example `2 ^ 64` for
  `std::size_t`, which is what OpenKalman uses). Signed types are not modelled.
* Static extents are natural numbers or open; that one of them is the tag `dynamic_extent` itself is
  expressed by `none`.
* Packs of function arguments are lists. That the number of indices is the rank is checked when the
  code is compiled; here it is part of `InBounds`.
-/

namespace OpenKalman.Mdspan

/-! ## Extents (`__p0009_bits/extents.hpp`) -/

/-- `static_array_impl::get` (`extents.hpp`, lines 69-107): the static extent of a rank. Beyond the
last rank the recursion ends at the last static extent; without any, it is zero. -/
def staticGet : List (Option ℕ) → ℕ → Option ℕ
  | [], _ => some 0
  | [x], _ => x
  | x :: _ :: _, 0 => x
  | _ :: y :: l, r + 1 => staticGet (y :: l) r

/-- `index_sequence_scan_impl::get` (`extents.hpp`, lines 131-159): the sum of the values before
rank `r`, of which the list begins at rank `R`. -/
def scan : ℕ → List ℕ → ℕ → ℕ
  | _, [], _ => 0
  | R, [v], r => if r < R then v else 0
  | R, v :: w :: l, r => if R < r then v + scan (R + 1) (w :: l) r else 0

/-- `extents`, which stores a `maybe_static_array` (`extents.hpp`, lines 193-211 and 372-389): the
static extents, which are part of the type, and the values of the open ones. -/
structure Ext where
  statics : List (Option ℕ)
  dyn : List ℕ

/-- `static_cast<size_t>(Values == dyn_tag)...` (`extents.hpp`, line 211). -/
def openFlags (statics : List (Option ℕ)) : List ℕ := statics.map fun s => if s.isNone then 1 else 0

/-- `m_size_dynamic` (`extents.hpp`, lines 203-204). -/
def openCount (statics : List (Option ℕ)) : ℕ := (openFlags statics).sum

/-- `dyn_map_t::get` (`extents.hpp`, line 211). -/
def openPlace (statics : List (Option ℕ)) (r : ℕ) : ℕ := scan 0 (openFlags statics) r

/-- `maybe_static_array::value` (`extents.hpp`, lines 340-345), called by `extents::extent` (line
399). -/
def Ext.extent (e : Ext) (r : ℕ) : ℕ :=
  match staticGet e.statics r with
  | none => e.dyn.getD (openPlace e.statics r) 0
  | some v => v

/-- `extents::rank` (`extents.hpp`, line 394). -/
def Ext.rank (e : Ext) : ℕ := e.statics.length

/-- All extents in order. -/
def Ext.shape (e : Ext) : List ℕ := (List.range e.rank).map e.extent

/-- The loop of the constructors from all values (`extents.hpp`, lines 263-284 and 286-308): values of
ranks with static extents are dropped. -/
def fillAll (M : ℕ) (statics : List (Option ℕ)) (vals : List ℕ) : List ℕ :=
  (List.range statics.length).foldl
    (fun dyn r =>
      if (staticGet statics r).isNone then dyn.set (openPlace statics r) (vals.getD r 0 % M)
      else dyn)
    (List.replicate (openCount statics) 0)

/-- The constructors of `extents` from integers (`extents.hpp`, lines 409-448), which select a
constructor of `maybe_static_array` by the number of values (lines 222-308). `none`: there is no such
constructor. -/
def construct (M : ℕ) (statics : List (Option ℕ)) (vals : List ℕ) : Option Ext :=
  if vals.length = statics.length ∨ vals.length = openCount statics then
    if openCount statics = 0 then some ⟨statics, []⟩
    else if vals.length = openCount statics then some ⟨statics, vals.map (· % M)⟩
    else some ⟨statics, fillAll M statics vals⟩
  else none

/-- `__construct_vals_from_extents` (`extents.hpp`, lines 450-492): the values of the open extents are
collected from the other extents. -/
def collectOpen (M : ℕ) (other : Ext) : ℕ → List (Option ℕ) → List ℕ
  | _, [] => []
  | r, none :: l => other.extent r % M :: collectOpen M other (r + 1) l
  | r, some _ :: l => collectOpen M other (r + 1) l

/-- `__compare_extent_compatible` and `__check_compatible_extents` (`extents.hpp`, lines 31-58). -/
def compatible (a b : List (Option ℕ)) : Bool :=
  a.length == b.length && (List.zipWith (fun x y => x.isNone || y.isNone || x == y) a b).all id

/-- The converting constructor of `extents` (`extents.hpp`, lines 496-517). -/
def convert (M : ℕ) (statics : List (Option ℕ)) (other : Ext) : Option Ext :=
  if compatible statics other.statics then some ⟨statics, collectOpen M other 0 statics⟩ else none

/-- `operator==` of extents (`extents.hpp`, lines 519-528): the loop goes over the rank of the
left-hand side. -/
def Ext.equal (lhs rhs : Ext) : Bool :=
  (List.range lhs.rank).foldl (fun value r => value && (rhs.extent r == lhs.extent r)) true

/-! ## Layouts -/

/-- `layout_left::mapping::__compute_offset` (`__p0009_bits/layout_left.hpp`, lines 46-62). -/
def leftOffset (M : ℕ) : List ℕ → List ℕ → ℕ
  | [_], [i] => i
  | e :: es, i :: is => (leftOffset M es is * e + i) % M
  | _, _ => 0

/-- `layout_right::mapping::__compute_offset` with an offset (`__p0009_bits/layout_right.hpp`, lines
47-52 and 61-64). -/
def rightOffsetFrom (M : ℕ) : ℕ → List ℕ → List ℕ → ℕ
  | off, e :: es, i :: is => rightOffsetFrom M ((off * e + i) % M) es is
  | off, _, _ => off % M

/-- `layout_right::mapping::__compute_offset` (`__p0009_bits/layout_right.hpp`, lines 54-67). -/
def rightOffset (M : ℕ) : List ℕ → List ℕ → ℕ
  | _ :: es, i :: is => rightOffsetFrom M i es is
  | _, _ => 0

/-- `required_span_size` of `layout_left` (`__p0009_bits/layout_left.hpp`, lines 145-150) and
`layout_right` (`__p0009_bits/layout_right.hpp`, lines 150-155). -/
def productLoop (M : ℕ) (shape : List ℕ) : ℕ := shape.foldl (fun v e => v * e % M) (1 % M)

/-- `layout_left::mapping::stride` (`__p0009_bits/layout_left.hpp`, lines 179-188). -/
def leftStride (M : ℕ) (shape : List ℕ) (r : ℕ) : ℕ := productLoop M (shape.take r)

/-- `layout_right::mapping::stride` (`__p0009_bits/layout_right.hpp`, lines 181-190): the loop goes
downwards from the last rank. -/
def rightStride (M : ℕ) (shape : List ℕ) (r : ℕ) : ℕ := productLoop M (shape.drop (r + 1)).reverse

/-- `layout_stride::mapping::_call_op_impl` (`__p0009_bits/layout_stride.hpp`, lines 154-158). -/
def strideOffset (M : ℕ) (strides idx : List ℕ) : ℕ :=
  (List.zipWith (fun i s => i * s % M) idx strides).foldr (fun a b => (a + b) % M) 0

/-- `layout_stride::mapping::required_span_size` (`__p0009_bits/layout_stride.hpp`, lines 363-372). -/
def strideSpanFrom (M : ℕ) : ℕ → List ℕ → List ℕ → ℕ
  | acc, e :: es, s :: ss =>
    if e = 0 then 0 else strideSpanFrom M ((acc + (e - 1) * s) % M) es ss
  | acc, _, _ => acc

/-- A mapping of one of the three layouts. -/
inductive Mapping
  | left (exts : Ext)
  | right (exts : Ext)
  | stride (exts : Ext) (strides : List ℕ)

/-- `extents()` of a mapping. -/
def Mapping.exts : Mapping → Ext
  | .left e => e
  | .right e => e
  | .stride e _ => e

/-- `operator()` of a mapping, which first casts the indices (`__p0009_bits/layout_left.hpp`, lines
165-167; `__p0009_bits/layout_right.hpp`, lines 170-172; `__p0009_bits/layout_stride.hpp`, lines
384-386). -/
def Mapping.offset (M : ℕ) (m : Mapping) (idx : List ℕ) : ℕ :=
  match m with
  | .left e => leftOffset M e.shape (idx.map (· % M))
  | .right e => rightOffset M e.shape (idx.map (· % M))
  | .stride _ s => strideOffset M s (idx.map (· % M))

/-- `required_span_size()` of a mapping. -/
def Mapping.span (M : ℕ) : Mapping → ℕ
  | .left e => productLoop M e.shape
  | .right e => productLoop M e.shape
  | .stride e s => strideSpanFrom M (1 % M) e.shape s

/-- `stride()` of a mapping. -/
def Mapping.strideOf (M : ℕ) : Mapping → ℕ → ℕ
  | .left e, r => leftStride M e.shape r
  | .right e, r => rightStride M e.shape r
  | .stride _ s, r => s.getD r 0

/-- `is_unique()` (`__p0009_bits/layout_left.hpp`, line 175; `__p0009_bits/layout_right.hpp`, line 177;
`__p0009_bits/layout_stride.hpp`, line 394). -/
def Mapping.isUnique : Mapping → Bool := fun _ => true

/-- `is_exhaustive()` (`__p0009_bits/layout_left.hpp`, line 176; `__p0009_bits/layout_right.hpp`, line
178; `__p0009_bits/layout_stride.hpp`, lines 395-397 with `__get_size`, lines 121-125). -/
def Mapping.isExhaustive (M : ℕ) : Mapping → Bool
  | .left _ => true
  | .right _ => true
  | .stride e s =>
    strideSpanFrom M (1 % M) e.shape s == e.shape.foldr (fun a b => a * b % M) (1 % M)

/-- The constructor of a strided mapping from any other (`__p0009_bits/layout_stride.hpp`, lines
303-344, with `fill_strides`, lines 166-170). The extents have the same type here. -/
def Mapping.toStride (M : ℕ) (m : Mapping) : Mapping :=
  .stride m.exts ((List.range m.exts.rank).map fun r => m.strideOf M r % M)

/-- The check of the strides in the constructor of a left mapping from a strided one
(`__p0009_bits/layout_left.hpp`, lines 126-135). -/
def leftCheck (M : ℕ) : ℕ → List ℕ → List ℕ → Bool
  | st, e :: es, s :: ss => if st = s % M then leftCheck M (st * e % M) es ss else false
  | _, _, _ => true

/-- The constructor of a left mapping from a strided one (`__p0009_bits/layout_left.hpp`, lines
111-137). `none`: the exception leaves a function declared `noexcept`, and the program is terminated.
With `NDEBUG` there is no check. -/
def toLeft (M : ℕ) (ndebug : Bool) (e : Ext) (strides : List ℕ) : Option Mapping :=
  if ndebug || leftCheck M (1 % M) e.shape strides then some (.left e) else none

/-- The constructor of a right mapping from a strided one (`__p0009_bits/layout_right.hpp`, lines
116-141): the check goes from the last rank to the first. -/
def toRight (M : ℕ) (ndebug : Bool) (e : Ext) (strides : List ℕ) : Option Mapping :=
  if ndebug || leftCheck M (1 % M) e.shape.reverse strides.reverse then some (.right e) else none

/-- `operator==` of a strided mapping with any mapping of the same rank
(`__p0009_bits/layout_stride.hpp`, lines 428-436). -/
def Mapping.equalStrided (M : ℕ) (e : Ext) (s : List ℕ) (y : Mapping) : Bool :=
  e.equal y.exts && y.offset M (List.replicate e.rank 0) == 0 &&
    (List.range e.rank).foldl (fun b r => b && (s.getD r 0 == y.strideOf M r)) true

/-! ## Slices (`__p2630_bits`) -/

/-- An integer that is, or is not, an `integral_constant`. -/
structure Num where
  val : ℕ
  fixed : Bool

/-- A slice specifier. -/
inductive Slice
  /-- Convertible to `size_t`. -/
  | index (i : ℕ)
  /-- `full_extent_t`. -/
  | full
  /-- Convertible to `tuple<size_t, size_t>`. -/
  | range (first last : Num)
  /-- `strided_slice` (`__p2630_bits/strided_slice.hpp`, lines 31-44). -/
  | strided (offset extent stride : Num)

/-- `is_convertible_v<Slice, size_t>`. -/
def Slice.isIndex : Slice → Bool
  | .index _ => true
  | _ => false

/-- `inv_map_rank` (`__p2630_bits/submdspan_extents.hpp`, lines 26-43). -/
def invMapRank : ℕ → List Slice → List ℕ
  | _, [] => []
  | k, s :: l => if s.isIndex then invMapRank (k + 1) l else k :: invMapRank (k + 1) l

/-- `first_of` (`__p2630_bits/submdspan_extents.hpp`, lines 53-82). -/
def Slice.first : Slice → Num
  | .index i => ⟨i, false⟩
  | .full => ⟨0, true⟩
  | .range a _ => a
  | .strided o _ _ => o

/-- `last_of` (`__p2630_bits/submdspan_extents.hpp`, lines 88-160). -/
def Slice.last (e : Ext) (k : ℕ) : Slice → Num
  | .index i => ⟨i, false⟩
  | .full =>
    match staticGet e.statics k with
    | none => ⟨e.extent k, false⟩
    | some v => ⟨v, true⟩
  | .range _ b => b
  | .strided _ x _ => x

/-- `stride_of` (`__p2630_bits/submdspan_extents.hpp`, lines 163-174). -/
def Slice.stride : Slice → ℕ
  | .strided _ _ s => s.val
  | _ => 1

/-- `StaticExtentFromRange` (`__p2630_bits/submdspan_extents.hpp`, lines 207-215). The difference is
that of natural numbers: the slice must not end before it begins. -/
def staticFromRange (a b : Num) : Option ℕ :=
  if a.fixed && b.fixed then some (b.val - a.val) else none

/-- `StaticExtentFromStridedRange` (`__p2630_bits/submdspan_extents.hpp`, lines 219-227). -/
def staticFromStrided (x s : Num) : Option ℕ :=
  if x.fixed && s.fixed then some (if 0 < x.val then 1 + (x.val - 1) / s.val else 0) else none

/-- `next_extent` of `extents_constructor` for a strided slice (`__p2630_bits/submdspan_extents.hpp`,
lines 268-292): the value that is handed to the constructor of the extents. For a static extent it is
a quotient that need not be the extent. -/
def stridedValue (M : ℕ) (x s : Num) : ℕ :=
  if (staticFromStrided x s).isNone then
    (if 0 < x.val then 1 + ((x.val - 1) % M) / (s.val % M) else 0)
  else (if x.val = 0 then 0 else x.val / s.val) % M

/-- `extents_constructor::next_extent` (`__p2630_bits/submdspan_extents.hpp`, lines 231-303): the new
static extents and the values handed to the constructor. -/
def nextExtents (M : ℕ) (e : Ext) : ℕ → List Slice → List (Option ℕ) × List ℕ
  | _, [] => ([], [])
  | k, .index _ :: l => nextExtents M e (k + 1) l
  | k, .strided _ x s :: l =>
    let rest := nextExtents M e (k + 1) l
    (staticFromStrided x s :: rest.1, stridedValue M x s :: rest.2)
  | k, sl :: l =>
    let rest := nextExtents M e (k + 1) l
    (staticFromRange sl.first (sl.last e k) :: rest.1,
      ((sl.last e k).val % M + M - sl.first.val % M) % M :: rest.2)

/-- `submdspan_extents` (`__p2630_bits/submdspan_extents.hpp`, lines 308-317). -/
def subExtents (M : ℕ) (e : Ext) (slices : List Slice) : Option Ext :=
  construct M (nextExtents M e 0 slices).1 (nextExtents M e 0 slices).2

/-- `construct_sub_strides` (`__p2630_bits/submdspan_mapping.hpp`, lines 35-45). -/
def subStrides (M : ℕ) (m : Mapping) (slices : List Slice) : List ℕ :=
  (invMapRank 0 slices).map fun k =>
    (m.strideOf M k % M) * ((slices.map Slice.stride).getD k 0 % M) % M

/-- `is_same_v<SliceSpecifiers, full_extent_t>`. -/
def Slice.isFull : Slice → Bool
  | .full => true
  | _ => false

/-- `is_convertible_v<SliceSpecifiers, tuple<size_t, size_t>>`. -/
def Slice.isRange : Slice → Bool
  | .range _ _ => true
  | _ => false

/-- `preserve_layout_left_mapping` (`__p2630_bits/submdspan_mapping.hpp`, lines 54-72). -/
def preserveLeft (subRank : ℕ) (slices : List Slice) : Bool :=
  subRank == 0 ||
    (List.zipWith
      (fun idx (s : Slice) =>
        decide (idx > subRank - 1) || s.isFull || (decide (idx = subRank - 1) && s.isRange))
      (List.range slices.length) slices).all id

/-- `preserve_layout_right_mapping` (`__p2630_bits/submdspan_mapping.hpp`, lines 158-179). -/
def preserveRight (subRank : ℕ) (slices : List Slice) : Bool :=
  subRank == 0 ||
    (List.zipWith
      (fun idx (s : Slice) =>
        decide (idx < slices.length - subRank) || s.isFull ||
          (decide (idx = slices.length - subRank) && s.isRange))
      (List.range slices.length) slices).all id

/-- `submdspan_mapping` (`__p2630_bits/submdspan_mapping.hpp`, lines 95-139, 201-245 and 261-278): the
mapping of the part and the offset at which it begins. -/
def subMapping (M : ℕ) (m : Mapping) (slices : List Slice) : Option (Mapping × ℕ) :=
  match subExtents M m.exts slices with
  | none => none
  | some dst =>
    let offset := m.offset M (slices.map fun s => s.first.val)
    match m with
    | .left _ =>
      if preserveLeft dst.rank slices then some (.left dst, offset)
      else some (.stride dst (subStrides M m slices), offset)
    | .right _ =>
      if preserveRight dst.rank slices then some (.right dst, offset)
      else some (.stride dst (subStrides M m slices), offset)
    | .stride _ _ => some (.stride dst (subStrides M m slices), offset)

/-- `mdspan::__size` (`__p0009_bits/mdspan.hpp`, lines 46-49); `S` is the modulus of `size_t`. -/
def mdspanSize (S : ℕ) (m : Mapping) : ℕ := m.exts.shape.foldr (fun a b => a * b % S) (1 % S)

/-- `mdspan::__empty` (`__p0009_bits/mdspan.hpp`, lines 50-53). -/
def mdspanEmpty (m : Mapping) : Bool := decide (0 < m.exts.rank) && m.exts.shape.any (· == 0)

end OpenKalman.Mdspan
