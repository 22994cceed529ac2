import Verif.Spec.Slices

/-!
# Model of slices, chips, tiles, concatenation and splitting (C40, C41)

Objects here are dense tensors with sizes known at run time; all indices up to the rank are written out (trailing one-dimensional indices are explicit).
Structured operands of `concatenate` are in `Verif.Model.ConcatStruct`.

Simplifications: patterns are sizes.  Where a library hook exists (`library_interface<…>::set_slice`, `::get_slice`) it is taken to do what the generic
element loop does.  Reading or writing outside an object is `outOfRange`: the code has no check of its own there
(functions/internal/check_block_limits.hpp:25-40 checks only sizes and offsets known at compile time; the run-time check is commented out), so this
outcome stands for whatever the library does (an assertion in a debug build, undefined behaviour otherwise).
-/

namespace OpenKalman.Slices

variable {F : Type}

/-- Failures. -/
inductive Err | illFormed | outOfRange | lengthError | logicError | invalidArgument | noReturn
  deriving DecidableEq

/-- `get_index_dimension_of<k>(a)`: indices beyond the rank are one-dimensional. -/
def Ten.dim (a : Ten F) (k : ℕ) : ℕ := a.dims.getD k 1

/-- `set_component(arg, value, ix...)`. -/
def Ten.setComponent (a : Ten F) (v : Option F) (ix : List ℕ) : Except Err (Ten F) :=
  if InBox a.dims ix then
    .ok { a with get := Function.update a.get ix v, writes := Function.update a.writes ix (a.writes ix + 1) }
  else .error .outOfRange

/-- `assign_slice_elements`, set_slice.hpp:23-38: nested loops over the block's dimensions; `jb` and `ja` are the positions so far in the block and in the
argument. -/
def assignElems (block : Ten F) : List (ℕ × ℕ) → List ℕ → List ℕ → Ten F → Except Err (Ten F)
  | [], jb, ja, a => a.setComponent (block.get jb) ja
  | (n, b) :: ds, jb, ja, a => (List.range n).foldlM (fun a i => assignElems block ds (jb ++ [i]) (ja ++ [b + i]) a) a

/-- `set_slice(arg, block, begin...)`, set_slice.hpp:56-83. -/
def setSlice (a block : Ten F) (begin' : List ℕ) : Except Err (Ten F) :=
  if begin'.length < a.dims.length then .error .illFormed
  else assignElems block ((List.range begin'.length).map fun k => (block.dim k, begin'.getD k 0)) [] [] a

/-- `get_block_limits`, get_slice.hpp:27-48: the limit given for index `k`, or the default (0 for an offset, the dimension for an extent). -/
def blockLimit (k default : ℕ) : List ℕ → List ℕ → Except Err ℕ
  | ix :: ixs, l :: ls => if k = ix then (if ix ∈ ixs then .error .illFormed else .ok l) else blockLimit k default ixs ls
  | _, _ => .ok default

/-- `library_interface::get_slice(arg, offsets, extents)` for all indices: interfaces/eigen-tensor/eigen-tensor-library-interface.hpp:255-267. -/
def libSlice (a : Ten F) (offs exts : List ℕ) : Except Err (Ten F) :=
  if List.Forall₂ (fun (oe : ℕ × ℕ) n => oe.1 + oe.2 ≤ n) (offs.zip exts) a.dims then
    .ok { dims := exts, get := fun ix => a.get (shift offs ix), writes := fun _ => 1 }
  else .error .outOfRange

/-- Drop everything after the first `k` dimensions; what remains has one-dimensional trailing indices. -/
def Ten.describeFirst (a : Ten F) (k : ℕ) : Ten F :=
  { a with dims := a.dims.take k ++ List.replicate (a.dims.length - k) 1 }

/-- `get_slice_impl`, get_slice.hpp:57-76, given offsets and extents for all indices of `a`, and `seq = 0, …, k-1`: only the first `k` indices get a
descriptor.  With static sizes, `attach_patterns` (attach_patterns.hpp:54-68) accepts the descriptors only if the sizes agree; with dynamic ones it does not
compare them. -/
def getSliceImpl (static : Bool) (a : Ten F) (offs exts : List ℕ) (k : ℕ) : Except Err (Ten F) := do
  let s ← libSlice a offs exts
  if static = true ∧ (s.describeFirst k).dims ≠ s.dims then .error .illFormed
  else .ok (s.describeFirst k)

/-- `get_slice<indices...>(arg, offsets, extents)`, get_slice.hpp:90-129.  Without indices, `offsets` and `extents` are for the leading indices; the Eigen hook
(interfaces/eigen/eigen-library-interface.hpp:527-585) then takes 0 and 1 for a missing column offset and size. -/
def getSlice (static : Bool) (indices : List ℕ) (a : Ten F) (offsets extents : List ℕ) : Except Err (Ten F) :=
  if offsets = [] then .ok a
  else if indices = [] then
    getSliceImpl static a (offsets ++ List.replicate (a.dims.length - offsets.length) 0)
      (extents ++ List.replicate (a.dims.length - offsets.length) 1) offsets.length
  else do
    let offs ← (List.range a.dims.length).mapM fun k => blockLimit k 0 indices offsets
    let exts ← (List.range a.dims.length).mapM fun k => blockLimit k (a.dim k) indices extents
    getSliceImpl static a offs exts offsets.length

/-- `get_chip<indices...>(arg, ixs...)`, get_chip.hpp:41-54. -/
def getChip (static : Bool) (indices : List ℕ) (a : Ten F) (ixs : List ℕ) : Except Err (Ten F) :=
  if indices = [] then .ok a else getSlice static indices a ixs (indices.map fun _ => 1)

/-- `chip_index_match`, set_chip.hpp:24-33. -/
def chipIndexMatch (k : ℕ) : List ℕ → List ℕ → ℕ
  | ix :: ixs, i :: is => if k = ix then i else chipIndexMatch k ixs is
  | _, _ => 0

/-- `set_chip<indices...>(arg, chip, ixs...)`, set_chip.hpp:35-76.  The chip's dimensions are checked at compile time only. -/
def setChip (indices : List ℕ) (a chip : Ten F) (ixs : List ℕ) : Except Err (Ten F) :=
  setSlice a chip ((List.range a.dims.length).map fun k => chipIndexMatch k indices ixs)

/-- `make_dense_object`: elements without a value. -/
def fresh (dims : List ℕ) : Ten F := ⟨dims, fun _ => none, fun _ => 0⟩

/-- `chipwise_operation<index>(op, arg)` for one index and one argument, chipwise_operation.hpp:60-145: loop over the index. -/
def chipwise (static : Bool) (index : ℕ) (op : Ten F → ℕ → Ten F) (a : Ten F) : Except Err (Ten F) :=
  (List.range (a.dim index)).foldlM (fun m i => do
    let c ← getChip static [index] a [i]
    setChip [index] m (op c i) [i]) (fresh a.dims)

/-- Nullary `chipwise_operation<index>(op, n)`, chipwise_operation.hpp:148-254: chip 0 is set unconditionally, then chips `1, …, n-1`.  The dimension is that
of the operation's result times `n` (lines 150-161). -/
def chipwiseNullary (index : ℕ) (op : ℕ → Ten F) (n : ℕ) : Except Err (Ten F) := do
  let m ← setChip [index] (fresh ((op 0).dims.set index ((op 0).dim index * n))) (op 0) [0]
  (List.range' 1 (n - 1)).foldlM (fun m j => setChip [index] m (op j) [j]) m

/-- `tile_impl<direction>`, tile.hpp:27-95, for `r` indices.  `fuel` bounds the recursion depth; running out of it is `noReturn`. -/
def tileImpl (r : ℕ) : ℕ → ℕ → List ℕ → List ℕ → Ten F → List (Ten F) → Except Err (Ten F)
  | 0, _, _, _, _, _ => .error .noReturn
  | _ + 1, _, _, _, a, [] => .ok a
  | fuel + 1, d, pos, bs, a, b :: rest =>
    let bs := if d = 0 then (List.range r).map b.dim else bs
    if d = r - 1 then do
      let a' ← setSlice a b pos
      if 0 < pos.getD d 0 ∧ ∃ k ∈ List.range r, k ≠ d ∧ b.dim k ≠ bs.getD k 0 then .error .lengthError
      else
        let p := pos.getD d 0 + b.dim d
        if p < a.dim d then tileImpl r fuel d (pos.set d p) bs a' rest
        else if p = a.dim d then
          tileImpl r fuel (d - 1) ((pos.set d 0).set (d - 1) (pos.getD (d - 1) 0 + b.dim (d - 1))) bs a' rest
        else .error .lengthError
    else
      let bs := bs.set d (b.dim d)
      if pos.getD d 0 < a.dim d then tileImpl r fuel (d + 1) pos bs a (b :: rest)
      else if 0 < d then
        if a.dim d < pos.getD d 0 then .error .lengthError
        else tileImpl r fuel (d - 1) ((pos.set d 0).set (d - 1) (pos.getD (d - 1) 0 + b.dim (d - 1))) bs a (b :: rest)
      else .error .lengthError

/-- `tile(ds, block, blocks...)`, tile.hpp:105-126.  A single block is returned as it is.  With one descriptor the recursion names direction -1 and does not
compile. -/
def tile (fuel : ℕ) (ds : List ℕ) : List (Ten F) → Except Err (Ten F)
  | [] => .error .illFormed
  | [b] => .ok b
  | bs => if ds.length < 2 then .error .illFormed else tileImpl ds.length fuel 0 (ds.map fun _ => 0) (ds.map fun _ => 0) (fresh ds) bs

/-- `concatenate_vector_space_descriptor`, concatenate.hpp:41-68, for matrices: dimensions add along the given indices and must agree along the others. -/
def catDims (indices : List ℕ) (args : List (Ten F)) : Except Err (List ℕ) :=
  [0, 1].mapM fun k =>
    if k ∈ indices then .ok (args.map (·.dim k)).sum
    else match args with
      | [] => .error .illFormed
      | a :: as => if ∃ b ∈ as, b.dim k ≠ a.dim k then .error .invalidArgument else .ok (a.dim k)

/-- `make_zero`. -/
def zeros [Zero F] (dims : List ℕ) : Ten F := ⟨dims, fun _ => some 0, fun _ => 1⟩

/-- `concatenate_diag_impl`, concatenate.hpp:91-105: the block at block position `(i, j)`. -/
def diagBlock [Zero F] (args : List (Ten F)) (i j : ℕ) : Ten F :=
  if i = j then args.getD i (zeros [0, 0]) else zeros [(args.getD i (zeros [0, 0])).rows, (args.getD j (zeros [0, 0])).cols]

/-- `concatenate<indices...>(args...)` for dense matrices, concatenate.hpp:186-256: one index, `tile` of the arguments; two indices, `tile` of the arguments and
zero blocks in row-major order of block positions (`get_cat_indices`, lines 117-170). -/
def concatenate [Zero F] (fuel : ℕ) (indices : List ℕ) (args : List (Ten F)) : Except Err (Ten F) := do
  let ds ← catDims indices args
  match args with
  | [a] => .ok a
  | _ =>
    if indices.length = 1 then tile fuel ds args
    else tile fuel ds ((List.range args.length).flatMap fun i => (List.range args.length).map fun j => diagBlock args i j)

/-- `split_impl` and `split_symmetric`, split.hpp:41-57, 105-124: slices at running offsets. -/
def splitImpl (static : Bool) (indices : List ℕ) (a : Ten F) : List ℕ → List (List ℕ) → Except Err (List (Ten F))
  | _, [] => .ok []
  | begin', size :: sizes => do
    let b ← getSlice static indices a begin' size
    let bs ← splitImpl static indices a (List.zipWith (· + ·) begin' size) sizes
    .ok (b :: bs)

/-- `split<indices...>(arg, ds_tups...)`, split.hpp:82-90, 141-161, with the check of lines 25-39: the given dimensions must not exceed the argument's
(dynamic sizes). -/
def split (static : Bool) (indices : List ℕ) (a : Ten F) (sizes : List (List ℕ)) : Except Err (List (Ten F)) :=
  if ∃ q ∈ indices.zipIdx, a.dim q.1 < (sizes.map fun s => s.getD q.2 0).sum then .error .logicError
  else splitImpl static indices a (indices.map fun _ => 0) sizes

end OpenKalman.Slices
