import Verif.Model.Shape
import Verif.Model.Pattern
import Verif.Spec.StatSpace

/-!
# Model of the statistics-space adapters
(`OpenKalman/linear-algebra/adapters/to_stat_space_adapter.hpp`, `from_stat_space_adapter.hpp`, `OpenKalman/linear-algebra/views/range_of.hpp`)

Components are real numbers (`element_type` without rounding).  A store is the list of components written so far, in the order of its elements, together
with the number of elements it has; writing beyond that number and reading what was not written is undefined.
-/

namespace OpenKalman.StatSpace

open Shape Patterns

/-- What may go wrong: the code does not compile, or its behaviour is undefined. -/
inductive Err | illFormed | undefined
  deriving DecidableEq

/-- The pattern of an index: its descriptors; `dyn`: its dimension is only known at run time. -/
structure IdxPat where
  elems : List Elem
  dyn : Bool

/-- patterns/traits/dimension_of.hpp, patterns/functions/get_dimension.hpp. -/
def IdxPat.dim (p : IdxPat) : Nat := (p.elems.map (·.d.dimension)).sum

/-- patterns/functions/get_stat_dimension.hpp. -/
def IdxPat.statDim (p : IdxPat) : Nat := (p.elems.map (·.d.statDimension)).sum

/-- `Dimensions<1>`. -/
def IdxPat.one : IdxPat := ⟨[⟨.dim 1, false⟩], false⟩

/-- An `indexible` object: the extents of its mdspan, its patterns, and what its mdspan refers to at an array of indices of the length of the
rank (an error if that cannot be read). -/
structure Nested where
  exts : List Extent
  pats : List IdxPat
  read : List Nat → Except Err ℝ

/-- traits/get_index_pattern.hpp:41-67 and patterns/functions/get_pattern.hpp:39-49. -/
def Nested.pattern (n : Nested) (i : Nat) : IdxPat := n.pats.getD i .one

/-- traits/index_count.hpp:46-47. -/
def Nested.count (n : Nested) : Nat := indexCount (statics n.exts)

/-- traits/access.hpp:67-76 of a component of the object. -/
def Nested.component (n : Nested) (ix : List Nat) : Except Err ℝ :=
  match access n.exts ⟨true, ix⟩ with
  | .component ix' => n.read ix'
  | .illFormed => .error .illFormed
  | _ => .error .undefined

/-- traits/get_index_extent.hpp:36-58; in `range_of` and `fill_store` the index is a compile-time constant. -/
def Nested.extent (n : Nested) (i : Nat) : Except Err Nat :=
  match getIndexExtent n.exts true i with
  | some e => .ok e
  | none => .error .undefined

/-- views/range_of.hpp:36-44 and 57-60; the requirement of lines 48-50 is that there are enough indices and the object is not empty. -/
def rangeOf (n : Nested) (js : List Nat) : Except Err (List ℝ) := do
  if emptyObject (statics n.exts) || decide (js.length + 1 < n.count) then .error .illFormed
  else (List.range (← n.extent 0)).mapM fun i => n.component (i :: js)

/-- A store: the number of its elements and what was written to the first of them. -/
structure Store where
  size : Nat
  written : List ℝ

/-- `std::ranges::copy` to the next elements of the store. -/
def Store.write (s : Store) (l : List ℝ) : Except Err Store :=
  if s.written.length + l.length ≤ s.size then .ok ⟨s.size, s.written ++ l⟩ else .error .undefined

/-- The element at position `i` of the store. -/
def Store.get (s : Store) (i : Nat) : Except Err ℝ :=
  match s.written[i]? with
  | some x => .ok x
  | none => .error .undefined

/-- to_stat_space_adapter.hpp:83-93 and from_stat_space_adapter.hpp:89-99 `fill_store<N, i>`; `conv` is `patterns::to_stat_space(p, ·)` or
`patterns::from_stat_space(p, ·)`. -/
def fillStore (conv : List ℝ → Option (List ℝ)) (n : Nested) : Nat → Store → List Nat → Except Err Store
  | 0, s, js => do
    let v ← rangeOf n js
    match conv v with
    | some o => s.write o
    | none => .error .undefined
  | i + 1, s, js => do
    (List.range (← n.extent (i + 1))).foldlM (fun s k => fillStore conv n i s (k :: js)) s

/-- to_stat_space_adapter.hpp:59-72 and from_stat_space_adapter.hpp:65-78 `store_size<i>`: the product of the dimensions `dimOf` from index `i` on,
for `k` more indices. -/
def storeSize (dimOf : IdxPat → Nat) (n : Nested) : Nat → Nat → Nat → Nat
  | _, 0, prod => prod
  | i, k + 1, prod => storeSize dimOf n (i + 1) k (prod * dimOf (n.pattern i))

/-- to_stat_space_adapter.hpp:75-80 and 96-104, from_stat_space_adapter.hpp:81-86 and 102-110 `store_init`: an array if the size is known at compile
time; otherwise a vector, which is given room (`reserve`) but no elements. -/
def storeInit (dimOf : IdxPat → Nat) (conv : List ℝ → Option (List ℝ)) (n : Nested) : Except Err Store :=
  let fixed := (List.range n.count).all fun i => !(n.pattern i).dyn
  let store : Store := if fixed then ⟨storeSize dimOf n 0 n.count 1, []⟩ else ⟨0, []⟩
  fillStore conv n n.count store []

/-- The dimension of a pattern as an extent. -/
def IdxPat.toExtent (dimOf : IdxPat → Nat) (p : IdxPat) : Extent := ⟨if p.dyn then none else some (dimOf p), dimOf p⟩

/-- patterns/functions/to_stat_space_pattern_collection.hpp:37-45. -/
def statPatterns : List IdxPat → List Extent
  | [] => [IdxPat.one.toExtent IdxPat.statDim]
  | p :: ps => p.toExtent IdxPat.statDim :: ps.map (·.toExtent IdxPat.dim)

/-- An adapter once constructed: the members `store_` and `mdspan_` (the latter by its extents; it refers to `store_`). -/
structure Adapter where
  store : Store
  exts : List Extent

/-- `mdspan_[ix...]` with `layout_left`. -/
def Adapter.read (a : Adapter) (ix : List Nat) : Except Err ℝ :=
  a.store.get (leftOffset (fun i => (mdExtent a.exts i).getD 0) (ix.getD · 0) a.exts.length)

/-- to_stat_space_adapter.hpp:112-116: the constructor. -/
noncomputable def toStatAdapter (n : Nested) : Except Err Adapter := do
  let p := n.pattern 0
  let s ← storeInit IdxPat.statDim (toStatSpace p.dyn p.elems) n
  match toExtents false none (statPatterns n.pats) with
  | some e => .ok ⟨s, e⟩
  | none => .error .illFormed

/-- from_stat_space_adapter.hpp:124-129: the constructor; `cr`: the library defines `__cpp_lib_containers_ranges` (see `fromStatSpace`).  The
requirements on the patterns (lines 40-43) are left to the caller. -/
noncomputable def fromStatAdapter (cr : Bool) (n : Nested) (ps : List IdxPat) : Except Err Adapter := do
  let p := ps.getD 0 .one
  let s ← storeInit IdxPat.dim (fromStatSpace p.dyn cr p.elems) n
  match toExtents false none (ps.map (·.toExtent IdxPat.dim)) with
  | some e => .ok ⟨s, e⟩
  | none => .error .illFormed

/-- to_stat_space_adapter.hpp:152-163: the adapter as an `indexible` object; its patterns are the extents. -/
def Adapter.asNested (a : Adapter) : Nested :=
  ⟨a.exts, a.exts.map fun e => ⟨[⟨.dim e.value, false⟩], e.fixed.isNone⟩, a.read⟩

/-- from_stat_space_adapter.hpp:187-199: the adapter as an `indexible` object with the patterns given. -/
def Adapter.asNestedWith (a : Adapter) (ps : List IdxPat) : Nested := ⟨a.exts, ps, a.read⟩

/-! ## Copies

Neither adapter declares a copy or move constructor (to_stat_space_adapter.hpp:106-121), so members are copied one by one: the pointer in `mdspan_` is
copied as it is. -/

/-- Stores in memory, by address; `none` once the object that has it is destroyed. -/
abbrev Memory := Nat → Option Store

/-- An adapter object: the address of its own store and the address in its mdspan. -/
structure Handle where
  own : Nat
  ptr : Nat
  exts : List Extent

/-- Construction (lines 112-116): the mdspan refers to the object's own store. -/
def construct (μ : Memory) (new : Nat) (a : Adapter) : Memory × Handle := (Function.update μ new (some a.store), ⟨new, new, a.exts⟩)

/-- The implicit copy constructor. -/
def copy (μ : Memory) (new : Nat) (h : Handle) : Memory × Handle := (Function.update μ new (μ h.own), ⟨new, h.ptr, h.exts⟩)

/-- The destructor. -/
def destroy (μ : Memory) (h : Handle) : Memory := Function.update μ h.own none

/-- A component read through an adapter object. -/
def Handle.read (μ : Memory) (h : Handle) (ix : List Nat) : Except Err ℝ :=
  match μ h.ptr with
  | some s => Adapter.read ⟨s, h.exts⟩ ix
  | none => .error .undefined

end OpenKalman.StatSpace
