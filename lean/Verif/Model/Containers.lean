import Verif.Spec.Containers
import Verif.Model.Mdspan

/-!
# Model of the bundled `span` and `mdarray`

Sources: `OpenKalman/basics/compatibility/std-lib-reference/span-tcbrindle/include/tcb/span.hpp` (here `span.hpp`), used if the standard library has no `span`
(`OpenKalman/basics/compatibility/span.hpp`), and
`OpenKalman/basics/compatibility/std-lib-reference/mdspan-reference-implementation/include/experimental/__p1684_bits/mdarray.hpp` (here `mdarray.hpp`).

Simplifications:
* The memory that a span points into is one list; a pointer is a position in it. That forming a pointer outside is undefined is not modelled, only that reading
  there is.
* `std::size_t` is a number below `M` with arithmetic modulo `M`; `dynamic_extent` is `M - 1`.
* Allocators, and conversion of elements to another type, are not modelled.
-/

namespace OpenKalman.Containers

open OpenKalman.Mdspan

variable {α : Type}

/-! ## Spans -/

/-- How a call ends. -/
inductive Out (β : Type)
  | ok (b : β)
  /-- `contract_violation` (span.hpp:59-75): throws or terminates. -/
  | violation
  /-- There is no such function: the program is not compiled. -/
  | refused
  | undefined
deriving DecidableEq

def Out.bind {β γ : Type} : Out β → (β → Out γ) → Out γ
  | .ok b, f => f b
  | .violation, _ => .violation
  | .refused, _ => .refused
  | .undefined, _ => .undefined

/-- span.hpp:145. -/
def dyn (M : ℕ) : ℕ := M - 1

/-- `a - b` of type `std::size_t`. -/
def minus (M a b : ℕ) : ℕ := (M + a - b) % M

/-- `span_storage` (span.hpp:152-174); `ext` belongs to the type, and if it is static, `count` is not stored. -/
structure Span where
  base : ℕ
  ext : ℕ
  count : ℕ
deriving DecidableEq

/-- span.hpp:457 with 161 and 173. -/
def Span.size (M : ℕ) (s : Span) : ℕ := if s.ext = dyn M then s.count else s.ext

/-- `TCB_SPAN_EXPECT` (span.hpp:77-83); there are no checks with `NDEBUG` (48-57). -/
def expect {β : Type} (check cond : Bool) (b : Out β) : Out β := if check && !cond then .violation else b

/-- The constructor from a pointer and a number (span.hpp:319-323). -/
def Span.make (M : ℕ) (check : Bool) (base ext count : ℕ) : Out Span :=
  expect check (ext == dyn M || count == ext) (.ok ⟨base, ext, count⟩)

/-- The constructors from arrays of `N` elements (span.hpp:333-360). -/
def Span.ofArray (M : ℕ) (ext base N : ℕ) : Out Span :=
  if ext = dyn M ∨ N = ext then .ok ⟨base, ext, N⟩ else .refused

/-- The functions that make a span of another. -/
inductive Op
  | firstFixed (n : ℕ)
  | lastFixed (n : ℕ)
  | subFixed (off n : ℕ)
  | first (n : ℕ)
  | last (n : ℕ)
  | sub (off n : ℕ)
  | convert (ext : ℕ)

/-- span.hpp:402-454, and the converting constructor, 387-395. -/
def Op.run (M : ℕ) (check : Bool) (s : Span) : Op → Out Span
  | .firstFixed n => expect check (decide (n ≤ s.size M)) (Span.make M check s.base n n)
  | .lastFixed n => expect check (decide (n ≤ s.size M)) (Span.make M check (s.base + minus M (s.size M) n) n n)
  | .subFixed off n =>
    expect check (decide (off ≤ s.size M) && (n == dyn M || decide ((off + n) % M ≤ s.size M)))
      (Span.make M check (s.base + off) (if n ≠ dyn M then n else if s.ext ≠ dyn M then minus M s.ext off else dyn M)
        (if n ≠ dyn M then n else minus M (s.size M) off))
  | .first n => expect check (decide (n ≤ s.size M)) (Span.make M check s.base (dyn M) n)
  | .last n => expect check (decide (n ≤ s.size M)) (Span.make M check (s.base + minus M (s.size M) n) (dyn M) n)
  | .sub off n =>
    expect check (decide (off ≤ s.size M) && (n == dyn M || decide ((off + n) % M ≤ s.size M)))
      (Span.make M check (s.base + off) (dyn M) (if n = dyn M then minus M (s.size M) off else n))
  | .convert ext => if ext = dyn M ∨ s.ext = dyn M ∨ ext = s.ext then .ok ⟨s.base, ext, s.size M⟩ else .refused

def runs (M : ℕ) (check : Bool) : List Op → Span → Out Span
  | [], s => .ok s
  | o :: os, s => (o.run M check s).bind (runs M check os)

/-- Reading through a pointer. -/
def load (mem : List α) (p : ℕ) : Out α :=
  match mem[p]? with
  | some a => .ok a
  | none => .undefined

/-- span.hpp:470-474. -/
def Span.get (M : ℕ) (check : Bool) (mem : List α) (s : Span) (i : ℕ) : Out α :=
  expect check (decide (i < s.size M)) (load mem (s.base + i))

/-- span.hpp:476-480. -/
def Span.front (M : ℕ) (check : Bool) (mem : List α) (s : Span) : Out α :=
  expect check (!(s.size M == 0)) (load mem s.base)

/-- span.hpp:482-486. -/
def Span.back (M : ℕ) (check : Bool) (mem : List α) (s : Span) : Out α :=
  expect check (!(s.size M == 0)) (load mem (s.base + minus M (s.size M) 1))

/-- The elements at the positions from `p` on, read one after the other. -/
def loads (mem : List α) (p : ℕ) : ℕ → Out (List α)
  | 0 => .ok []
  | n + 1 => (load mem p).bind fun a => (loads mem (p + 1) n).bind fun l => .ok (a :: l)

/-- A loop from `begin()` to `end()` (span.hpp:491-493). -/
def Span.elements (M : ℕ) (mem : List α) (s : Span) : Out (List α) := loads mem s.base (s.size M)

/-- The same downwards: a reverse iterator reads the element before its position. -/
def loadsDown (mem : List α) (p : ℕ) : ℕ → Out (List α)
  | 0 => .ok []
  | n + 1 => (load mem (p - 1)).bind fun a => (loadsDown mem (p - 1) n).bind fun l => .ok (a :: l)

/-- A loop from `rbegin()` to `rend()` (span.hpp:495-503). -/
def Span.reversed (M : ℕ) (mem : List α) (s : Span) : Out (List α) := loadsDown mem (s.base + s.size M) (s.size M)

/-- `as_bytes` (span.hpp:571-587) with `size_bytes` (459-462), for elements of `w` bytes; the memory is that of the bytes. -/
def Span.asBytes (M : ℕ) (check : Bool) (w : ℕ) (s : Span) : Out Span :=
  Span.make M check (s.base * w) (if s.ext = dyn M then dyn M else w * s.ext % M) (s.size M * w % M)

/-! ## Arrays that own their elements -/

/-- The container: a vector, or an array of a fixed size (mdarray.hpp:41-53). -/
inductive Kind
  | vector
  | array (N : ℕ)

/-- The two members (mdarray.hpp:481-482). -/
structure MdArray (α : Type) where
  map : Mapping
  ctr : List α

/-- `construct` (mdarray.hpp:45-46 and 50-51): elements `z` as many as needed, or as many as the array has. -/
def Kind.construct (M : ℕ) (z : α) (m : Mapping) : Kind → List α
  | .vector => List.replicate (m.span M) z
  | .array N => List.replicate N z

/-- The constructors from extents or a mapping (mdarray.hpp:103-134). -/
def MdArray.make (M : ℕ) (k : Kind) (z : α) (m : Mapping) : MdArray α := ⟨m, k.construct M z m⟩

/-- The constructors from a container (mdarray.hpp:136-187). `none`: the assertion fails. -/
def MdArray.ofContainer (M : ℕ) (ndebug : Bool) (c : List α) (m : Mapping) : Option (MdArray α) :=
  if ndebug || decide (m.span M ≤ c.length) then some ⟨m, c⟩ else none

/-- The constructor from an array of another layout (mdarray.hpp:191-203): the container is copied, and the mapping is converted, to `m`. -/
def MdArray.ofOther (m : Mapping) (other : MdArray α) : MdArray α := ⟨m, other.ctr⟩

/-- `operator()` and `operator[]` (mdarray.hpp:286-312 and 343-367). `none`: the container is read outside. -/
def MdArray.get (M : ℕ) (a : MdArray α) (idx : List ℕ) : Option α := a.ctr[a.map.offset M idx]?

/-- Assignment to what `operator()` returns. -/
def MdArray.set (M : ℕ) (a : MdArray α) (idx : List ℕ) (x : α) : Option (MdArray α) :=
  if a.map.offset M idx < a.ctr.length then some ⟨a.map, a.ctr.set (a.map.offset M idx) x⟩ else none

/-- mdarray.hpp:412-415. -/
def MdArray.size (M : ℕ) (a : MdArray α) : ℕ := a.ctr.length % M

/-- What a defaulted move (mdarray.hpp:100 and 279) leaves: the mapping is copied, a vector is emptied and an array copied. -/
def MdArray.movedFrom (k : Kind) (a : MdArray α) : MdArray α :=
  match k with
  | .vector => ⟨a.map, []⟩
  | .array _ => a

/-- Statements on named arrays of one type. -/
def act (M : ℕ) (k : Kind) (st : List (MdArray α)) : Act α → Option (List (MdArray α))
  | .write v idx x => (st[v]?).bind fun a => (a.set M idx x).map fun a' => st.set v a'
  | .copy v w => (st[w]?).bind fun a => if v < st.length then some (st.set v a) else none
  | .move v w => (st[w]?).bind fun a => if v < st.length then some ((st.set v a).set w (a.movedFrom k)) else none

def actAll (M : ℕ) (k : Kind) : List (Act α) → List (MdArray α) → Option (List (MdArray α))
  | [], st => some st
  | a :: as, st => (act M k st a).bind (actAll M k as)

end OpenKalman.Containers
