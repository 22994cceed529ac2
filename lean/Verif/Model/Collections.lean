import Verif.Spec.Order

/-!
# Model of `OpenKalman/collections`: views, lexicographic comparison, index comparison

Element values are kept as they are; value categories, references and the distinction between tuple-like objects and ranges are not modelled
beyond the access path used.  An access outside the underlying object is `none` (undefined behaviour in the code, which never checks bounds).
-/

namespace OpenKalman.Collections
variable {α β : Type}

/-- What a view offers: its size, compile-time access `get<i>`, and run-time access `it[o]` through an iterator `it` at position `p`
(dereferencing is `o = 0`). -/
structure Coll (α : Type) where
  size : Nat
  get : Nat → Option α
  at' : Nat → Nat → Option α

/-- A stored collection (std::array, std::vector, std::tuple through from_tuple_like.hpp:108-111 or from_range.hpp:172-184). -/
def Coll.base (l : List α) : Coll α := ⟨l.length, fun i => l[i]?, fun p o => l[p + o]?⟩

/-- concat.hpp:28-47 `concat_tuple_view_indices`: which member and which index within it. -/
def concatIndices : Nat → List Nat → Nat × Nat
  | _, [] => (0, 0)
  | i, s :: ss => if i < s then (0, i) else
    let (a, b) := concatIndices (i - s) ss
    (1 + a, b)

/-- concat.hpp:82-126 `get`, 147-148 `tuple_size`; iteration goes through the call table of from_tuple_like.hpp:108-111, i.e. through `get`. -/
def Coll.concat (cs : List (Coll α)) : Coll α where
  size := (cs.map Coll.size).foldl (· + ·) 0
  get i := let (a, b) := concatIndices i (cs.map Coll.size)
    (cs[a]?).bind fun c => c.get b
  at' p o := let (a, b) := concatIndices (p + o) (cs.map Coll.size)
    (cs[a]?).bind fun c => c.get b

/-- replicate.hpp:71-83,93-96 iterator access, 229-235 `size`, 241-250 `get`.  A modulus by size 0 is undefined. -/
def Coll.replicate (c : Coll α) (f : Nat) : Coll α where
  size := c.size * f
  get i := if c.size = 0 then none else c.get (i % c.size)
  at' p o := if c.size = 0 then none else c.at' 0 ((p + o) % c.size)

/-- slice.hpp:104-122 `begin`, 171-193 `size`, 199-243 `get`; the iterator is the base iterator moved by the offset.  `ext = none` stands for
`values::unbounded_size_t`. -/
def Coll.slice (c : Coll α) (off : Nat) (ext : Option Nat) : Coll α where
  size := match ext with
    | some e => e
    | none => c.size - off
  get i := c.get (off + i)
  at' p o := c.at' (off + p) o

/-- internal/tuple_reverse.hpp:65-105 `get`, 124-125 `tuple_size`; iteration through the call table, i.e. through `get`. -/
def Coll.reverse (c : Coll α) : Coll α where
  size := c.size
  get i := if c.size < i + 1 then none else c.get (c.size - i - 1)
  at' p o := if c.size < p + o + 1 then none else c.get (c.size - (p + o) - 1)

/-- generate.hpp:73-81 iterator access, 181-189 `size`, 195-235 `get`. -/
def Coll.generate (f : Nat → α) (n : Nat) : Coll α := ⟨n, fun i => some (f i), fun p o => some (f (p + o))⟩

/-- iota.hpp:34-43 `iota_generator`, 70-101. -/
def Coll.iota (start n : Nat) : Coll Nat := Coll.generate (fun i => start + i) n

/-- repeat.hpp:57-84 `get`, 97 `tuple_size`. -/
def Coll.repeat' (a : α) (n : Nat) : Coll α := ⟨n, fun _ => some a, fun _ _ => some a⟩

/-- The elements met when iterating from `begin()` to `end()`. -/
def Coll.iterate (c : Coll α) : List (Option α) := (List.range c.size).map fun p => c.at' p 0

/-- View expressions, nested to any depth. -/
inductive View (α : Type) : Type
  | base (l : List α)
  | concat {n : Nat} (vs : Fin n → View α)
  | replicate (v : View α) (f : Nat)
  | slice (v : View α) (off : Nat) (ext : Option Nat)
  | reverse (v : View α)
  | generate (f : Nat → α) (n : Nat)
  | repeat' (a : α) (n : Nat)

/-- What the code builds for a view expression. -/
def View.eval : View α → Coll α
  | .base l => .base l
  | .concat vs => .concat (List.ofFn fun i => (vs i).eval)
  | .replicate v f => v.eval.replicate f
  | .slice v off ext => v.eval.slice off ext
  | .reverse v => v.eval.reverse
  | .generate f n => .generate f n
  | .repeat' a n => .repeat' a n

/-! ## lexicographical_compare_three_way.hpp -/

/-- lexicographical_compare_three_way.hpp:30-63 `fixed_lexicographical_compare<i>`.  `dl`/`dr`: the operand's size is dynamic, so exhaustion is
tested at run time; otherwise at compile time. -/
def fixedLex (cmp : α → β → POrd) (dl dr : Bool) (l : List α) (r : List β) (i : Nat) : POrd :=
  let exl := !dl && l.length == i
  let exr := !dr && r.length == i
  if exl && exr then .equivalent
  else if exl then if dr && i == r.length then .equivalent else .less
  else if exr then if dl && i == l.length then .equivalent else .greater
  else if dl && i == l.length then .less
  else if dr && i == r.length then .greater
  else if h : i < l.length then
    match r[i]? with
    | some b => match cmp l[i] b with
      | .equivalent => fixedLex cmp dl dr l r (i + 1)
      | c => c
    | none => .unordered
  else .unordered
termination_by l.length - i

/-- lexicographical_compare_three_way.hpp:99-109, the loop over two iterators. -/
def loopLex (cmp : α → β → POrd) : List α → List β → POrd
  | a :: f1, b :: f2 =>
    match cmp a b with
    | .equivalent => loopLex cmp f1 f2
    | c => c
  | f1, f2 => if !f1.isEmpty then .greater else if !f2.isEmpty then .less else .equivalent

/-- lexicographical_compare_three_way.hpp:82-111, the dispatcher.  (The branch through `std::lexicographical_compare_three_way` for common ranges
is the standard library's and has the loop's specification.) -/
def lexCompare (cmp : α → β → POrd) (dl dr : Bool) (l : List α) (r : List β) : POrd :=
  if !dl || !dr then fixedLex cmp dl dr l r 0 else loopLex cmp l r

/-! ## compare_indices.hpp -/

/-- An index collection: element access, and its size (`none`: unsized); `fixed`: the size is known at compile time. -/
structure IxColl where
  get : Nat → Nat
  size : Option Nat
  fixed : Bool

/-- Built-in three-way comparison of two indices. -/
def cmpNat (a b : Nat) : POrd := if a < b then .less else if a = b then .equivalent else .greater

/-- compare_indices.hpp:28-44 `get_min_size` (at least one argument is sized). -/
def minSize (l r : IxColl) : Nat :=
  match l.size, r.size with
  | some a, some b => min a b
  | some a, none => a
  | none, some b => b
  | none, none => 0

/-- Compile-time size, if any. -/
def IxColl.fixedSize (c : IxColl) : Option Nat := if c.fixed then c.size else none

/-- compare_indices.hpp:47-61 `get_fixed_size` (`none`: dynamic_extent). -/
def fixedSize (l r : IxColl) : Option Nat :=
  match l.fixedSize, r.fixedSize with
  | some a, some b => some (min a b)
  | some a, none => some a
  | none, some b => some b
  | none, none => none

/-- compare_indices.hpp:75-96 `compare_indices_fixed<comp, fsz, i>`.  `szFixed`: the minimum size is known at compile time. -/
def compareFixed (comp : POrd → Bool) (l r : IxColl) (szFixed : Bool) (fsz sz i : Nat) : Bool :=
  if h : i < fsz then
    if szFixed && decide (i < sz) then comp (cmpNat (l.get i) (r.get i)) && compareFixed comp l r szFixed fsz sz (i + 1)
    else if szFixed && decide (sz ≤ i) then true
    else if i < sz then comp (cmpNat (l.get i) (r.get i)) && compareFixed comp l r szFixed fsz sz (i + 1)
    else true
  else if szFixed && decide (i < sz) then false -- not reached: `sz ≤ fsz`
  else true
termination_by fsz - i

/-- compare_indices.hpp:125-130, the loop from `i` on. -/
def compareLoop (comp : POrd → Bool) (l r : IxColl) (sz i : Nat) : Bool :=
  if h : i < sz then
    if !comp (cmpNat (l.get i) (r.get i)) then false else compareLoop comp l r sz (i + 1)
  else true
termination_by sz - i

/-- compare_indices.hpp:114-132. -/
def compareIndices (comp : POrd → Bool) (l r : IxColl) : Bool :=
  match fixedSize l r with
  | some fsz => compareFixed comp l r (l.fixedSize.isSome && (r.fixedSize.isSome || r.size.isNone) ||
      r.fixedSize.isSome && l.size.isNone) fsz (minSize l r) 0
  | none => compareLoop comp l r (minSize l r) 0

end OpenKalman.Collections
