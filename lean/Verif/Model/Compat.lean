import Verif.Spec.Compat

/-!
# Model of the replacements for parts of the standard library
(`OpenKalman/basics/compatibility`: `comparison.hpp`, `ranges/range-access.hpp`, `views/*.hpp`, `internal/movable_box.hpp`)

These are used where the compiler's library lacks the feature; `concat_view` and `movable_box` also with C++20.
-/

namespace OpenKalman.Compat

/-! ## The integers of the language -/

/-- Conversion to an integer type (modulo a power of two). -/
def conv (T : IntTy) (z : ℤ) : ℤ := if T.signed then Int.bmod z (2 ^ T.bits) else z % 2 ^ T.bits

/-- `int`. -/
def int32 : IntTy := ⟨true, 32⟩

/-- Integral promotion. -/
def promote (T : IntTy) : IntTy := if T.bits < 32 then int32 else T

/-- The common type of the usual arithmetic conversions, after promotion. -/
def usual (T U : IntTy) : IntTy :=
  if T.signed = U.signed then ⟨T.signed, max T.bits U.bits⟩
  else if T.signed then (if U.bits ≥ T.bits then U else T)
  else (if T.bits ≥ U.bits then T else U)

/-- The type in which two operands are compared. -/
def common (T U : IntTy) : IntTy := usual (promote T) (promote U)

/-- The operators `==` and `<` of the language. -/
def builtinEq (T U : IntTy) (t u : ℤ) : Bool := decide (conv (common T U) t = conv (common T U) u)
def builtinLt (T U : IntTy) (t u : ℤ) : Bool := decide (conv (common T U) t < conv (common T U) u)

/-- `std::make_unsigned_t`. -/
def makeUnsigned (T : IntTy) : IntTy := ⟨false, T.bits⟩

/-! ## comparison.hpp -/

/-- comparison.hpp:36-51. -/
def cmpEqual (T U : IntTy) (t u : ℤ) : Bool :=
  if T.signed = U.signed then builtinEq T U t u
  else if T.signed then !builtinLt T int32 t 0 && builtinEq (makeUnsigned T) U (conv (makeUnsigned T) t) u
  else !builtinLt U int32 u 0 && builtinEq (makeUnsigned U) T (conv (makeUnsigned U) u) t

/-- comparison.hpp:53-57. -/
def cmpNotEqual (T U : IntTy) (t u : ℤ) : Bool := !cmpEqual T U t u

/-- comparison.hpp:59-65. -/
def cmpLess (T U : IntTy) (t u : ℤ) : Bool :=
  if T.signed = U.signed then builtinLt T U t u
  else if T.signed then builtinLt T int32 t 0 || builtinLt (makeUnsigned T) U (conv (makeUnsigned T) t) u
  else !builtinLt U int32 u 0 && builtinLt T (makeUnsigned U) t (conv (makeUnsigned U) u)

/-- comparison.hpp:67-83. -/
def cmpGreater (T U : IntTy) (t u : ℤ) : Bool := cmpLess U T u t
def cmpLessEqual (T U : IntTy) (t u : ℤ) : Bool := !cmpLess U T u t
def cmpGreaterEqual (T U : IntTy) (t u : ℤ) : Bool := !cmpLess T U t u

/-- comparison.hpp:100: the values of `detail::Ord`. -/
def ordValue : POrd → ℤ
  | .equivalent => 0
  | .less => -1
  | .greater => 1
  | .unordered => 2

/-- comparison.hpp:122-162, with `0` on the right: the operators of `partial_ordering`, on the value stored. -/
def poEq (v : ℤ) : Bool := v == 0
def poNe (v : ℤ) : Bool := v != 0
def poLt (v : ℤ) : Bool := v == -1
def poGt (v : ℤ) : Bool := v == 1
def poLe (v : ℤ) : Bool := decide (v ≤ 0)
def poGe (v : ℤ) : Bool := v == 1 || v == 0

/-- The same with `0` on the left. -/
def zeroLt (v : ℤ) : Bool := v == 1
def zeroGt (v : ℤ) : Bool := v == -1
def zeroLe (v : ℤ) : Bool := v == 1 || v == 0
def zeroGe (v : ℤ) : Bool := decide (v ≤ 0)

/-- comparison.hpp:176-189 `compare_three_way`. -/
def compareThreeWay (T U : IntTy) (t u : ℤ) : POrd :=
  if cmpEqual T U t u then .equivalent
  else if cmpLess T U t u then .less
  else if cmpGreater T U t u then .greater
  else .unordered

/-- comparison.hpp:192-212 `lexicographical_compare_three_way`; the iterators stand for what is left of the lists. -/
def lexCompare {α β : Type} (c : α → β → POrd) : List α → List β → POrd
  | a :: l, b :: r => if c a b ≠ .equivalent then c a b else lexCompare c l r
  | _ :: _, [] => .greater
  | [], _ :: _ => .less
  | [], [] => .equivalent

/-! ## ranges/range-access.hpp: advance

Iterators are positions. -/

/-- Lines 317-339: `advance(i, n)`; `random` and `bidirectional` are the categories. -/
def up : ℕ → ℤ → ℤ
  | 0, p => p
  | n + 1, p => up n (p + 1)
def down : ℕ → ℤ → ℤ
  | 0, p => p
  | n + 1, p => down n (p - 1)
def advance (random bidirectional : Bool) (p n : ℤ) : ℤ :=
  if random then p + n
  else if bidirectional then down (-n).toNat (up n.toNat p)
  else up n.toNat p

/-- Lines 342-352: `advance(i, bound)`; `fuel` is a bound on the steps of the loop, `none` if it does not suffice. -/
def advanceLoop (b : ℤ) : ℕ → ℤ → Option ℤ
  | 0, p => if p = b then some p else none
  | n + 1, p => if p = b then some p else advanceLoop b n (p + 1)
def advanceTo (assignable sized random bidirectional : Bool) (fuel : ℕ) (p b : ℤ) : Option ℤ :=
  if assignable then some b
  else if sized then some (advance random bidirectional p (b - p))
  else advanceLoop b fuel p

/-- Lines 355-392: `advance(i, n, bound)`: the position and what is returned. -/
def upTo (b : ℤ) : ℕ → ℤ → ℤ × ℕ
  | 0, p => (p, 0)
  | n + 1, p => if p = b then (p, n + 1) else upTo b n (p + 1)
def downTo (b : ℤ) : ℕ → ℤ → ℤ × ℕ
  | 0, p => (p, 0)
  | n + 1, p => if p = b then (p, n + 1) else downTo b n (p - 1)
def advanceBounded (assignable sized random bidirectional : Bool) (p n b : ℤ) : ℤ × ℤ :=
  if sized then
    let dist := |n| - |b - p|
    if dist < 0 then (if assignable then b else advance random bidirectional p (b - p), -dist)
    else (advance random bidirectional p n, 0)
  else if n > 0 then let r := upTo b n.toNat p; (r.1, r.2)
  else if bidirectional then let r := downTo b (-n).toNat p; (r.1, -r.2)
  else (p, n)

/-! ## views -/

/-- concat.hpp:60-72 `make_index_table_range`: for each element the view it belongs to. -/
def indexTable : List ℕ → ℕ → List ℕ
  | [], _ => []
  | n :: ns, c => List.replicate n c ++ indexTable ns (c + 1)

/-- concat.hpp:92-105 `make_start_table`: for each view where it starts. -/
def startTable : List ℕ → ℕ → List ℕ
  | [], _ => []
  | n :: ns, cur => cur :: startTable ns (cur + n)

variable {α : Type}

/-- concat.hpp:181-206 `operator*`, `operator[]`, given the table of calls (lines 139-150). -/
def concatAt (sizes : List ℕ) (calls : List (ℤ → Option α)) (i : ℤ) : Option α :=
  if i < 0 then none
  else
    match (indexTable sizes 0)[i.toNat]? with
    | none => none
    | some c =>
      match (startTable sizes 0)[c]?, calls[c]? with
      | some s, some f => f (i - s)
      | _, _ => none

/-- The size of each view: concat.hpp:304-313, reverse.hpp:75-81, transform.hpp:252-258, repeat.hpp:162-172, single.hpp:113-114. -/
def View.size : View α → ℕ
  | .base l => l.length
  | .reverse v => v.size
  | .transform _ v => v.size
  | .concat vs => (vs.map View.size).sum
  | .repeat _ n => n
  | .single _ => 1

/-- Element `i` from `begin()`: concat.hpp:181-206, reverse.hpp:53-72 (a `std::reverse_iterator` refers to the element before its base), transform.hpp:96-105,
repeat.hpp:73-75, single.hpp:85-100.  `none` is a read outside of the elements. -/
def View.at : View α → ℤ → Option α
  | .base l, i => if i < 0 then none else l[i.toNat]?
  | .reverse v, i => v.at ((v.size - i) - 1)
  | .transform f v, i => (v.at i).map f
  | .concat vs, i => concatAt (vs.map View.size) (vs.map View.at) i
  | .repeat x _, _ => some x
  | .single x, i => if i = 0 then some x else none

/-- view_interface.hpp:34-50, 91-115: `empty`, `front`, `back`, `operator[]`. -/
def View.empty (v : View α) : Bool := v.size == 0
def View.front (v : View α) : Option α := v.at 0
def View.back (v : View α) : Option α := v.at (v.size - 1)

/-- reverse.hpp:104-128 `views::reverse`: unwraps a reversed view. -/
def reverseAdaptor : View α → View α
  | .reverse v => v
  | v => .reverse v

/-- concat.hpp:334-349 `views::concat`: a single view is returned as it is. -/
def concatAdaptor : List (View α) → View α
  | [v] => v
  | vs => .concat vs

/-! ## iota.hpp -/

/-- iota.hpp:44-46 `iota_diff_t`: the type of differences of an integer type, which is `iter_difference_t` (signed, after promotion, iterator.hpp:161-166)
if that has more bits, else `std::ptrdiff_t`. -/
def iotaDiff (W : IntTy) : IntTy :=
  if (promote W).bits > W.bits then ⟨true, (promote W).bits⟩ else ⟨true, 64⟩

/-- A result in a type: `none` if an operation on signed integers overflows. -/
def arith (T : IntTy) (z : ℤ) : Option ℤ := if T.signed then (if -2 ^ (T.bits - 1) ≤ z ∧ z < 2 ^ (T.bits - 1) then some z else none) else some (z % 2 ^ T.bits)

/-- `v op= n` with `v` of type `W` and `n` of type `N`: computed in the common type, then converted. -/
def opAssign (W N : IntTy) (op : ℤ → ℤ → ℤ) (v n : ℤ) : Option ℤ :=
  (arith (common W N) (op (conv (common W N) v) (conv (common W N) n))).map (conv W)

/-- `-n`. -/
def negate (D : IntTy) (n : ℤ) : Option ℤ := arith (promote D) (-n)

/-- iota.hpp:120-128 `operator+=`. -/
def iotaPlus (W : IntTy) (v n : ℤ) : Option ℤ :=
  let D := iotaDiff W
  if W.signed then opAssign W D (· + ·) v n
  else if n ≥ 0 then opAssign W W (· + ·) v (conv W n)
  else (negate D n).bind fun k => opAssign W W (· - ·) v (conv W k)

/-- iota.hpp:130-138 `operator-=`. -/
def iotaMinus (W : IntTy) (v n : ℤ) : Option ℤ :=
  let D := iotaDiff W
  if W.signed then opAssign W D (· - ·) v n
  else if n ≥ 0 then opAssign W W (· - ·) v (conv W n)
  else (negate D n).bind fun k => opAssign W W (· + ·) v (conv W k)

/-- iota.hpp:140-141 `operator[]`. -/
def iotaAt (W : IntTy) (v n : ℤ) : Option ℤ := opAssign W (iotaDiff W) (· + ·) v n

/-- iota.hpp:164-174: the difference of two iterators. -/
def iotaSub (W : IntTy) (x y : ℤ) : Option ℤ :=
  let D := iotaDiff W
  if W.signed then (arith (promote D) (conv D x - conv D y)).map (conv D)
  else if builtinLt W W x y then
    (arith (common W W) (y - x)).bind fun d => (negate D (conv D d)).map (conv D)
  else (arith (common W W) (x - y)).map (conv D)

/-- `iter_difference_t` of an integer type (iterator.hpp:161-166). -/
def iterDiff (W : IntTy) : IntTy := ⟨true, (promote W).bits⟩

/-- iota.hpp:198-199: an iterator less a sentinel. -/
def iotaSubBound (W B : IntTy) (v b : ℤ) : Option ℤ :=
  (arith (common W B) (conv (common W B) v - conv (common W B) b)).map (conv (iterDiff W))

/-- iota.hpp:201-202: a sentinel less an iterator. -/
def iotaBoundSub (W B : IntTy) (v b : ℤ) : Option ℤ :=
  (arith (common W B) (conv (common W B) v - conv (common W B) b)).bind fun d => (arith (common W B) (-d)).map (conv (iterDiff W))

/-- `std::size_t`. -/
def sizeT : IntTy := ⟨false, 64⟩

/-- iota.hpp:264-279 `size` for integer types. -/
def iotaSize (W B : IntTy) (v b : ℤ) : Option ℤ :=
  if builtinLt W int32 v 0 then
    if builtinLt B int32 b 0 then
      (negate W v).bind fun x => (negate B b).bind fun y => arith sizeT (conv sizeT x - conv sizeT y)
    else (negate W v).bind fun x => arith sizeT (conv sizeT b + conv sizeT x)
  else arith sizeT (conv sizeT b - conv sizeT v)

/-- iota.hpp:108 `++`. -/
def iotaNext (W : IntTy) (v : ℤ) : Option ℤ := opAssign W int32 (· + ·) v 1

/-- Going through the view: iota.hpp:190-196 compares with the sentinel.  `none` if an operation overflows or `fuel` steps do not suffice. -/
def iotaWalk (W B : IntTy) (b : ℤ) : ℕ → ℤ → Option (List ℤ)
  | 0, v => if builtinEq W B v b then some [] else none
  | n + 1, v => if builtinEq W B v b then some [] else (iotaNext W v).bind fun v' => (iotaWalk W B b n v').map (v :: ·)

/-! ## movable_box.hpp -/

/-- `copyable` and `movable`. -/
def Traits.movable (T : Traits) : Bool := T.moveCtor && T.moveAssign
def Traits.copyable (T : Traits) : Bool := T.copyCtor && T.movable && T.copyAssign

/-- movable_box.hpp:27-54: whether the value is held directly or in a `std::optional`. -/
def Traits.direct (T : Traits) : Bool :=
  (T.copyCtor && (T.copyable || (T.nothrowMove && T.nothrowCopy))) || (!T.copyCtor && (T.movable || T.nothrowMove))

/-- Copy assignment of different boxes with C++20: movable_box.hpp:98-114 (optional), 192-205 (direct). -/
def copyAssign20 (T : Traits) (_a b : α) : Assign α :=
  if T.copyable then .done b (some b)
  else if T.copyCtor then .done b (some b)
  else .illFormed

/-- Copy assignment with C++17: movable_box.hpp:207-225 (direct); of the optional one (lines 103-114) the operator is a template and so no copy assignment,
and the implicit one is deleted because of the move constructor.  Line 210 makes all of the body depend on `copyable`. -/
def copyAssign17 (T : Traits) (a b : α) : Assign α :=
  if T.direct then
    if !(T.copyCtor && T.nothrowCopy) then .illFormed
    else if T.copyable then .done b (some b)
    else .done a (some b)
  else .illFormed

/-- Move assignment with C++20: movable_box.hpp:117-132 (optional), 230-243 (direct, which constructs from `*that`, an lvalue).
With an optional of a movable type the operator of lines 117-132 is not available and the one that copies is chosen. -/
def moveAssign20 (T : Traits) (_a b : α) : Assign α :=
  if T.direct then
    if T.movable then .done b none
    else if !T.nothrowMove then .illFormed
    else if T.copyCtor then .done b (some b)
    else .illFormed
  else if T.movable then (if T.copyCtor then .done b (some b) else .illFormed)
  else .done b none

/-- Move assignment with C++17: movable_box.hpp:245-262 (direct); lines 257-258 return a pointer instead of a reference.
Of the optional one (lines 121-132) the operator is available if the type is not movable; else the deleted copy assignment is chosen. -/
def moveAssign17 (T : Traits) (_a b : α) : Assign α :=
  if T.direct then
    if !T.nothrowMove then .illFormed
    else if T.movable then .done b none
    else .illFormed
  else if T.movable then .illFormed
  else .done b none

end OpenKalman.Compat
