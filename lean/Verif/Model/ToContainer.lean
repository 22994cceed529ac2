import Verif.Spec.ToContainer

/-!
# Model: `stdex::ranges::to`

`OpenKalman/basics/compatibility/views/to.hpp`, used if the standard library has no `ranges::to`.

Simplified: arithmetic types convert to each other without change of value; containers convert only
to their own type; arguments after the range construct an empty or non-empty container and are
represented by its elements; `reserve` (line 235) has no effect on elements; order within a set is not
modelled, only which values are in it.
-/

namespace OpenKalman.ToContainer

/-- Why a call does not compile. -/
inductive Refusal where
  /-- `static_assert(std::is_class_v<Cont>)`, to.hpp:218. -/
  | notClass
  /-- `static_assert(constructible_from<Cont, Args...>)`, to.hpp:233. -/
  | notConstructible
  /-- The arguments of `emplace` (to.hpp:244) do not construct an element. -/
  | badEmplace
  /-- No member `insert` (to.hpp:250). -/
  | noInsert
  /-- `static_assert(input_range<range_reference_t<Rg>>)`, to.hpp:258. -/
  | notRange
  deriving DecidableEq, Repr

/-- `std::convertible_to<range_reference_t<Range>, range_value_t<Cont>>` — to.hpp:146-150 (and
166-180 without concepts); a container is always an input range. -/
def toable : Ty → Ty → Bool
  | .scalar _, .scalar _ => true
  | t, e => decide (t = e)

/-- Insertion at a position given as a hint: nothing happens in a set that already has the value. -/
noncomputable def insertValue (k : Kind) (acc : List Val) (x : Val) : List Val :=
  open Classical in
  if k.unique = true ∧ x ∈ acc then acc else acc ++ [x]

/-- One turn of the loop — to.hpp:241-250: the first member that can be asked for. -/
noncomputable def append (k : Kind) (acc : List Val) (x : Val) : Except Refusal (List Val) :=
  if k.emplaceBack then .ok (insertValue k acc x)
  else if k.pushBack then .ok (insertValue k acc x)
  else match k.emplace with
    | .position => .ok (insertValue k acc x)
    | .arguments => .error .badEmplace
    | .absent => if k.insert then .ok (insertValue k acc x) else .error .noInsert

/-- The loop over the range — to.hpp:237-252. -/
noncomputable def fill (k : Kind) : List Val → List Val → Except Refusal (List Val)
  | acc, [] => .ok acc
  | acc, x :: xs =>
    match append k acc x with
    | .ok acc' => fill k acc' xs
    | .error r => .error r

/-- Whether the loop body compiles; it does so or not whether or not there are elements. -/
noncomputable def body (k : Kind) : Except Refusal Unit :=
  match append k [] (.num 0) with
  | .ok _ => .ok ()
  | .error r => .error r

/-- A container made from all elements by one of its constructors: a set drops repetitions. -/
noncomputable def construct (k : Kind) : List Val → List Val → List Val
  | acc, [] => acc
  | acc, x :: xs => construct k (insertValue k acc x) xs

/-- `constructible_from<Cont, Rg>` — to.hpp:222: a copy, or a constructor from ranges. -/
def constructibleFrom (k : Kind) (e : Ty) (s : Source) : Bool :=
  k.fromRange || decide (s.self = some (.cont k e))

/-- The branches for elements that convert — to.hpp:222-254.  The second one asks whether the range
(not its iterator) is an iterator. -/
noncomputable def build (k : Kind) (e : Ty) (s : Source) (xs : List Val) : Except Refusal (List Val) :=
  if constructibleFrom k e s then .ok (construct k [] xs)
  else if s.isIterator && s.common && k.fromIterators then .ok (construct k [] xs)
  else if k.fromNothing then
    match body k with
    | .ok _ => fill k [] xs
    | .error r => .error r
  else .error .notConstructible

/-- The elements of a value that is a container. -/
def Val.items : Val → List Val
  | .num _ => []
  | .seq xs => xs

/-- Apply a function to the elements one after the other (`views::transform`, to.hpp:259-260). -/
def mapAll (f : Val → Except Refusal Val) : List Val → Except Refusal (List Val)
  | [] => .ok []
  | x :: xs =>
    match f x, mapAll f xs with
    | .ok y, .ok ys => .ok (y :: ys)
    | .error r, _ => .error r
    | _, .error r => .error r

/-- Wrap the elements of a container. -/
def wrap : Except Refusal (List Val) → Except Refusal Val
  | .ok ys => .ok (.seq ys)
  | .error r => .error r

/-- `to<Cont>(r)` — to.hpp:214-262. -/
noncomputable def toCont : Ty → Source → List Val → Except Refusal (List Val)
  | .scalar _, _, _ => .error .notClass
  | .cont k e, s, xs =>
    if toable s.elem e then build k e s xs
    else match s.elem with
      | .scalar _ => .error .notRange
      | .cont k' t' =>
        -- the lambda is compiled for the type of the elements, whether or not there are any
        match toCont e (.ofCont k' t') [] with
        | .error r => .error r
        | .ok _ =>
          match mapAll (fun x => wrap (toCont e (.ofCont k' t') x.items)) xs with
          | .error r => .error r
          | .ok ys => build k e (s.converted e) ys

/-- `to<Cont>(r, args...)` where the arguments construct a container that has elements `init`, in the
case in which elements are added one by one — to.hpp:233-253. -/
noncomputable def toFrom (k : Kind) (init xs : List Val) : Except Refusal (List Val) :=
  match body k with
  | .ok _ => fill k init xs
  | .error r => .error r

/-- The closure `to<Cont>(args...)` (`Partial`, to.hpp:55-133): the stored arguments, or nothing after they
have been moved from. -/
structure Closure where
  init : Option (List Val)

/-- How a closure is named when it is called. -/
inductive Category where
  | lvalue | rvalue | constRvalue
  deriving DecidableEq, Repr

/-- `operator()` of the closure — to.hpp:68-73 (`const &`: arguments are passed as they are),
81-86 (`&&`: arguments are moved), 89-91 (`const &&`: deleted). -/
noncomputable def Closure.call (k : Kind) (c : Closure) (how : Category) (xs : List Val) :
    Option (Except Refusal (List Val) × Closure) :=
  match how, c.init with
  | .constRvalue, _ => none
  | _, none => none
  | .lvalue, some init => some (toFrom k init xs, c)
  | .rvalue, some init => some (toFrom k init xs, { init := none })

/-- Several calls of one closure. -/
noncomputable def Closure.calls (k : Kind) : Closure → List (Category × List Val) →
    Option (List (Except Refusal (List Val)))
  | _, [] => some []
  | c, (how, xs) :: rest =>
    match c.call k how xs with
    | none => none
    | some (r, c') => (Closure.calls k c' rest).map (r :: ·)

end OpenKalman.ToContainer
