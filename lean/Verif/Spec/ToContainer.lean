import Mathlib.Data.List.Forall2
import Mathlib.Data.List.Nodup

/-!
# Specification: copying a range into a container

Types of containers and the values in them.  This file says when a container holds what a range
holds and which containers the standard's `std::ranges::to` is able to fill; it does not know how the
library fills them.
-/

namespace OpenKalman.ToContainer

/-- What `c.emplace(c.end(), x)` means for a container. -/
inductive Emplace where
  /-- There is no member `emplace` (or it does not take two arguments). -/
  | absent
  /-- The first argument is a position: `std::vector`, `std::list`, `std::deque`. -/
  | position
  /-- All arguments go to the constructor of the new element: `std::set`, `std::map` and their
  relatives.  The member is not constrained, so that asking for it succeeds and only the body fails. -/
  | arguments
  deriving DecidableEq, Repr

/-- What there is to know about a class of containers. -/
structure Kind where
  /-- Each value occurs at most once (`std::set`). -/
  unique : Bool
  /-- There is a constructor from a range of any type with the right elements. -/
  fromRange : Bool
  /-- There is a constructor from a pair of iterators. -/
  fromIterators : Bool
  /-- There is a constructor without arguments. -/
  fromNothing : Bool
  /-- Members `emplace_back(x)` and `push_back(x)`. -/
  emplaceBack : Bool
  pushBack : Bool
  emplace : Emplace
  /-- A member `insert(position, x)`. -/
  insert : Bool
  deriving DecidableEq, Repr

/-- Types: arithmetic types (by name) and containers of a type. -/
inductive Ty where
  | scalar (name : Nat)
  | cont (k : Kind) (elem : Ty)
  deriving DecidableEq, Repr

/-- Values. -/
inductive Val where
  | num (z : Int)
  | seq (xs : List Val)

/-- A value is one of a type.  A container in which values are unique has no repetitions. -/
def HasTy : Ty → Val → Prop
  | .scalar _, .num _ => True
  | .cont k e, .seq xs => (∀ x ∈ xs, HasTy e x) ∧ (k.unique = true → xs.Nodup)
  | _, _ => False

/-- Container `ys`, of kind `k`, holds what `xs` holds: the same values in the same order, or, if values
are unique, the same values each once; with `same` telling which values are the same. -/
def Holds (k : Kind) (same : Val → Val → Prop) (xs ys : List Val) : Prop :=
  if k.unique = true then
    ys.Nodup ∧ (∀ x ∈ xs, ∃ y ∈ ys, same x y) ∧ (∀ y ∈ ys, ∃ x ∈ xs, same x y)
  else List.Forall₂ same xs ys

/-- Value `b` of type `t` is what value `a` turns into. -/
def Same : Ty → Val → Val → Prop
  | .scalar _, .num a, .num b => a = b
  | .cont k e, .seq xs, .seq ys => Holds k (Same e) xs ys
  | _, _, _ => False

/-- A value of the first type can be used as one of the second without copying elements. -/
def Convertible (t e : Ty) : Prop :=
  t = e ∨ ∃ a b, t = .scalar a ∧ e = .scalar b

/-- A range from which a container is filled: its own type if it is a container, whether the range is
itself an iterator (as `std::filesystem::directory_iterator` is), whether `end` has the type of
`begin`, and the type of its elements. -/
structure Source where
  self : Option Ty
  isIterator : Bool
  common : Bool
  elem : Ty

/-- A container as a source. -/
def Source.ofCont (k : Kind) (e : Ty) : Source :=
  { self := some (.cont k e), isIterator := false, common := true, elem := e }

/-- One of the four ways of adding an element at the end works. -/
def Appendable (k : Kind) : Prop :=
  k.emplaceBack = true ∨ k.pushBack = true ∨ k.emplace = .position ∨
    (k.emplace = .absent ∧ k.insert = true)

/-- The standard's `std::ranges::to` can make a container of kind `k` out of such elements:
from the range, from a pair of iterators, or by adding elements one by one. -/
def StdBuilds (k : Kind) (e : Ty) (s : Source) : Prop :=
  k.fromRange = true ∨ s.self = some (.cont k e) ∨ (s.common = true ∧ k.fromIterators = true) ∨
    (k.fromNothing = true ∧ Appendable k)

/-- The range of the elements that have been converted, in `std::ranges::to`. -/
def Source.converted (s : Source) (e : Ty) : Source :=
  { self := none, isIterator := false, common := s.common, elem := e }

/-- What the standard's `std::ranges::to` accepts. -/
def StdAccepts : Ty → Source → Prop
  | .scalar _, _ => False
  | .cont k e, s =>
    (Convertible s.elem e ∧ StdBuilds k e s) ∨
    (¬ Convertible s.elem e ∧ StdBuilds k e (s.converted e) ∧
      ∃ k' t', s.elem = .cont k' t' ∧ StdAccepts e (.ofCont k' t'))

/-- Containers of containers all of which can be filled one by one. -/
def Plain : Ty → Prop
  | .scalar _ => True
  | .cont k e => k.fromNothing = true ∧ Appendable k ∧ Plain e

/-- Number of containers around the arithmetic type. -/
def depth : Ty → Nat
  | .scalar _ => 0
  | .cont _ e => depth e + 1

end OpenKalman.ToContainer
