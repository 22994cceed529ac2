import Verif.Spec.Order
import Mathlib.Order.Bounds.Basic
import Mathlib.Data.List.Basic

/-!
# Specification of the shape of a tensor (C72–C74)

A shape is a list of extents; it continues with 1 for ever.  What a type knows about a shape is a list with `none` where the extent is only known
at run time; the shapes an object of the type can have are the instances of that list.
-/

namespace OpenKalman.Shape

/-- Extent `i` of a shape. -/
def extentOf (v : List Nat) (i : Nat) : Nat := v.getD i 1

/-- The shape `v` is one that an object of a type with compile-time extents `s` can have. -/
def Instance (s : List (Option Nat)) (v : List Nat) : Prop :=
  v.length = s.length ∧ ∀ (i n : Nat), s[i]? = some (some n) → v[i]? = some n

/-- The documented order of a tensor: the number of extents above 1, or 0 if there is an extent 0. -/
def orderOf (v : List Nat) : Nat := if 0 ∈ v then 0 else v.countP (1 < ·)

/-- Every extent but that of index `N` is 1. -/
def VectorAlong (N : Nat) (v : List Nat) : Prop := ∀ i, i ≠ N → extentOf v i = 1

/-- The built-in comparison of two numbers. -/
def natCmp (a b : Nat) : POrd := if a < b then .less else if a = b then .equivalent else .greater

/-- The six comparisons that can be asked of an ordering. -/
inductive Rel | eq | neq | lt | gt | lteq | gteq
  deriving DecidableEq

/-- The predicate of an ordering. -/
def Rel.test : Rel → POrd → Bool
  | .eq => POrd.isEq
  | .neq => fun o => !o.isEq
  | .lt => fun o => o == .less
  | .gt => fun o => o == .greater
  | .lteq => fun o => o == .less || o == .equivalent
  | .gteq => fun o => o == .greater || o == .equivalent

/-- The relation on numbers. -/
def Rel.holds : Rel → Nat → Nat → Prop
  | .eq => (· = ·)
  | .neq => (· ≠ ·)
  | .lt => (· < ·)
  | .gt => (· > ·)
  | .lteq => (· ≤ ·)
  | .gteq => (· ≥ ·)

/-- `e` is what `std::extents` of rank `rank` may hold for shape `v`: same extents, whatever the rank. -/
def SameShape (v w : List Nat) : Prop := ∀ i, extentOf v i = extentOf w i

end OpenKalman.Shape
