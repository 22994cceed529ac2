import Mathlib.Data.List.Forall2
import Verif.Spec.Pattern

/-!
# Specification of what the type of a pattern says about its values (C95–C97)

A type of descriptor stands for a set of descriptors, and a type of pattern for a set of lists of descriptors.  A statement about types is right if it
is true of all values of the types; a statement that something is possible is right unless no values of the types make it true.
-/

namespace OpenKalman.PatTypes

open Patterns (Axis Part axesOf prefixCmp)

/-- The non-Euclidean descriptors: `κ` are their types, `ν` the descriptors they are (two types may be the same descriptor, as with limits given as an
integer and as a floating-point number). -/
structure Kinds (κ ν : Type) where
  val : κ → ν
  dim : ν → ℕ
  pos : ∀ v, 1 ≤ dim v
  le : ∀ v, dim v ≤ 3

variable {κ ν : Type} (K : Kinds κ ν)

/-- The type of a descriptor: `Dimensions<n>`, `Dimensions<>`, a non-Euclidean descriptor, or `Any`. -/
inductive Ty (κ : Type) | euc (n : Option ℕ) | special (k : κ) | erased
  deriving DecidableEq

/-- The descriptors of a type. -/
def Ty.Has : Ty κ → Part ν → Prop
  | .euc (some n), p => p = .plain n
  | .euc none, p => ∃ n, p = .plain n
  | .special k, p => p = .special (K.val k)
  | .erased, _ => True

/-- The same, where `Any` holds a descriptor that is not Euclidean. -/
def Ty.HasSpecial : Ty κ → Part ν → Prop
  | .erased, p => ∃ v, p = .special v
  | t, p => t.Has K p

/-- The type of a pattern: a descriptor, a collection of fixed size (a tuple or an array), or a range of any number of descriptors. -/
inductive PTy (κ : Type) | one (t : Ty κ) | fixed (ts : List (Ty κ)) | range (t : Ty κ)

/-- The patterns of a type, given the descriptors of a type. -/
def PTy.Values (H : Ty κ → Part ν → Prop) : PTy κ → List (Part ν) → Prop
  | .one t, l => ∃ p, l = [p] ∧ H t p
  | .fixed ts, l => List.Forall₂ H ts l
  | .range t, l => ∀ p ∈ l, H t p

/-- The number of dimensions as far as the type tells. -/
def Ty.known : Ty κ → ℕ
  | .euc (some n) => n
  | .euc none => 0
  | .special k => K.dim (K.val k)
  | .erased => 0

/-- The number of dimensions of a list as far as the types tell. -/
def total (ts : List (Ty κ)) : ℕ := (ts.map (Ty.known K)).sum

/-- The elements of a collection of fixed size. -/
def PTy.types : PTy κ → List (Ty κ)
  | .one t => [t]
  | .fixed ts => ts
  | .range _ => []

/-- The elements, where a range is to have `n` of them. -/
def PTy.expand (n : ℕ) : PTy κ → List (Ty κ)
  | .one t => [t]
  | .fixed ts => ts
  | .range t => List.replicate n t

/-- The known dimensions of two types of pattern (of a range, of one element more than the other has) can be added in 64 bits. -/
def Fits (T U : PTy κ) : Prop :=
  total K (T.expand (U.types.length + 1)) < 2 ^ 64 - 1 ∧ total K (U.expand (T.types.length + 1)) < 2 ^ 64 - 1

/-- A dimension given at run time is not next to another Euclidean dimension. -/
def Separate : List (Ty κ) → Prop
  | x :: y :: l => (x = .euc none → ∀ n, y ≠ .euc n) ∧ (y = .euc none → ∀ n, x ≠ .euc n) ∧ Separate (y :: l)
  | _ => True

/-- Everything is known at compile time. -/
def Closed (ts : List (Ty κ)) : Prop := ∀ t ∈ ts, t ≠ .erased ∧ t ≠ .euc none

/-- The named comparisons of a `std::partial_ordering` with zero. -/
inductive Comp | eq | neq | lt | gt | lteq | gteq
  deriving DecidableEq

/-- `std::is_eq` and its companions. -/
def Comp.holds : Comp → POrd → Bool
  | .eq, o => o.isEq
  | .neq, o => !o.isEq
  | .lt, o => o.isLt
  | .gt, o => o.isGt
  | .lteq, o => o.isLteq
  | .gteq, o => o.isGteq

/-- The number of axes of one descriptor. -/
def partDim : Part ν → ℕ
  | .plain n => n
  | .special v => K.dim v

/-- The number of dimensions of an axis. -/
def axisDim : Axis ν → ℕ
  | .plain => 1
  | .special v => K.dim v

/-- A pattern is a repetition of the one-dimensional axis `x`. -/
def IsUniform (x : Axis ν) (l : List (Part ν)) : Prop := axisDim K x = 1 ∧ ∀ y ∈ axesOf l, y = x

/-- The number of dimensions of a pattern. -/
def dims (l : List (Part ν)) : ℕ := (l.map (partDim K)).sum

/-- All patterns of a type have the same number of dimensions. -/
def Determined (T : PTy κ) : Prop := ∃ n, ∀ l : List (Part ν), T.Values (Ty.Has K) l → dims K l = n

end OpenKalman.PatTypes
