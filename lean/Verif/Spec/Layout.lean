import Mathlib.Data.List.Basic
import Mathlib.Logic.Equiv.Basic

/-!
# Specification of storage layouts

What the C++ standard requires of an `mdspan` layout mapping and accessor ([mdspan.layout.reqmts], [mdspan.accessor.reqmts]), stated
for an arbitrary function from index tuples to offsets.  Nothing here mentions how OpenKalman computes an offset.
-/

namespace OpenKalman.Layout

/-- `idx` is an index tuple inside the rectangle of extents `ext`. -/
def InRange (ext idx : List Nat) : Prop := List.Forall₂ (· < ·) idx ext

/-- Every in-range index lands inside the declared span. -/
def StaysInSpan (ext : List Nat) (f : List Nat → Nat) (span : Nat) : Prop :=
  ∀ idx, InRange ext idx → f idx < span

/-- Distinct in-range indices land on distinct offsets (`is_unique`). -/
def Unique (ext : List Nat) (f : List Nat → Nat) : Prop :=
  ∀ i j, InRange ext i → InRange ext j → f i = f j → i = j

/-- `idx` with its `r`-th index incremented. -/
def bump (r : Nat) (idx : List Nat) : List Nat := idx.modify r (· + 1)

/-- Meaning of a reported stride `s` of index `r`: one step in index `r` moves the offset by `s`. -/
def StrideMeans (ext : List Nat) (f : List Nat → Nat) (r s : Nat) : Prop :=
  ∀ idx, InRange ext idx → InRange ext (bump r idx) → f (bump r idx) = f idx + s

/-- Every `stride(r)` with `r < rank` is defined and means what it says. -/
def StridesCorrect (ext : List Nat) (f : List Nat → Nat) (stride : Nat → Option Nat) : Prop :=
  ∀ r < ext.length, ∃ s, stride r = some s ∧ StrideMeans ext f r s

/-- The accessor-policy law: accessing through an offset handle is accessing at the sum of the offsets. -/
def OffsetLaw {H α : Type} (access : H → Nat → α) (offset : H → Nat → H) (valid : H → Nat → Prop) : Prop :=
  ∀ p i j, valid p (i + j) → access (offset p i) j = access p (i + j)

/-- `e` are the extents `ext` (continued with ones) with positions `a` and `b` exchanged. -/
def ExtentsSwapped (a b : Nat) (ext e : List Nat) : Prop :=
  e.length = max ext.length (b + 1) ∧ ∀ i < e.length, e.getD i 0 = ext.getD (Equiv.swap a b i) 1

/-- `y` is the index tuple `x` with positions `a` and `b` exchanged (as far as `y` is long). -/
def IndexSwapped (a b : Nat) (x y : List Nat) : Prop := ∀ i < y.length, y.getD i 0 = x.getD (Equiv.swap a b i) 0

/-- Which triangle of a matrix is stored. -/
inductive Triangle | lower | upper
  deriving DecidableEq

/-- Order in which the stored entries follow each other in memory. -/
inductive Order | rowMajor | columnMajor
  deriving DecidableEq

/-- `(r, c)` belongs to the stored triangle of an `n × n` matrix. -/
def Stored (n : Nat) : Triangle → Nat → Nat → Prop
  | .lower, r, c => r < n ∧ c ≤ r
  | .upper, r, c => c < n ∧ r ≤ c

/-- Entry `(r, c)` comes before entry `(r', c')` in the storage order. -/
def Before : Order → Nat → Nat → Nat → Nat → Prop
  | .rowMajor, r, c, r', c' => r < r' ∨ (r = r' ∧ c < c')
  | .columnMajor, r, c, r', c' => c < c' ∨ (c = c' ∧ r < r')

/-- The triangle kinds of the partition layout. -/
inductive Tri | lower | upper | diagonal
  deriving DecidableEq

/-- Row `i`, column `j` lies strictly inside (off the diagonal of) the stored triangle. -/
def Tri.strict : Tri → Nat → Nat → Prop
  | .lower, i, j => j < i
  | .upper, i, j => i < j
  | .diagonal, _, _ => False

/-- Row `i`, column `j` lies in the (closed) triangle. -/
def Tri.closed (t : Tri) (i j : Nat) : Prop := i = j ∨ t.strict i j

end OpenKalman.Layout
