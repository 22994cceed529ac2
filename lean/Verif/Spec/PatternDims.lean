import Verif.Spec.Shape

/-!
# Specification of statements about the dimensions of the patterns in a collection (C76)

A collection has a number of patterns (`none`: no end) and the dimension of each; it continues with patterns of dimension 1.
-/

namespace OpenKalman.PatternDims

/-- The dimensions in a collection. -/
structure Dims where
  len : Option Nat
  dim : Nat → Nat

/-- Position `i` is within the collection. -/
def Dims.Has (c : Dims) (i : Nat) : Prop := ∀ n, c.len = some n → i < n

instance (c : Dims) (i : Nat) : Decidable (c.Has i) :=
  match h : c.len with
  | none => isTrue fun _ e => by simp [h] at e
  | some n => if hi : i < n then isTrue fun m e => by rw [h] at e; cases e; exact hi else isFalse fun hc => hi (hc n h)

/-- The dimension at position `i`, 1 beyond the end. -/
def Dims.padded (c : Dims) (i : Nat) : Nat := if c.Has i then c.dim i else 1

/-- Position `i` is among the first `N` (all patterns of the collection if no number is given). -/
def Dims.Among (c : Dims) (N : Option Nat) (i : Nat) : Prop :=
  match N with
  | some n => i < n
  | none => c.Has i

/-- The first `N` patterns have a dimension in relation `r` to `d`. -/
def AllCompare (r : Shape.Rel) (N : Option Nat) (c : Dims) (d : Nat) : Prop := ∀ i, c.Among N i → r.holds (c.padded i) d

/-- `d` is the dimension of each of the first `N` patterns. -/
def Common (N : Option Nat) (c : Dims) (d : Nat) : Prop := ∀ i, c.Among N i → c.padded i = d

/-- The first `N` patterns all have the same dimension. -/
def AllSame (N : Option Nat) (c : Dims) : Prop := ∃ d, Common N c d

end OpenKalman.PatternDims
