import Mathlib.Data.List.Basic

/-!
# Specification of collection views: the list operations they stand for
-/

namespace OpenKalman.Collections

/-- The list `l` repeated `f` times. -/
def repeatList {α : Type} (l : List α) (f : Nat) : List α := (List.replicate f l).flatten

/-- The sub-list of `l` starting at `off` with `ext` elements (to the end if `ext` is not given). -/
def subList {α : Type} (l : List α) (off : Nat) : Option Nat → List α
  | some e => (l.drop off).take e
  | none => l.drop off

end OpenKalman.Collections
