import Verif.Spec.Order

/-!
# Specification vocabulary for patterns (C09–C17)
-/

namespace OpenKalman.Patterns

/-- Cut a list into consecutive blocks of the given lengths. -/
def splitBy {α : Type} : List Nat → List α → List (List α)
  | [], _ => []
  | n :: ns, l => l.take n :: splitBy ns (l.drop n)

/-- One axis of a pattern once Euclidean dimensions are merged: a plain axis, or a non-Euclidean descriptor known by its code. -/
inductive Axis (κ : Type) | plain | special (k : κ)
  deriving DecidableEq

/-- What a descriptor contributes to a pattern: `some n` for `n` plain axes, or a non-Euclidean descriptor with code `k`. -/
inductive Part (κ : Type) | plain (n : Nat) | special (k : κ)

/-- The sequence of axes of a pattern. -/
def Part.axes {κ : Type} : Part κ → List (Axis κ)
  | .plain n => List.replicate n .plain
  | .special k => [.special k]

/-- The sequence of axes of a list of descriptors: adjacent Euclidean dimensions merge, empty ones vanish. -/
def axesOf {κ : Type} (l : List (Part κ)) : List (Axis κ) := (l.map Part.axes).flatten

/-- The partial order by prefix. -/
def prefixCmp {α : Type} [DecidableEq α] (l r : List α) : POrd :=
  if l = r then .equivalent else if l.isPrefixOf r then .less else if r.isPrefixOf l then .greater else .unordered

end OpenKalman.Patterns
