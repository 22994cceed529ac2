import Verif.Spec.Order

/-!
# Specification vocabulary for collections of patterns (C14–C17)
-/

namespace OpenKalman.PatternColl

/-- Entry `i` of a collection that continues with `one` for ever. -/
def padded {α : Type} (one : α) (l : List α) (i : Nat) : α := l.getD i one

/-- Two collections agree entry by entry, when both continue with `one` for ever. -/
def AgreePadded {α : Type} (R : α → α → Prop) (one : α) (a b : List α) : Prop := ∀ i, R (padded one a i) (padded one b i)

/-- `s` is `l` without its trailing entries satisfying `p`: what is removed satisfies `p`, and what is left does not end in such an entry. -/
def IsStrip {α : Type} (p : α → Prop) (l s : List α) : Prop :=
  (∃ t, l = s ++ t ∧ ∀ x ∈ t, p x) ∧ ∀ x, s.getLast? = some x → ¬ p x

/-- Exchanging two positions. -/
def swapIdx (a b i : Nat) : Nat := if i = a then b else if i = b then a else i

/-- `i` is the first position of a largest value. -/
def FirstMax (d : List Nat) (i : Nat) : Prop := i < d.length ∧ (∀ j, d.getD j 0 ≤ d.getD i 0) ∧ ∀ j, j < i → d.getD j 0 < d.getD i 0

/-- `i` is the first position of a smallest value. -/
def FirstMin (d : List Nat) (i : Nat) : Prop :=
  i < d.length ∧ (∀ j, j < d.length → d.getD i 0 ≤ d.getD j 0) ∧ ∀ j, j < i → d.getD i 0 < d.getD j 0

end OpenKalman.PatternColl
