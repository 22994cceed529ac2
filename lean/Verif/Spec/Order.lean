/-!
# Three-way comparison results and the lexicographic order

`std::partial_ordering` and what "lexicographic comparison" means, independently of any implementation.
-/

namespace OpenKalman

/-- `std::partial_ordering`. -/
inductive POrd | less | equivalent | greater | unordered
  deriving DecidableEq, Repr

namespace POrd

/-- The result of the comparison with the operands exchanged. -/
def rev : POrd → POrd
  | less => greater
  | greater => less
  | o => o

/-- `std::is_eq` and its companions. -/
def isEq : POrd → Bool | equivalent => true | _ => false
def isLt : POrd → Bool | less => true | _ => false
def isGt : POrd → Bool | greater => true | _ => false
def isLteq : POrd → Bool | less | equivalent => true | _ => false
def isGteq : POrd → Bool | greater | equivalent => true | _ => false

end POrd

namespace Collections

/-- `l` comes before `r` in the lexicographic order: after a common part whose elements are pairwise equivalent, either `l` ends first or the
next elements compare as less. -/
def LexLess {α β : Type} (cmp : α → β → POrd) (l : List α) (r : List β) : Prop :=
  ∃ k, (∀ i (hl : i < l.length) (hr : i < r.length), i < k → cmp l[i] r[i] = .equivalent) ∧
    ((k = l.length ∧ k < r.length) ∨ ∃ (hl : k < l.length) (hr : k < r.length), cmp l[k] r[k] = .less)

/-- `l` and `r` are elementwise equivalent. -/
def LexEq {α β : Type} (cmp : α → β → POrd) (l : List α) (r : List β) : Prop :=
  l.length = r.length ∧ ∀ i (hl : i < l.length) (hr : i < r.length), cmp l[i] r[i] = .equivalent

/-- The laws a three-way element comparison has to satisfy for order statements to make sense (a partial order up to equivalence). -/
structure OrderLaws {α : Type} (cmp : α → α → POrd) : Prop where
  refl : ∀ a, cmp a a = .equivalent
  rev : ∀ a b, cmp b a = (cmp a b).rev
  eq_left : ∀ a b c, cmp a b = .equivalent → cmp a c = cmp b c
  trans : ∀ a b c, cmp a b = .less → cmp b c = .less → cmp a c = .less

end Collections
end OpenKalman
