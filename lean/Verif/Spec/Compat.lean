import Mathlib.Data.List.Forall2
import Mathlib.Algebra.Order.Group.Int
import Mathlib.Algebra.Order.Group.Unbundled.Int
import Verif.Spec.Order

/-!
# Specification of the replacements for parts of the standard library (C98–C102)
-/

namespace OpenKalman.Compat

/-- An integer type: signed or not, of a number of bits. -/
structure IntTy where
  signed : Bool
  bits : ℕ
  deriving DecidableEq

/-- The numbers of an integer type. -/
def IntTy.Has (T : IntTy) (z : ℤ) : Prop := if T.signed then -2 ^ (T.bits - 1) ≤ z ∧ z < 2 ^ (T.bits - 1) else 0 ≤ z ∧ z < 2 ^ T.bits

/-- The order of two numbers. -/
def order (t u : ℤ) : POrd := if t < u then .less else if t = u then .equivalent else .greater

/-- The comparison of two lists is that of the first elements that are not equivalent, or else of the lengths. -/
def LexResult {α β : Type} (c : α → β → POrd) (l : List α) (r : List β) (o : POrd) : Prop :=
  ∃ k, (∀ i a b, i < k → l[i]? = some a → r[i]? = some b → c a b = .equivalent) ∧ k ≤ l.length ∧ k ≤ r.length ∧
    ((∃ a b, l[k]? = some a ∧ r[k]? = some b ∧ c a b ≠ .equivalent ∧ o = c a b) ∨
     (k = l.length ∧ k = r.length ∧ o = .equivalent) ∨ (k = l.length ∧ k < r.length ∧ o = .less) ∨ (k < l.length ∧ k = r.length ∧ o = .greater))

/-- Moving an iterator from `p` by `n` steps, but not beyond `b`, which lies in the direction of `n`: where it ends and how many steps are left. -/
def bounded (p n b : ℤ) : ℤ × ℤ := if |b - p| ≤ |n| then (b, n - (b - p)) else (p + n, 0)

/-- The views. -/
inductive View (α : Type)
  | base (l : List α)
  | reverse (v : View α)
  | transform (f : α → α) (v : View α)
  | concat (vs : List (View α))
  | repeat (x : α) (n : ℕ)
  | single (x : α)

/-- The elements of a view. -/
def View.elems {α : Type} : View α → List α
  | .base l => l
  | .reverse v => v.elems.reverse
  | .transform f v => v.elems.map f
  | .concat vs => (vs.map View.elems).flatten
  | .repeat x n => List.replicate n x
  | .single x => [x]

/-- The types of one to eight bytes. -/
def IntTy.Std (T : IntTy) : Prop := T.bits = 8 ∨ T.bits = 16 ∨ T.bits = 32 ∨ T.bits = 64

/-- What a type can do: be copied and moved, by construction and by assignment, and whether construction may throw. -/
structure Traits where
  copyCtor : Bool
  moveCtor : Bool
  copyAssign : Bool
  moveAssign : Bool
  nothrowCopy : Bool
  nothrowMove : Bool

/-- Such types as a box can hold: a copy constructor also serves to move, and what cannot throw exists. -/
def Traits.Boxable (T : Traits) : Prop :=
  T.moveCtor = true ∧ (T.nothrowCopy = true → T.copyCtor = true) ∧ (T.nothrowMove = true → T.moveCtor = true)

/-- What an assignment does: it does not compile, or it leaves values in the target and the source (`none`: moved from). -/
inductive Assign (α : Type) | illFormed | done (target : α) (source : Option α)
  deriving DecidableEq

end OpenKalman.Compat
