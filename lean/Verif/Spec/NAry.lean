import Mathlib.Data.List.Forall2
import Mathlib.Data.Nat.Notation
import Mathlib.Data.Int.Notation

/-!
# Specification of component-wise operations (C88–C91)

Arguments of a component-wise operation are broadcast: an extent of 1 is repeated as often as needed.
-/

namespace OpenKalman.NAry

/-- `n` is the extent of the result for arguments with extents `es`: extents are positive, and each is 1 or `n`. -/
def Common (es : List ℕ) (n : ℕ) : Prop := n ∈ es ∧ (∀ e ∈ es, 0 < e) ∧ ∀ e ∈ es, e = 1 ∨ e = n

/-- Positions in an object with extents `es`. -/
def InBounds (es j : List ℕ) : Prop := List.Forall₂ (fun i e => i < e) j es

/-- Element `j` of an object with extents `es`, repeated along the extents that are 1 (and along missing ones). -/
def stretched {α : Type} (es : List ℕ) (get : List ℕ → α) (j : List ℕ) : α :=
  get (List.zipWith (fun e i => if e = 1 then 0 else i) es j)

/-- The number of a position in row-major order. -/
def rowMajor : List ℕ → List ℕ → ℕ
  | e :: es, i :: j => i * es.prod + rowMajor es j
  | _, _ => 0

/-- `es` is a shape to which the extents `xs` can be stretched. -/
def Stretches : (xs es : List ℕ) → Prop
  | [], _ => True
  | _ :: _, [] => False
  | x :: xs, e :: es => (x = 1 ∨ x = e) ∧ Stretches xs es

/-- The dimensions of some indices. -/
def dimsAt (es is : List ℕ) : List ℕ := is.map fun i => es.getD i 1

/-- The positions along some indices. -/
def posAt (x is : List ℕ) : List ℕ := is.map fun i => x.getD i 0

end OpenKalman.NAry
