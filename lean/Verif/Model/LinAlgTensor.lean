import Mathlib.Algebra.Star.Basic
import Mathlib.Logic.Equiv.Basic

/-!
# Model of `transpose` and `conjugate_transpose` on tensors of any rank (C38)

A tensor has a dimension for every index (1 beyond its rank) and an element for every tuple of positions.  Tags speak about the slices in indices 0 and 1, as the
documentation of the concepts says (concepts/hermitian_matrix.hpp:49, concepts/diagonal_matrix.hpp:26).  All dimensions are static here.
-/

namespace OpenKalman.LinAlg

/-- A tensor with the compile-time facts the two functions ask about. -/
structure Ten (F : Type) where
  dims : ℕ → ℕ
  get : (ℕ → ℕ) → F
  /-- the element type is complex -/
  cplx : Bool
  /-- `hermitian_matrix` -/
  herm : Bool
  /-- `diagonal_matrix` -/
  diag : Bool
  /-- the value, if `constant_object` -/
  cst : Option F
  /-- the value, if `constant_diagonal_object` -/
  cstDiag : Option F

namespace Ten
variable {F : Type}

/-- The tuple of positions lies within the dimensions. -/
def Inb (t : Ten F) (ix : ℕ → ℕ) : Prop := ∀ k, ix k < t.dims k

/-- The tuple (or the dimensions) with two entries exchanged. -/
def swapIx {α : Type} (a b : ℕ) (ix : ℕ → α) : ℕ → α := fun k => ix (Equiv.swap a b k)

/-- The tags are truthful. -/
structure WF [Zero F] [Star F] (t : Ten F) : Prop where
  herm : t.herm = true → t.dims 0 = t.dims 1 ∧ ∀ ix, t.Inb ix → t.get (swapIx 0 1 ix) = star (t.get ix)
  diag : t.diag = true → ∀ ix, t.Inb ix → ix 0 ≠ ix 1 → t.get ix = 0
  cst : ∀ c, t.cst = some c → ∀ ix, t.Inb ix → t.get ix = c
  cstDiag : ∀ c, t.cstDiag = some c → ∀ ix, t.Inb ix → t.get ix = if ix 0 = ix 1 then c else 0
  real : t.cplx = false → ∀ ix, t.Inb ix → star (t.get ix) = t.get ix

variable [Zero F] [Star F]

/-- `conjugate` (functions/conjugate.hpp:51-77), elements only. -/
def conjugate (t : Ten F) : Ten F := if t.cplx = false then t else { t with get := fun ix => star (t.get ix) }

/-- `transpose<indexa, indexb>`, linear-algebra/functions/transpose.hpp:54-90. -/
def transpose (a b : ℕ) (t : Ten F) : Ten F :=
  if t.dims a = t.dims b ∧ (t.cst.isSome = true ∨ (b = 1 ∧ (t.diag = true ∨ (t.herm = true ∧ t.cplx = false)))) then t
  else match t.cst with
    | some c => { t with dims := swapIx a b t.dims, get := fun _ => c, herm := false, diag := false, cstDiag := none }
    | none => match t.cstDiag with
      | some c => { t with dims := swapIx a b t.dims, get := fun ix => if ix 0 = ix 1 then c else 0, herm := false }
      | none =>
        if t.herm = true ∧ t.dims a = t.dims b then t.conjugate
        else if t.diag = true then { t with dims := swapIx a b t.dims, get := fun ix => if ix 0 = ix 1 then t.get ix else 0, herm := false }
        else { t with dims := swapIx a b t.dims, get := fun ix => t.get (swapIx a b ix) }

/-- `conjugate_transpose<indexa, indexb>`, linear-algebra/functions/conjugate_transpose.hpp:46-78. -/
def conjugateTranspose (a b : ℕ) (t : Ten F) : Ten F :=
  if t.herm = true ∧ t.dims a = t.dims b then t
  else if t.cplx = false then t.transpose a b
  else match t.cst with
    | some c => { t with dims := swapIx a b t.dims, get := fun _ => star c, cst := some (star c), herm := false, diag := false, cstDiag := none }
    | none => match t.cstDiag with
      | some c => { t with dims := swapIx a b t.dims, get := fun ix => if ix 0 = ix 1 then star c else 0, cstDiag := some (star c), herm := false }
      | none =>
        if t.diag = true then { t with dims := swapIx a b t.dims, get := fun ix => if ix 0 = ix 1 then star (t.get ix) else 0, herm := false }
        else (t.transpose a b).conjugate

end Ten
end OpenKalman.LinAlg
