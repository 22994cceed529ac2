import Mathlib.Data.List.Basic

/-!
# Specification: sizes that are claimed at compile time

An object has sizes at run time, one for each index and one for each further index.  Its type claims some
of them.  This file says when claims are true and what the sizes of the results of operations are; it
does not know how the library finds claims.
-/

namespace OpenKalman.FixedSize

/-- What a type claims: for each index a size, or nothing; every further index has size one. -/
abbrev Claim := List (Option Nat)

/-- The claim for an index. -/
def claimAt (c : Claim) (i : Nat) : Option Nat := (c[i]?).getD (some 1)

/-- The size for an index. -/
def size (d : List Nat) (i : Nat) : Nat := (d[i]?).getD 1

/-- Whatever is claimed is so. -/
def Sound (c : Claim) (d : List Nat) : Prop := ∀ i n, claimAt c i = some n → size d i = n

/-- The claim that follows from two claims about the same size. -/
def better (a b : Option Nat) : Option Nat :=
  match a with
  | some n => some n
  | none => b

/-- The operations. -/
inductive Op where
  /-- As in a conversion to a triangular or hermitian matrix. -/
  | same
  | transpose
  | contract
  /-- `a x = b` for `x`. -/
  | solve
  /-- Reduction along some indices. -/
  | reduce (along : List Nat)
  /-- The diagonal, as a column. -/
  | diagonal
  deriving Repr

/-- Sizes after a reduction, from index `k` on. -/
def reduceSizes (along : List Nat) : Nat → List Nat → List Nat
  | _, [] => []
  | k, n :: d => (if k ∈ along then 1 else n) :: reduceSizes along (k + 1) d

/-- The sizes of the result of an operation on objects of sizes `a` and `b`. -/
def resultSizes : Op → List Nat → List Nat → List Nat
  | .same, a, _ => a
  | .transpose, a, _ => [size a 1, size a 0]
  | .contract, a, b => [size a 0, size b 1]
  | .solve, a, b => [size a 1, size b 1]
  | .reduce along, a, _ => reduceSizes along 0 a
  | .diagonal, a, _ => min (size a 0) (size a 1) :: a.drop 2

/-- Sizes after broadcasting by factors. -/
def broadcastSizes : List Nat → List Nat → List Nat
  | [], d => d
  | f :: fs, [] => f :: broadcastSizes fs []
  | f :: fs, n :: d => f * n :: broadcastSizes fs d

/-- Claims that follow for the result of an operation from claims about arguments. -/
def Implied : Op → Claim → Claim → Nat → Option Nat
  | .same, a, _, i => claimAt a i
  | .transpose, a, _, 0 => claimAt a 1
  | .transpose, a, _, 1 => claimAt a 0
  | .contract, a, _, 0 => claimAt a 0
  | .contract, _, b, 1 => claimAt b 1
  | .solve, a, _, 0 => claimAt a 1
  | .solve, _, b, 1 => claimAt b 1
  | .reduce along, a, _, i => if i ∈ along then some 1 else claimAt a i
  | .diagonal, a, _, 0 =>
    match claimAt a 0, claimAt a 1 with
    | some m, some n => some (min m n)
    | _, _ => none
  | .diagonal, a, _, i => claimAt a (i + 1)
  | _, _, _, _ => some 1

end OpenKalman.FixedSize
