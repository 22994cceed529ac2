import Mathlib.Data.List.Forall2

/-!
# Specification of what Eigen sees of adapters (C108, C109)

A tower of adapters around a matrix or an expression stands for a matrix.  From the documentation of the adapters: a Hermitian adapter
has the elements of one triangle, their conjugates in the other, and the real parts of the elements on the diagonal; a triangular adapter has
zeros outside of its triangle; a diagonal adapter has the elements of a column on the diagonal, and zeros elsewhere.
-/

namespace OpenKalman.Evaluators

inductive Tri | upper | lower | diagonal
  deriving DecidableEq

/-- The matrix or expression inside: whether elements are objects that can be written, whether there is access by a single index (in which order),
whether it is known at compile time to be one-by-one, and its size. -/
structure Leaf where
  lvalue : Bool
  linear : Bool
  rowMajor : Bool
  one : Bool
  rows : ℕ
  cols : ℕ

inductive Tower
  | leaf (l : Leaf)
  | hermitian (up : Bool) (t : Tower)
  | triangular (tri : Tri) (t : Tower)
  | diagonal (t : Tower)

def Tower.base : Tower → Leaf
  | .leaf l => l
  | .hermitian _ t => t.base
  | .triangular _ t => t.base
  | .diagonal t => t.base

/-- Some adapter is Hermitian. -/
def Tower.someHermitian : Tower → Bool
  | .leaf _ => false
  | .hermitian _ _ => true
  | .triangular _ t => t.someHermitian
  | .diagonal t => t.someHermitian

def Tower.rows : Tower → ℕ
  | .leaf l => l.rows
  | .hermitian _ t => t.rows
  | .triangular _ t => t.rows
  | .diagonal t => t.rows

def Tower.cols : Tower → ℕ
  | .leaf l => l.cols
  | .hermitian _ t => t.cols
  | .triangular _ t => t.cols
  | .diagonal t => t.rows

/-- What is said about the size is so, Hermitian adapters contain something square, and diagonal adapters a column. -/
def Tower.Valid : Tower → Prop
  | .leaf l => l.one = true → l.rows = 1 ∧ l.cols = 1
  | .hermitian _ t => t.Valid ∧ t.rows = t.cols
  | .triangular _ t => t.Valid
  | .diagonal t => t.Valid ∧ t.cols = 1

/-- Diagonal adapters contain the matrix or expression itself (another adapter could only be one-by-one). -/
def Tower.Simple : Tower → Prop
  | .leaf _ => True
  | .hermitian _ t => t.Simple
  | .triangular _ t => t.Simple
  | .diagonal (.leaf _) => True
  | .diagonal _ => False

def Tri.has : Tri → ℕ → ℕ → Prop
  | .upper, i, j => i ≤ j
  | .lower, i, j => j ≤ i
  | .diagonal, i, j => i = j

instance : (t : Tri) → (i j : ℕ) → Decidable (t.has i j)
  | .upper, i, j => inferInstanceAs (Decidable (i ≤ j))
  | .lower, i, j => inferInstanceAs (Decidable (j ≤ i))
  | .diagonal, i, j => inferInstanceAs (Decidable (i = j))

variable {𝕜 : Type}

/-- The kind of number: whether it is complex, conjugation and the real part. -/
structure Numbers (𝕜 : Type) where
  complex : Bool
  conj : 𝕜 → 𝕜
  re : 𝕜 → 𝕜
  real : complex = false → ∀ x, conj x = x ∧ re x = x

/-- The elements of the tower, given those of its base. -/
def Tower.elem [Zero 𝕜] (N : Numbers 𝕜) (m : ℕ → ℕ → 𝕜) : Tower → ℕ → ℕ → 𝕜
  | .leaf _, i, j => m i j
  | .hermitian up t, i, j =>
    if i = j then N.re (t.elem N m i i)
    else if (i < j ↔ up = true) then t.elem N m i j else N.conj (t.elem N m j i)
  | .triangular tri t, i, j => if tri.has i j then t.elem N m i j else 0
  | .diagonal t, i, j => if i = j then t.elem N m i 0 else 0

/-- The position of the element with a single index. -/
def Leaf.position (l : Leaf) (i : ℕ) : ℕ × ℕ := if l.rowMajor then (i / l.cols, i % l.cols) else (i % l.rows, i / l.rows)

/-- An element that is not always zero. -/
def Tower.Stored [Zero 𝕜] (N : Numbers 𝕜) (t : Tower) (i j : ℕ) : Prop := ∃ m : ℕ → ℕ → 𝕜, t.elem N m i j ≠ 0

end OpenKalman.Evaluators
