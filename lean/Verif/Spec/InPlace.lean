import Mathlib.Algebra.Star.Basic

/-!
# Specification of writing part of a matrix and of copying (C82, C84)

The part is the lower triangle, the upper triangle (each with the diagonal) or the diagonal.  An object stands for a matrix: a dense matrix, the part of
an object with zeros elsewhere, the Hermitian matrix given by a triangle of an object, or the diagonal matrix of a vector.  Writing a part of an object
gives the elements of the source to the elements of that part that the object can hold, keeps a Hermitian matrix Hermitian, and changes nothing else.
-/

namespace OpenKalman.InPlace

/-- Part of a matrix. -/
inductive Part | lower | upper | diag
  deriving DecidableEq

/-- Position `(i, j)` is in the part. -/
def Part.Has : Part → ℕ → ℕ → Prop
  | .lower, i, j => j ≤ i
  | .upper, i, j => i ≤ j
  | .diag, i, j => i = j

instance (p : Part) (i j : ℕ) : Decidable (p.Has i j) := by cases p <;> unfold Part.Has <;> infer_instance

/-- What an object stands for. -/
inductive View (𝕜 : Type) where
  | full (m : ℕ → ℕ → 𝕜)
  | part (q : Part) (n : View 𝕜)
  | hermitian (q : Part) (n : View 𝕜)
  | vector (v : ℕ → 𝕜)

namespace View
variable {𝕜 : Type} [Zero 𝕜] [Star 𝕜]

/-- The elements. -/
def elem : View 𝕜 → ℕ → ℕ → 𝕜
  | full m, i, j => m i j
  | part q n, i, j => if q.Has i j then n.elem i j else 0
  | hermitian q n, i, j => if q.Has i j then n.elem i j else star (n.elem j i)
  | vector v, i, j => if i = j then v i else 0

/-- The elements after the part `p` has been given the elements of `src`. -/
def written (p : Part) (src : ℕ → ℕ → 𝕜) : View 𝕜 → ℕ → ℕ → 𝕜
  | full m, i, j => if p.Has i j then src i j else m i j
  | part q n, i, j => if q.Has i j then n.written p src i j else 0
  | hermitian q n, i, j => if p.Has i j then src i j else if p.Has j i then star (src j i) else (hermitian q n).elem i j
  | vector _, i, j => if i = j then src i i else 0

/-- Every element of the part can be written. -/
def Holds (q : Part) : View 𝕜 → Prop
  | full _ => True
  | part q' n => (q' = q ∨ q = .diag) ∧ n.Holds q
  | hermitian q' n => q' ≠ .diag ∧ n.Holds q'
  | vector _ => q = .diag

/-- A Hermitian matrix is kept in a triangle of something that holds that triangle. -/
def Proper : View 𝕜 → Prop
  | full _ => True
  | part _ n => n.Proper
  | hermitian q n => q ≠ .diag ∧ n.Holds q ∧ n.Proper
  | vector _ => True

end View

/-! ## Copying -/

/-- Tuples of positions below the extents. -/
def InBounds (dims : List ℕ) (ix : List ℕ) : Prop := ix.length = dims.length ∧ ∀ k < dims.length, ix.getD k 0 < dims.getD k 0

end OpenKalman.InPlace
