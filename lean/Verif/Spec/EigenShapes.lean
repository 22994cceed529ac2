import Verif.Spec.EigenTraits

/-!
# Reshaped and diagonal matrices, and shapes of which only a part is known beforehand

Independent of the traits.
-/

namespace OpenKalman.EigenShapes
open OpenKalman.EigenTraits

variable {𝕜 : Type*}

/-- The same components in the same order of reading (by rows, or by columns), in `r` rows and `c` columns. -/
def reshape (byRows : Bool) (r c : ℕ) (a : Arr 𝕜) : Arr 𝕜 :=
  ⟨r, c, fun i j => if byRows then a.get ((i * c + j) / a.cols) ((i * c + j) % a.cols) else a.get ((j * r + i) % a.rows) ((j * r + i) / a.rows)⟩

/-- The square matrix with the components of `v`, read in order, on the diagonal. -/
def diagonalOf [Zero 𝕜] (v : Arr 𝕜) : Arr 𝕜 :=
  ⟨v.rows * v.cols, v.rows * v.cols, fun i j => if i = j then (if v.cols = 1 then v.get i 0 else v.get 0 i) else 0⟩

/-- What is known beforehand of an extent: its value, or nothing. -/
def Knows (known : Option ℕ) (n : ℕ) : Prop := ∀ k, known = some k → k = n

/-- The first `n` extents are equal if the list is continued by ones. -/
def SquareTo (n : ℕ) (extents : List ℕ) : Prop := ∀ i < n, ∀ j < n, extents.getD i 1 = extents.getD j 1

/-- All extents from number `n` on are one. -/
def OnesFrom (n : ℕ) (extents : List ℕ) : Prop := ∀ i ≥ n, extents.getD i 1 = 1

end OpenKalman.EigenShapes
