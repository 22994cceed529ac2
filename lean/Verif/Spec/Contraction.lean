import Mathlib.Data.List.Forall2
import Mathlib.Algebra.BigOperators.Group.List.Basic
import Mathlib.Algebra.Star.Basic

/-!
# Specification: contractions of tensors (C106, C107)

Independent of the traits.  A tensor has extents and a total function on positions, of which only those in range count.
-/

namespace OpenKalman.Contraction

/-- A tensor of any rank. -/
structure Ten (𝕜 : Type) where
  dims : List ℕ
  get : List ℕ → 𝕜

/-- A position is in range. -/
def InRange (dims x : List ℕ) : Prop := List.Forall₂ (· < ·) x dims

/-- All positions in range. -/
def positions : List ℕ → List (List ℕ)
  | [] => [[]]
  | d :: ds => (List.range d).flatMap fun i => (positions ds).map (i :: ·)

variable {𝕜 : Type}

namespace Ten

def rank (a : Ten 𝕜) : ℕ := a.dims.length

/-- The extent of an index. -/
def dim (a : Ten 𝕜) (i : ℕ) : ℕ := a.dims.getD i 0

/-- Every component is `c`. -/
def Const (a : Ten 𝕜) (c : 𝕜) : Prop := ∀ x, InRange a.dims x → a.get x = c

/-- A matrix with `c` on the diagonal and zero elsewhere. -/
def ConstDiag [Zero 𝕜] (a : Ten 𝕜) (c : 𝕜) : Prop := ∃ m n, a.dims = [m, n] ∧ ∀ i < m, ∀ j < n, a.get [i, j] = if i = j then c else 0

/-- A Hermitian matrix. -/
def Herm [Star 𝕜] (a : Ten 𝕜) : Prop := ∃ n, a.dims = [n, n] ∧ ∀ i < n, ∀ j < n, a.get [i, j] = star (a.get [j, i])

end Ten

/-- The indices that are not contracted. -/
def free (rank : ℕ) (is : List ℕ) : List ℕ := (List.range rank).filter fun i => i ∉ is

/-- The position with `k` at the contracted indices `is` and `z` at the free indices. -/
def place (rank : ℕ) (is k z : List ℕ) : List ℕ :=
  (List.range rank).map fun i => if i ∈ is then k.getD (is.idxOf i) 0 else z.getD ((free rank is).idxOf i) 0

/-- The contraction of two tensors along pairs of indices: the free indices of the first, then those of the second. -/
def contract [Add 𝕜] [Mul 𝕜] [Zero 𝕜] (a b : Ten 𝕜) (ps : List (ℕ × ℕ)) : Ten 𝕜 where
  dims := (free a.rank (ps.map Prod.fst)).map a.dim ++ (free b.rank (ps.map Prod.snd)).map b.dim
  get z :=
    let na := (free a.rank (ps.map Prod.fst)).length
    ((positions (ps.map fun p => a.dim p.1)).map fun k =>
      a.get (place a.rank (ps.map Prod.fst) k (z.take na)) * b.get (place b.rank (ps.map Prod.snd) k (z.drop na))).sum

/-- The pairs of indices can be contracted. -/
structure Contractible (a b : Ten 𝕜) (ps : List (ℕ × ℕ)) : Prop where
  nodup₁ : (ps.map Prod.fst).Nodup
  nodup₂ : (ps.map Prod.snd).Nodup
  lt₁ : ∀ p ∈ ps, p.1 < a.rank
  lt₂ : ∀ p ∈ ps, p.2 < b.rank
  dims : ∀ p ∈ ps, a.dim p.1 = b.dim p.2

/-- What the traits of an operand report: that it is known to be zero, its constant, the constant of its diagonal, whether it is Hermitian. -/
structure Claims (𝕜 : Type) where
  zero : Bool
  const : Option 𝕜
  diag : Option 𝕜
  herm : Bool

/-- What is reported is true of the tensor. -/
structure Truthful [Zero 𝕜] [Star 𝕜] (a : Ten 𝕜) (k : Claims 𝕜) : Prop where
  zero : k.zero = true → a.Const 0
  const : ∀ c, k.const = some c → a.Const c
  diag : ∀ c, k.diag = some c → a.ConstDiag c
  herm : k.herm = true → a.Herm

end OpenKalman.Contraction
