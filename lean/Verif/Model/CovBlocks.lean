import Verif.Model.CovArith

/-!
# Model: concatenating and splitting covariances

`concatenate`, `split_diagonal` and `internal::split_cov_diag_impl`
(/repo/OpenKalman/linear-algebra/adapters/details/covariance-overloads.hpp:219-321).

`concatenate_diagonal` of the nested objects is read as `concatenate<0, 1>` (functions/concatenate.hpp:186-256, modelled on its own for
C40): `none` stands for the combinations of forms for which that function, or wrapping its result in a covariance, is ill-formed or gives a matrix that is
not square.  The matrix-level `split_diagonal` gives the diagonal blocks in the form of the whole.  Patterns are dropped.
-/

namespace OpenKalman.CovArith
open Matrix

variable {𝕜 : Type} [RCLike 𝕜] {n m : ℕ}

/-- The block-diagonal matrix that `concatenate_diagonal` makes out of two matrices. -/
def catMat (A : Mat 𝕜 n) (B : Mat 𝕜 m) : Mat 𝕜 (n + m) :=
  Matrix.of fun i j => Fin.addCases (fun i' => Fin.addCases (fun j' => A i' j') (fun _ => 0) j) (fun i' => Fin.addCases (fun _ => 0) (fun j' => B i' j') j) i

/-- `concatenate(m, mN)` for two covariances (covariance-overloads.hpp:219-240): the nested objects are concatenated as they are, and the result is wrapped in the
template of the first operand.  Two zeros give a zero (concatenate.hpp:205-212); a second operand that is diagonal is ill-formed (214-218); a diagonal and a triangular
operand, or a diagonal and a self-adjoint one, give a matrix that is not square (the nested object of a diagonal matrix is a column); triangular matrices on
different sides, or a triangular and a self-adjoint one, give a dense matrix (245-255), which is not `covariance_nestable`.  A self-adjoint matrix with the other storage triangle is transposed (230-239). -/
def Cov.concat (a : Cov 𝕜 n) (b : Cov 𝕜 m) : Option (Cov 𝕜 (n + m)) :=
  if a.zero && b.zero then some ⟨a.root, .diag, 0, true, false⟩
  else
    match a.form, b.form with
    | .tri up, .tri up' => if up = up' then some ⟨a.root, .tri up, catMat a.nested b.nested, false, false⟩ else none
    | .herm up, .herm up' => some ⟨a.root, .herm up, catMat a.nested (if up = up' then b.nested else b.nestedᵀ), false, false⟩
    | _, _ => none

/-- `concatenate(m, mN...)` with any number of operands; the dimension is part of the object. -/
def Cov.concatAll : (Σ n, Cov 𝕜 n) → List (Σ n, Cov 𝕜 n) → Option (Σ n, Cov 𝕜 n)
  | a, [] => some a
  | a, b :: bs => (a.2.concat b.2).bind fun c => Cov.concatAll ⟨_, c⟩ bs

/-- The diagonal block of `k` rows starting at row `off`. -/
def blockOf (A : Mat 𝕜 n) (off k : ℕ) (h : off + k ≤ n) : Mat 𝕜 k :=
  A.submatrix (fun i => ⟨off + i, by omega⟩) (fun i => ⟨off + i, by omega⟩)

/-- `split_cov_diag_impl` (covariance-overloads.hpp:266-281) with the function of `SplitCovDiagF` (283-293): the block of the nested object is wrapped as it is, except
that a one-dimensional block of a Cholesky-form covariance is squared and a one-dimensional block of a square root that is not in Cholesky form is replaced by
its Cholesky factor. -/
def Cov.splitBlock (lib : Lib 𝕜) (c : Cov 𝕜 n) (off k : ℕ) (h : off + k ≤ n) : Cov 𝕜 k :=
  let N := blockOf c.nested off k h
  if k = 1 ∧ c.root = false ∧ c.choleskyForm = true then ⟨false, .diag, N * Nᴴ, false, false⟩
  else if k = 1 ∧ c.root = true ∧ c.choleskyForm = false then ⟨true, .diag, lib.chol false N, false, false⟩
  else ⟨c.root, c.form, N, false, false⟩

/-- `split_diagonal<Cs...>(m)` (covariance-overloads.hpp:313-321): blocks of the given sizes, one after the other. -/
def Cov.splitFrom (lib : Lib 𝕜) (c : Cov 𝕜 n) : (off : ℕ) → List ℕ → Option (List (Σ k, Cov 𝕜 k))
  | _, [] => some []
  | off, k :: ks => if h : off + k ≤ n then (c.splitFrom lib (off + k) ks).map (⟨k, c.splitBlock lib off k h⟩ :: ·) else none

def Cov.split (lib : Lib 𝕜) (c : Cov 𝕜 n) (ks : List ℕ) : Option (List (Σ k, Cov 𝕜 k)) := c.splitFrom lib 0 ks

end OpenKalman.CovArith
