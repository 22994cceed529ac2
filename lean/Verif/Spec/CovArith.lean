import Mathlib.Analysis.RCLike.Basic
import Mathlib.LinearAlgebra.Matrix.PosDef
import Mathlib.LinearAlgebra.Matrix.IsDiag

/-!
# Specification: the matrix a covariance stands for

A covariance is a matrix stored in one of several forms.  `Represents` says which matrix a stored form stands for; the
arithmetic theorems of C47 speak about represented matrices only.
-/

namespace OpenKalman.CovArith
open Matrix
open scoped ComplexOrder

variable {𝕜 : Type} [RCLike 𝕜] {n : ℕ}

abbrev Mat (𝕜 : Type) (n : ℕ) := Matrix (Fin n) (Fin n) 𝕜

/-- Upper (`up`) or lower triangular. -/
def IsTri (up : Bool) (A : Mat 𝕜 n) : Prop := ∀ i j, (if up then j < i else i < j) → A i j = 0

/-- `Aᴴ A` for an upper, `A Aᴴ` for a lower triangular factor. -/
def gram (up : Bool) (A : Mat 𝕜 n) : Mat 𝕜 n := if up then Aᴴ * A else A * Aᴴ

/-- `L` is a Cholesky factor of `P`: triangular, with nonnegative diagonal, and its gram matrix is `P`. -/
def IsChol (up : Bool) (P L : Mat 𝕜 n) : Prop := IsTri up L ∧ gram up L = P ∧ ∀ i, 0 ≤ L i i

/-- The kinds of matrix a covariance can be stored as. -/
inductive Form where
  /-- self-adjoint; `up` says which triangle is stored (and hence which factor a square root is) -/
  | herm (up : Bool)
  /-- diagonal, known to be real: both self-adjoint and triangular -/
  | diag
  /-- diagonal, of a complex scalar type: triangular, not known to be self-adjoint -/
  | cdiag
  /-- upper (`up`) or lower triangular -/
  | tri (up : Bool)
deriving DecidableEq

/-- A covariance (`root = false`) or square-root covariance (`root = true`) holding the matrix `nested` in the form
`form`; `zero`, `ident`: the type says that it is a zero or identity matrix. -/
structure Cov (𝕜 : Type) (n : ℕ) where
  root : Bool
  form : Form
  nested : Mat 𝕜 n
  zero : Bool := false
  ident : Bool := false

/-- The stored matrix is what its type says. -/
def Cov.WF (c : Cov 𝕜 n) : Prop :=
  (match c.form with
    | .herm _ => c.nested.IsHermitian
    | .diag => c.nested.IsDiag ∧ c.nested.IsHermitian
    | .cdiag => c.nested.IsDiag
    | .tri up => IsTri up c.nested) ∧
  (c.zero = true → c.form = .diag ∧ c.nested = 0) ∧ (c.ident = true → c.form = .diag ∧ c.nested = 1)

/-- The matrix that the covariance stands for. -/
def Cov.Represents (c : Cov 𝕜 n) (M : Mat 𝕜 n) : Prop :=
  match c.root, c.form with
  | false, .herm _ => M = c.nested
  | false, .diag => M = c.nested
  | false, .cdiag => M = c.nested * c.nestedᴴ
  | false, .tri up => M = gram up c.nested
  | true, .herm up => IsChol up c.nested M
  | true, .diag => M = c.nested
  | true, .cdiag => M = c.nested
  | true, .tri _ => M = c.nested

/-- A square root stored as its square must be of a positive definite matrix (otherwise it need not determine a factor). -/
def Cov.Definite (c : Cov 𝕜 n) : Prop := c.root = true → ∀ up, c.form = .herm up → c.nested.PosDef

/-- Operands and results: a covariance, or a square matrix of no particular structure (`zero`: known to be zero). -/
inductive Opd (𝕜 : Type) (n : ℕ) where
  | cov (c : Cov 𝕜 n)
  | mat (zero : Bool) (M : Mat 𝕜 n)

def Opd.WF : Opd 𝕜 n → Prop
  | .cov c => c.WF
  | .mat z M => z = true → M = 0

def Opd.Represents : Opd 𝕜 n → Mat 𝕜 n → Prop
  | .cov c, M => c.Represents M
  | .mat _ N, M => M = N

def Opd.Definite : Opd 𝕜 n → Prop
  | .cov c => c.Definite
  | .mat _ _ => True

/-- What is assumed of `cholesky_factor` at `P`: if there is a factor, it returns one (a unique one if `P` is definite). -/
def CholAt (chol : Bool → Mat 𝕜 n → Mat 𝕜 n) (P : Mat 𝕜 n) : Prop := ∀ up, P.PosDef → IsChol up P (chol up P)

/-- What is assumed of `LQ_decomposition` (C43). -/
def LQSpec {k : ℕ} {m : Type} [Fintype m] (A : Matrix (Fin k) m 𝕜) (L : Mat 𝕜 k) : Prop := IsTri false L ∧ L * Lᴴ = A * Aᴴ

/-- What is assumed of `QR_decomposition` (C43). -/
def QRSpec {k : ℕ} {m : Type} [Fintype m] (A : Matrix m (Fin k) 𝕜) (R : Mat 𝕜 k) : Prop := IsTri true R ∧ Rᴴ * R = Aᴴ * A

/-- What is assumed of `rank_update_triangular` when it succeeds (C43). -/
def UpdateSpec (up : Bool) (N V : Mat 𝕜 n) (α : ℝ) (N' : Mat 𝕜 n) : Prop :=
  IsTri up N' ∧ gram up N' = gram up N + (α : 𝕜) • (V * Vᴴ)

end OpenKalman.CovArith
