import Verif.Spec.Comma
import Verif.Model.CovArith

/-!
# Model of comma initialisers (`linear-algebra/interfaces/eigen/details/eigen-comma-initializers.hpp`)

The class `Eigen::CommaInitializer`, on which they are built, is not in the repository; `CI` is that class as it is in Eigen 3.4.  A matrix of `rows` rows and `cols`
columns is a function of which the part in range counts.  Assertions are enabled.
-/

namespace OpenKalman.Comma

/-- Ways of failing: an assertion of Eigen, or a reference to an object that no longer exists. -/
inductive Err
  | assertion
  | undefined
deriving DecidableEq

variable {α : Type}

/-- `Eigen::CommaInitializer`: the matrix referred to and the members `m_row`, `m_col`, `m_currentBlockRows`. -/
structure CI (α : Type) where
  rows : ℕ
  cols : ℕ
  M : ℕ → ℕ → α
  row : ℕ
  col : ℕ
  brows : ℕ

/-- `m_xpr.block(r, c, b.rows(), b.cols()) = b` -/
def write (M : ℕ → ℕ → α) (r c : ℕ) (b : Block α) : ℕ → ℕ → α :=
  fun i j => if r ≤ i ∧ i < r + b.rows ∧ c ≤ j ∧ j < c + b.cols then b.val (i - r) (j - c) else M i j

/-- The constructors of `CommaInitializer`. -/
def CI.start (rows cols : ℕ) (M : ℕ → ℕ → α) (b : Block α) : Except Err (CI α) :=
  if b.rows ≤ rows ∧ b.cols ≤ cols then .ok ⟨rows, cols, write M 0 0 b, 0, b.cols, b.rows⟩ else .error .assertion

/-- The beginning of a new row in `operator,`. -/
def CI.newRow (s : CI α) (b : Block α) : CI α :=
  if s.col = s.cols ∧ (b.cols ≠ 0 ∨ b.rows ≠ s.brows) then { s with row := s.row + s.brows, col := 0, brows := b.rows } else s

/-- `CommaInitializer::operator,`. -/
def CI.comma (s : CI α) (b : Block α) : Except Err (CI α) :=
  let s := s.newRow b
  if s.row + s.brows ≤ s.rows ∧ s.col + b.cols ≤ s.cols ∧ s.brows = b.rows then .ok { s with M := write s.M s.row s.col b, col := s.col + b.cols }
  else .error .assertion

/-- `CommaInitializer::finished()`. -/
def CI.finished (s : CI α) : Except Err (ℕ → ℕ → α) :=
  if (s.row + s.brows = s.rows ∨ s.cols = 0) ∧ s.col = s.cols then .ok s.M else .error .assertion

/-- `x << b, bs...` up to the last comma. -/
def CI.items (rows cols : ℕ) (M : ℕ → ℕ → α) (b : Block α) (bs : List (Block α)) : Except Err (CI α) := (CI.start rows cols M b).bind fun s => bs.foldlM CI.comma s

/-- `x << b, bs...;` for a matrix, EigenAdapterBase.hpp:262-265. -/
def fill (rows cols : ℕ) (M : ℕ → ℕ → α) (b : Block α) (bs : List (Block α)) : Except Err (ℕ → ℕ → α) := (CI.items rows cols M b bs).bind CI.finished

/-! ## Means -/

/-- `x << b, bs...;` for a mean: the destructor wraps, eigen-comma-initializers.hpp:40-43; `wrap` is `wrap_angles<StaticDescriptor>`. -/
def meanFill (wrap : (ℕ → ℕ → α) → ℕ → ℕ → α) (rows cols : ℕ) (M : ℕ → ℕ → α) (b : Block α) (bs : List (Block α)) : Except Err (ℕ → ℕ → α) :=
  (fill rows cols M b bs).map wrap

/-- What `(x << b, bs...).finished()` returns: 45-49 wraps, but `operator,` is that of the base and returns the base, whose `finished()` does not. -/
def meanFinished (wrap : (ℕ → ℕ → α) → ℕ → ℕ → α) (rows cols : ℕ) (M : ℕ → ℕ → α) (b : Block α) (bs : List (Block α)) : Except Err (ℕ → ℕ → α) :=
  match bs with
  | [] => (fill rows cols M b bs).map wrap
  | _ :: _ => fill rows cols M b bs

/-- `auto ci = (x << b, bs...); ci, cs...;` (`bs` is not empty) for a mean: the copy is one of the base, and marks the original as finished, so that its destructor
wraps what has been written so far; what is written later is not wrapped. -/
def meanContinue (wrap : (ℕ → ℕ → α) → ℕ → ℕ → α) (rows cols : ℕ) (M : ℕ → ℕ → α) (b : Block α) (bs cs : List (Block α)) : Except Err (ℕ → ℕ → α) :=
  (CI.items rows cols M b bs).bind fun s => (cs.foldlM CI.comma { s with M := wrap s.M }).bind CI.finished

/-! ## Diagonal matrices and covariances

The initialiser has a matrix of its own, in which the values are collected (eigen-comma-initializers.hpp:66-67, 134-135); `M` is what is in it at first. -/

/-- `x << b, bs...;` for a diagonal adapter with `n` rows, 107-110: a column of values. -/
def diagFill [Zero α] (n : ℕ) (M : ℕ → ℕ → α) (b : Block α) (bs : List (Block α)) : Except Err (ℕ → ℕ → α) :=
  (fill n 1 M b bs).map fun N i j => if i = j then N i 0 else 0

/-- `auto ci = (x << b, bs...); ci, cs...;` (`bs` is not empty): the copy constructor 82-83 (146-147 for covariances) copies Eigen's initialiser, which goes on
to refer to the matrix in the original, a temporary. -/
def diagContinue (n : ℕ) (M : ℕ → ℕ → α) (b : Block α) (bs _cs : List (Block α)) : Except Err (ℕ → ℕ → α) :=
  (CI.items n 1 M b bs).bind fun _ => .error .undefined

open CovArith Matrix

variable {𝕜 : Type} [RCLike 𝕜]

/-- One triangle of a matrix. -/
def triPart (up : Bool) {n : ℕ} (A : Mat 𝕜 n) : Mat 𝕜 n := Matrix.of fun i j => if (if up then i ≤ j else j ≤ i) then A i j else 0

/-- A self-adjoint view of a matrix: the other triangle is read from this one. -/
def selfAdjoint (up : Bool) {n : ℕ} (A : Mat 𝕜 n) : Mat 𝕜 n := Matrix.of fun i j => if (if up then i ≤ j else j ≤ i) then A i j else star (A j i)

/-- The values collected, as a matrix. -/
def toMat (n : ℕ) (N : ℕ → ℕ → 𝕜) : Mat 𝕜 n := Matrix.of fun i j => N i j

/-- `x << b, bs...;` for a covariance or square-root covariance, stored as `form`, eigen-comma-initializers.hpp:167-187 and in the same way 189-211: a column of values for diagonal
ones (171-174), otherwise a square matrix, of which one triangle is taken as that of a triangular (175-180) or self-adjoint matrix (181-186), and converted to the stored
form (adapters/details/to_covariance_nestable.hpp:57-69).  A type with one row and one column counts as diagonal there, so that `form` is then `.diag` or `.cdiag`. -/
def covFill (lib : CovArith.Lib 𝕜) (root : Bool) (form : Form) (n : ℕ) (M : ℕ → ℕ → 𝕜) (b : Block 𝕜) (bs : List (Block 𝕜)) : Except Err (Cov 𝕜 n) :=
  match form with
  | .diag => (fill n 1 M b bs).map fun N => ⟨root, .diag, diagonal fun i => N i 0, false, false⟩
  | .cdiag => (fill n 1 M b bs).map fun N => ⟨root, .cdiag, diagonal fun i => N i 0, false, false⟩
  | .tri up => (fill n n M b bs).map fun N =>
      ⟨root, .tri up, if root then triPart up (toMat n N) else lib.chol up (selfAdjoint up (toMat n N)), false, false⟩
  | .herm up => (fill n n M b bs).map fun N =>
      ⟨root, .herm up, if root then gram up (triPart up (toMat n N)) else selfAdjoint up (toMat n N), false, false⟩

end OpenKalman.Comma
