import Verif.Spec.EigenHooks
import Mathlib.LinearAlgebra.Matrix.NonsingularInverse
import Mathlib.LinearAlgebra.Matrix.Rank
import Verif.Model.Kalman

/-!
# Model of the decompositions, rank updates and solvers of the interface to Eigen (C139 to C143)

Source: linear-algebra/interfaces/eigen/eigen-library-interface.hpp:1206-1508.

The algorithms of Eigen are not part of the repository.  They are the fields of `EigenLib`, known only by what Eigen's documentation says about them in exact
arithmetic; `Proof/EigenHooks.lean` shows that there is such a library.

Simplifications: scalars are exact; a square root of a negative number is the outcome `nonFinite`.  `conjugate_transpose()` called as a member of an Eigen
matrix (line 1268; Eigen calls it `adjoint`) is taken to be the conjugate transpose, and `selfadjointView` called as a member of a `SelfAdjointView`
(line 1366; Eigen has no such member) is taken to be the view itself.  The shortcut for constant matrices (1217-1249) is not modelled: the caller,
functions/cholesky_factor.hpp:54-73, already handles constants.  Copies made to avoid dangling references are not modelled.
-/

namespace OpenKalman.EigenHooks
open Matrix Classical
open scoped ComplexOrder

/-- Ways of failing. -/
inductive Err
  | runtimeError
  | nonFinite
  | undefinedBehaviour
deriving DecidableEq

variable {𝕜 : Type} [RCLike 𝕜] {m n k : ℕ}

/-- Eigen's `selfadjointView<t>` of `N`: the other triangle is read as the conjugate of this one. -/
noncomputable def selfAdj (t : Tri) (N : Matrix (Fin n) (Fin n) 𝕜) : Matrix (Fin n) (Fin n) 𝕜 :=
  fun i j => if t.Has i.1 j.1 then N i j else star (N j i)

/-- `to_triangular<t>` and Eigen's `triangularView<t>`: the other triangle is read as zero. -/
noncomputable def part (t : Tri) (M : Matrix (Fin m) (Fin n) 𝕜) : Matrix (Fin m) (Fin n) 𝕜 := fun i j => if t.Has i.1 j.1 then M i j else 0

/-- The elements on the diagonal are real. -/
def RealDiag (M : Matrix (Fin m) (Fin n) 𝕜) : Prop := ∀ i j, i.1 = j.1 → RCLike.im (M i j) = 0

/-- What Eigen's class `LDLT` holds: `isPositive()`, `isNegative()`, `info() == Success`, `transpositionsP()`, `matrixL()`, `vectorD()`. -/
structure LDLT (𝕜 : Type) (n : ℕ) where
  perm : Equiv.Perm (Fin n)
  L : Matrix (Fin n) (Fin n) 𝕜
  d : Fin n → ℝ
  pos : Bool
  neg : Bool
  ok : Bool

/-- The pseudo-inverse of a diagonal matrix, as `LDLT::solve` uses it. -/
noncomputable def dInv (d : Fin n → ℝ) : Matrix (Fin n) (Fin n) 𝕜 := diagonal fun i => if d i = 0 then 0 else ((d i)⁻¹ : ℝ)

/-- The parts of Eigen the interface calls, with what is documented about them.  Only the named triangle of a result is defined. -/
structure EigenLib (𝕜 : Type) [RCLike 𝕜] where
  /-- `SelfAdjointView::llt()` and `matrixLLT()`; nothing if `info()` is not `Success`. -/
  llt : ∀ {n : ℕ}, Tri → Matrix (Fin n) (Fin n) 𝕜 → Option (Matrix (Fin n) (Fin n) 𝕜)
  llt_sq : ∀ {n : ℕ} (t : Tri) (A M : Matrix (Fin n) (Fin n) 𝕜), A.IsHermitian → llt t A = some M → gram t (part t M) = A
  llt_diag : ∀ {n : ℕ} (t : Tri) (A M : Matrix (Fin n) (Fin n) 𝕜), A.IsHermitian → llt t A = some M → RealDiag M
  llt_iff : ∀ {n : ℕ} (t : Tri) (A : Matrix (Fin n) (Fin n) 𝕜), A.IsHermitian → ((llt t A).isSome ↔ A.PosDef)
  /-- `ldlt()`. -/
  ldlt : ∀ {n : ℕ}, Matrix (Fin n) (Fin n) 𝕜 → LDLT 𝕜 n
  /-- "A = P^T L D L^* P, where P is a permutation matrix, L is lower triangular with a unit diagonal and D is a diagonal matrix." -/
  ldlt_eq : ∀ {n : ℕ} (A : Matrix (Fin n) (Fin n) 𝕜), A.IsHermitian → (ldlt A).ok = true →
    A.submatrix (ldlt A).perm (ldlt A).perm = (ldlt A).L * diagonal (fun i => ((ldlt A).d i : 𝕜)) * (ldlt A).Lᴴ
  ldlt_lower : ∀ {n : ℕ} (A : Matrix (Fin n) (Fin n) 𝕜), A.IsHermitian → (ldlt A).ok = true → IsTri .lower (ldlt A).L ∧ ∀ i, (ldlt A).L i i = 1
  ldlt_pos : ∀ {n : ℕ} (A : Matrix (Fin n) (Fin n) 𝕜), A.IsHermitian → (ldlt A).ok = true → ((ldlt A).pos = true ↔ ∀ i, 0 ≤ (ldlt A).d i)
  ldlt_neg : ∀ {n : ℕ} (A : Matrix (Fin n) (Fin n) 𝕜), A.IsHermitian → (ldlt A).ok = true → ((ldlt A).neg = true ↔ ∀ i, (ldlt A).d i ≤ 0)
  /-- "Robust Cholesky decomposition of a positive or negative semidefinite matrix." -/
  ldlt_semidef : ∀ {n : ℕ} (A : Matrix (Fin n) (Fin n) 𝕜), A.PosSemidef ∨ (-A).PosSemidef → (ldlt A).ok = true
  /-- The first pivot is the diagonal element of the greatest magnitude. -/
  ldlt_pivot : ∀ {n : ℕ} (A : Matrix (Fin (n + 1)) (Fin (n + 1)) 𝕜), A.IsHermitian → (ldlt A).ok = true → ∀ i, |RCLike.re (A i i)| ≤ |(ldlt A).d 0|
  /-- Neither sign has been seen if and only if the first pivot, and with it the whole diagonal, is zero. -/
  ldlt_zero : ∀ {n : ℕ} (A : Matrix (Fin n) (Fin n) 𝕜), A.IsHermitian → (((ldlt A).pos = true ∧ (ldlt A).neg = true) ↔ ∀ i, A i i = 0)
  /-- `internal::llt_inplace<Scalar, t>::rankUpdate(a, v, sigma)`; nothing if it returns a non-negative index. -/
  rank1 : ∀ {n : ℕ}, Tri → Matrix (Fin n) (Fin n) 𝕜 → (Fin n → 𝕜) → ℝ → Option (Matrix (Fin n) (Fin n) 𝕜)
  rank1_sq : ∀ {n : ℕ} (t : Tri) (M G : Matrix (Fin n) (Fin n) 𝕜) (v : Fin n → 𝕜) (s : ℝ), RealDiag M → rank1 t M v s = some G →
    gram t (part t G) = gram t (part t M) + (s : 𝕜) • vecMulVec v (star v) ∧ RealDiag G
  rank1_up : ∀ {n : ℕ} (t : Tri) (M : Matrix (Fin n) (Fin n) 𝕜) (v : Fin n → 𝕜) (s : ℝ), 0 < s → (rank1 t M v s).isSome
  /-- Otherwise every pivot must be positive. -/
  rank1_down : ∀ {n : ℕ} (t : Tri) (M : Matrix (Fin n) (Fin n) 𝕜) (v : Fin n → 𝕜) (s : ℝ), RealDiag M → s ≤ 0 →
    ((rank1 t M v s).isSome ↔ (gram t (part t M) + (s : 𝕜) • vecMulVec v (star v)).PosDef)
  /-- `HouseholderQR(a).matrixQR()`, whose upper triangle is `R`. -/
  qr : ∀ {m n : ℕ}, Matrix (Fin m) (Fin n) 𝕜 → Matrix (Fin m) (Fin n) 𝕜
  qr_sq : ∀ {m n : ℕ} (A : Matrix (Fin m) (Fin n) 𝕜), (part .upper (qr A))ᴴ * part .upper (qr A) = Aᴴ * A
  qr_diag : ∀ {m n : ℕ} (A : Matrix (Fin m) (Fin n) 𝕜), RealDiag (qr A)
  /-- `HouseholderQR(a).solve(b)`: a least-squares solution if no diagonal element of `R` is zero; unknowns beyond the number of equations are set to zero. -/
  qrSolve : ∀ {m n k : ℕ}, Matrix (Fin m) (Fin n) 𝕜 → Matrix (Fin m) (Fin k) 𝕜 → Option (Matrix (Fin n) (Fin k) 𝕜)
  qrSolve_some : ∀ {m n k : ℕ} (A : Matrix (Fin m) (Fin n) 𝕜) (B : Matrix (Fin m) (Fin k) 𝕜), (∀ i j, i.1 = j.1 → qr A i j ≠ 0) →
    ∃ X, qrSolve A B = some X ∧ LeastSquares A B X
  qrSolve_tail : ∀ {m n k : ℕ} (A : Matrix (Fin m) (Fin n) 𝕜) (B : Matrix (Fin m) (Fin k) 𝕜) (X : Matrix (Fin n) (Fin k) 𝕜), qrSolve A B = some X →
    ∀ i j, m ≤ i.1 → X i j = 0
  /-- `ColPivHouseholderQR(a).rank()`. -/
  rank : ∀ {m n : ℕ}, Matrix (Fin m) (Fin n) 𝕜 → ℕ
  rank_eq : ∀ {m n : ℕ} (A : Matrix (Fin m) (Fin n) 𝕜), rank A = A.rank
  /-- `ColPivHouseholderQR(a).solve(b)`. -/
  cpSolve : ∀ {m n k : ℕ}, Matrix (Fin m) (Fin n) 𝕜 → Matrix (Fin m) (Fin k) 𝕜 → Matrix (Fin n) (Fin k) 𝕜
  cpSolve_ls : ∀ {m n k : ℕ} (A : Matrix (Fin m) (Fin n) 𝕜) (B : Matrix (Fin m) (Fin k) 𝕜), LeastSquares A B (cpSolve A B)
  /-- `std::numeric_limits<Scalar>::epsilon()`. -/
  eps : ℝ
  eps_pos : 0 < eps

/-- Eigen's `a.isApprox(b, prec)`. -/
noncomputable def isApprox (a b : Matrix (Fin m) (Fin n) 𝕜) (prec : ℝ) : Bool := decide (sqNorm (a - b) ≤ prec ^ 2 * min (sqNorm a) (sqNorm b))

namespace EigenLib
variable (E : EigenLib 𝕜)

/-- `b.triangularView<…>() = x` for `M b;` (1255, 1268, 1281-1300): if the dimensions are not static, `b` is empty, and a view cannot be resized. -/
def intoView (static : Bool) (x : Except Err (Matrix (Fin n) (Fin n) 𝕜)) : Except Err (Matrix (Fin n) (Fin n) 𝕜) :=
  if static = true then x else .error .undefinedBehaviour

/-- `cholesky_factor<tri>` of a self-adjoint view `a` of `N`, which stores the triangle `t`; eigen-library-interface.hpp:1252-1304.  Line 1274 decomposes the
nested matrix, of which `ldlt()` reads the lower triangle. -/
noncomputable def choleskyFactor (static : Bool) (t tri : Tri) (N : Matrix (Fin n) (Fin n) 𝕜) : Except Err (Matrix (Fin n) (Fin n) 𝕜) :=
  match E.llt t (selfAdj t N) with
  | some M =>
    if tri = t then .ok (part tri M)
    else intoView static (.ok (part tri (part t M)ᴴ))
  | none =>
    let r := E.ldlt (selfAdj .lower N)
    if (r.pos = false ∧ r.neg = false) ∨ r.ok = false then
      if r.pos = true ∧ r.neg = true then intoView static (.ok 0)
      else .error .runtimeError
    else intoView static <|
      if ∃ i, r.d i < 0 then .error .nonFinite
      else
        match tri with
        | .lower => .ok (part .lower (r.L * diagonal fun i => (Real.sqrt (r.d i) : 𝕜)))
        | .upper => .ok (part .upper (diagonal (fun i => (Real.sqrt (r.d i) : 𝕜)) * r.Lᴴ))

/-- `rank_update_hermitian<t>`, 1309-1324: `selfadjointView<t>().rankUpdate(u, alpha)` changes the triangle `t` only. -/
noncomputable def rankUpdateHermitian (t : Tri) (N : Matrix (Fin n) (Fin n) 𝕜) (U : Matrix (Fin n) (Fin k) 𝕜) (alpha : ℝ) : Matrix (Fin n) (Fin n) 𝕜 :=
  fun i j => if t.Has i.1 j.1 then N i j + (alpha : 𝕜) * (U * Uᴴ) i j else N i j

/-- One pass of the loop 1335-1339. -/
def rankStep (t : Tri) (alpha : ℝ) (M : Matrix (Fin n) (Fin n) 𝕜) (v : Fin n → 𝕜) : Except Err (Matrix (Fin n) (Fin n) 𝕜) :=
  match E.rank1 t M v alpha with
  | some G => .ok G
  | none => .error .runtimeError

/-- `rank_update_triangular<t>`, 1327-1346: the columns of `u` in turn. -/
def rankUpdateTriangular (t : Tri) (M : Matrix (Fin n) (Fin n) 𝕜) (U : Matrix (Fin n) (Fin k) 𝕜) (alpha : ℝ) :
    Except Err (Matrix (Fin n) (Fin n) 𝕜) :=
  (List.ofFn fun j i => U i j).foldlM (E.rankStep t alpha) M

/-- `solve` for a self-adjoint view, 1363-1386; the template parameters play no part. -/
noncomputable def solveSelfAdjoint (_unique _exact : Bool) (t : Tri) (N : Matrix (Fin n) (Fin n) 𝕜) (B : Matrix (Fin n) (Fin k) 𝕜) :
    Except Err (Matrix (Fin n) (Fin k) 𝕜) :=
  match E.llt t (selfAdj t N) with
  | some M =>
    match t with
    | .lower => .ok (((part .lower M)ᴴ)⁻¹ * ((part .lower M)⁻¹ * B))
    | .upper => .ok ((part .upper M)⁻¹ * (((part .upper M)ᴴ)⁻¹ * B))
  | none =>
    let r := E.ldlt (selfAdj t N)
    if (r.pos = false ∧ r.neg = false) ∨ r.ok = false then .error .runtimeError
    else .ok (((r.Lᴴ)⁻¹ * (dInv r.d * (r.L⁻¹ * B.submatrix r.perm id)) : Matrix (Fin n) (Fin k) 𝕜).submatrix r.perm.symm id)

/-- `solve` for a triangular view, 1358-1362: Eigen substitutes, dividing by the elements of the diagonal; the template parameters play no part. -/
noncomputable def solveTriangular (_unique _exact : Bool) (t : Tri) (N : Matrix (Fin n) (Fin n) 𝕜) (B : Matrix (Fin n) (Fin k) 𝕜) :
    Except Err (Matrix (Fin n) (Fin k) 𝕜) :=
  if ∃ i, N i i = 0 then .error .nonFinite else .ok ((part t N)⁻¹ * B)

/-- `solve` for a general matrix, 1387-1423. -/
noncomputable def solveGeneral (unique exact : Bool) (A : Matrix (Fin m) (Fin n) 𝕜) (B : Matrix (Fin m) (Fin k) 𝕜) :
    Except Err (Matrix (Fin n) (Fin k) 𝕜) :=
  if exact = true ∨ unique = true then
    if unique = true ∧ E.rank A < n then .error .runtimeError
    else
      let res := E.cpSolve A B
      if exact = true then
        if isApprox (A * res) B (n * E.eps) = true then .ok res else .error .runtimeError
      else .ok res
  else
    match E.qrSolve A B with
    | some X => .ok X
    | none => .error .nonFinite

/-- `QR_decomp_impl`, 1433-1488: the upper rows of `matrixQR()`, followed by zeros if there are too few. -/
def qrImpl (A : Matrix (Fin m) (Fin n) 𝕜) : Matrix (Fin n) (Fin n) 𝕜 :=
  Matrix.of fun i j => if h : m < n then (if hi : i.1 < m then E.qr A ⟨i.1, hi⟩ j else 0) else E.qr A ⟨i.1, by omega⟩ j

/-- `LQ_decomposition`, 1492-1497. -/
noncomputable def lq (A : Matrix (Fin m) (Fin n) 𝕜) : Matrix (Fin m) (Fin m) 𝕜 := part .lower (E.qrImpl Aᴴ)ᴴ

/-- `QR_decomposition`, 1500-1505. -/
noncomputable def qrDecomposition (A : Matrix (Fin m) (Fin n) 𝕜) : Matrix (Fin n) (Fin n) 𝕜 := part .upper (E.qrImpl A)

/-! ## The filter in Cholesky form on top of these functions

Sources as in `Model/Kalman.lean`; the difference is that the decompositions, the solver and the rank update are those of the interface to Eigen, so that they
may throw. -/

open Kalman

/-- transforms/details/LinearTransformBase.hpp:58-72 with LinearTransform.hpp:57-61: the transform of a distribution in Cholesky form. -/
noncomputable def transform {n p : ℕ} (g : LinTrans 𝕜 n p) (x : GaussChol 𝕜 (Fin n)) (ns : List (GaussChol 𝕜 (Fin p))) : GaussChol 𝕜 (Fin p) :=
  let j := g.jacobian ns.length
  ⟨g.apply x.mean (ns.map GaussChol.mean), E.lq (hcatList ⟨n, j.1 * x.fac⟩ (List.zipWith (fun B (d : GaussChol 𝕜 (Fin p)) => ⟨p, B * d.fac⟩) j.2 ns)).2⟩

/-- The cross-covariance, LinearTransformBase.hpp:58-66. -/
def cross {n p : ℕ} (g : LinTrans 𝕜 n p) (x : GaussChol 𝕜 (Fin n)) : Matrix (Fin n) (Fin p) 𝕜 := x.fac * (g.A * x.fac)ᴴ

/-- filters/KalmanFilter.hpp:41-76 `update_step`; the covariance of the measurement is given to `solve` as a self-adjoint view of its square, and the factor of
the state is downdated by the factor of the difference (covariance-arithmetic.hpp:134-152). -/
noncomputable def update {n m : ℕ} (H : LinTrans 𝕜 n m) (ns : List (GaussChol 𝕜 (Fin m))) (z : Fin m → 𝕜) (x : GaussChol 𝕜 (Fin n)) :
    Except Err (GaussChol 𝕜 (Fin n)) := do
  let y := E.transform H x ns
  let Kadj ← E.solveSelfAdjoint false false .lower (y.fac * y.facᴴ)ᴴ (cross H x)ᴴ
  let G ← E.rankUpdateTriangular .lower x.fac (E.lq (Kadjᴴ * y.fac)) (-1)
  .ok ⟨x.mean + Kadjᴴ *ᵥ (z - y.mean), part .lower G⟩

/-- KalmanFilter.hpp:86-102. -/
noncomputable def step {n k : ℕ} : Op 𝕜 n k → GaussChol 𝕜 (Fin n) → Except Err (GaussChol 𝕜 (Fin k))
  | .predict F ns, x => .ok (E.transform F x ns)
  | .update _ H ns z, x => E.update H ns z x

/-- A history of calls, ending with the first exception. -/
noncomputable def run {n k : ℕ} : Hist 𝕜 n k → GaussChol 𝕜 (Fin n) → Except Err (GaussChol 𝕜 (Fin k))
  | .nil, x => .ok x
  | .cons op h, x => do
    let y ← E.step op x
    run h y

end EigenLib
end OpenKalman.EigenHooks
