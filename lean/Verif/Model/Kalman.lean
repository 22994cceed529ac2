import Mathlib.LinearAlgebra.Matrix.PosDef
import Mathlib.LinearAlgebra.Matrix.NonsingularInverse
import Mathlib.LinearAlgebra.Matrix.Trace
import Mathlib.Analysis.RCLike.Basic

/-!
# Model of the Kalman filter and of the linear, identity, RLS and linearised transforms

Sources: filters/KalmanFilter.hpp, transforms/LinearTransform.hpp, transforms/details/LinearTransformBase.hpp, transforms/details/TransformBase.hpp,
transforms/IdentityTransform.hpp, transforms/RecursiveLeastSquaresTransform.hpp, transforms/LinearizedTransform.hpp,
transformations/LinearTransformation.hpp, transformations/IdentityTransformation.hpp, and the parts of distributions/GaussianDistribution.hpp and
linear-algebra/adapters/details/covariance-arithmetic.hpp they call.

Simplifications: scalars are exact (real or complex); the factorisations and the solver, which the linear-algebra library provides, are parameters known
only by what they compute (`Lib`); patterns appear as the function that wraps a mean (the identity for Euclidean patterns).
-/

namespace OpenKalman.Kalman
open Matrix
open scoped ComplexOrder

/-- What the library (functions/solve.hpp, functions/LQ_decomposition.hpp, functions/rank_update_triangular.hpp, and adapting a square matrix as
Hermitian) is relied on for. -/
structure Lib (𝕜 : Type) [RCLike 𝕜] where
  solve : ∀ {m n : Type} [Fintype m] [DecidableEq m], Matrix m m 𝕜 → Matrix m n 𝕜 → Matrix m n 𝕜
  lq : ∀ {m n : Type} [Fintype m] [DecidableEq m] [Fintype n], Matrix m n 𝕜 → Matrix m m 𝕜
  downdate : ∀ {m n : Type} [Fintype m] [DecidableEq m] [Fintype n], Matrix m m 𝕜 → Matrix m n 𝕜 → Matrix m m 𝕜
  herm : ∀ {m : Type}, Matrix m m 𝕜 → Matrix m m 𝕜
  /-- `solve(A, B)` is the solution of `A X = B` if `A` is invertible. -/
  solve_spec : ∀ {m n : Type} [Fintype m] [DecidableEq m] (A : Matrix m m 𝕜) (B : Matrix m n 𝕜), IsUnit A.det → A * solve A B = B
  /-- `LQ_decomposition(A)` is an `L` with `L L* = A A*`. -/
  lq_spec : ∀ {m n : Type} [Fintype m] [DecidableEq m] [Fintype n] (A : Matrix m n 𝕜), lq A * (lq A)ᴴ = A * Aᴴ
  /-- `rank_update(L, U, -1)` is an `M` with `M M* = L L* - U U*`, if there is one. -/
  downdate_spec : ∀ {m n : Type} [Fintype m] [DecidableEq m] [Fintype n] (L : Matrix m m 𝕜) (U : Matrix m n 𝕜),
    (L * Lᴴ - U * Uᴴ).PosSemidef → downdate L U * (downdate L U)ᴴ = L * Lᴴ - U * Uᴴ
  /-- Adapting as Hermitian does not change a Hermitian matrix. -/
  herm_spec : ∀ {m : Type} (A : Matrix m m 𝕜), A.IsHermitian → herm A = A

variable {𝕜 : Type} [RCLike 𝕜]

/-- distributions/GaussianDistribution.hpp: mean and covariance; covariance in self-adjoint form. -/
@[ext] structure Gauss (𝕜 : Type) (n : Type) where
  mean : n → 𝕜
  cov : Matrix n n 𝕜

/-- distributions/GaussianDistribution.hpp with covariance in Cholesky form: the nested matrix is a (lower) factor. -/
@[ext] structure GaussChol (𝕜 : Type) (n : Type) where
  mean : n → 𝕜
  fac : Matrix n n 𝕜

/-- The covariance represented by a distribution in Cholesky form (Covariance.hpp: nested matrix times its adjoint). -/
def GaussChol.toGauss {n : Type} [Fintype n] (d : GaussChol 𝕜 n) : Gauss 𝕜 n := ⟨d.mean, d.fac * d.facᴴ⟩

/-! ## Concatenation and noise terms -/

/-- A block of `k` columns. -/
abbrev Blk (𝕜 p : Type) := (k : ℕ) × Matrix p (Fin k) 𝕜

/-- `concatenate_horizontal(A, B)`. -/
def hcat {p : Type} (A B : Blk 𝕜 p) : Blk 𝕜 p := ⟨A.1 + B.1, Matrix.of fun i => Fin.addCases (A.2 i) (B.2 i)⟩

/-- `concatenate_horizontal(A, Bs...)`. -/
def hcatList {p : Type} (A : Blk 𝕜 p) (Bs : List (Blk 𝕜 p)) : Blk 𝕜 p := Bs.foldl hcat A

/-- A noise term: Jacobian and distribution. -/
structure Term (𝕜 p : Type) where
  k : ℕ
  J : Matrix p (Fin k) 𝕜
  d : Gauss 𝕜 (Fin k)

/-- A noise term in Cholesky form. -/
structure TermChol (𝕜 p : Type) where
  k : ℕ
  J : Matrix p (Fin k) 𝕜
  d : GaussChol 𝕜 (Fin k)

variable (lib : Lib 𝕜) {n p : Type} [Fintype n] [DecidableEq n] [Fintype p] [DecidableEq p]

/-- LinearTransformBase.hpp:84-89 (the fold expression is a left fold). -/
def sumNoise (J0 : Matrix p n 𝕜) (d0 : Gauss 𝕜 n) (ts : List (Term 𝕜 p)) : Matrix p p 𝕜 :=
  lib.herm (ts.foldl (fun acc t => acc + t.J * (t.d.cov * t.Jᴴ)) (J0 * d0.cov * J0ᴴ))

/-- LinearTransformBase.hpp:76-83: covariance and cross-covariance. -/
def sumNoiseCross (J0 : Matrix p n 𝕜) (d0 : Gauss 𝕜 n) (ts : List (Term 𝕜 p)) : Matrix p p 𝕜 × Matrix n p 𝕜 :=
  let cross := d0.cov * J0ᴴ
  (lib.herm (ts.foldl (fun acc t => acc + t.J * (t.d.cov * t.Jᴴ)) (J0 * cross)), cross)

/-- LinearTransformBase.hpp:67-72. -/
def sumNoiseChol {n : ℕ} (J0 : Matrix p (Fin n) 𝕜) (d0 : GaussChol 𝕜 (Fin n)) (ts : List (TermChol 𝕜 p)) : Matrix p p 𝕜 :=
  lib.lq (hcatList ⟨n, J0 * d0.fac⟩ (ts.map fun t => ⟨t.k, t.J * t.d.fac⟩)).2

/-- LinearTransformBase.hpp:58-66. -/
def sumNoiseCrossChol {n : ℕ} (J0 : Matrix p (Fin n) 𝕜) (d0 : GaussChol 𝕜 (Fin n)) (ts : List (TermChol 𝕜 p)) : Matrix p p 𝕜 × Matrix (Fin n) p 𝕜 :=
  let sqrtC0 := d0.fac
  let term0 := J0 * sqrtC0
  (lib.lq (hcatList ⟨n, term0⟩ (ts.map fun t => ⟨t.k, t.J * t.d.fac⟩)).2, sqrtC0 * term0ᴴ)

/-! ## Linear transformations -/

/-- transformations/LinearTransformation.hpp:112-208: the matrix for the input and those given for perturbations. -/
structure LinTrans (𝕜 : Type) (n p : ℕ) where
  A : Matrix (Fin p) (Fin n) 𝕜
  Bs : List (Matrix (Fin p) (Fin p) 𝕜)

namespace LinTrans
variable {n p : ℕ}

/-- LinearTransformation.hpp:191-206 `jacobian`, for `k` perturbations: cut, or padded with identities.  (The padding is written
`make_identity_matrix_like<TransformationMatrix>`, which must be meant to have the order of the output; the function it calls no longer exists.) -/
def jacobian (g : LinTrans 𝕜 n p) (k : ℕ) : Matrix (Fin p) (Fin n) 𝕜 × List (Matrix (Fin p) (Fin p) 𝕜) :=
  if k + 1 > g.Bs.length + 1 then (g.A, g.Bs ++ List.replicate (k + 1 - (g.Bs.length + 1)) 1) else (g.A, g.Bs.take k)

/-- LinearTransformation.hpp:128-133, 175-181: a sum of products of Jacobians and inputs (a right fold). -/
def apply (g : LinTrans 𝕜 n p) (x : Fin n → 𝕜) (ns : List (Fin p → 𝕜)) : Fin p → 𝕜 :=
  let j := g.jacobian ns.length
  let rec go : List (Fin p → 𝕜) → Option (Fin p → 𝕜)
    | [] => none
    | t :: ts => match go ts with | none => some t | some r => some (t + r)
  (go (j.1 *ᵥ x :: List.zipWith (· *ᵥ ·) j.2 ns)).getD 0

end LinTrans

/-- LinearTransformBase.hpp:109-143 with LinearTransform.hpp:57-61: mean from the transformation, covariance from the Jacobians, the number of noise
terms being the lesser of those given and those with a Jacobian. -/
def linearTransform {n p : ℕ} (g : LinTrans 𝕜 n p) (x : Gauss 𝕜 (Fin n)) (ns : List (Gauss 𝕜 (Fin p))) : Gauss 𝕜 (Fin p) :=
  let j := g.jacobian ns.length
  ⟨g.apply x.mean (ns.map Gauss.mean), sumNoise lib j.1 x (List.zipWith (fun B d => ⟨p, B, d⟩) j.2 ns)⟩

/-- The same, with the cross-covariance. -/
def linearTransformCross {n p : ℕ} (g : LinTrans 𝕜 n p) (x : Gauss 𝕜 (Fin n)) (ns : List (Gauss 𝕜 (Fin p))) :
    Gauss 𝕜 (Fin p) × Matrix (Fin n) (Fin p) 𝕜 :=
  let j := g.jacobian ns.length
  let r := sumNoiseCross lib j.1 x (List.zipWith (fun B d => ⟨p, B, d⟩) j.2 ns)
  (⟨g.apply x.mean (ns.map Gauss.mean), r.1⟩, r.2)

/-- The same on distributions in Cholesky form. -/
def linearTransformChol {n p : ℕ} (g : LinTrans 𝕜 n p) (x : GaussChol 𝕜 (Fin n)) (ns : List (GaussChol 𝕜 (Fin p))) : GaussChol 𝕜 (Fin p) :=
  let j := g.jacobian ns.length
  ⟨g.apply x.mean (ns.map GaussChol.mean), sumNoiseChol lib j.1 x (List.zipWith (fun B d => ⟨p, B, d⟩) j.2 ns)⟩

/-- The same on distributions in Cholesky form, with the cross-covariance. -/
def linearTransformCrossChol {n p : ℕ} (g : LinTrans 𝕜 n p) (x : GaussChol 𝕜 (Fin n)) (ns : List (GaussChol 𝕜 (Fin p))) :
    GaussChol 𝕜 (Fin p) × Matrix (Fin n) (Fin p) 𝕜 :=
  let j := g.jacobian ns.length
  let r := sumNoiseCrossChol lib j.1 x (List.zipWith (fun B d => ⟨p, B, d⟩) j.2 ns)
  (⟨g.apply x.mean (ns.map GaussChol.mean), r.1⟩, r.2)

/-- transformations/IdentityTransformation.hpp:53-56: perturbations are added. -/
def identityApply (x : n → 𝕜) (ns : List (n → 𝕜)) : n → 𝕜 := ns.foldl (· + ·) x

/-- transformations/IdentityTransformation.hpp:66-71: the Jacobian of a perturbation is zero. -/
def identityJacobian (k : ℕ) : Matrix n n 𝕜 × List (Matrix n n 𝕜) := (1, List.replicate k 0)

/-- LinearTransform applied to an IdentityTransformation. -/
def linearTransformIdentity {n : ℕ} (x : Gauss 𝕜 (Fin n)) (ns : List (Gauss 𝕜 (Fin n))) : Gauss 𝕜 (Fin n) :=
  let j := identityJacobian (𝕜 := 𝕜) (n := Fin n) ns.length
  ⟨identityApply x.mean (ns.map Gauss.mean), sumNoise lib j.1 x (List.zipWith (fun B d => ⟨n, B, d⟩) j.2 ns)⟩

/-! ## Sums of distributions; identity and RLS transforms -/

/-- distributions/GaussianDistribution.hpp, `operator+` of distributions in self-adjoint form. -/
def Gauss.add (a b : Gauss 𝕜 n) : Gauss 𝕜 n := ⟨a.mean + b.mean, a.cov + b.cov⟩

/-- `operator+` of distributions in Cholesky form; covariance-arithmetic.hpp:79-88 (both lower triangular). -/
def GaussChol.add {n : ℕ} (a b : GaussChol 𝕜 (Fin n)) : GaussChol 𝕜 (Fin n) := ⟨a.mean + b.mean, lib.lq (hcat ⟨n, a.fac⟩ ⟨n, b.fac⟩).2⟩

/-- transforms/IdentityTransform.hpp:53-56 and 78-82. -/
def identityTransform (x : Gauss 𝕜 n) (ns : List (Gauss 𝕜 n)) : Gauss 𝕜 n := ns.foldl Gauss.add x
def identityTransformCross (x : Gauss 𝕜 n) (ns : List (Gauss 𝕜 n)) : Gauss 𝕜 n × Matrix n n 𝕜 := (ns.foldl Gauss.add x, x.cov)

/-- transforms/RecursiveLeastSquaresTransform.hpp:60-64; the scalar is the `1/lambda` of line 37. -/
def rlsTransform (lam : 𝕜) (x : Gauss 𝕜 n) (ns : List (Gauss 𝕜 n)) : Gauss 𝕜 n :=
  ns.foldl Gauss.add ⟨x.mean, (1 / lam) • x.cov⟩

/-- transforms/RecursiveLeastSquaresTransform.hpp:86-93. -/
def rlsTransformCross (lam : 𝕜) (x : Gauss 𝕜 n) (ns : List (Gauss 𝕜 n)) : Gauss 𝕜 n × Matrix n n 𝕜 :=
  let scaled := (1 / lam) • x.cov
  (ns.foldl Gauss.add ⟨x.mean, scaled⟩, scaled)

/-! ## Consecutive transforms -/

/-- The arguments of consecutive linear transforms: a transformation and its noise terms for each. -/
inductive Chain (𝕜 : Type) : ℕ → ℕ → Type
  | last {n p : ℕ} (g : LinTrans 𝕜 n p) (ns : List (Gauss 𝕜 (Fin p))) : Chain 𝕜 n p
  | cons {n k p : ℕ} (g : LinTrans 𝕜 n k) (ns : List (Gauss 𝕜 (Fin k))) (rest : Chain 𝕜 k p) : Chain 𝕜 n p

/-- transforms/details/TransformBase.hpp:51-63: consecutive transforms. -/
def Chain.run : {n p : ℕ} → Chain 𝕜 n p → Gauss 𝕜 (Fin n) → Gauss 𝕜 (Fin p)
  | _, _, .last g ns, x => linearTransform lib g x ns
  | _, _, .cons g ns rest, x => rest.run (linearTransform lib g x ns)

/-- transforms/details/TransformBase.hpp:80-93: with a cross-covariance, which is that of the last transform; its number of rows is the dimension of the
last input. -/
def Chain.runCross : {n p : ℕ} → Chain 𝕜 n p → Gauss 𝕜 (Fin n) → Gauss 𝕜 (Fin p) × ((k : ℕ) × Matrix (Fin k) (Fin p) 𝕜)
  | n, _, .last g ns, x => let r := linearTransformCross lib g x ns; (r.1, ⟨n, r.2⟩)
  | _, _, .cons g ns rest, x => rest.runCross (linearTransform lib g x ns)

/-! ## The filter -/

variable {m : Type} [Fintype m] [DecidableEq m]

/-- filters/KalmanFilter.hpp:41-76 `update_step`, self-adjoint form.  `wx`, `wy` wrap a state and a measurement
(Mean.hpp:103, typed-matrix-arithmetic.hpp:24-59: the difference of two means is not wrapped, but given a pattern called `difference_type`, which no
descriptor defines any more). -/
def updateStep (wx : (n → 𝕜) → n → 𝕜) (wy : (m → 𝕜) → m → 𝕜) (Nx : Gauss 𝕜 n) (Ny : Gauss 𝕜 m) (Pxy : Matrix n m 𝕜) (z : m → 𝕜) : Gauss 𝕜 n :=
  let y := Ny.mean
  let Pyy := Ny.cov
  let Kadj := lib.solve Pyyᴴ Pxyᴴ
  let K := Kadjᴴ
  ⟨wx (Nx.mean + K *ᵥ (wy z - y)), Nx.cov - lib.herm (Pxy * Kadj)⟩

/-- The same in Cholesky form (KalmanFilter.hpp:62-68; covariance-arithmetic.hpp:134-152). -/
def updateStepChol (wx : (n → 𝕜) → n → 𝕜) (wy : (m → 𝕜) → m → 𝕜) (Nx : GaussChol 𝕜 n) (Ny : GaussChol 𝕜 m) (Pxy : Matrix n m 𝕜) (z : m → 𝕜) :
    GaussChol 𝕜 n :=
  let y := Ny.mean
  let Pyy := Ny.fac * Ny.facᴴ
  let Kadj := lib.solve Pyyᴴ Pxyᴴ
  let K := Kadjᴴ
  ⟨wx (Nx.mean + K *ᵥ (wy z - y)), lib.downdate Nx.fac (lib.lq (K * Ny.fac))⟩

/-- KalmanFilter.hpp:97-102 and 153-158 `update`, for a linear measurement and a Euclidean pattern. -/
def update {n m : ℕ} (H : LinTrans 𝕜 n m) (ns : List (Gauss 𝕜 (Fin m))) (z : Fin m → 𝕜) (x : Gauss 𝕜 (Fin n)) : Gauss 𝕜 (Fin n) :=
  let r := linearTransformCross lib H x ns
  updateStep lib id id x r.1 r.2 z

/-- `update` in Cholesky form. -/
def updateChol {n m : ℕ} (H : LinTrans 𝕜 n m) (ns : List (GaussChol 𝕜 (Fin m))) (z : Fin m → 𝕜) (x : GaussChol 𝕜 (Fin n)) : GaussChol 𝕜 (Fin n) :=
  let r := linearTransformCrossChol lib H x ns
  updateStepChol lib id id x r.1 r.2 z

/-- A call of a filter whose state has dimension `n` before and `n'` after. -/
inductive Op (𝕜 : Type) : ℕ → ℕ → Type
  | predict {n n' : ℕ} (F : LinTrans 𝕜 n n') (ns : List (GaussChol 𝕜 (Fin n'))) : Op 𝕜 n n'
  | update {n : ℕ} (m : ℕ) (H : LinTrans 𝕜 n m) (ns : List (GaussChol 𝕜 (Fin m))) (z : Fin m → 𝕜) : Op 𝕜 n n

/-- A history of calls.  Noise distributions are given by their factors, so that the same history can be run in both forms. -/
inductive Hist (𝕜 : Type) : ℕ → ℕ → Type
  | nil {n : ℕ} : Hist 𝕜 n n
  | cons {n k l : ℕ} : Op 𝕜 n k → Hist 𝕜 k l → Hist 𝕜 n l

/-- KalmanFilter.hpp:86-91 `predict` and `update`, in self-adjoint form. -/
def Op.run {n k : ℕ} : Op 𝕜 n k → Gauss 𝕜 (Fin n) → Gauss 𝕜 (Fin k)
  | .predict F ns, x => linearTransform lib F x (ns.map GaussChol.toGauss)
  | .update _ H ns z, x => Kalman.update lib H (ns.map GaussChol.toGauss) z x

def Op.runChol {n k : ℕ} : Op 𝕜 n k → GaussChol 𝕜 (Fin n) → GaussChol 𝕜 (Fin k)
  | .predict F ns, x => linearTransformChol lib F x ns
  | .update _ H ns z, x => updateChol lib H ns z x

def Hist.run {n k : ℕ} : Hist 𝕜 n k → Gauss 𝕜 (Fin n) → Gauss 𝕜 (Fin k)
  | .nil, x => x
  | .cons op h, x => h.run (op.run lib x)

def Hist.runChol {n k : ℕ} : Hist 𝕜 n k → GaussChol 𝕜 (Fin n) → GaussChol 𝕜 (Fin k)
  | .nil, x => x
  | .cons op h, x => h.runChol (op.runChol lib x)

/-- KalmanFilter.hpp:170-181 as it is meant: predict, then update.  As written it cannot be instantiated, because line 178 passes the name of a member function template to `std::apply`. -/
def cycle {n n' m : ℕ} (F : LinTrans 𝕜 n n') (H : LinTrans 𝕜 n' m) (q : List (Gauss 𝕜 (Fin n'))) (r : List (Gauss 𝕜 (Fin m))) (z : Fin m → 𝕜)
    (x : Gauss 𝕜 (Fin n)) : Gauss 𝕜 (Fin n') :=
  let y := linearTransform lib F x q
  let s := linearTransformCross lib H y r
  updateStep lib id id y s.1 s.2 z

/-! ## Second-order terms -/

/-- LinearizedTransform.hpp:59-63 `construct_mean`; real scalars. -/
noncomputable def secondOrderMean {q : Type} (hess : q → Matrix n n ℝ) (P : Matrix n n ℝ) : q → ℝ := fun i => 0.5 * (P * hess i).trace

/-- LinearizedTransform.hpp:66-78 `construct_cov_row`, `construct_cov`. -/
noncomputable def secondOrderCov {q : Type} (hess : q → Matrix n n ℝ) (P : Matrix n n ℝ) : Matrix q q ℝ :=
  fun i j => 0.5 * (P * hess i * P * hess j).trace

/-- LinearizedTransform.hpp:88-131: the corrections for the input and each noise term are added.  Line 113 adds them with a right fold. -/
noncomputable def addCorrection {q : Type} (lib : Lib ℝ) : List ((k : ℕ) × (q → Matrix (Fin k) (Fin k) ℝ) × Matrix (Fin k) (Fin k) ℝ) → Option (Gauss ℝ q)
  | [] => none
  | t :: ts =>
    let g : Gauss ℝ q := ⟨secondOrderMean t.2.1 t.2.2, lib.herm (secondOrderCov t.2.1 t.2.2)⟩
    match addCorrection lib ts with
    | none => some g
    | some r => some ⟨g.mean + r.mean, g.cov + r.cov⟩

end OpenKalman.Kalman
