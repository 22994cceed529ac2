import Verif.Spec.CovArith
import Verif.Model.CovSync
import Mathlib.Data.Matrix.ColumnRowPartitioned

/-!
# Model: arithmetic of covariances

`/repo/OpenKalman/linear-algebra/adapters/details/covariance-arithmetic.hpp`, `to_covariance_nestable.hpp` and the in-place
operators of `Covariance.hpp` and `SquareRootCovariance.hpp` (all in `/repo/OpenKalman/linear-algebra/adapters`).

Simplifications: matrices are exact matrices over `RCLike 𝕜`; an operand of the free functions is given by its synchronised
nested object (`nested_object(cov)` synchronises, Covariance.hpp:1088; the synchronisation itself is C44); patterns are
dropped; the factorisations are parameters (`Lib`), specified in C43.  Names that no longer exist in the repository
(`MatrixTraits`, `vector_space_descriptor_of_t`) are read as their replacements.  The condition
`not triangle_type_of_v<T> == triangle_type_of_v<Arg>` (details/to_covariance_nestable.hpp:71), which negates a scoped enumeration, is
read as `triangle_type_of_v<T> != triangle_type_of_v<Arg>`, and the non-constexpr template argument `t` of `to_triangular<t>`
(covariance-arithmetic.hpp:330, 402) as a constexpr one.
-/

namespace OpenKalman.CovArith
open Matrix

variable {𝕜 : Type} [RCLike 𝕜] {n : ℕ}

/-- Library functions: `cholesky_factor<up>`, `LQ_decomposition`, `QR_decomposition` and `rank_update` of a triangular matrix
(`none`: the update has no factor). -/
structure Lib (𝕜 : Type) where
  chol : {n : ℕ} → Bool → Mat 𝕜 n → Mat 𝕜 n
  lq : {k : ℕ} → {m : Type} → Matrix (Fin k) m 𝕜 → Mat 𝕜 k
  qr : {k : ℕ} → {m : Type} → Matrix m (Fin k) 𝕜 → Mat 𝕜 k
  update : {n : ℕ} → Bool → Mat 𝕜 n → Mat 𝕜 n → ℝ → Option (Mat 𝕜 n)

/-- `triangular_matrix<T, upper>`, `triangular_matrix<T, lower>`, `hermitian_matrix<T>` of the stored form. -/
def Form.upper : Form → Bool
  | .herm _ => false | .diag => true | .cdiag => true | .tri up => up
def Form.lower : Form → Bool
  | .herm _ => false | .diag => true | .cdiag => true | .tri up => !up
def Form.hermitian : Form → Bool
  | .herm _ => true | .diag => true | .cdiag => false | .tri _ => false
/-- `diagonal_matrix<T>`. -/
def Form.diagonal : Form → Bool
  | .herm _ => false | .diag => true | .cdiag => true | .tri _ => false

/-- `cholesky_form<M>` (concepts/object-types.hpp:218-223) for a covariance: the nested matrix is not self-adjoint. -/
def Cov.choleskyForm (c : Cov 𝕜 n) : Bool := !c.form.hermitian

/-- `get_triangular_nested_matrix` (CovarianceImpl.hpp:171-207): the nested matrix itself whenever it is triangular. -/
def Cov.triangularNested (lib : Lib 𝕜) (c : Cov 𝕜 n) : Mat 𝕜 n :=
  match c.form with
  | .herm up => lib.chol up c.nested
  | _ => c.nested

/-- `get_self_adjoint_nested_matrix` (CovarianceImpl.hpp:171-207): the nested matrix itself whenever it is self-adjoint, and
otherwise `cholesky_square`. -/
def Cov.selfAdjointNested (c : Cov 𝕜 n) : Mat 𝕜 n :=
  match c.form with
  | .herm _ => c.nested
  | .diag => c.nested
  | .cdiag => c.nested * c.nestedᴴ
  | .tri up => gram up c.nested

/-- A nestable matrix with what its type says about it. -/
structure Nest (𝕜 : Type) (n : ℕ) where
  val : Mat 𝕜 n
  hermitian : Bool
  lower : Bool
  upper : Bool

/-- `to_covariance_nestable(cov)` (details/to_covariance_nestable.hpp:148-165) and `okd::to_nestable`
(covariance-arithmetic.hpp:24-37). -/
def Opd.toNestable (lib : Lib 𝕜) : Opd 𝕜 n → Nest 𝕜 n
  | .mat _ M => ⟨M, false, false, false⟩
  | .cov c =>
    if c.root then
      match c.form with
      | .herm up => ⟨c.triangularNested lib, false, !up, up⟩
      | _ => ⟨c.triangularNested lib, c.form.hermitian, c.form.lower, c.form.upper⟩
    else
      match c.form with
      | .tri _ => ⟨c.selfAdjointNested, true, false, false⟩
      | _ => ⟨c.selfAdjointNested, c.form.hermitian, c.form.lower, c.form.upper⟩

/-- covariance-arithmetic.hpp:95-106 (also 161-172, 204-215): a self-adjoint result becomes a covariance, a triangular one a
square-root covariance, anything else a plain matrix. -/
def wrap (r : Nest 𝕜 n) : Opd 𝕜 n :=
  if r.hermitian then .cov ⟨false, if r.lower && r.upper then .diag else .herm false, r.val, false, false⟩
  else if r.lower || r.upper then .cov ⟨true, if r.lower && r.upper then .cdiag else .tri r.upper, r.val, false, false⟩
  else .mat false r.val

/-- Sum or difference of nestables: what the type of the result says (self-adjoint if both are, triangular if both are on the same side). -/
def Nest.combine (f : Mat 𝕜 n → Mat 𝕜 n → Mat 𝕜 n) (a b : Nest 𝕜 n) : Nest 𝕜 n :=
  ⟨f a.val b.val, a.hermitian && b.hermitian, a.lower && b.lower, a.upper && b.upper⟩

def Opd.isZero : Opd 𝕜 n → Bool
  | .cov c => c.zero
  | .mat z _ => z

/-- `cholesky_form<Arg> and self_adjoint_covariance<Arg>`. -/
def Opd.choleskySelfAdjoint : Opd 𝕜 n → Option (Cov 𝕜 n)
  | .cov c => if c.choleskyForm && !c.root then some c else none
  | .mat _ _ => none

/-- covariance-arithmetic.hpp:68-87: the sum of two Cholesky-form covariances. -/
def addCholesky (lib : Lib 𝕜) (c d : Cov 𝕜 n) : Cov 𝕜 n :=
  if c.form.upper && d.form.upper then ⟨false, .tri true, lib.qr (fromRows c.nested d.nested), false, false⟩
  else if c.form.upper && d.form.lower then ⟨false, .tri true, lib.qr (fromRows c.nested d.nestedᴴ), false, false⟩
  else if c.form.lower && d.form.upper then ⟨false, .tri false, lib.lq (fromCols c.nested d.nestedᴴ), false, false⟩
  else ⟨false, .tri false, lib.lq (fromCols c.nested d.nested), false, false⟩

/-- `operator+` (covariance-arithmetic.hpp:54-108). -/
def add (lib : Lib 𝕜) (a b : Opd 𝕜 n) : Opd 𝕜 n :=
  if a.isZero then b
  else if b.isZero then a
  else match a.choleskySelfAdjoint, b.choleskySelfAdjoint with
    | some c, some d => .cov (addCholesky lib c d)
    | _, _ => wrap (Nest.combine (· + ·) (a.toNestable lib) (b.toNestable lib))

/-- The triangle in which `rank_update` works: upper only for an upper triangular, non-diagonal matrix. -/
def Form.updateUp (f : Form) : Bool := f.upper && !f.lower

/-- covariance-arithmetic.hpp:133-151: the difference of two Cholesky-form covariances. -/
def subCholesky (lib : Lib 𝕜) (c d : Cov 𝕜 n) : Option (Cov 𝕜 n) :=
  let b := if d.form.upper then d.nestedᴴ else d.nested
  (lib.update c.form.updateUp c.nested b (-1)).map fun r => ⟨false, .tri c.form.updateUp, r, false, false⟩

/-- `operator-` (covariance-arithmetic.hpp:125-173). -/
def sub (lib : Lib 𝕜) (a b : Opd 𝕜 n) : Option (Opd 𝕜 n) :=
  if b.isZero then some a
  else match a.choleskySelfAdjoint, b.choleskySelfAdjoint with
    | some c, some d => (subCholesky lib c d).map .cov
    | _, _ => some (wrap (Nest.combine (· - ·) (a.toNestable lib) (b.toNestable lib)))

/-- Product of nestables: self-adjoint only if both are diagonal and self-adjoint. -/
def Nest.product (a b : Nest 𝕜 n) : Nest 𝕜 n :=
  ⟨a.val * b.val, a.hermitian && b.hermitian && (a.lower && a.upper) && (b.lower && b.upper), a.lower && b.lower, a.upper && b.upper⟩

/-- `covariance * covariance` (covariance-arithmetic.hpp:180-217). -/
def mul (lib : Lib 𝕜) (c d : Cov 𝕜 n) : Opd 𝕜 n :=
  if c.zero || d.ident then .cov c
  else if d.zero || c.ident then .cov d
  else wrap (Nest.product ((Opd.cov c).toNestable lib) ((Opd.cov d).toNestable lib))

/-- `covariance * typed matrix` (covariance-arithmetic.hpp:265-306), the matrix not known to be zero or identity. -/
def mulMat {k : ℕ} (lib : Lib 𝕜) (c : Cov 𝕜 n) (A : Matrix (Fin n) (Fin k) 𝕜) : Matrix (Fin n) (Fin k) 𝕜 :=
  if c.zero then 0
  else if c.ident then A
  else ((Opd.cov c).toNestable lib).val * A

/-- `typed matrix * covariance` (covariance-arithmetic.hpp:223-262), the matrix not known to be zero or identity. -/
def matMul {k : ℕ} (lib : Lib 𝕜) (A : Matrix (Fin k) (Fin n) 𝕜) (c : Cov 𝕜 n) : Matrix (Fin k) (Fin n) 𝕜 :=
  if c.zero then 0
  else if c.ident then A
  else A * ((Opd.cov c).toNestable lib).val

/-- `TriangularAdapterFrom<>` of a triangular or diagonal matrix: the same triangle, lower for a diagonal one. -/
def Form.triangular (f : Form) : Form := .tri f.updateUp

/-- `covariance * scalar` (covariance-arithmetic.hpp:318-365) and `scalar * covariance` (368-381), for a real factor. -/
noncomputable def smul (lib : Lib 𝕜) (c : Cov 𝕜 n) (s : ℝ) : Option (Cov 𝕜 n) :=
  if c.zero then some c
  else if c.choleskyForm then
    if c.root then
      some ⟨false, c.form, (s : 𝕜) • c.nested, false, false⟩
    else if 0 < s then some ⟨false, c.form.triangular, ((Real.sqrt s : ℝ) : 𝕜) • c.nested, false, false⟩
    else if s < 0 then (lib.update c.form.updateUp 0 c.nested s).map fun r => ⟨false, c.form.triangular, r, false, false⟩
    else some ⟨false, c.form.triangular, 0, false, false⟩
  else if c.root && !c.form.diagonal then some ⟨false, c.form, ((s * s : ℝ) : 𝕜) • c.nested, false, false⟩
  else some ⟨false, c.form, (s : 𝕜) • c.nested, false, false⟩

/-- `covariance / scalar` (covariance-arithmetic.hpp:384-440), for a real divisor; `none` for the exception of line 421 and
for a division of the elements by zero. -/
noncomputable def sdiv (lib : Lib 𝕜) (c : Cov 𝕜 n) (s : ℝ) : Option (Cov 𝕜 n) :=
  if c.choleskyForm then
    if c.root then
      if s = 0 then none else some ⟨false, c.form, ((s⁻¹ : ℝ) : 𝕜) • c.nested, false, false⟩
    else if 0 < s then some ⟨false, c.form.triangular, (((Real.sqrt s)⁻¹ : ℝ) : 𝕜) • c.nested, false, false⟩
    else if s < 0 then (lib.update c.form.updateUp 0 c.nested (1 / s)).map fun r => ⟨false, c.form.triangular, r, false, false⟩
    else none
  else if c.zero then some c
  else if s = 0 then none
  else if c.root && !c.form.diagonal then some ⟨false, c.form, (((s * s)⁻¹ : ℝ) : 𝕜) • c.nested, false, false⟩
  else some ⟨false, c.form, ((s⁻¹ : ℝ) : 𝕜) • c.nested, false, false⟩

/-- Negation (covariance-arithmetic.hpp:443-467); `none`: a static assertion fails. -/
def neg (c : Cov 𝕜 n) : Option (Cov 𝕜 n) :=
  if c.zero then some c
  else if c.choleskyForm && !c.root then none
  else if !c.choleskyForm && c.root && !c.form.diagonal then none
  else some ⟨c.root, c.form, -c.nested, false, false⟩

/-- `scale(cov, s)` (covariance-arithmetic.hpp:511-531). -/
def scale (c : Cov 𝕜 n) (s : 𝕜) : Cov 𝕜 n :=
  if c.choleskyForm || (c.form.diagonal && c.root) then ⟨c.root, c.form, s • c.nested, false, false⟩
  else ⟨c.root, c.form, (s * s) • c.nested, false, false⟩

/-- `inverse_scale(cov, s)` (covariance-arithmetic.hpp:534-556); `none`: division by zero. -/
noncomputable def inverseScale (c : Cov 𝕜 n) (s : 𝕜) : Option (Cov 𝕜 n) :=
  open Classical in
  if s = 0 then none
  else if c.choleskyForm || (c.form.diagonal && c.root) then some ⟨c.root, c.form, s⁻¹ • c.nested, false, false⟩
  else some ⟨c.root, c.form, (s * s)⁻¹ • c.nested, false, false⟩

/-- `square()` of a square-root covariance (SquareRootCovariance.hpp:486-545) as a matrix: the self-adjoint nested matrix,
except that a diagonal one is squared. -/
def Cov.square (c : Cov 𝕜 n) : Mat 𝕜 n :=
  if c.form.diagonal then c.nested * c.nestedᴴ else c.selfAdjointNested

/-- `scale(cov, A)` (covariance-arithmetic.hpp:578-612). -/
def scaleMat {k : ℕ} (lib : Lib 𝕜) (c : Cov 𝕜 n) (A : Matrix (Fin k) (Fin n) 𝕜) : Cov 𝕜 k :=
  if c.form.diagonal || c.form.hermitian then
    let up := match c.form with | .herm up => up | _ => false
    if c.root then ⟨true, .herm up, A * (c.square * Aᴴ), false, false⟩
    else ⟨false, .herm up, A * mulMat lib c Aᴴ, false, false⟩
  else if c.form.upper then ⟨c.root, .tri true, lib.qr (c.nested * Aᴴ), false, false⟩
  else ⟨c.root, .tri false, lib.lq (A * c.nested), false, false⟩

/-! ### In-place operators -/

/-- `to_covariance_nestable<T>(cov)` for a triangular, non-diagonal `T` (details/to_covariance_nestable.hpp:28-84, 118-127): the
triangular nested matrix, transposed (not conjugated) if it is the other triangle. -/
def Cov.toTri (lib : Lib 𝕜) (up : Bool) (c : Cov 𝕜 n) : Mat 𝕜 n :=
  let x := c.triangularNested lib
  match c.form with
  | .diag => x
  | .cdiag => x
  | .herm up' => if up = up' then x else xᵀ
  | .tri up' => if up = up' then x else xᵀ

/-- A covariance whose nested matrix is not of the kind of the covariance keeps both forms (C44): here a self-adjoint covariance with
triangular nested matrix (`nested`: factor, `chol`: self-adjoint matrix), or a square root with self-adjoint nested matrix
(`nested`: self-adjoint matrix, `chol`: factor). -/
abbrev State (𝕜 : Type) (n : ℕ) := CovSync.Obj (Mat 𝕜 n) (Mat 𝕜 n)

/-- `Covariance::operator+=` (Covariance.hpp:291-322), triangular nested matrix. -/
def State.addCov (lib : Lib 𝕜) (up : Bool) (o : State 𝕜 n) (arg : Cov 𝕜 n) : State 𝕜 n :=
  let nested := if o.sd ≥ 0 then
      (if up then lib.qr (fromRows o.nested (arg.toTri lib up)) else lib.lq (fromCols o.nested (arg.toTri lib up)))
    else o.nested
  let chol := if o.sd ≤ 0 then o.chol + arg.selfAdjointNested else o.chol
  ⟨nested, chol, o.sd⟩

/-- `Covariance::operator-=` (Covariance.hpp:347-368), triangular nested matrix. -/
def State.subCov (lib : Lib 𝕜) (up : Bool) (o : State 𝕜 n) (arg : Cov 𝕜 n) : Option (State 𝕜 n) := do
  let nested ← if o.sd ≥ 0 then lib.update up o.nested (arg.toTri lib false) (-1) else some o.nested
  let chol := if o.sd ≤ 0 then o.chol - arg.selfAdjointNested else o.chol
  some ⟨nested, chol, o.sd⟩

/-- `Covariance::operator*=` (Covariance.hpp:391-426), triangular nested matrix.  For a negative factor `*this` is converted to a lower
triangular matrix by transposing an upper one. -/
noncomputable def State.mulCov (lib : Lib 𝕜) (up : Bool) (o : State 𝕜 n) (s : ℝ) : Option (State 𝕜 n) :=
  if 0 < s then
    some ⟨if o.sd ≥ 0 then ((Real.sqrt s : ℝ) : 𝕜) • o.nested else o.nested, if o.sd ≤ 0 then (s : 𝕜) • o.chol else o.chol, o.sd⟩
  else if s < 0 then do
    let nested ← if o.sd ≥ 0 then lib.update up 0 (if up then o.nestedᵀ else o.nested) s else some o.nested
    some ⟨nested, if o.sd ≤ 0 then (s : 𝕜) • o.chol else o.chol, o.sd⟩
  else
    some (if o.sd ≤ 0 then ⟨0, 0, 0⟩ else ⟨0, o.chol, o.sd⟩)

/-- `Covariance::operator/=` (Covariance.hpp:436-467), triangular nested matrix. -/
noncomputable def State.divCov (lib : Lib 𝕜) (up : Bool) (o : State 𝕜 n) (s : ℝ) : Option (State 𝕜 n) :=
  if 0 < s then
    some ⟨if o.sd ≥ 0 then (((Real.sqrt s)⁻¹ : ℝ) : 𝕜) • o.nested else o.nested, if o.sd ≤ 0 then ((s⁻¹ : ℝ) : 𝕜) • o.chol else o.chol, o.sd⟩
  else if s < 0 then do
    let nested ← if o.sd ≥ 0 then lib.update up 0 (if up then o.nestedᵀ else o.nested) (1 / s) else some o.nested
    some ⟨nested, if o.sd ≤ 0 then ((s⁻¹ : ℝ) : 𝕜) • o.chol else o.chol, o.sd⟩
  else none

/-- `Covariance::scale` (Covariance.hpp:477-490), triangular nested matrix. -/
def State.scaleCov (o : State 𝕜 n) (s : 𝕜) : State 𝕜 n :=
  ⟨if o.sd ≥ 0 then s • o.nested else o.nested, if o.sd ≤ 0 then (s * s) • o.chol else o.chol, o.sd⟩

/-- `Covariance::inverse_scale` (Covariance.hpp:500-513), triangular nested matrix, `s ≠ 0`. -/
noncomputable def State.inverseScaleCov (o : State 𝕜 n) (s : 𝕜) : State 𝕜 n :=
  ⟨if o.sd ≥ 0 then s⁻¹ • o.nested else o.nested, if o.sd ≤ 0 then (s * s)⁻¹ • o.chol else o.chol, o.sd⟩

/-- `SquareRootCovariance::operator+=`, `-=` and `*=` by a square root (SquareRootCovariance.hpp:297-319, 353-375, 451-473), self-adjoint
nested matrix: synchronise forward (which marks the object as synchronised), update the factor, mark it as changed. -/
def State.opRoot (lib : Lib 𝕜) (up : Bool) (f : Mat 𝕜 n → Mat 𝕜 n → Mat 𝕜 n) (o : State 𝕜 n) (arg : Cov 𝕜 n) : State 𝕜 n :=
  let o := if o.sd > 0 then { o with chol := lib.chol up o.nested, sd := 0 } else o
  let o := { o with chol := f o.chol (arg.toTri lib up) }
  if o.sd > 0 then { o with nested := gram up o.chol, sd := 0 } else { o with sd := -1 }

/-- `SquareRootCovariance::operator*=` by a scalar (SquareRootCovariance.hpp:399-411), self-adjoint nested matrix. -/
def State.mulRoot (o : State 𝕜 n) (s : 𝕜) : State 𝕜 n :=
  ⟨if o.sd ≥ 0 then (s * s) • o.nested else o.nested, if o.sd ≤ 0 then s • o.chol else o.chol, o.sd⟩

/-- `SquareRootCovariance::operator/=` by a scalar (SquareRootCovariance.hpp:421-433), self-adjoint nested matrix, `s ≠ 0`. -/
noncomputable def State.divRoot (o : State 𝕜 n) (s : 𝕜) : State 𝕜 n :=
  ⟨if o.sd ≥ 0 then (s * s)⁻¹ • o.nested else o.nested, if o.sd ≤ 0 then s⁻¹ • o.chol else o.chol, o.sd⟩

/-- In-place operators of a covariance that stores its own kind (Covariance.hpp:293-297, 349-353: self-adjoint
nested matrix in a `Covariance`). -/
def Cov.addHerm (c arg : Cov 𝕜 n) : Cov 𝕜 n := { c with nested := c.nested + arg.selfAdjointNested, zero := false, ident := false }
def Cov.subHerm (c arg : Cov 𝕜 n) : Cov 𝕜 n := { c with nested := c.nested - arg.selfAdjointNested, zero := false, ident := false }
/-- As above, triangular nested matrix in a `SquareRootCovariance` (SquareRootCovariance.hpp:299-303, 355-359): `f` is `+`, `-`. -/
def Cov.opTri (lib : Lib 𝕜) (f : Mat 𝕜 n → Mat 𝕜 n → Mat 𝕜 n) (c arg : Cov 𝕜 n) : Cov 𝕜 n :=
  { c with nested := f c.nested (if c.form.diagonal then arg.triangularNested lib else arg.toTri lib c.form.updateUp), zero := false, ident := false }

end OpenKalman.CovArith
