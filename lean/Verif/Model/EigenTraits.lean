import Verif.Spec.EigenTraits

/-!
# The traits of Eigen expressions (linear-algebra/interfaces/eigen/traits)

What the traits of an expression report about its value: the constant (`get_constant`), the constant of the diagonal (`get_constant_diagonal`), the triangle type and
whether it is Hermitian.  A missing value (`std::monostate` or an operation on a missing value) is `none`; a NaN is `none` too.

Simplified: the scalar type is the same throughout an expression (abs, comparisons and casts give the real or truth value inside the same type); `scalar_shift_*_op` (integers only),
`Reshaped`, `Homogeneous`, `IndexedView`, `Inverse`, `Solve`, permutations and ternary operations (which report nothing, apart from `Reshaped`) are left out; the value of a one-by-one
object that is only known at run time (`internal::get_singular_component`) is left out; static extents of a result are those of the first operand that has them.
-/

namespace OpenKalman.EigenTraits
open Classical RCLike

/-- `operator*` (linear-algebra/enumerations.hpp:41-54). -/
def Tri.mul (a b : Tri) : Tri :=
  if a = .diagonal ∨ b = .diagonal ∨ (a = .upper ∧ b = .lower) ∨ (a = .lower ∧ b = .upper) then .diagonal
  else if a = .lower ∨ b = .lower then .lower
  else if a = .upper ∨ b = .upper then .upper
  else .none

/-- `operator+` (linear-algebra/enumerations.hpp:59-68). -/
def Tri.add (a b : Tri) : Tri :=
  if a = .diagonal then b
  else if b = .diagonal then a
  else if a = .lower ∧ b = .lower then .lower
  else if a = .upper ∧ b = .upper then .upper
  else .none

variable {𝕜 : Type*} [RCLike 𝕜]

namespace Claims

/-- concepts/zero.hpp:53-66 -/
def Zero (k : Claims 𝕜) : Prop := k.const = some ⟨true, 0⟩

/-- `one_dimensional`, as far as known at compile time. -/
def OneDim (k : Claims 𝕜) : Prop := k.sr = some 1 ∧ k.sc = some 1

/-- `constant_value`; a one-by-one constant diagonal is constant (concepts/constant_object.hpp:38-59). -/
noncomputable def constVal (k : Claims 𝕜) : Option (Val 𝕜) :=
  match k.const with
  | some v => some v
  | none => if k.OneDim then k.diag else none

/-- `constant_diagonal_value`; a zero matrix and a one-by-one constant are constant diagonal (concepts/constant_diagonal_object.hpp:30-38). -/
noncomputable def diagVal (k : Claims 𝕜) : Option (Val 𝕜) :=
  match k.diag with
  | some v => some v
  | none => if k.Zero ∨ k.OneDim then k.const else none

/-- `triangle_type_of` (traits/triangle_type_of.hpp:58-65). -/
noncomputable def triOf (k : Claims 𝕜) : Tri :=
  if k.Zero ∨ k.OneDim ∨ k.tri = .diagonal then .diagonal
  else if k.sc = some 1 then .lower
  else if k.sr = some 1 then .upper
  else k.tri

/-- `square_shaped<T, applicability::permitted>`: the static extents do not differ. -/
noncomputable def maybeSquare (k : Claims 𝕜) : Bool := decide (k.sr = none ∨ k.sc = none ∨ k.sr = k.sc)

/-- `hermitian_matrix<T, applicability::permitted>` (concepts/hermitian_matrix.hpp:51-60). -/
noncomputable def isHerm (cplx : Bool) (k : Claims 𝕜) : Bool :=
  k.maybeSquare && (k.herm || ((k.constVal.isSome || decide (k.triOf = .diagonal)) && !cplx))

/-- `values::not_complex` of a value that may be missing (values/concepts/not_complex.hpp:24-49). -/
noncomputable def notComplex (cplx : Bool) (o : Option (Val 𝕜)) : Bool :=
  match o with
  | none => false
  | some v => !cplx || (v.fixed && decide (im v.v = 0))

end Claims

open Claims

/-! ## Functor tables -/

/-- `UnaryFunctorTraits<…>::preserves_triangle` (functors/unary.hpp:63-528). -/
def presTri : Un → Bool
  | .neg => true
  | .not => false
  | .abs => true
  | .abs2 => true
  | .conj => true
  | .arg => false
  | .cast => true
  | .real => true
  | .imag => true
  | .exp => false
  | .expm1 => true
  | .log => false
  | .log1p => true
  | .log10 => false
  | .log2 => false
  | .sqrt => true
  | .rsqrt => false
  | .cos => false
  | .sin => true
  | .tan => true
  | .acos => false
  | .asin => true
  | .atan => true
  | .tanh => true
  | .atanh => true
  | .sinh => true
  | .asinh => true
  | .cosh => false
  | .acosh => false
  | .inverse => false
  | .square => true
  | .cube => true
  | .logistic => false

/-- `UnaryFunctorTraits<…>::preserves_hermitian` (functors/unary.hpp:63-528); `imag` at 220. -/
def presHerm (cplx : Bool) : Un → Bool
  | .imag => !cplx
  | _ => true

/-- `UnaryFunctorTraits<…>::constexpr_operation` (functors/unary.hpp:63-528): `values::f` is the function `f` except where the code writes a formula
(107-126 abs2, 140-147 arg, 275-286 log10, 293-304 log2, 321-332 rsqrt, 464-475 inverse, 481-496 square and cube, 519-524 logistic). -/
noncomputable def constUn (S : Scalar 𝕜) (op : Un) (x : 𝕜) : Option 𝕜 :=
  match op with
  | .abs2 => some (if S.cplx then ((re x * re x + im x * im x : ℝ) : 𝕜) else x * x)
  | .arg => some ((Complex.arg ⟨re x, im x⟩ : ℝ) : 𝕜)
  | .log10 => some (S.un .log x / ((Real.log 10 : ℝ) : 𝕜))
  | .log2 => some (S.un .log x / ((Real.log 2 : ℝ) : 𝕜))
  | .rsqrt => if x = 0 then none else some (1 / S.un .sqrt x)
  | .inverse => if x = 0 then none else some (1 / x)
  | .square => some (x * x)
  | .cube => some (x * x * x)
  | .logistic => some (1 / (1 + S.un .exp (-x)))
  | op => some (S.un op x)

/-- BinaryFunctorType (details/eigen-forward-declarations.hpp:48-52). -/
inductive Kind
  | normal | sum | product
  deriving DecidableEq

/-- `BinaryFunctorTraits<…>::binary_functor_type` (functors/binary.hpp:44-428). -/
def kind : Bin → Kind
  | .sum | .diff => .sum
  | .prod | .conjProd | .and => .product
  | .quot => .normal
  | .or => .sum
  | .equalTo => .normal
  | .notEqualTo => .sum
  | .greater => .sum
  | .less => .sum
  | .greaterEqual => .normal
  | .lessEqual => .normal
  | .min | .max => .sum
  | .cmp _ => .normal
  | .hypot => .sum
  | .pow => .normal
  | .absDiff => .sum

/-- `BinaryFunctorTraits<…>::preserves_constant_diagonal` (functors/binary.hpp:44-428). -/
def presDiag : Bin → Bool
  | .quot | .equalTo | .greaterEqual | .lessEqual | .cmp _ | .pow => false
  | _ => true

/-- `BinaryFunctorTraits<…>::preserves_hermitian` (functors/binary.hpp:44-428): true in every entry. -/
def presHermBin : Bin → Bool := fun _ => true

/-- `BinaryFunctorTraits<…>::constexpr_operation` (functors/binary.hpp:44-428), with formulas at 227, 238, 292, 369 and 422. -/
noncomputable def constBin (S : Scalar 𝕜) (op : Bin) (x y : 𝕜) : 𝕜 :=
  match op with
  | .conjProd => star x * y
  | .min => if re y < re x then y else x
  | .max => if re x < re y then y else x
  | .hypot => S.un .sqrt (x * x + y * y)
  | .absDiff => if re x < re y then y - x else x - y
  | op => S.bin op x y

/-- `values::operation` with two arguments (values/functions/operation.hpp:87-117). -/
noncomputable def operation (f : 𝕜 → 𝕜 → 𝕜) (a b : Option (Val 𝕜)) : Option (Val 𝕜) :=
  match a, b with
  | some a, some b => some ⟨a.fixed && b.fixed, f a.v b.v⟩
  | _, _ => none

/-- `values::operation` with one argument. -/
def operation₁ (f : 𝕜 → Option 𝕜) (a : Option (Val 𝕜)) : Option (Val 𝕜) :=
  match a with
  | some a => (f a.v).map fun v => ⟨a.fixed, v⟩
  | none => none

/-! ## Coefficient-wise expressions -/

/-- `object_traits<CwiseUnaryOp>` (CwiseUnaryOp.hpp:71-129), and `CwiseUnaryView` likewise (CwiseUnaryView.hpp:60-122). -/
noncomputable def unaryClaims (S : Scalar 𝕜) (op : Un) (k : Claims 𝕜) : Claims 𝕜 where
  const := operation₁ (constUn S op) k.constVal
  diag := if presTri op then operation₁ (constUn S op) k.diagVal else none
  tri := if presTri op then k.triOf else .none
  herm := presHerm S.cplx op && k.isHerm S.cplx
  sr := k.sr
  sc := k.sc

/-- `logical_or::get_constant` (functors/binary.hpp:102-118). -/
noncomputable def orConst (k₁ k₂ : Claims 𝕜) : Option (Val 𝕜) :=
  match k₂.constVal with
  | some ⟨true, v⟩ => if v = 1 then some ⟨true, v⟩ else k₁.constVal
  | _ =>
    match k₁.constVal with
    | some ⟨true, v⟩ => if v = 1 then some ⟨true, v⟩ else k₂.constVal
    | _ => none

/-- `logical_or::get_constant_diagonal` (functors/binary.hpp:120-146). -/
noncomputable def orDiag (k₁ k₂ : Claims 𝕜) : Option (Val 𝕜) :=
  match k₂.diagVal with
  | some ⟨true, v⟩ => if v = 1 ∧ k₁.triOf = .diagonal then some ⟨true, v⟩ else if v = 0 then k₁.diagVal else none
  | _ =>
    match k₁.diagVal with
    | some ⟨true, v⟩ => if v = 1 ∧ k₂.triOf = .diagonal then some ⟨true, v⟩ else if v = 0 then k₂.diagVal else none
    | _ => none

/-- `scalar_min_op` (`lt` is `<`) and `scalar_max_op` (`lt` is `>`): `get_constant` (functors/binary.hpp:243-261, 297-316). -/
noncomputable def extConst (lt : ℝ → ℝ → Prop) (f : 𝕜 → 𝕜 → 𝕜) (k₁ k₂ : Claims 𝕜) : Option (Val 𝕜) :=
  match k₁.constVal, k₂.diagVal with
  | some ⟨true, c⟩, some ⟨true, d⟩ => if lt (re c) 0 ∧ lt (re c) (re d) then some ⟨true, c⟩ else none
  | _, _ =>
    match k₁.diagVal, k₂.constVal with
    | some ⟨true, d⟩, some ⟨true, c⟩ => if lt (re c) 0 ∧ lt (re c) (re d) then some ⟨true, c⟩ else none
    | _, _ => operation f k₁.constVal k₂.constVal

/-- `get_constant_diagonal` of the same (functors/binary.hpp:263-283, 318-338); `lt` as in `extConst`. -/
noncomputable def extDiag (lt : ℝ → ℝ → Prop) (f : 𝕜 → 𝕜 → 𝕜) (k₁ k₂ : Claims 𝕜) : Option (Val 𝕜) :=
  match k₁.constVal, k₂.diagVal with
  | some ⟨true, c⟩, some ⟨true, d⟩ => if lt 0 (re c) ∧ lt (re d) (re c) then some ⟨true, d⟩ else none
  | _, _ =>
    match k₁.diagVal, k₂.constVal with
    | some ⟨true, d⟩, some ⟨true, c⟩ => if lt 0 (re c) ∧ lt (re d) (re c) then some ⟨true, d⟩ else none
    | _, _ => operation f k₁.diagVal k₂.diagVal

/-- `object_traits<CwiseBinaryOp>::get_constant` (CwiseBinaryOp.hpp:73-101). -/
noncomputable def binaryConst (S : Scalar 𝕜) (op : Bin) (k₁ k₂ : Claims 𝕜) : Option (Val 𝕜) :=
  match op with
  | .or => orConst k₁ k₂
  | .min => extConst (· < ·) (constBin S .min) k₁ k₂
  | .max => extConst (· > ·) (constBin S .max) k₁ k₂
  | op =>
    if kind op = .sum ∧ k₁.Zero then k₂.constVal
    else if kind op = .sum ∧ k₂.Zero then k₁.constVal
    else if kind op = .product ∧ k₁.Zero then k₁.constVal
    else if kind op = .product ∧ k₂.Zero then k₂.constVal
    else operation (constBin S op) k₁.constVal k₂.constVal

/-- `object_traits<CwiseBinaryOp>::get_constant_diagonal` (CwiseBinaryOp.hpp:115-168). -/
noncomputable def binaryDiag (S : Scalar 𝕜) (op : Bin) (k₁ k₂ : Claims 𝕜) : Option (Val 𝕜) :=
  match op with
  | .or => orDiag k₁ k₂
  | .min => extDiag (· < ·) (constBin S .min) k₁ k₂
  | .max => extDiag (· > ·) (constBin S .max) k₁ k₂
  | op =>
    if kind op = .sum ∧ k₁.Zero then k₂.diagVal
    else if kind op = .sum ∧ k₂.Zero then k₁.diagVal
    else if kind op = .product ∧ k₁.Zero then k₁.constVal
    else if kind op = .product ∧ k₂.Zero then k₂.constVal
    else if kind op = .product then
      operation (constBin S op) (if k₁.constVal.isSome then k₁.constVal else k₁.diagVal) (if k₂.constVal.isSome then k₂.constVal else k₂.diagVal)
    else if kind op = .sum ∨ presDiag op then operation (constBin S op) k₁.diagVal k₂.diagVal
    else none

/-- `object_traits<CwiseBinaryOp>` (CwiseBinaryOp.hpp:73-202). -/
noncomputable def binaryClaims (S : Scalar 𝕜) (op : Bin) (k₁ k₂ : Claims 𝕜) : Claims 𝕜 where
  const := binaryConst S op k₁ k₂
  diag := binaryDiag S op k₁ k₂
  tri := match kind op with
    | .sum => Tri.add k₁.triOf k₂.triOf
    | .product => Tri.mul k₁.triOf k₂.triOf
    | .normal => .none
  herm := presHermBin op && k₁.isHerm S.cplx && k₂.isHerm S.cplx
  sr := k₁.sr <|> k₂.sr
  sc := k₁.sc <|> k₂.sc

/-- `scalar_constant_op` (functors/nullary.hpp:71-84): the value is known at run time. -/
def constClaims (cplx : Bool) (c : 𝕜) (sr sc : Option ℕ) : Claims 𝕜 := ⟨some ⟨false, c⟩, none, .none, !cplx, sr, sc⟩

/-- `scalar_identity_op` (functors/nullary.hpp:40-53). -/
def identityClaims (sr sc : Option ℕ) : Claims 𝕜 := ⟨none, some ⟨true, 1⟩, .diagonal, true, sr, sc⟩

/-- Any nullary functor without an entry, for example `scalar_random_op` (functors/nullary.hpp:25-38); `draw` is what `arg.functor()()` returns when the trait is asked. -/
def nullaryClaims (draw : 𝕜) (sr sc : Option ℕ) : Claims 𝕜 := ⟨some ⟨false, draw⟩, none, .none, false, sr, sc⟩

/-- `bind1st_op` (functors/unary.hpp:533-561). -/
noncomputable def bind1Claims (S : Scalar 𝕜) (op : Bin) (c : 𝕜) (k : Claims 𝕜) : Claims 𝕜 where
  const := (binaryClaims S op (constClaims S.cplx c k.sr k.sc) k).constVal
  diag := (binaryClaims S op (constClaims S.cplx c k.sr k.sc) k).diagVal
  tri := if kind op = .product then k.triOf else .none
  herm := presHermBin op && k.isHerm S.cplx
  sr := k.sr
  sc := k.sc

/-- `bind2nd_op` (functors/unary.hpp:564-592). -/
noncomputable def bind2Claims (S : Scalar 𝕜) (op : Bin) (k : Claims 𝕜) (c : 𝕜) : Claims 𝕜 where
  const := (binaryClaims S op k (constClaims S.cplx c k.sr k.sc)).constVal
  diag := (binaryClaims S op k (constClaims S.cplx c k.sr k.sc)).diagVal
  tri := if kind op = .product then k.triOf else .none
  herm := presHermBin op && k.isHerm S.cplx
  sr := k.sr
  sc := k.sc

/-! ## Structural expressions -/

/-- `object_traits<Transpose>` (Transpose.hpp:42-70). -/
noncomputable def transposeClaims (cplx : Bool) (k : Claims 𝕜) : Claims 𝕜 where
  const := k.constVal
  diag := k.diagVal
  tri := match k.triOf with
    | .diagonal => .diagonal
    | .upper => .lower
    | .lower => .upper
    | .none => .none
  herm := k.isHerm cplx
  sr := k.sc
  sc := k.sr

/-- `object_traits<Replicate>` (Replicate.hpp:45-90); `rf`, `cf` are the factors if static.  The last alternative of the triangle type is as in the code. -/
noncomputable def replicateClaims (cplx : Bool) (rf cf : Option ℕ) (k : Claims 𝕜) : Claims 𝕜 where
  const := k.constVal
  diag := if rf = some 1 ∧ cf = some 1 then k.diagVal else none
  tri :=
    if k.triOf = .diagonal ∧ rf = some 1 ∧ cf = some 1 then .diagonal
    else if (k.triOf = .upper ∨ k.triOf = .diagonal) ∧ rf = some 1 then .upper
    else if (k.triOf = .lower ∨ k.triOf = .diagonal) ∧ cf = some 1 then .upper
    else .none
  herm := k.isHerm cplx && (decide (rf = some 1 ∧ cf = some 1) || !cplx || notComplex cplx k.constVal || notComplex cplx k.diagVal)
  sr := match rf, k.sr with
    | some r, some m => some (r * m)
    | _, _ => none
  sc := match cf, k.sc with
    | some c, some n => some (c * n)
    | _, _ => none

/-- `object_traits<Reverse>` (Reverse.hpp:48-81); `v`, `h`: whether rows and columns are reversed (`Vertical`, `Horizontal`, `BothDirections`). -/
noncomputable def reverseClaims (cplx : Bool) (v h : Bool) (k : Claims 𝕜) : Claims 𝕜 where
  const := k.constVal
  diag := if v && h then k.diagVal else none
  tri :=
    if (v && h) || (!v && h && decide (k.sc = some 1)) || (v && !h && decide (k.sr = some 1)) then
      (match k.triOf with
        | .upper => .lower
        | .lower => .upper
        | t => t)
    else .none
  herm := k.isHerm cplx && ((v && h) || decide (k.sc = some 1) || decide (k.sr = some 1))
  sr := k.sr
  sc := k.sc

/-- `object_traits<Product>::get_constant` (Product.hpp:41-92); `inner` is the common extent. -/
noncomputable def productConst (inner : ℕ) (k₁ k₂ : Claims 𝕜) : Option (Val 𝕜) :=
  if k₁.Zero then k₁.constVal
  else if k₂.Zero then k₂.constVal
  else if k₁.diagVal.isSome ∧ k₂.constVal.isSome then operation (· * ·) k₁.diagVal k₂.constVal
  else if k₁.constVal.isSome ∧ k₂.diagVal.isSome then operation (· * ·) k₁.constVal k₂.diagVal
  else match (k₁.sc <|> k₂.sr) with
    | none => (operation (· * ·) k₁.constVal k₂.constVal).map fun x => ⟨false, inner * x.v⟩
    | some n => operation (fun x y => n * x * y) k₁.constVal k₂.constVal

/-- `object_traits<Product>` (Product.hpp:41-114). -/
noncomputable def productClaims (cplx : Bool) (inner : ℕ) (k₁ k₂ : Claims 𝕜) : Claims 𝕜 where
  const := productConst inner k₁ k₂
  diag := operation (· * ·) k₁.diagVal k₂.diagVal
  tri :=
    if k₁.triOf = .diagonal ∧ k₂.triOf = .diagonal then .diagonal
    else if (k₁.triOf = .lower ∨ k₁.triOf = .diagonal) ∧ (k₂.triOf = .lower ∨ k₂.triOf = .diagonal) then .lower
    else if (k₁.triOf = .upper ∨ k₁.triOf = .diagonal) ∧ (k₂.triOf = .upper ∨ k₂.triOf = .diagonal) then .upper
    else .none
  herm := (k₁.diagVal.isSome && (!cplx || notComplex cplx k₁.diagVal) && k₂.isHerm cplx) || (k₂.diagVal.isSome && (!cplx || notComplex cplx k₂.diagVal) && k₁.isHerm cplx)
  sr := k₁.sr
  sc := k₂.sc

/-- `object_traits<TriangularView>` (TriangularView.hpp:57-111). -/
noncomputable def triViewClaims (cplx : Bool) (up : Bool) (d : Arr.DiagMode) (k : Claims 𝕜) : Claims 𝕜 where
  const := if k.Zero ∨ (d = .zero ∧ k.triOf = .diagonal) then some ⟨true, 0⟩ else none
  diag :=
    let opposite := if up then k.triOf = .lower ∨ k.triOf = .diagonal else k.triOf = .upper ∨ k.triOf = .diagonal
    if d = .unit ∧ opposite then some ⟨true, 1⟩
    else if d = .zero ∧ opposite then some ⟨true, 0⟩
    else k.diagVal
  tri := Tri.mul (if up then .upper else .lower) k.triOf
  herm := decide (k.triOf = .diagonal) && (!cplx || notComplex cplx k.constVal || notComplex cplx k.diagVal)
  sr := k.sr
  sc := k.sc

/-- `object_traits<SelfAdjointView>` (SelfAdjointView.hpp:57-94). -/
noncomputable def selfAdjointClaims (cplx : Bool) (k : Claims 𝕜) : Claims 𝕜 where
  const :=
    if cplx = false then k.constVal
    else match k.constVal with
      | some ⟨true, v⟩ => if im v = 0 then some ⟨true, v⟩ else none
      | _ => none
  diag := k.diagVal
  tri := if k.triOf = .diagonal then .diagonal else .none
  herm := !cplx || notComplex cplx k.constVal || notComplex cplx k.diagVal
  sr := k.sr
  sc := k.sc

/-- `object_traits<Select>` (Select.hpp:57-143); with a condition or branches whose constants are known at run time only the code does not compile, here nothing is reported. -/
noncomputable def selectClaims (cplx : Bool) (kc kt ke : Claims 𝕜) : Claims 𝕜 where
  const := match kc.constVal with
    | some ⟨true, v⟩ => if v ≠ 0 then kt.constVal else ke.constVal
    | some ⟨false, _⟩ => none
    | none => match kt.constVal, ke.constVal with
      | some ⟨true, x⟩, some ⟨true, y⟩ => if x = y then some ⟨true, x⟩ else none
      | _, _ => none
  diag := match kc.constVal with
    | some ⟨true, v⟩ => if v ≠ 0 then kt.diagVal else ke.diagVal
    | some ⟨false, _⟩ => none
    | none => match kt.diagVal, ke.diagVal with
      | some ⟨true, x⟩, some ⟨true, y⟩ => if x = y then some ⟨true, x⟩ else none
      | _, _ => none
  tri := match kc.constVal with
    | some ⟨true, v⟩ => if v ≠ 0 then kt.triOf else ke.triOf
    | _ => .none
  herm := match kc.constVal with
    | some ⟨true, v⟩ => if v ≠ 0 then kt.isHerm cplx else ke.isHerm cplx
    | _ => kc.isHerm cplx && kt.isHerm cplx && ke.isHerm cplx
  sr := kc.sr <|> kt.sr <|> ke.sr
  sc := kc.sc <|> kt.sc <|> ke.sc

/-- `object_traits<Diagonal>::get_constant` (Diagonal.hpp:42-77); `m`, `n` are the extents of the nested matrix, `k` the index; `.error` is the exception.  With an index known
only at run time the constant `DiagIndex` is `Eigen::DynamicIndex` = 0xffffff. -/
noncomputable def diagonalConst (m n : ℕ) (idx : ℤ) (static : Bool) (k : Claims 𝕜) : Except Unit (Option (Val 𝕜)) :=
  let d : ℤ := if static then idx else 0xffffff
  if k.diagVal.isSome ∧ d = 0 then .ok k.diagVal
  else if k.Zero ∨ (k.diagVal.isSome ∧ static = true ∧
      ((d < 0 ∧ (k.sr = none ∨ ∃ r, k.sr = some r ∧ d > -(r : ℤ))) ∨ (d > 0 ∧ (k.sc = none ∨ ∃ c, k.sc = some c ∧ d < (c : ℤ))))) then
    if d < 0 ∧ k.sr = none then (if d ≤ -(m : ℤ) then .error () else .ok (some ⟨true, 0⟩))
    else if d > 0 ∧ k.sc = none then (if d ≥ (n : ℤ) then .error () else .ok (some ⟨true, 0⟩))
    else .ok (some ⟨true, 0⟩)
  else if k.diagVal.isSome ∧ static = false then
    if idx = 0 then .ok (k.diagVal.map fun x => ⟨false, x.v⟩)
    else if idx > -(m : ℤ) ∧ idx < (n : ℤ) then .ok (some ⟨false, 0⟩)
    else .error ()
  else .ok k.constVal

/-! ## Expressions -/

/-- Expressions over leaves that are any object with any traits. -/
inductive Expr (𝕜 : Type*)
  | leaf (a : Arr 𝕜) (k : Claims 𝕜)
  | const (m n : ℕ) (sr sc : Option ℕ) (c : 𝕜)
  | identity (m n : ℕ) (sr sc : Option ℕ)
  | unary (op : Un) (x : Expr 𝕜)
  | bind1 (op : Bin) (c : 𝕜) (x : Expr 𝕜)
  | bind2 (op : Bin) (x : Expr 𝕜) (c : 𝕜)
  | binary (op : Bin) (x y : Expr 𝕜)
  | transpose (x : Expr 𝕜)
  | replicate (r c : ℕ) (rs cs : Bool) (x : Expr 𝕜)
  | reverse (v h : Bool) (x : Expr 𝕜)
  | product (x y : Expr 𝕜)
  | triView (up : Bool) (d : Arr.DiagMode) (x : Expr 𝕜)
  | selfAdjointView (up : Bool) (x : Expr 𝕜)
  | select (c t e : Expr 𝕜)
  | redux (op : Red) (horiz : Bool) (x : Expr 𝕜)

/-- The value of an expression. -/
noncomputable def Expr.eval (S : Scalar 𝕜) : Expr 𝕜 → Arr 𝕜
  | .leaf a _ => a
  | .const m n _ _ c => .const m n c
  | .identity m n _ _ => .identity m n
  | .unary op x => (x.eval S).map (S.un op)
  | .bind1 op c x => (x.eval S).map (S.bin op c)
  | .bind2 op x c => (x.eval S).map (S.bin op · c)
  | .binary op x y => (x.eval S).map₂ (S.bin op) (y.eval S)
  | .transpose x => (x.eval S).transpose
  | .replicate r c _ _ x => (x.eval S).replicate r c
  | .reverse v h x => (x.eval S).reverse v h
  | .product x y => (x.eval S).mul (y.eval S)
  | .triView up d x => (x.eval S).triView up d
  | .selfAdjointView up x => (x.eval S).selfAdjointView up
  | .select c t e => (c.eval S).select (t.eval S) (e.eval S)
  | .redux op hz x => (x.eval S).reduce op hz

/-! ## Reductions -/

/-- `ReduxTraits<…>::get_constant` (functors/redux.hpp:56-131 norms, 290-302 sum, 359-363 min, 404-408 max, 447-451 all, 500-504 any, 551-555 count, 587-598 product): `n` is factor times
extent.  `none` for the l0 norm, whose value is infinite. -/
noncomputable def reduxConst (op : Red) (c : 𝕜) (factor dim : ℕ) : Option 𝕜 :=
  match op with
  | .lpnorm p =>
    if p = 0 then none
    else if p = 1 then some (((factor * dim : ℕ) : 𝕜) * ((‖c‖ : ℝ) : 𝕜))
    else if p = 2 then some (((Real.sqrt (factor * dim : ℕ) * ‖c‖ : ℝ)) : 𝕜)
    else some (((((factor * dim : ℕ) : ℝ) ^ (1 / (p : ℝ)) * ‖c‖ : ℝ)) : 𝕜)
  | .lpInf => some ((‖c‖ : ℝ) : 𝕜)
  | .sum => some (c * ((factor : 𝕜) * (dim : 𝕜)))
  | .min | .max => some c
  | .all | .any => some (bit (c ≠ 0))
  | .count => some (if c ≠ 0 then ((dim * factor : ℕ) : 𝕜) else 0)
  | .prod => some (c ^ (factor * dim))

/-- `ReduxTraits<…>::get_constant_diagonal<at_least_square>` (functors/redux.hpp:78-112, 305-318, 366-380, 411-425, 454-458, 507-514, 558-565, 601-605). -/
noncomputable def reduxDiag (op : Red) (als : Bool) (c : Val 𝕜) (factor dim : ℕ) : Option 𝕜 :=
  match op with
  | .lpnorm p =>
    if p = 0 then none
    else if c.fixed ∧ c.v = 0 then some 0
    else if als = false then none
    else reduxConst (.lpnorm p) c.v factor 1
  | .lpInf =>
    if c.fixed ∧ c.v = 0 then some 0
    else if als = false then none
    else some ((‖c.v‖ : ℝ) : 𝕜)
  | .sum =>
    if c.fixed ∧ c.v = 0 then some 0
    else if als then some (c.v * (factor : 𝕜))
    else none
  | .min =>
    if als then some (if 1 < dim then ((Min.min (re c.v) 0 : ℝ) : 𝕜) else c.v)
    else if c.fixed then (if re c.v < 0 then none else some 0)
    else none
  | .max =>
    if als then some (if 1 < dim then ((Max.max (re c.v) 0 : ℝ) : 𝕜) else c.v)
    else if c.fixed then (if re c.v > 0 then none else some 0)
    else none
  | .all => some 0
  | .any => if als then some (bit (c.v ≠ 0)) else none
  | .count => if als then some (if c.v ≠ 0 then (factor : 𝕜) else 0) else none
  | .prod => some 0

/-- `at_least_square` (PartialReduxExpr.hpp:24-37): as far as is known statically, at least as many components in a line as there are lines. -/
def atLeastSquare (horiz : Bool) (k : Claims 𝕜) : Bool :=
  match (if horiz then k.sc else k.sr), (if horiz then k.sr else k.sc) with
  | some d, some o => decide (d ≥ o)
  | _, _ => false

/-- The last branch of `get_constant_redux` (PartialReduxExpr.hpp:76-93): the traits of the innermost expression; `func` is the composition of the functors passed on the way. -/
noncomputable def reduxLeaf (op : Red) (horiz : Bool) (dim : ℕ) (factor : ℕ) (func : 𝕜 → Option 𝕜) (k : Claims 𝕜) : Option (Val 𝕜) :=
  match k.constVal with
  | some _ =>
    match operation₁ func k.constVal with
    | some c => (reduxConst op c.v factor dim).map fun v => ⟨c.fixed, v⟩
    | none => none
  | none =>
    match operation₁ func k.diagVal with
    | some c =>
      (reduxDiag op (atLeastSquare horiz k) c factor dim).map fun v => ⟨c.fixed, v⟩
    | none => none

mutual

/-- The traits of an expression. -/
noncomputable def Expr.claims (S : Scalar 𝕜) : Expr 𝕜 → Claims 𝕜
  | .leaf _ k => k
  | .const _ _ sr sc c => constClaims S.cplx c sr sc
  | .identity _ _ sr sc => identityClaims sr sc
  | .unary op x => unaryClaims S op (x.claims S)
  | .bind1 op c x => bind1Claims S op c (x.claims S)
  | .bind2 op x c => bind2Claims S op (x.claims S) c
  | .binary op x y => binaryClaims S op (x.claims S) (y.claims S)
  | .transpose x => transposeClaims S.cplx (x.claims S)
  | .replicate r c rs cs x => replicateClaims S.cplx (if rs then some r else none) (if cs then some c else none) (x.claims S)
  | .reverse v h x => reverseClaims S.cplx v h (x.claims S)
  | .product x y => productClaims S.cplx (x.eval S).cols (x.claims S) (y.claims S)
  | .triView up d x => triViewClaims S.cplx up d (x.claims S)
  | .selfAdjointView _ x => selfAdjointClaims S.cplx (x.claims S)
  | .select c t e => selectClaims S.cplx (c.claims S) (t.claims S) (e.claims S)
  | .redux op hz x =>
    ⟨x.reduxVal S op hz 1 some, none, .none, false, if hz then (x.claims S).sr else some 1, if hz then some 1 else (x.claims S).sc⟩

/-- `get_constant_redux` (PartialReduxExpr.hpp:41-96): through unary expressions, composing the functors (functors/functor_composition.hpp:77-84), and through replications, multiplying
the factors, to the innermost expression; `object_traits<PartialReduxExpr>::get_constant` (PartialReduxExpr.hpp:128-137) starts it. -/
noncomputable def Expr.reduxVal (S : Scalar 𝕜) (op : Red) (horiz : Bool) (factor : ℕ) (func : 𝕜 → Option 𝕜) : Expr 𝕜 → Option (Val 𝕜)
  | .unary u x => x.reduxVal S op horiz factor (fun v => (constUn S u v).bind func)
  | .bind1 b c x => x.reduxVal S op horiz factor (fun v => func (S.bin b c v))
  | .bind2 b x c => x.reduxVal S op horiz factor (fun v => func (S.bin b v c))
  | .replicate r c _ _ x => x.reduxVal S op horiz (factor * (if horiz then c else r)) func
  | .leaf a k => reduxLeaf op horiz (if horiz then a.cols else a.rows) factor func k
  | .const m n sr sc c => reduxLeaf op horiz (if horiz then n else m) factor func (constClaims S.cplx c sr sc)
  | .identity m n sr sc => reduxLeaf op horiz (if horiz then n else m) factor func (identityClaims sr sc)
  | .binary b x y => reduxLeaf op horiz (if horiz then (x.eval S).cols else (x.eval S).rows) factor func (binaryClaims S b (x.claims S) (y.claims S))
  | .transpose x => reduxLeaf op horiz (if horiz then (x.eval S).rows else (x.eval S).cols) factor func (transposeClaims S.cplx (x.claims S))
  | .reverse v h x => reduxLeaf op horiz (if horiz then (x.eval S).cols else (x.eval S).rows) factor func (reverseClaims S.cplx v h (x.claims S))
  | .product x y => reduxLeaf op horiz (if horiz then (y.eval S).cols else (x.eval S).rows) factor func (productClaims S.cplx (x.eval S).cols (x.claims S) (y.claims S))
  | .triView up d x => reduxLeaf op horiz (if horiz then (x.eval S).cols else (x.eval S).rows) factor func (triViewClaims S.cplx up d (x.claims S))
  | .selfAdjointView _ x => reduxLeaf op horiz (if horiz then (x.eval S).cols else (x.eval S).rows) factor func (selfAdjointClaims S.cplx (x.claims S))
  | .select c t e => reduxLeaf op horiz (if horiz then (c.eval S).cols else (c.eval S).rows) factor func (selectClaims S.cplx (c.claims S) (t.claims S) (e.claims S))
  | .redux o hz x =>
    reduxLeaf op horiz (if horiz then (if hz then 1 else (x.eval S).cols) else (if hz then (x.eval S).rows else 1)) factor func
      ⟨x.reduxVal S o hz 1 some, none, .none, false, if hz then (x.claims S).sr else some 1, if hz then some 1 else (x.claims S).sc⟩

end

end OpenKalman.EigenTraits
