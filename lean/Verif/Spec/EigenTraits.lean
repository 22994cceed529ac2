import Mathlib.Analysis.RCLike.Basic
import Mathlib.Analysis.SpecialFunctions.Log.Base
import Mathlib.Analysis.SpecialFunctions.Pow.Complex
import Mathlib.Analysis.SpecialFunctions.Trigonometric.Arctan
import Mathlib.Analysis.SpecialFunctions.Trigonometric.Inverse
import Mathlib.Analysis.SpecialFunctions.Complex.Arctan
import Mathlib.Analysis.SpecialFunctions.Arsinh
import Mathlib.Analysis.SpecialFunctions.Arcosh
import Mathlib.Analysis.SpecialFunctions.Artanh

/-!
# What Eigen expressions denote, and what it means for a matrix to be constant, diagonal, triangular or Hermitian

Independent of the trait tables.  A matrix is a pair of extents and a total function on index pairs of which only the part in range counts.
-/

namespace OpenKalman.EigenTraits
open Complex

/-- A matrix whose extents are values. -/
structure Arr (𝕜 : Type*) where
  rows : ℕ
  cols : ℕ
  get : ℕ → ℕ → 𝕜

namespace Arr
variable {𝕜 : Type*}

/-- Every component is `c`. -/
def Const (a : Arr 𝕜) (c : 𝕜) : Prop := ∀ i < a.rows, ∀ j < a.cols, a.get i j = c

/-- Every component on the diagonal is `c`, every other one is zero; not necessarily square. -/
def ConstDiag [Zero 𝕜] (a : Arr 𝕜) (c : 𝕜) : Prop := ∀ i < a.rows, ∀ j < a.cols, a.get i j = if i = j then c else 0

/-- Zero above the diagonal. -/
def Lower [Zero 𝕜] (a : Arr 𝕜) : Prop := ∀ i < a.rows, ∀ j < a.cols, i < j → a.get i j = 0

/-- Zero below the diagonal. -/
def Upper [Zero 𝕜] (a : Arr 𝕜) : Prop := ∀ i < a.rows, ∀ j < a.cols, j < i → a.get i j = 0

/-- Hermitian, if it is square at all (`applicability::permitted`). -/
def Herm [Star 𝕜] (a : Arr 𝕜) : Prop := a.rows = a.cols → ∀ i < a.rows, ∀ j < a.cols, a.get i j = star (a.get j i)

/-! ## Expressions -/

def map (f : 𝕜 → 𝕜) (a : Arr 𝕜) : Arr 𝕜 := ⟨a.rows, a.cols, fun i j => f (a.get i j)⟩

def map₂ (f : 𝕜 → 𝕜 → 𝕜) (a b : Arr 𝕜) : Arr 𝕜 := ⟨a.rows, a.cols, fun i j => f (a.get i j) (b.get i j)⟩

def const (m n : ℕ) (c : 𝕜) : Arr 𝕜 := ⟨m, n, fun _ _ => c⟩

def identity [Zero 𝕜] [One 𝕜] (m n : ℕ) : Arr 𝕜 := ⟨m, n, fun i j => if i = j then 1 else 0⟩

def transpose (a : Arr 𝕜) : Arr 𝕜 := ⟨a.cols, a.rows, fun i j => a.get j i⟩

/-- `r × c` copies side by side. -/
def replicate (r c : ℕ) (a : Arr 𝕜) : Arr 𝕜 := ⟨r * a.rows, c * a.cols, fun i j => a.get (i % a.rows) (j % a.cols)⟩

/-- Rows (`v`), columns (`h`) or both in the opposite order. -/
def reverse (v h : Bool) (a : Arr 𝕜) : Arr 𝕜 :=
  ⟨a.rows, a.cols, fun i j => a.get (if v then a.rows - 1 - i else i) (if h then a.cols - 1 - j else j)⟩

def mul [NonUnitalNonAssocSemiring 𝕜] (a b : Arr 𝕜) : Arr 𝕜 := ⟨a.rows, b.cols, fun i j => ∑ k ∈ Finset.range a.cols, a.get i k * b.get k j⟩

/-- What is on the diagonal of a triangular view. -/
inductive DiagMode
  | own | unit | zero
  deriving DecidableEq

/-- The lower or upper part, with zeros elsewhere. -/
def triView [Zero 𝕜] [One 𝕜] (up : Bool) (d : DiagMode) (a : Arr 𝕜) : Arr 𝕜 :=
  ⟨a.rows, a.cols, fun i j =>
    if i = j then (match d with | .own => a.get i j | .unit => 1 | .zero => 0)
    else if (if up then i < j else j < i) then a.get i j else 0⟩

/-- One triangle, reflected to the other with conjugation. -/
def selfAdjointView [Star 𝕜] (up : Bool) (a : Arr 𝕜) : Arr 𝕜 :=
  ⟨a.rows, a.cols, fun i j => if i = j ∨ (if up then i < j else j < i) then a.get i j else star (a.get j i)⟩

open Classical in
noncomputable def select [Zero 𝕜] (c t e : Arr 𝕜) : Arr 𝕜 := ⟨c.rows, c.cols, fun i j => if c.get i j ≠ 0 then t.get i j else e.get i j⟩

/-- The diagonal number `k` as a column. -/
def diagonal (k : ℤ) (a : Arr 𝕜) : Arr 𝕜 :=
  ⟨min (a.rows - (-k).toNat) (a.cols - k.toNat), 1, fun i _ => a.get (i + (-k).toNat) (i + k.toNat)⟩

end Arr

/-! ## Elementary functions of complex numbers by their principal branches -/

noncomputable def csqrt (z : ℂ) : ℂ := z ^ (1 / 2 : ℂ)
noncomputable def casin (z : ℂ) : ℂ := -I * Complex.log (I * z + csqrt (1 - z * z))
noncomputable def cacos (z : ℂ) : ℂ := (Real.pi / 2 : ℝ) - casin z
noncomputable def casinh (z : ℂ) : ℂ := Complex.log (z + csqrt (z * z + 1))
noncomputable def cacosh (z : ℂ) : ℂ := Complex.log (z + csqrt (z + 1) * csqrt (z - 1))
noncomputable def catanh (z : ℂ) : ℂ := (Complex.log (1 + z) - Complex.log (1 - z)) / 2


/-! ## Functors -/

/-- Eigen's unary functors. -/
inductive Un
  | neg | not | abs | abs2 | conj | arg | cast | real | imag | exp | expm1 | log | log1p | log10 | log2 | sqrt | rsqrt | cos | sin | tan | acos | asin | atan
  | tanh | atanh | sinh | asinh | cosh | acosh | inverse | square | cube | logistic
  deriving DecidableEq

/-- Comparisons of `scalar_cmp_op`. -/
inductive Cmp
  | eq | lt | le | gt | ge | neq
  deriving DecidableEq

/-- Eigen's and the standard library's binary functors. -/
inductive Bin
  | sum | diff | prod | conjProd | quot | min | max | cmp (c : Cmp) | hypot | pow | absDiff | and | or | equalTo | notEqualTo | greater | less | greaterEqual | lessEqual
  deriving DecidableEq

/-- A scalar type: whether it is complex, the meaning of the functors on it, and where they are defined. -/
structure Scalar (𝕜 : Type*) where
  cplx : Bool
  un : Un → 𝕜 → 𝕜
  dom : Un → 𝕜 → Prop
  bin : Bin → 𝕜 → 𝕜 → 𝕜
  bdom : Bin → 𝕜 → 𝕜 → Prop

open Classical in
/-- Truth values as numbers. -/
noncomputable def bit {𝕜 : Type*} [Zero 𝕜] [One 𝕜] (p : Prop) : 𝕜 := if p then 1 else 0

/-- Unary functors of real numbers. -/
noncomputable def unR : Un → ℝ → ℝ
  | .neg, x => -x
  | .not, x => bit (x = 0)
  | .abs, x => |x|
  | .abs2, x => x ^ 2
  | .conj, x => x
  | .arg, x => if x < 0 then Real.pi else 0
  | .cast, x => x
  | .real, x => x
  | .imag, _ => 0
  | .exp, x => Real.exp x
  | .expm1, x => Real.exp x - 1
  | .log, x => Real.log x
  | .log1p, x => Real.log (1 + x)
  | .log10, x => Real.logb 10 x
  | .log2, x => Real.logb 2 x
  | .sqrt, x => Real.sqrt x
  | .rsqrt, x => (Real.sqrt x)⁻¹
  | .cos, x => Real.cos x
  | .sin, x => Real.sin x
  | .tan, x => Real.tan x
  | .acos, x => Real.arccos x
  | .asin, x => Real.arcsin x
  | .atan, x => Real.arctan x
  | .tanh, x => Real.tanh x
  | .atanh, x => Real.artanh x
  | .sinh, x => Real.sinh x
  | .asinh, x => Real.arsinh x
  | .cosh, x => Real.cosh x
  | .acosh, x => Real.arcosh x
  | .inverse, x => x⁻¹
  | .square, x => x ^ 2
  | .cube, x => x ^ 3
  | .logistic, x => (1 + Real.exp (-x))⁻¹

/-- Where they are defined (finite and not NaN). -/
def domR : Un → ℝ → Prop
  | .log, x | .log10, x | .log2, x | .rsqrt, x => 0 < x
  | .log1p, x => -1 < x
  | .sqrt, x => 0 ≤ x
  | .tan, x => Real.cos x ≠ 0
  | .acos, x | .asin, x => |x| ≤ 1
  | .atanh, x => |x| < 1
  | .acosh, x => 1 ≤ x
  | .inverse, x => x ≠ 0
  | _, _ => True

/-- Unary functors of complex numbers. -/
noncomputable def unC : Un → ℂ → ℂ
  | .neg, x => -x
  | .not, x => bit (x = 0)
  | .abs, x => ‖x‖
  | .abs2, x => (‖x‖ ^ 2 : ℝ)
  | .conj, x => star x
  | .arg, x => x.arg
  | .cast, x => x
  | .real, x => x.re
  | .imag, x => x.im
  | .exp, x => Complex.exp x
  | .expm1, x => Complex.exp x - 1
  | .log, x => Complex.log x
  | .log1p, x => Complex.log (1 + x)
  | .log10, x => Complex.log x / (Real.log 10 : ℝ)
  | .log2, x => Complex.log x / (Real.log 2 : ℝ)
  | .sqrt, x => csqrt x
  | .rsqrt, x => (csqrt x)⁻¹
  | .cos, x => Complex.cos x
  | .sin, x => Complex.sin x
  | .tan, x => Complex.tan x
  | .acos, x => cacos x
  | .asin, x => casin x
  | .atan, x => Complex.arctan x
  | .tanh, x => Complex.tanh x
  | .atanh, x => catanh x
  | .sinh, x => Complex.sinh x
  | .asinh, x => casinh x
  | .cosh, x => Complex.cosh x
  | .acosh, x => cacosh x
  | .inverse, x => x⁻¹
  | .square, x => x ^ 2
  | .cube, x => x ^ 3
  | .logistic, x => (1 + Complex.exp (-x))⁻¹

def domC : Un → ℂ → Prop
  | .log, x | .log10, x | .log2, x | .rsqrt, x | .inverse, x => x ≠ 0
  | .log1p, x => x ≠ -1
  | .tan, x => Complex.cos x ≠ 0
  | .tanh, x => Complex.cosh x ≠ 0
  | .atan, x => x ≠ I ∧ x ≠ -I
  | .atanh, x => x ≠ 1 ∧ x ≠ -1
  | .logistic, x => 1 + Complex.exp (-x) ≠ 0
  | _, _ => True

def cmpR : Cmp → ℝ → ℝ → Prop
  | .eq, x, y => x = y
  | .lt, x, y => x < y
  | .le, x, y => x ≤ y
  | .gt, x, y => y < x
  | .ge, x, y => y ≤ x
  | .neq, x, y => x ≠ y

/-- Binary functors of real numbers; truth values are zero and one. -/
noncomputable def binR : Bin → ℝ → ℝ → ℝ
  | .sum, x, y => x + y
  | .diff, x, y => x - y
  | .prod, x, y | .conjProd, x, y => x * y
  | .quot, x, y => x / y
  | .min, x, y => Min.min x y
  | .max, x, y => Max.max x y
  | .cmp c, x, y => bit (cmpR c x y)
  | .hypot, x, y => Real.sqrt (x ^ 2 + y ^ 2)
  | .pow, x, y => x ^ y
  | .absDiff, x, y => |x - y|
  | .and, x, y => bit (x ≠ 0 ∧ y ≠ 0)
  | .or, x, y => bit (x ≠ 0 ∨ y ≠ 0)
  | .equalTo, x, y => bit (x = y)
  | .notEqualTo, x, y => bit (x ≠ y)
  | .greater, x, y => bit (y < x)
  | .less, x, y => bit (x < y)
  | .greaterEqual, x, y => bit (y ≤ x)
  | .lessEqual, x, y => bit (x ≤ y)

def bdomR : Bin → ℝ → ℝ → Prop
  | .quot, _, y => y ≠ 0
  | .pow, x, _ => 0 < x
  | _, _, _ => True

/-- Binary functors of complex numbers, where they exist (`bdomC`). -/
noncomputable def binC : Bin → ℂ → ℂ → ℂ
  | .sum, x, y => x + y
  | .diff, x, y => x - y
  | .prod, x, y => x * y
  | .conjProd, x, y => star x * y
  | .quot, x, y => x / y
  | .cmp .eq, x, y | .equalTo, x, y => bit (x = y)
  | .cmp .neq, x, y | .notEqualTo, x, y => bit (x ≠ y)
  | .pow, x, y => x ^ y
  | .and, x, y => bit (x ≠ 0 ∧ y ≠ 0)
  | .or, x, y => bit (x ≠ 0 ∨ y ≠ 0)
  | _, _, _ => 0

def bdomC : Bin → ℂ → ℂ → Prop
  | .quot, _, y => y ≠ 0
  | .pow, x, _ => x ≠ 0
  | .sum, _, _ | .diff, _, _ | .prod, _, _ | .conjProd, _, _ | .cmp .eq, _, _ | .equalTo, _, _ | .cmp .neq, _, _ | .notEqualTo, _, _ | .and, _, _ | .or, _, _ => True
  | _, _, _ => False

/-! ## Reductions -/

/-- Reductions of rows or columns; `lpInf` is the maximum norm. -/
inductive Red
  | lpnorm (p : ℕ) | lpInf | sum | prod | min | max | all | any | count
  deriving DecidableEq

open Classical in
/-- What a reduction makes of the numbers `f 0, …, f (n - 1)` (for `min`, `max` and `lpInf` there must be at least one). -/
noncomputable def reduceLine {𝕜 : Type*} [RCLike 𝕜] (op : Red) (n : ℕ) (f : ℕ → 𝕜) : 𝕜 :=
  match op with
  | .lpnorm p => (((∑ k ∈ Finset.range n, ‖f k‖ ^ p) ^ (1 / (p : ℝ)) : ℝ) : 𝕜)
  | .lpInf => if h : (Finset.range n).Nonempty then (((Finset.range n).sup' h fun k => ‖f k‖ : ℝ) : 𝕜) else 0
  | .sum => ∑ k ∈ Finset.range n, f k
  | .prod => ∏ k ∈ Finset.range n, f k
  | .min => if h : (Finset.range n).Nonempty then (((Finset.range n).inf' h fun k => RCLike.re (f k) : ℝ) : 𝕜) else 0
  | .max => if h : (Finset.range n).Nonempty then (((Finset.range n).sup' h fun k => RCLike.re (f k) : ℝ) : 𝕜) else 0
  | .all => bit (∀ k < n, f k ≠ 0)
  | .any => bit (∃ k < n, f k ≠ 0)
  | .count => (((Finset.range n).filter fun k => f k ≠ 0).card : 𝕜)

/-- Reduce every row (`horiz`) or every column. -/
noncomputable def Arr.reduce {𝕜 : Type*} [RCLike 𝕜] (op : Red) (horiz : Bool) (a : Arr 𝕜) : Arr 𝕜 :=
  if horiz then ⟨a.rows, 1, fun i _ => reduceLine op a.cols (fun k => a.get i k)⟩
  else ⟨1, a.cols, fun _ j => reduceLine op a.rows (fun k => a.get k j)⟩

/-! ## Reports -/

/-- What can be reported about triangles (triangle_type). -/
inductive Tri
  | none | lower | upper | diagonal
  deriving DecidableEq

/-- A scalar value, known at compile time or not. -/
structure Val (𝕜 : Type*) where
  fixed : Bool
  v : 𝕜

/-- What `object_traits` reports. -/
structure Claims (𝕜 : Type*) where
  const : Option (Val 𝕜)
  diag : Option (Val 𝕜)
  tri : Tri
  herm : Bool
  /-- static number of rows -/
  sr : Option ℕ
  /-- static number of columns -/
  sc : Option ℕ

/-- What a report on a triangle says. -/
def Arr.IsTri {𝕜 : Type*} [Zero 𝕜] (a : Arr 𝕜) : Tri → Prop
  | .none => True
  | .lower => a.Lower
  | .upper => a.Upper
  | .diagonal => a.Lower ∧ a.Upper

/-- Everything reported about the matrix is true of it. -/
structure Truthful {𝕜 : Type*} [RCLike 𝕜] (a : Arr 𝕜) (k : Claims 𝕜) : Prop where
  const : ∀ v, k.const = some v → a.Const v.v
  diag : ∀ v, k.diag = some v → a.ConstDiag v.v
  tri : a.IsTri k.tri
  herm : k.herm = true → a.Herm
  sr : ∀ n, k.sr = some n → a.rows = n
  sc : ∀ n, k.sc = some n → a.cols = n

/-- Real scalars. -/
noncomputable def realScalar : Scalar ℝ := ⟨false, unR, domR, binR, bdomR⟩

/-- Complex scalars. -/
noncomputable def complexScalar : Scalar ℂ := ⟨true, unC, domC, binC, bdomC⟩

end OpenKalman.EigenTraits
