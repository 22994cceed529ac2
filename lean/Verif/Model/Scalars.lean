import Verif.Spec.Scalars

/-!
# Model of closeness, comparison and conversion of numbers (`OpenKalman/values`)

Arithmetic follows the language: integral promotion, the usual conversions, wrap-around of unsigned numbers, and undefined behaviour (`none`) if a signed
result or a conversion from a floating number is out of range.  `int` has 32 bits.  Numbers are rational; floating arithmetic is exact, so rounding,
infinities and NaN are not modelled.
-/

namespace OpenKalman.Scalars

/-- A real number with its type. -/
structure R where
  ty : RTy
  v : ℚ
  deriving DecidableEq

/-- The type `double`. -/
def double : RTy := .flt 53

/-- Rounding towards 0. -/
def trunc (x : ℚ) : ℤ := if 0 ≤ x then ⌊x⌋ else ⌈x⌉

/-- `static_cast` between arithmetic types. -/
def conv (src dst : RTy) (x : ℚ) : Option ℚ :=
  match dst with
  | .flt _ => some x
  | .uint w => match src with
    | .flt _ => if 0 ≤ trunc x ∧ trunc x < 2 ^ w then some (trunc x) else none
    | _ => some ((⌊x⌋ % 2 ^ w : ℤ) : ℚ)
  | .sint w => match src with
    | .flt _ => if -2 ^ w ≤ 2 * trunc x ∧ 2 * trunc x < 2 ^ w then some (trunc x) else none
    | _ => some ((Int.bmod ⌊x⌋ (2 ^ w) : ℤ) : ℚ)

/-- Integral promotion. -/
def promote : RTy → RTy
  | .uint w => if w < 32 then .sint 32 else .uint w
  | .sint w => if w < 32 then .sint 32 else .sint w
  | .flt k => .flt k

/-- The usual arithmetic conversions of promoted types. -/
def usualPromoted : RTy → RTy → RTy
  | .flt i, .flt j => .flt (max i j)
  | .flt i, _ => .flt i
  | _, .flt j => .flt j
  | .uint i, .uint j => .uint (max i j)
  | .sint i, .sint j => .sint (max i j)
  | .uint i, .sint j => if j ≤ i then .uint i else .sint j
  | .sint i, .uint j => if i ≤ j then .uint j else .sint i

/-- The usual arithmetic conversions. -/
def usual (a b : RTy) : RTy := usualPromoted (promote a) (promote b)

/-- The result of an operation in a promoted type. -/
def norm : RTy → ℚ → Option ℚ
  | .flt _, x => some x
  | .uint w, x => some ((⌊x⌋ % 2 ^ w : ℤ) : ℚ)
  | .sint w, x => if -2 ^ w ≤ 2 * x ∧ 2 * x < 2 ^ w then some x else none

/-- A built-in binary operation. -/
def arith (op : ℚ → ℚ → ℚ) (p q : R) : Option R := do
  let x ← conv p.ty (usual p.ty q.ty) p.v
  let y ← conv q.ty (usual p.ty q.ty) q.v
  let z ← norm (usual p.ty q.ty) (op x y)
  some ⟨usual p.ty q.ty, z⟩

/-- Built-in `<=`. -/
def leq (p q : R) : Option Bool := do
  let x ← conv p.ty (usual p.ty q.ty) p.v
  let y ← conv q.ty (usual p.ty q.ty) q.v
  some (decide (x ≤ y))

/-- Built-in negation of a number of a promoted type. -/
def neg (p : R) : Option R := (norm p.ty (-p.v)).map (R.mk p.ty)

/-- interface/number_traits.hpp:88, 102 and math/real.hpp:40-51: `std::real` of an integral number is `double`, of a complex number the type of its parts. -/
def realPart (p : Num) : R :=
  match p.ty with
  | .cplx t => ⟨t, p.re⟩
  | .real (.flt k) => ⟨.flt k, p.re⟩
  | .real _ => ⟨double, p.re⟩

/-- interface/number_traits.hpp:89, 103 and math/imag.hpp:40-51. -/
def imagPart (p : Num) : R :=
  match p.ty with
  | .cplx t => ⟨t, p.im⟩
  | .real (.flt k) => ⟨.flt k, 0⟩
  | .real _ => ⟨double, 0⟩

/-- traits/real_type_of.hpp:40-48. -/
def realTypeOf : Ty → RTy
  | .cplx t => t
  | .real (.flt k) => .flt k
  | .real _ => double

/-- `std::numeric_limits<T>::epsilon()`: 0 for integral types. -/
def epsilonOf : RTy → ℚ
  | .flt k => 2 / 2 ^ k
  | _ => 0

/-- `-ep <= diff and diff <= ep` (near.hpp:66, 110); both have the type of the difference. -/
def within (ep diff : R) : Option Bool := do
  let n ← neg ep
  let l ← leq n diff
  if l then leq diff ep else some false

/-- near.hpp:63-66. -/
def nearReal (f : ℕ) (p q : R) : Option Bool := do
  let diff ← arith (· - ·) p q
  within ⟨diff.ty, f * epsilonOf diff.ty⟩ diff

/-- near.hpp:107-110. -/
def nearRealErr (p q e : R) : Option Bool := do
  let diff ← arith (· - ·) p q
  let ep ← conv e.ty diff.ty e.v
  within ⟨diff.ty, ep⟩ diff

/-- A complex type. -/
def Ty.isCplx : Ty → Bool
  | .cplx _ => true
  | .real _ => false

/-- near.hpp:54-67 for numbers that are not fixed. -/
def nearNum (f : ℕ) (p q : Num) : Option Bool :=
  if p.ty.isCplx || q.ty.isCplx then do
    let a ← nearReal f (realPart p) (realPart q)
    let b ← nearReal f (imagPart p) (imagPart q)
    some (a && b)
  else nearReal f ⟨p.ty.elem, p.re⟩ ⟨q.ty.elem, q.re⟩

/-- near.hpp:97-111 for numbers that are not fixed. -/
def nearNumErr (p q e : Num) : Option Bool :=
  if p.ty.isCplx || q.ty.isCplx || e.ty.isCplx then do
    let dr ← arith (· - ·) (realPart q) (realPart p)
    let di ← arith (· - ·) (imagPart q) (imagPart p)
    let d1 ← arith (· * ·) dr dr
    let d2 ← arith (· * ·) di di
    let d ← arith (· + ·) d1 d2
    let e1 ← arith (· * ·) (realPart e) (realPart e)
    let e2 ← arith (· * ·) (imagPart e) (imagPart e)
    let s ← arith (· + ·) e1 e2
    leq d s
  else nearRealErr ⟨p.ty.elem, p.re⟩ ⟨q.ty.elem, q.re⟩ ⟨e.ty.elem, e.re⟩

/-- A value: a number, known from the type or not. -/
structure Val where
  num : Num
  fixed : Bool
  deriving DecidableEq

/-- functions/operation.hpp:97-108: the result is fixed if all arguments are and the operation can be evaluated at compile time. -/
def operation {α : Type} (op : List Num → Option α) (args : List Val) : Option (α × Bool) :=
  (op (args.map Val.num)).map fun r => (r, args.all Val.fixed)

/-- near.hpp:46-68. -/
def near (f : ℕ) (p q : Val) : Option (Bool × Bool) :=
  if p.fixed || q.fixed then
    operation (fun l => match l with | [a, b] => nearNum f a b | _ => none) [p, q]
  else (nearNum f p.num q.num).map (·, false)

/-- near.hpp:86-113. -/
def nearErr (p q e : Val) : Option (Bool × Bool) :=
  if p.fixed || q.fixed then
    operation (fun l => match l with | [a, b, c] => nearNumErr a b c | _ => none) [p, q, e]
  else (nearNumErr p.num q.num e.num).map (·, false)

/-- Result of a comparison. -/
def cmp (x y : ℚ) : Ordering := if x < y then .lt else if x = y then .eq else .gt

/-- concepts/fixed_value_compares_with.hpp:33-45 for real numbers; `n` is the template argument `N`. -/
def compareNear (f : ℕ) (n t : R) : Option Ordering := do
  let m ← conv n.ty t.ty n.v
  if f = 0 then some (cmp t.v m)
  else do
    let b ← nearReal f t ⟨t.ty, m⟩
    if b then some .eq else some (cmp t.v m)

/-- concepts/fixed_value_compares_with.hpp:70-72. -/
def comparesWith (comp : Ordering → Bool) (f : ℕ) (n t : R) (fixed : Bool) : Bool :=
  fixed && ((compareNear f n t).map comp).getD false

/-- functions/internal/make_complex_number.hpp:96-116: the parts are converted to the type of the parts of `T`, or to `T` itself if `T` is real
(number_traits.hpp:90, 104); fixed parts give a fixed number (classes/fixed_value.hpp:43-48). -/
def makeComplex (T : Ty) (re im : R) (fixed : Bool) : Option Val := do
  let x ← conv re.ty T.elem re.v
  let y ← conv im.ty T.elem im.v
  some ⟨⟨.cplx T.elem, x, y⟩, fixed⟩

/-- make_complex_number.hpp:132-142. -/
def makeComplexFrom (T : Ty) (p : Val) : Option Val :=
  if realTypeOf T = realTypeOf p.num.ty then some p
  else makeComplex T (realPart p.num) (imagPart p.num) p.fixed

/-- functions/cast_to.hpp:97-118 for a real number and a real type and 142-148 for a complex number.  A real number and a complex type (97-118 with
`static_cast`) give the complex number with that real part. -/
def castTo (T : Ty) (p : Val) : Option Val :=
  if T = p.num.ty then some p
  else match p.num.ty with
  | .cplx _ => makeComplexFrom (.real (realTypeOf T)) p
  | .real s => (conv s T.elem p.num.re).map fun x => ⟨⟨T, x, 0⟩, p.fixed⟩

/-- `std::common_type_t` of arithmetic types. -/
def commonType (a b : RTy) : RTy := if a = b then a else usual a b

/-- functions/internal/update_real_part.hpp:43-54. -/
def updateRealPart (t : Val) (re : R) (reFixed : Bool) : Option Val :=
  match t.num.ty with
  | .cplx s => makeComplex (.real (commonType s re.ty)) re (imagPart t.num) (reFixed && t.fixed)
  | .real _ => some ⟨⟨.real re.ty, re.v, 0⟩, reFixed⟩

end OpenKalman.Scalars
