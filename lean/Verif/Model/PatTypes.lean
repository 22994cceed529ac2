import Verif.Spec.PatTypes

/-!
# Model of the concepts about types of patterns
(`OpenKalman/patterns/concepts/compares_with.hpp`, `concepts/uniform_pattern.hpp`, `traits/common_descriptor_type.hpp`,
`traits/uniform_pattern_type.hpp`, `functions/internal/most_fixed_pattern.hpp`)

Hash codes of descriptors are taken to be equal exactly if the descriptors are.  Ranges without a size (`views::repeat` without a bound,
compares_with.hpp:248-330) are not modelled.
-/

namespace OpenKalman.PatTypes

variable {κ ν : Type} (K : Kinds κ ν)

/-! ## Dimensions -/

/-- `stdex::dynamic_extent`. -/
def dynamic : ℕ := 2 ^ 64 - 1

/-- `dimension_of_v` of a descriptor. -/
def Ty.dim : Ty κ → ℕ
  | .euc (some n) => n
  | .euc none => dynamic
  | .special k => K.dim (K.val k)
  | .erased => dynamic

/-- `euclidean_pattern` of a descriptor. -/
def Ty.isE : Ty κ → Bool
  | .euc _ => true
  | _ => false

/-- `euclidean_pattern` of the elements of a collection of fixed size. -/
def allE (ts : List (Ty κ)) : Bool := ts.all Ty.isE

/-- get_dimension.hpp:28-39 at compile time: the sum, unless an element is dynamic. -/
def sumDim : List (Ty κ) → ℕ
  | [] => 0
  | t :: ts => if t.dim K = dynamic ∨ sumDim ts = dynamic then dynamic else t.dim K + sumDim ts

/-! ## compares_with -/

/-- `applicability`. -/
inductive App | guaranteed | permitted
  deriving DecidableEq

/-- compares_with.hpp:34-38 `inc_bank`. -/
def incBank (bank inc : ℕ) : ℕ := if bank = dynamic ∨ inc = dynamic then dynamic else (bank + inc) % 2 ^ 64

/-- `partial_ordering` of two numbers. -/
def cmp (m n : ℕ) : POrd := if m < n then .less else if m = n then .equivalent else .greater

/-- compares_with.hpp:26-31 `do_comps<comp, a == guaranteed>` of two results. -/
def allOrAny (c : Comp) (app : App) (o o' : POrd) : Bool :=
  match app with
  | .guaranteed => c.holds o && c.holds o'
  | .permitted => c.holds o || c.holds o'

/-- compares_with.hpp:41-77 `same_descriptors` (`some true`) and `different_descriptors` (`some false`): hash codes of default-constructed descriptors, if
they are constant expressions. -/
def sameDescr [DecidableEq ν] : Ty κ → Ty κ → Option Bool
  | .special j, .special k => some (decide (K.val j = K.val k))
  | _, _ => none

/-- compares_with.hpp:80-223 `compares_with_iter`.  Sizes are of type `std::size_t`; line 100 adds to the second bank without regard to
`dynamic_extent`. -/
def iter [DecidableEq ν] (c : Comp) (app : App) : List (Ty κ) → List (Ty κ) → ℕ → ℕ → Bool
  | x :: a, y :: b, m, n =>
    if x.isE && y.isE then iter c app a b (incBank m (x.dim K)) ((n + y.dim K) % 2 ^ 64)
    else if x.isE then iter c app a (y :: b) (incBank m (x.dim K)) n
    else if y.isE then iter c app (x :: a) b m (incBank n (y.dim K))
    else if m = dynamic ∨ n = dynamic then app == .permitted && (c.holds .equivalent || c.holds .unordered)
    else if m ≠ n then c.holds .unordered
    else match sameDescr K x y with
      | some true => iter c app a b 0 0
      | some false => c.holds .unordered
      | none =>
        if c.holds .equivalent then app == .permitted && iter c app a b 0 0
        else if c.holds .unordered then app == .permitted || iter c app a b 0 0
        else if c.holds .less then app == .permitted && (decide (x.dim K = dynamic ∨ x.dim K = 0)) && iter c app a b (x.dim K) (y.dim K)
        else app == .permitted && (decide (y.dim K = dynamic ∨ y.dim K = 0)) && iter c app a b (x.dim K) (y.dim K)
  | x :: a, [], m, n =>
    if x.isE then iter c app a [] (incBank m (x.dim K)) n
    else if m = dynamic ∨ n = dynamic then
      (decide (x.dim K ≠ dynamic) && c.holds .unordered) || (app == .permitted && (decide (x.dim K = dynamic) || c.holds .greater))
    else if m ≥ n then c.holds .greater
    else if x.dim K = dynamic then
      app == .permitted && (c.holds .unordered || c.holds .greater || c.holds .equivalent || (c.holds .less && decide (n > 0)))
    else c.holds .unordered
  | [], y :: b, m, n =>
    if y.isE then iter c app [] b m (incBank n (y.dim K))
    else if m = dynamic ∨ n = dynamic then
      (decide (y.dim K ≠ dynamic) && c.holds .unordered) || (app == .permitted && (decide (y.dim K = dynamic) || c.holds .less))
    else if m ≤ n then c.holds .less
    else if y.dim K = dynamic then
      app == .permitted && (c.holds .unordered || c.holds .less || c.holds .equivalent || (c.holds .greater && decide (m > 0)))
    else c.holds .unordered
  | [], [], m, n =>
    if m ≠ dynamic ∧ n ≠ dynamic then c.holds (cmp m n)
    else if m = 0 then allOrAny c app .less .equivalent
    else if n = 0 then allOrAny c app .greater .equivalent
    else if m ≠ dynamic ∨ n ≠ dynamic then app == .permitted && (c.holds .less || c.holds .greater || c.holds .equivalent)
    else app == .permitted
termination_by a b => a.length + b.length

/-- compares_with.hpp:356-402: a collection of fixed size and a range. -/
def fixedRange [DecidableEq ν] (c : Comp) (app : App) (ts : List (Ty κ)) (u : Ty κ) : Bool :=
  if u.dim K = 0 then c.holds .greater
  else if sumDim K ts ≠ dynamic ∧ u.dim K ≠ dynamic then
    if allE ts && u.isE then
      if c.holds .unordered then app == .permitted || decide (sumDim K ts % u.dim K ≠ 0)
      else if c.holds .less || c.holds .greater then app == .permitted
      else if c.holds .equivalent then app == .permitted && decide (sumDim K ts % u.dim K = 0)
      else app == .permitted
    else if c.holds .unordered then app == .permitted || iter K c app ts (List.replicate ts.length u) 0 0
    else if c.holds .greater then app == .permitted
    else if c.holds .less then app == .permitted && iter K .eq app ts (List.replicate ts.length u) 0 0
    else app == .permitted && iter K c app ts (List.replicate ts.length u) 0 0
  else app == .permitted

/-- compares_with.hpp:403-448: a range and a collection of fixed size. -/
def rangeFixed [DecidableEq ν] (c : Comp) (app : App) (t : Ty κ) (us : List (Ty κ)) : Bool :=
  if t.dim K = 0 then c.holds .less
  else if t.dim K ≠ dynamic ∧ sumDim K us ≠ dynamic then
    if t.isE && allE us then
      if c.holds .unordered then app == .permitted || decide (sumDim K us % t.dim K ≠ 0)
      else if c.holds .less || c.holds .greater then app == .permitted
      else if c.holds .equivalent then app == .permitted && decide (sumDim K us % t.dim K = 0)
      else app == .permitted
    else if c.holds .unordered then app == .permitted || iter K c app (List.replicate us.length t) us 0 0
    else if c.holds .less then app == .permitted
    else if c.holds .greater then app == .permitted && iter K .eq app (List.replicate us.length t) us 0 0
    else app == .permitted && iter K c app (List.replicate us.length t) us 0 0
  else app == .permitted

/-- `dimension_of_v` of a range: zero if its elements have none (get_dimension.hpp:68-71). -/
def rangeDim (t : Ty κ) : ℕ := if t.dim K = 0 then 0 else dynamic

/-- compares_with.hpp:226-455 `compares_with_impl`; a descriptor is taken as a tuple of one element (lines 234-241). -/
def comparesWith [DecidableEq ν] (c : Comp) (app : App) : PTy κ → PTy κ → Bool
  | .one t, .one u => fixedFixed [t] [u]
  | .one t, .fixed us => fixedFixed [t] us
  | .fixed ts, .one u => fixedFixed ts [u]
  | .fixed ts, .fixed us => fixedFixed ts us
  | .one t, .range u => withRange [t] u
  | .fixed ts, .range u => withRange ts u
  | .range t, .one u => rangeWith t [u]
  | .range t, .fixed us => rangeWith t us
  | .range t, .range u =>
    if rangeDim K t = 0 ∧ rangeDim K u = 0 then c.holds .equivalent
    else if rangeDim K t = 0 then allOrAny c app .less .equivalent
    else if rangeDim K u = 0 then allOrAny c app .greater .equivalent
    else app == .permitted
where
  /-- Lines 337-355. -/
  fixedFixed (ts us : List (Ty κ)) : Bool :=
    if sumDim K ts = 0 ∧ sumDim K us = 0 then c.holds .equivalent
    else if ts.length = 0 ∧ us.length = 0 then c.holds .equivalent
    else iter K c app ts us 0 0
  /-- Lines 337-344 and 356-402. -/
  withRange (ts : List (Ty κ)) (u : Ty κ) : Bool :=
    if sumDim K ts = 0 ∧ rangeDim K u = 0 then c.holds .equivalent
    else if sumDim K ts = 0 then allOrAny c app .less .equivalent
    else fixedRange K c app ts u
  /-- Lines 337-348 and 403-448. -/
  rangeWith (t : Ty κ) (us : List (Ty κ)) : Bool :=
    if rangeDim K t = 0 ∧ sumDim K us = 0 then c.holds .equivalent
    else if sumDim K us = 0 then allOrAny c app .greater .equivalent
    else rangeFixed K c app t us

/-! ## common_descriptor_type, uniform_pattern_type -/

/-- How a collection of fixed size is made: a tuple, or something that is also a random-access range (an array). -/
inductive CTy (κ : Type) | one (t : Ty κ) | tuple (ts : List (Ty κ)) | array (t : Ty κ) (n : ℕ) | range (t : Ty κ)

/-- The type of pattern. -/
def CTy.pty : CTy κ → PTy κ
  | .one t => .one t
  | .tuple ts => .fixed ts
  | .array t n => .fixed (List.replicate n t)
  | .range t => .range t

/-- common_descriptor_type.hpp:43-54, of a descriptor: `Dimensions<1>` if Euclidean. -/
def common1 (t : Ty κ) : Ty κ := if t.isE then .euc (some 1) else t

/-- common_descriptor_type.hpp:72-73: `common_reference`, if `common_reference_with`, else `Any`.  The `std::common_type` of two Euclidean types is
`Dimensions<n>` if they agree, else `Dimensions<>` (Dimensions.hpp:226-240); two different non-Euclidean types have no common reference (even if
`std::common_type` names one of them, Angle.hpp:262-267, neither converts to the other), nor has a Euclidean with a non-Euclidean type. -/
def commonRef [DecidableEq κ] : Ty κ → Ty κ → Ty κ
  | .euc m, .euc n => if m = n then .euc m else .euc none
  | .special j, .special k => if j = k then .special j else .erased
  | _, _ => .erased

/-- common_descriptor_type.hpp:58-77 `common_descriptor_type_iter`; `none` is `std::tuple<>`. -/
def commonIter [DecidableEq κ] : List (Ty κ) → Option (Ty κ)
  | [] => none
  | [t] => some t
  | t :: u :: ts =>
    if t.dim K = 0 ∧ u.dim K = 0 then commonIter ts
    else if t.dim K = 0 then commonIter (u :: ts)
    else if u.dim K = 0 then commonIter (t :: ts)
    else commonIter (commonRef t u :: ts)
termination_by l => l.length

/-- `euclidean_pattern`. -/
def CTy.isE : CTy κ → Bool
  | .one t => t.isE
  | .tuple ts => allE ts
  | .array t n => allE (List.replicate n t)
  | .range t => t.isE

/-- common_descriptor_type.hpp:43-119; for a random-access range it is the value type (common_collection_type.hpp:38-47). -/
def commonType [DecidableEq κ] (p : CTy κ) : Option (Ty κ) :=
  if p.isE then some (.euc (some 1))
  else match p with
    | .one t => some t
    | .tuple ts => commonIter K ts
    | .array t _ => some t
    | .range t => some t

/-- uniform_pattern_type.hpp:53-67; `uniform_pattern<T>` is that it exists (uniform_pattern.hpp:130-137). -/
def uniformType [DecidableEq κ] (p : CTy κ) : Option (Ty κ) :=
  if p.isE then some (.euc (some 1))
  else match commonType K p with
    | some t => if t.dim K = 1 then some t else none
    | none => none

/-- uniform_pattern.hpp:27-53 `heterogeneous_pattern_impl` after the first element. -/
def heteroIter [DecidableEq ν] (C : Ty κ) : List (Ty κ) → Bool
  | [] => false
  | t :: ts =>
    if ((common1 t).dim K ≠ dynamic ∧ (common1 t).dim K ≠ 1) ∨ ¬ comparesWith K .eq .permitted (.one C) (.one (common1 t)) then true
    else if (common1 t).dim K ≠ dynamic ∧ C.dim K = dynamic then heteroIter (common1 t) ts
    else heteroIter C ts

/-- uniform_pattern.hpp:78-94: a collection of fixed size. -/
def heteroFixed [DecidableEq ν] : List (Ty κ) → Bool
  | t :: u :: ts => heteroIter K (common1 t) (u :: ts)
  | _ => false

/-- uniform_pattern.hpp:56-112 `heterogeneous_pattern`. -/
def heterogeneous [DecidableEq ν] : CTy κ → Bool
  | .one t => !t.isE && decide (t.dim K ≠ dynamic) && decide (t.dim K ≠ 1)
  | .tuple ts => heteroFixed K ts
  | .array t n => heteroFixed K (List.replicate n t)
  | .range t => decide ((common1 t).dim K ≠ dynamic) && decide ((common1 t).dim K ≠ 1)

/-- uniform_pattern.hpp:125-137 `uniform_pattern<T, permitted>`. -/
def uniformPermitted [DecidableEq ν] (p : CTy κ) : Bool := !heterogeneous K p

/-! ## most_fixed_pattern -/

/-- Whether the dimension of a pattern is known at compile time (`fixed_pattern`). -/
def PTy.isFixed : PTy κ → Bool
  | .one t => decide (t.dim K ≠ dynamic)
  | .fixed ts => decide (sumDim K ts ≠ dynamic)
  | .range t => decide (rangeDim K t ≠ dynamic)

/-- most_fixed_pattern.hpp:30-36: the position of the pattern returned, among the rest. -/
def mostFixedImpl : List (PTy κ) → ℕ
  | [] => 0
  | p :: ps => if ps = [] then 0 else if p.isFixed K then 0 else 1 + mostFixedImpl ps

/-- most_fixed_pattern.hpp:40-48: `none` if the assertion at compile time fails. -/
def mostFixed [DecidableEq ν] : List (PTy κ) → Option ℕ
  | [] => none
  | p :: ps => if ps.all (comparesWith K .eq .permitted p) then some (mostFixedImpl K (p :: ps)) else none

end OpenKalman.PatTypes
