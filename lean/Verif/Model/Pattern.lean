import Verif.Model.Descriptors
import Verif.Model.Collections

/-!
# Model of `OpenKalman/patterns`: descriptors as data, pattern-level conversions, dimensions, comparison

A pattern is given together with how it is presented in the program (`Pat`): a single descriptor, a fixed-size collection, a dynamic collection of
type-erased descriptors (`Any`), of one statically known descriptor, or of run-time dimensions.  `stdex::reference_wrapper`s are transparent.
-/

namespace OpenKalman.Patterns
open OpenKalman.Collections (cmpNat)

/-- The six coordinate orders of `Spherical`, named by the order of the coordinates (d: distance, i: inclination, a: azimuth). -/
inductive SphOrd | dia | dai | adi | ida | aid | iad
  deriving DecidableEq

namespace SphOrd

/-- Template arguments `d_i`, `a_i`, `i_i` (Spherical.hpp:354-412). -/
def dI : SphOrd → Nat | dia => 0 | dai => 0 | adi => 1 | ida => 1 | aid => 2 | iad => 2
def aI : SphOrd → Nat | dia => 2 | dai => 1 | adi => 0 | ida => 2 | aid => 0 | iad => 1
def iI : SphOrd → Nat | dia => 1 | dai => 2 | adi => 2 | ida => 0 | aid => 1 | iad => 0

/-- Spherical.hpp:236-251 `make_ordered_range`. -/
def ordered (o : SphOrd) (d i a : ℝ) : List ℝ :=
  if o.dI = 0 ∧ o.iI = 1 ∧ o.aI = 2 then [d, i, a]
  else if o.dI = 0 ∧ o.aI = 1 ∧ o.iI = 2 then [d, a, i]
  else if o.iI = 0 ∧ o.dI = 1 ∧ o.aI = 2 then [i, d, a]
  else if o.aI = 0 ∧ o.dI = 1 ∧ o.iI = 2 then [a, d, i]
  else if o.iI = 0 ∧ o.aI = 1 ∧ o.dI = 2 then [i, a, d]
  else [a, i, d]

end SphOrd

/-- The descriptors of `OpenKalman/patterns/descriptors` (`angleFirst`: `Polar<Angle, Distance>`). -/
inductive Descriptor
  | dim (n : Nat)
  | distance
  | angle (L : AngleLim)
  | inclination (I : InclLim)
  | polar (angleFirst : Bool) (L : AngleLim)
  | spherical (o : SphOrd) (S : SphLim)

namespace Descriptor

/-- `dimension` traits: Dimensions.hpp:179-184, Distance.hpp:54, Angle.hpp:141, Inclination.hpp:118, Polar.hpp:73, Spherical.hpp:92. -/
def dimension : Descriptor → Nat
  | dim n => n | distance => 1 | angle _ => 1 | inclination _ => 1 | polar _ _ => 2 | spherical _ _ => 3

/-- `stat_dimension` traits: Dimensions.hpp:187-188, Distance.hpp:57, Angle.hpp:144, Inclination.hpp:121, Polar.hpp:76, Spherical.hpp:95. -/
def statDimension : Descriptor → Nat
  | dim n => n | distance => 1 | angle _ => 2 | inclination _ => 2 | polar _ _ => 3 | spherical _ _ => 4

/-- `is_euclidean` traits. -/
def isEuclidean : Descriptor → Bool
  | dim _ => true | _ => false

/-- functions/to_stat_space.hpp:44-62 (Euclidean: unchanged), otherwise the trait.  Reading past the end of the data is `none`. -/
noncomputable def toStat : Descriptor → List ℝ → Option (List ℝ)
  | dim _, l => some l
  | distance, l => do let d ← l[0]?; pure [Distance.toStat d]
  | angle L, l => do let a ← l[0]?; let (x, y) := L.toStat a; pure [x, y]
  | inclination I, l => do let i ← l[0]?; let (z, w) := I.toStat i; pure [z, w]
  | polar af L, l => do
      let d ← l[if af then 1 else 0]?
      let a ← l[if af then 0 else 1]?
      let (d', x, y) := L.polarToStat d a
      pure (if af then [x, y, d'] else [d', x, y])
  | spherical o S, l => do
      let d ← l[o.dI]?
      let i ← l[o.iI]?
      let a ← l[o.aI]?
      let (d', x, y, z) := S.toStat d i a
      pure [d', x, y, z]

/-- functions/from_stat_space.hpp:44-62 and the traits. -/
noncomputable def fromStat : Descriptor → List ℝ → Option (List ℝ)
  | dim _, l => some l
  | distance, l => some l -- Distance.hpp:92-96 forwards the whole view
  | angle L, l => do let x ← l[0]?; let y ← l[1]?; pure [L.fromStat x y]
  | inclination I, l => do let z ← l[0]?; let w ← l[1]?; pure [I.fromStat z w]
  | polar af L, l => do
      let d ← l[if af then 2 else 0]?
      let x ← l[if af then 0 else 1]?
      let y ← l[if af then 1 else 2]?
      let (d', a) := L.polarFromStat d x y
      pure (if af then [a, d'] else [d', a])
  | spherical o S, l => do
      let d ← l[0]?
      let x ← l[1]?
      let y ← l[2]?
      let z ← l[3]?
      let (d', i, a) := S.fromStat d x y z
      pure (o.ordered d' i a)

/-- functions/wrap.hpp:53-84 and the traits (every non-Euclidean descriptor here defines `wrap`). -/
noncomputable def wrap : Descriptor → List ℝ → Option (List ℝ)
  | dim _, l => some l
  | distance, l => do let d ← l[0]?; pure [Distance.wrap d]
  | angle L, l => do let a ← l[0]?; pure [L.wrap a]
  | inclination I, l => do let i ← l[0]?; pure [I.wrap i]
  | polar af L, l => do
      let d ← l[if af then 1 else 0]?
      let a ← l[if af then 0 else 1]?
      let (d', a') := L.polarWrap d a
      pure (if af then [a', d'] else [d', a'])
  | spherical o S, l => do
      let d ← l[o.dI]?
      let i ← l[o.iI]?
      let a ← l[o.aI]?
      let (d', i', a') := S.wrap d i a
      pure (o.ordered d' i' a')

/-- Unsigned 64-bit reduction. -/
def u64 (n : Nat) : Nat := n % 2 ^ 64

/-- Angle.hpp:150-162, 64-bit case.  The `float` expression is evaluated exactly. -/
noncomputable def angleHash (L : AngleLim) : Nat :=
  let a : ℝ := (L.max * 3 + L.min * 2 + 1) / (L.max - L.min + 1)
  u64 (0x62BB0D37A58D6F96 + ⌊a * a * 2 ^ 8⌋₊)

/-- Inclination.hpp:127-137, 64-bit case.  The `float` expression is evaluated exactly. -/
noncomputable def inclHash (I : InclLim) : Nat := u64 (0x8CE6267E341642F7 + ⌊I.down * I.down * 2 ^ 8⌋₊)

/-- `hash_code` traits, 64-bit case: Dimensions.hpp:195-202, Distance.hpp:63-72, Polar.hpp:82-92, Spherical.hpp:101-113.  Subtraction of a
constant `K` is written as addition of `2^64 - K`. -/
noncomputable def hash : Descriptor → Nat
  | dim n => n
  | distance => 0xBD0A668977D34578
  | angle L => angleHash L
  | inclination I => inclHash I
  | polar af L => u64 (angleHash L + (2 ^ 64 - 0x97C195FEC488C0BC) + (if af then 1 else 0) * 0x1000000000000000)
  | spherical o S => u64 ((angleHash S.ang + (2 ^ 64 - 0x83B023AB3EEFB99A)) + (inclHash S.inc + (2 ^ 64 - 0x83B023AB3EEFB99A)) +
      (o.aI * 2 + o.iI * 3 - 2) * 0x1000000000000000)

end Descriptor

/-- A descriptor as an element of a pattern; `erased`: held in an `Any` (Any.hpp), so nothing about it is known at compile time. -/
structure Elem where
  d : Descriptor
  erased : Bool

/-- Any.hpp:226-259 with 85-127: the data is read through a getter for `nIn` elements, the result generated for `nOut` elements. -/
def viaAny (f : List ℝ → Option (List ℝ)) (nIn nOut : Nat) (l : List ℝ) : Option (List ℝ) := do
  let inp ← (List.range nIn).mapM (l[·]?)
  let out ← f inp
  (List.range nOut).mapM (out[·]?)

namespace Elem
variable (e : Elem)

/-- The three conversions on an element. -/
noncomputable def toStat (l : List ℝ) : Option (List ℝ) :=
  if e.erased then viaAny e.d.toStat e.d.dimension e.d.statDimension l else e.d.toStat l
noncomputable def fromStat (l : List ℝ) : Option (List ℝ) :=
  if e.erased then viaAny e.d.fromStat e.d.statDimension e.d.dimension l else e.d.fromStat l
noncomputable def wrap (l : List ℝ) : Option (List ℝ) :=
  if e.erased then viaAny e.d.wrap e.d.dimension e.d.dimension l else e.d.wrap l

/-- concepts/euclidean_pattern.hpp: Euclidean, and known to be so at compile time. -/
def staticEuclidean : Bool := e.d.isEuclidean && !e.erased

end Elem

/-- A slice of the data; taking one past the end is undefined. -/
def sliceData (l : List ℝ) (i n : Nat) : Option (List ℝ) := if i + n ≤ l.length then some ((l.drop i).take n) else none

/-- to_stat_space.hpp:65-85, from_stat_space.hpp:65-85, wrap.hpp:87-107: the recursion over a fixed-size pattern.  `dimOf` is `get_dimension` or
`get_stat_dimension`, `f` the element conversion; `outs` are the accumulated results, concatenated at the end. -/
def walkTuple (dimOf : Elem → Nat) (f : Elem → List ℝ → Option (List ℝ)) (data : List ℝ) : List Elem → Nat → List (List ℝ) → Option (List ℝ)
  | [], _, outs => some outs.flatten
  | e :: es, i, outs => do
      let o ← f e (← sliceData data i (dimOf e))
      walkTuple dimOf f data es (i + dimOf e) (outs ++ [o])

/-- to_stat_space.hpp:109-120, from_stat_space.hpp:109-125, wrap.hpp:131-147: the loop over a dynamic pattern. -/
def walkLoop (dimOf : Elem → Nat) (f : Elem → List ℝ → Option (List ℝ)) (data : List ℝ) (es : List Elem) : Option (List ℝ) :=
  (es.foldlM (fun (s : Nat × List ℝ) e => do
    let o ← f e (← sliceData data s.1 (dimOf e))
    pure (s.1 + dimOf e, s.2 ++ o)) (0, [])).map Prod.snd

/-- to_stat_space.hpp:98-126 for collections; `dyn`: `dimension_of_v` is dynamic. -/
noncomputable def toStatSpace (dyn : Bool) (es : List Elem) (data : List ℝ) : Option (List ℝ) :=
  if dyn then walkLoop (·.d.dimension) Elem.toStat data es else walkTuple (·.d.dimension) Elem.toStat data es 0 []

/-- from_stat_space.hpp:98-132 for collections; `cr`: the library defines `__cpp_lib_containers_ranges`, in which case the loop body (line 116)
calls `to_stat_space` instead of `from_stat_space`. -/
noncomputable def fromStatSpace (dyn cr : Bool) (es : List Elem) (data : List ℝ) : Option (List ℝ) :=
  if dyn then walkLoop (·.d.statDimension) (if cr then Elem.toStat else Elem.fromStat) data es
  else walkTuple (·.d.statDimension) Elem.fromStat data es 0 []

/-- wrap.hpp:120-154 for collections (the two library configurations append the same range). -/
noncomputable def wrapSpace (dyn : Bool) (es : List Elem) (data : List ℝ) : Option (List ℝ) :=
  if dyn then walkLoop (·.d.dimension) Elem.wrap data es else walkTuple (·.d.dimension) Elem.wrap data es 0 []

/-! ## Presentations of a pattern -/

/-- How a sized pattern is presented. -/
inductive Pat
  /-- a single descriptor -/
  | single (e : Elem)
  /-- a tuple or array of compile-time size -/
  | fixed (es : List Elem)
  /-- a dynamic range of `Any` -/
  | dynAny (ds : List Descriptor)
  /-- a dynamic range of `n` copies of a type whose dimension and character are known at compile time (e.g. `std::vector<angle::Degrees>`) -/
  | dynSame (d : Descriptor) (n : Nat)
  /-- a dynamic range of run-time dimensions (`Dimensions<>`, `std::size_t`) -/
  | dynDims (ns : List Nat)

namespace Pat

/-- The descriptors of a pattern. -/
def elems : Pat → List Elem
  | single e => [e]
  | fixed es => es
  | dynAny ds => ds.map (⟨·, true⟩)
  | dynSame d n => List.replicate n ⟨d, false⟩
  | dynDims ns => ns.map fun n => ⟨.dim n, false⟩

/-- get_dimension.hpp:28-39 `get_dimension_fixed`. -/
def dimFixed (dimOf : Descriptor → Nat) : List Elem → Nat
  | [] => 0
  | e :: es => dimOf e.d + dimFixed dimOf es

/-- get_dimension.hpp:51-84; with `statDimension`, get_stat_dimension.hpp:63-96. -/
def getDim (dimOf : Descriptor → Nat) : Pat → Nat
  | single e => dimOf e.d
  | fixed es => if es.length = 0 then 0 else dimFixed dimOf es
  | dynAny ds => ds.foldl (fun a b => a + dimOf b) 0
  | dynSame d n => if dimOf d = 0 then 0 else dimOf d * n
  | dynDims ns => ns.foldl (fun a b => a + dimOf (.dim b)) 0

/-- get_is_euclidean.hpp:37-49 `get_is_euclidean_fixed`. -/
def eucFixed : List Elem → Bool
  | [] => true
  | e :: es => e.d.isEuclidean && eucFixed es

/-- get_is_euclidean.hpp:63-93. -/
def getIsEuclidean : Pat → Bool
  | single e => e.d.isEuclidean
  | fixed es => if es.length = 0 then true else eucFixed es
  | dynAny ds => ds.foldl (fun a b => a && b.isEuclidean) true
  | dynSame d _ => d.isEuclidean
  | dynDims _ => true

/-- concepts/euclidean_pattern.hpp: `get_is_euclidean` is true at compile time. -/
def staticEuclidean : Pat → Bool
  | single e => e.staticEuclidean
  | fixed es => es.all Elem.staticEuclidean
  | dynAny _ => false
  | dynSame d _ => d.isEuclidean
  | dynDims _ => true

/-- `collections::size_of_v` is not dynamic. -/
def fixedSize : Pat → Bool
  | single _ => true
  | fixed _ => true
  | _ => false

end Pat

/-! ## compare_three_way.hpp -/

/-- compare_three_way.hpp:31-75 `compare_three_way_fixed`; the index pair is represented by the remaining elements. -/
noncomputable def compareFixed : List Elem → List Elem → Nat → Nat → POrd
  | a :: as, b :: bs, abank, bbank =>
    if a.staticEuclidean && b.staticEuclidean then compareFixed as bs (abank + a.d.dimension) (bbank + b.d.dimension)
    else if a.staticEuclidean then compareFixed as (b :: bs) (abank + a.d.dimension) bbank
    else if b.staticEuclidean then compareFixed (a :: as) bs abank (bbank + b.d.dimension)
    else if abank = bbank then
      if a.d.hash = b.d.hash then compareFixed as bs 0 0 else .unordered
    else .unordered
  | a :: as, [], abank, bbank =>
    if a.staticEuclidean then compareFixed as [] (abank + a.d.dimension) bbank
    else if abank ≥ bbank then .greater else .unordered
  | [], b :: bs, abank, bbank =>
    if b.staticEuclidean then compareFixed [] bs abank (bbank + b.d.dimension)
    else if abank ≤ bbank then .less else .unordered
  | [], [], abank, bbank => cmpNat abank bbank
termination_by l r => l.length + r.length

/-- compare_three_way.hpp:78-122 `compare_three_way_impl`. -/
noncomputable def compareImpl : List Elem → List Elem → Nat → Nat → POrd
  | a :: as, b :: bs, abank, bbank =>
    if _h : a.d.isEuclidean = true ∨ b.d.isEuclidean = true then
      compareImpl (if a.d.isEuclidean then as else a :: as) (if b.d.isEuclidean then bs else b :: bs)
        (if a.d.isEuclidean then abank + a.d.dimension else abank) (if b.d.isEuclidean then bbank + b.d.dimension else bbank)
    else if a.d.hash = b.d.hash ∧ abank = bbank then compareImpl as bs 0 0
    else .unordered
  | a :: as, [], abank, bbank =>
    if a.d.isEuclidean then compareImpl as [] (abank + a.d.dimension) bbank
    else if abank ≥ bbank then .greater else .unordered
  | [], b :: bs, abank, bbank =>
    if b.d.isEuclidean then compareImpl [] bs abank (bbank + b.d.dimension)
    else if abank ≤ bbank then .less else .unordered
  | [], [], abank, bbank => cmpNat abank bbank
termination_by l r => l.length + r.length
decreasing_by
  all_goals simp_wf
  all_goals first
    | omega
    | (rcases _h with h | h <;> rw [if_pos h] <;> split <;> (try simp only [List.length_cons]) <;> omega)

/-- compare_three_way.hpp:224-261, two sized collections. -/
noncomputable def compareColl (fa fb : Bool) (a b : List Elem) : POrd :=
  if fa && fb then
    if a.length = 0 ∨ b.length = 0 then cmpNat a.length b.length else compareFixed a b 0 0
  else if fa then
    if a.length = 0 then (if b.length = 0 then .equivalent else .less)
    else if b.length = 0 then .greater
    else compareImpl a b 0 0
  else if fb then
    if b.length = 0 then (if a.length = 0 then .equivalent else .greater)
    else if a.length = 0 then .less
    else compareImpl a b 0 0
  else
    if a.length = 0 then (if b.length = 0 then .equivalent else .less)
    else if b.length = 0 then .greater
    else compareImpl a b 0 0

/-- compare_three_way.hpp:142-262 for sized patterns. -/
noncomputable def compareThreeWay (a b : Pat) : POrd :=
  if a.staticEuclidean && b.staticEuclidean then cmpNat (a.getDim Descriptor.dimension) (b.getDim Descriptor.dimension)
  else match a, b with
    | .single x, .single y =>
      if x.d.isEuclidean && y.d.isEuclidean then cmpNat x.d.dimension y.d.dimension
      else if x.d.hash = y.d.hash then .equivalent
      else .unordered
    | a, b => compareColl a.fixedSize b.fixedSize a.elems b.elems

/-- compare_three_way.hpp:195-208: `a` is an unbounded range of the descriptor `e` (not of compile-time dimension zero), `b` a sized collection
presented as elements: the range is cut to one more element than `b` has. -/
noncomputable def compareUnboundedLeft (e : Elem) (fb : Bool) (b : List Elem) : POrd :=
  let sl := List.replicate (b.length + 1) e
  if e.staticEuclidean && b.all Elem.staticEuclidean then cmpNat (Pat.dimFixed Descriptor.dimension sl) (Pat.dimFixed Descriptor.dimension b)
  else compareColl fb fb sl b

end OpenKalman.Patterns
