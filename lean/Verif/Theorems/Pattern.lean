import Verif.Proof.Pattern
import Verif.Theorems.Descriptors

/-!
# C09–C13: patterns

A pattern is a list of elements (`Elem`: a descriptor, possibly held in an `Any`); `Pat` records how it is presented.
-/

namespace OpenKalman.Patterns
open Real
open OpenKalman.Collections (cmpNat OrderLaws)

/-! ## Patterns used in the examples -/

/-- `Dimensions<2>, angle::PositiveDegrees, Distance` with the angle held in an `Any`. -/
noncomputable def samplePattern : List Elem := [⟨.dim 2, false⟩, ⟨.angle degrees360, true⟩, ⟨.distance, false⟩]

/-! ## C06, C07: coordinate orders -/

/-- **C06** (coordinate order): `Polar<Angle, Distance>` is `Polar<Distance, Angle>` with the coordinates exchanged (and the three encoded
coordinates rotated). -/
theorem C06_order (L : AngleLim) (d a x y : ℝ) :
    (Descriptor.polar false L).wrap [d, a] = some [(L.polarWrap d a).1, (L.polarWrap d a).2] ∧
    (Descriptor.polar true L).wrap [a, d] = some [(L.polarWrap d a).2, (L.polarWrap d a).1] ∧
    (Descriptor.polar false L).toStat [d, a] = some [(L.polarToStat d a).1, (L.polarToStat d a).2.1, (L.polarToStat d a).2.2] ∧
    (Descriptor.polar true L).toStat [a, d] = some [(L.polarToStat d a).2.1, (L.polarToStat d a).2.2, (L.polarToStat d a).1] ∧
    (Descriptor.polar false L).fromStat [d, x, y] = some [(L.polarFromStat d x y).1, (L.polarFromStat d x y).2] ∧
    (Descriptor.polar true L).fromStat [x, y, d] = some [(L.polarFromStat d x y).2, (L.polarFromStat d x y).1] :=
  ⟨rfl, rfl, rfl, rfl, rfl, rfl⟩

/-- The order in which a spherical descriptor lists distance, inclination and azimuth. -/
def SphOrd.arrange : SphOrd → ℝ × ℝ × ℝ → List ℝ
  | .dia, (d, i, a) => [d, i, a]
  | .dai, (d, i, a) => [d, a, i]
  | .adi, (d, i, a) => [a, d, i]
  | .ida, (d, i, a) => [i, d, a]
  | .aid, (d, i, a) => [a, i, d]
  | .iad, (d, i, a) => [i, a, d]

/-- **C07, C08** (coordinate order): in each of the six orders the functions act as in the standard order. -/
theorem C07_order (o : SphOrd) (S : SphLim) (d i a x y z : ℝ) :
    (Descriptor.spherical o S).wrap (o.arrange (d, i, a)) = some (o.arrange (S.wrap d i a)) ∧
    (Descriptor.spherical o S).toStat (o.arrange (d, i, a)) =
      some [(S.toStat d i a).1, (S.toStat d i a).2.1, (S.toStat d i a).2.2.1, (S.toStat d i a).2.2.2] ∧
    (Descriptor.spherical o S).fromStat [d, x, y, z] = some (o.arrange (S.fromStat d x y z)) := by
  cases o <;> exact ⟨rfl, rfl, rfl⟩

example : (Descriptor.spherical .aid ⟨degrees360, incDegrees⟩).wrap [30, 200, -2] = some [30, 20, 2] := by
  have h := (C07_order .aid ⟨degrees360, incDegrees⟩ (-2) 200 30 0 0 0).1
  have hw : (⟨degrees360, incDegrees⟩ : SphLim).wrap (-2) 200 30 = (2, 20, 30) := by
    have hf : fmod 200 360 = 200 := fmod_of_lt (by norm_num) (by norm_num)
    have hg : fmod 30 360 = 30 := fmod_of_lt (by norm_num) (by norm_num)
    unfold SphLim.wrap SphLim.wrapTheta SphLim.wrapPhiMod
    norm_num [incDegrees, degrees360, hf, hg, AngleLim.period, signbit]
  rw [hw] at h
  exact h

/-! ## C09 -/

/-- Convert each block of the data by the descriptor it belongs to, and concatenate. -/
def Blockwise (dimOf : Descriptor → Nat) (conv : Descriptor → List ℝ → Option (List ℝ)) (es : List Elem) (data out : List ℝ) : Prop :=
  ∃ outs : List (List ℝ), out = outs.flatten ∧
    List.Forall₂ (fun (p : Elem × List ℝ) o => conv p.1.d p.2 = some o) (es.zip (splitBy (es.map (dimOf ·.d)) data)) outs

theorem blockwise_intro {dimOf : Descriptor → Nat} {conv : Descriptor → List ℝ → Option (List ℝ)}
    (h : ∀ d l, l.length = dimOf d → ∃ o, conv d l = some o) (es : List Elem) (data : List ℝ) (hl : data.length = (es.map (dimOf ·.d)).sum) :
    Blockwise dimOf conv es data (blocks (dimOf ·.d) (fun e l => (conv e.d l).getD []) es data).flatten := by
  refine ⟨_, rfl, ?_⟩
  induction es generalizing data with
  | nil => exact .nil
  | cons e es ih =>
    simp only [List.map_cons, List.sum_cons] at hl
    refine .cons ?_ (ih _ (by simp; omega))
    obtain ⟨o, ho⟩ := h e.d (data.take (dimOf e.d)) (by simp; omega)
    simp [ho]

theorem getD_some {α : Type} {x : Option (List α)} {P : List α → Prop} (h : ∃ o, x = some o ∧ P o) : x = some (x.getD []) ∧ P (x.getD []) := by
  obtain ⟨o, rfl, hp⟩ := h; exact ⟨rfl, hp⟩

theorem toStatSpace_eq (dyn : Bool) (es : List Elem) (data : List ℝ) (hl : (es.map (·.d.dimension)).sum ≤ data.length) :
    toStatSpace dyn es data = some (blocks (·.d.dimension) (fun e l => (e.d.toStat l).getD []) es data).flatten := by
  have hf : ∀ (e : Elem) l, l.length = e.d.dimension → e.toStat l = some ((e.d.toStat l).getD []) := fun e l h => by
    rw [e.toStat_eq l h]; exact (getD_some (e.d.toStat_total l h)).1
  unfold toStatSpace
  split_ifs
  · exact walkLoop_eq hf data es hl
  · rw [walkTuple_eq hf data es 0 [] (by omega)]; simp

theorem fromStatSpace_eq (dyn cr : Bool) (hc : dyn = true → cr = false) (es : List Elem) (data : List ℝ)
    (hl : (es.map (·.d.statDimension)).sum ≤ data.length) :
    fromStatSpace dyn cr es data = some (blocks (·.d.statDimension) (fun e l => (e.d.fromStat l).getD []) es data).flatten := by
  have hf : ∀ (e : Elem) l, l.length = e.d.statDimension → e.fromStat l = some ((e.d.fromStat l).getD []) := fun e l h => by
    rw [e.fromStat_eq l h]; exact (getD_some (e.d.fromStat_total l h)).1
  unfold fromStatSpace
  cases dyn
  · simp only [Bool.false_eq_true, if_false]
    rw [walkTuple_eq hf data es 0 [] (by omega)]; simp
  · rw [hc rfl]
    simp only [if_true, Bool.false_eq_true, if_false]
    exact walkLoop_eq hf data es hl

theorem wrapSpace_eq (dyn : Bool) (es : List Elem) (data : List ℝ) (hl : (es.map (·.d.dimension)).sum ≤ data.length) :
    wrapSpace dyn es data = some (blocks (·.d.dimension) (fun e l => (e.d.wrap l).getD []) es data).flatten := by
  have hf : ∀ (e : Elem) l, l.length = e.d.dimension → e.wrap l = some ((e.d.wrap l).getD []) := fun e l h => by
    rw [e.wrap_eq l h]; exact (getD_some (e.d.wrap_total l h)).1
  unfold wrapSpace
  split_ifs
  · exact walkLoop_eq hf data es hl
  · rw [walkTuple_eq hf data es 0 [] (by omega)]; simp

/-- The blocks into which the data is cut are consecutive, of the right sizes and make up all of the data. -/
theorem C09_blocks (ns : List Nat) (data : List ℝ) (h : data.length = ns.sum) :
    (splitBy ns data).map List.length = ns ∧ (splitBy ns data).flatten = data :=
  ⟨splitBy_lengths _ _ h, splitBy_flatten _ _ h⟩

example : splitBy [2, 1] [(1 : ℝ), 2, 3] = [[1, 2], [3]] := rfl

/-- **C09** (`to_stat_space`): defined, block by block, of the right length, for fixed and dynamic patterns, through `Any` or not. -/
theorem C09_to_stat (dyn : Bool) (es : List Elem) (data : List ℝ) (h : data.length = (es.map (·.d.dimension)).sum) :
    ∃ out, toStatSpace dyn es data = some out ∧ Blockwise Descriptor.dimension Descriptor.toStat es data out ∧
      out.length = (es.map (·.d.statDimension)).sum := by
  refine ⟨_, toStatSpace_eq dyn es data h.ge, blockwise_intro (fun d l hl => (d.toStat_total l hl).imp fun _ => And.left) es data h, ?_⟩
  rw [List.length_flatten, blocks_lengths _ (·.d.statDimension) _ (fun e l hl => (getD_some (e.d.toStat_total l hl)).2) es data h]

/-- **C09** (`wrap`). -/
theorem C09_wrap (dyn : Bool) (es : List Elem) (data : List ℝ) (h : data.length = (es.map (·.d.dimension)).sum) :
    ∃ out, wrapSpace dyn es data = some out ∧ Blockwise Descriptor.dimension Descriptor.wrap es data out ∧ out.length = data.length := by
  refine ⟨_, wrapSpace_eq dyn es data h.ge, blockwise_intro (fun d l hl => (d.wrap_total l hl).imp fun _ => And.left) es data h, ?_⟩
  rw [List.length_flatten, blocks_lengths _ (·.d.dimension) _ (fun e l hl => (getD_some (e.d.wrap_total l hl)).2) es data h, h]

/-- **C09** (`from_stat_space`), except for dynamic patterns with a library that defines `__cpp_lib_containers_ranges`
(`C09_from_stat_dynamic_violated`). -/
theorem C09_from_stat_partial (dyn cr : Bool) (hc : dyn = true → cr = false) (es : List Elem) (data : List ℝ)
    (h : data.length = (es.map (·.d.statDimension)).sum) :
    ∃ out, fromStatSpace dyn cr es data = some out ∧ Blockwise Descriptor.statDimension Descriptor.fromStat es data out ∧
      out.length = (es.map (·.d.dimension)).sum := by
  refine ⟨_, fromStatSpace_eq dyn cr hc es data h.ge, blockwise_intro (fun d l hl => (d.fromStat_total l hl).imp fun _ => And.left) es data h, ?_⟩
  rw [List.length_flatten, blocks_lengths _ (·.d.dimension) _ (fun e l hl => (getD_some (e.d.fromStat_total l hl)).2) es data h]

example : ∃ out, toStatSpace true samplePattern [1, 2, 90, -3] = some out ∧ out.length = 5 := by
  obtain ⟨out, h1, -, h3⟩ := C09_to_stat true samplePattern [1, 2, 90, -3] rfl
  exact ⟨out, h1, h3⟩

/-- **C09** violated: with `__cpp_lib_containers_ranges`, `from_stat_space` of a dynamic pattern encodes instead of decoding: for one angle it
returns two components. -/
theorem C09_from_stat_dynamic_violated (x y : ℝ) :
    ∃ out, fromStatSpace true true [⟨.angle degrees360, false⟩] [x, y] = some out ∧ out.length = 2 :=
  ⟨_, rfl, rfl⟩

/-- **C09** (concatenation): the conversions distribute over concatenation of patterns and data. -/
theorem C09_append (dyn : Bool) (es fs : List Elem) (x y : List ℝ) (h : x.length = (es.map (·.d.dimension)).sum)
    (h' : y.length = (fs.map (·.d.dimension)).sum) :
    toStatSpace dyn (es ++ fs) (x ++ y) = (do let a ← toStatSpace dyn es x; let b ← toStatSpace dyn fs y; pure (a ++ b)) ∧
    wrapSpace dyn (es ++ fs) (x ++ y) = (do let a ← wrapSpace dyn es x; let b ← wrapSpace dyn fs y; pure (a ++ b)) := by
  have hs : ((es ++ fs).map (·.d.dimension)).sum ≤ (x ++ y).length := by simp [h, h']
  rw [toStatSpace_eq dyn _ _ hs, toStatSpace_eq dyn es x h.ge, toStatSpace_eq dyn fs y h'.ge,
    wrapSpace_eq dyn _ _ hs, wrapSpace_eq dyn es x h.ge, wrapSpace_eq dyn fs y h'.ge, blocks_append _ _ es fs x y h, blocks_append _ _ es fs x y h]
  simp

/-- **C09** (concatenation, decoding). -/
theorem C09_append_from_stat (dyn cr : Bool) (hc : dyn = true → cr = false) (es fs : List Elem) (x y : List ℝ)
    (h : x.length = (es.map (·.d.statDimension)).sum) (h' : y.length = (fs.map (·.d.statDimension)).sum) :
    fromStatSpace dyn cr (es ++ fs) (x ++ y) = (do let a ← fromStatSpace dyn cr es x; let b ← fromStatSpace dyn cr fs y; pure (a ++ b)) := by
  have hs : ((es ++ fs).map (·.d.statDimension)).sum ≤ (x ++ y).length := by simp [h, h']
  rw [fromStatSpace_eq dyn cr hc _ _ hs, fromStatSpace_eq dyn cr hc es x h.ge, fromStatSpace_eq dyn cr hc fs y h'.ge, blocks_append _ _ es fs x y h]
  simp

/-- **C09** (presentation): fixed-size and dynamic patterns, `Any` or not, give the same result. -/
theorem C09_presentation (es fs : List Elem) (hd : es.map Elem.d = fs.map Elem.d) (data : List ℝ) (h : data.length = (es.map (·.d.dimension)).sum)
    (dyn dyn' : Bool) : toStatSpace dyn es data = toStatSpace dyn' fs data ∧ wrapSpace dyn es data = wrapSpace dyn' fs data := by
  have hm : fs.map (·.d.dimension) = es.map (·.d.dimension) := by
    have := congrArg (List.map Descriptor.dimension) hd
    simpa [List.map_map, Function.comp_def] using this.symm
  have hb : ∀ conv : Descriptor → List ℝ → List ℝ,
      blocks (·.d.dimension) (fun e l => conv e.d l) es data = blocks (·.d.dimension) (fun e l => conv e.d l) fs data := by
    intro conv
    unfold blocks
    rw [hm]
    have e : ∀ gs : List Elem, ∀ bl, List.zipWith (fun (e : Elem) l => conv e.d l) gs bl = List.zipWith conv (gs.map Elem.d) bl := fun gs bl => by
      rw [List.zipWith_map_left]
    rw [e, e, hd]
  rw [toStatSpace_eq dyn es data h.ge, toStatSpace_eq dyn' fs data (by rw [hm, h]), wrapSpace_eq dyn es data h.ge,
    wrapSpace_eq dyn' fs data (by rw [hm, h])]
  exact ⟨congrArg some (congrArg List.flatten (hb fun d l => (d.toStat l).getD [])),
    congrArg some (congrArg List.flatten (hb fun d l => (d.wrap l).getD []))⟩

/-- A descriptor for which decoding the encoding is exactly wrapping: no unscaled angle, not spherical (where the azimuth at a pole is lost). -/
def Descriptor.RoundTrips : Descriptor → Prop
  | .angle L => L.unscaled = false
  | .polar _ L => L.unscaled = false
  | .spherical _ _ => False
  | _ => True

theorem Descriptor.round_trip (d : Descriptor) (hd : d.RoundTrips) (l : List ℝ) (hl : l.length = d.dimension) :
    d.fromStat ((d.toStat l).getD []) = d.wrap l := by
  cases d with
  | dim n => rfl
  | distance => obtain ⟨a, rfl⟩ := len1 hl; rfl
  | angle L =>
    obtain ⟨a, rfl⟩ := len1 hl
    exact congrArg (fun t => some [t]) (C02_round_trip_partial L hd a)
  | inclination I =>
    obtain ⟨a, rfl⟩ := len1 hl
    exact congrArg (fun t => some [t]) (C04_round_trip I a)
  | polar af L =>
    obtain ⟨a, b, rfl⟩ := len2 hl
    cases af
    · exact congrArg (fun t : ℝ × ℝ => some [t.1, t.2]) (C06_round_trip L hd a b)
    · exact congrArg (fun t : ℝ × ℝ => some [t.2, t.1]) (C06_round_trip L hd b a)
  | spherical o S => exact absurd hd id

theorem Descriptor.wrap_wrap (d : Descriptor) (l : List ℝ) (hl : l.length = d.dimension) : d.wrap ((d.wrap l).getD []) = d.wrap l := by
  cases d with
  | dim n => rfl
  | distance => obtain ⟨a, rfl⟩ := len1 hl; exact congrArg (fun t => some [t]) (abs_abs a)
  | angle L =>
    obtain ⟨a, rfl⟩ := len1 hl
    exact congrArg (fun t => some [t]) (C01_wrap_laws L a 0).2.1
  | inclination I =>
    obtain ⟨a, rfl⟩ := len1 hl
    have := (C04_wrap_laws I a 0).2.1
    exact congrArg (fun t => some [t]) this
  | polar af L =>
    obtain ⟨a, b, rfl⟩ := len2 hl
    cases af
    · exact congrArg (fun t : ℝ × ℝ => some [t.1, t.2]) (C06_wrap_laws L a b 0 0).2.1
    · exact congrArg (fun t : ℝ × ℝ => some [t.2, t.1]) (C06_wrap_laws L b a 0 0).2.1
  | spherical o S =>
    obtain ⟨a, b, c, rfl⟩ := len3 hl
    have key : ∀ d i a : ℝ, (Descriptor.spherical o S).wrap (((Descriptor.spherical o S).wrap (o.arrange (d, i, a))).getD []) =
        (Descriptor.spherical o S).wrap (o.arrange (d, i, a)) := by
      intro d i a
      rw [(C07_order o S d i a 0 0 0).1]
      show (Descriptor.spherical o S).wrap (o.arrange ((S.wrap d i a).1, (S.wrap d i a).2.1, (S.wrap d i a).2.2)) = _
      rw [(C07_order o S _ _ _ 0 0 0).1, (C07_wrap_laws S d i a).2]
    cases o
    · exact key a b c
    · exact key a c b
    · exact key b c a
    · exact key b a c
    · exact key c b a
    · exact key c a b

/-- Decode after encode, block by block. -/
theorem blocks_compose (dim1 dim2 : Elem → Nat) (f g k : Elem → List ℝ → List ℝ) (hf : ∀ e l, l.length = dim1 e → (f e l).length = dim2 e)
    (es : List Elem) (hk : ∀ e ∈ es, ∀ l, l.length = dim1 e → g e (f e l) = k e l) (x : List ℝ) (h : x.length = (es.map dim1).sum) :
    (blocks dim2 g es (blocks dim1 f es x).flatten) = blocks dim1 k es x := by
  induction es generalizing x with
  | nil => rfl
  | cons e es ih =>
    simp only [List.map_cons, List.sum_cons] at h
    have h1 : (x.take (dim1 e)).length = dim1 e := by simp; omega
    have h2 := hf e _ h1
    have ih' := ih (fun e' he' => hk e' (by simp [he'])) (x.drop (dim1 e)) (by simp; omega)
    unfold blocks at ih' ⊢
    simp only [List.map_cons, splitBy, List.zipWith_cons_cons, List.flatten_cons]
    rw [List.take_left' h2, List.drop_left' h2, hk e (by simp) _ h1, ih']

/-- **C09** (whole-pattern round trip): decoding the encoding of a vector is wrapping it, for every pattern of dimensions, distances, inclinations
and (scaled) angle and polar descriptors. -/
theorem C09_round_trip (dyn cr : Bool) (hc : dyn = true → cr = false) (es : List Elem) (hes : ∀ e ∈ es, e.d.RoundTrips) (x : List ℝ)
    (h : x.length = (es.map (·.d.dimension)).sum) : (toStatSpace dyn es x >>= fromStatSpace dyn cr es) = wrapSpace dyn es x := by
  have hlen := blocks_lengths (·.d.dimension) (·.d.statDimension) _ (fun e l hl => (getD_some (e.d.toStat_total l hl)).2) es x h
  rw [toStatSpace_eq dyn es x h.ge, wrapSpace_eq dyn es x h.ge]
  show fromStatSpace dyn cr es _ = _
  rw [fromStatSpace_eq dyn cr hc es _ (by rw [List.length_flatten, hlen]),
    blocks_compose _ _ _ _ (fun e l => (e.d.wrap l).getD []) (fun e l hl => (getD_some (e.d.toStat_total l hl)).2) es
      (fun e he l hl => by rw [e.d.round_trip (hes e he) l hl]) x h]

example : (toStatSpace true samplePattern [1, 2, 725, -3] >>= fromStatSpace true false samplePattern) = wrapSpace true samplePattern [1, 2, 725, -3] :=
  C09_round_trip true false (fun _ => rfl) samplePattern (by simp [samplePattern, Descriptor.RoundTrips, degrees360]) _ rfl

/-- **C09** (wrapping twice is wrapping once), for every pattern. -/
theorem C09_wrap_idempotent (dyn : Bool) (es : List Elem) (x : List ℝ) (h : x.length = (es.map (·.d.dimension)).sum) :
    (wrapSpace dyn es x >>= wrapSpace dyn es) = wrapSpace dyn es x := by
  have hlen := blocks_lengths (·.d.dimension) (·.d.dimension) _ (fun e l hl => (getD_some (e.d.wrap_total l hl)).2) es x h
  rw [wrapSpace_eq dyn es x h.ge]
  show wrapSpace dyn es _ = _
  rw [wrapSpace_eq dyn es _ (by rw [List.length_flatten, hlen]),
    blocks_compose _ _ _ _ (fun e l => (e.d.wrap l).getD []) (fun e l hl => (getD_some (e.d.wrap_total l hl)).2) es
      (fun e he l hl => by rw [e.d.wrap_wrap l hl]) x h]

/-! ## C10 -/

/-- **C10** (dimensions): for every presentation the (stat) dimension is the sum over the descriptors. -/
theorem C10_dimension (dimOf : Descriptor → Nat) (p : Pat) : p.getDim dimOf = (p.elems.map (dimOf ·.d)).sum := by
  have hfix : ∀ es, Pat.dimFixed dimOf es = (es.map (dimOf ·.d)).sum := by
    intro es; induction es with
    | nil => rfl
    | cons e es ih => simp [Pat.dimFixed, ih]
  have hfold : ∀ (β : Type) (f : β → Nat) (l : List β) n, l.foldl (fun a b => a + f b) n = n + (l.map f).sum := by
    intro β f l
    induction l with
    | nil => simp
    | cons b l ih => intro n; simp [ih, Nat.add_assoc]
  cases p with
  | single e => simp [Pat.getDim, Pat.elems]
  | fixed es =>
    simp only [Pat.getDim, Pat.elems]
    split_ifs with h
    · rw [List.length_eq_zero_iff.mp h]; rfl
    · exact hfix es
  | dynAny ds =>
    simp only [Pat.getDim, Pat.elems]
    rw [hfold]; simp [List.map_map, Function.comp_def]
  | dynSame d n =>
    simp only [Pat.getDim, Pat.elems]
    split_ifs with h
    · simp [h]
    · simp [mul_comm]
  | dynDims ns =>
    simp only [Pat.getDim, Pat.elems]
    rw [hfold]; simp [List.map_map, Function.comp_def]

/-- **C10** (additivity). -/
theorem C10_append (dimOf : Descriptor → Nat) (p q r : Pat) (h : r.elems = p.elems ++ q.elems) :
    r.getDim dimOf = p.getDim dimOf + q.getDim dimOf := by
  rw [C10_dimension, C10_dimension, C10_dimension, h]; simp

example : (Pat.dynAny [.distance, .angle degrees360]).getDim Descriptor.statDimension =
    (Pat.single ⟨.distance, true⟩).getDim Descriptor.statDimension + (Pat.dynAny [.angle degrees360]).getDim Descriptor.statDimension :=
  C10_append _ _ _ _ rfl

/-- **C10** (Euclidean): a pattern is Euclidean iff all its descriptors are — except for empty dynamic ranges of a type known not to be Euclidean. -/
theorem C10_euclidean_partial (p : Pat) (hp : ∀ d n, p = .dynSame d n → n ≠ 0) :
    p.getIsEuclidean = true ↔ ∀ e ∈ p.elems, e.d.isEuclidean = true := by
  have hfix : ∀ es, Pat.eucFixed es = true ↔ ∀ e ∈ es, e.d.isEuclidean = true := by
    intro es; induction es with
    | nil => simp [Pat.eucFixed]
    | cons e es ih => simp [Pat.eucFixed, ih]
  have hfold : ∀ (l : List Descriptor) b, l.foldl (fun a b => a && b.isEuclidean) b = true ↔ b = true ∧ ∀ d ∈ l, d.isEuclidean = true := by
    intro l
    induction l with
    | nil => simp
    | cons d l ih => intro b; simp [ih, and_assoc]
  cases p with
  | single e => simp [Pat.getIsEuclidean, Pat.elems]
  | fixed es =>
    simp only [Pat.getIsEuclidean, Pat.elems]
    split_ifs with h
    · rw [List.length_eq_zero_iff.mp h]; simp
    · exact hfix es
  | dynAny ds =>
    simp only [Pat.getIsEuclidean, Pat.elems]
    rw [hfold]; simp
  | dynSame d n =>
    have := hp d n rfl
    simp [Pat.getIsEuclidean, Pat.elems, this]
  | dynDims ns => simp [Pat.getIsEuclidean, Pat.elems, Descriptor.isEuclidean]

/-- **C10** violated: an empty `std::vector<angle::Degrees>` has no components but is reported as not Euclidean. -/
theorem C10_euclidean_empty_violated :
    (Pat.dynSame (.angle degrees360) 0).getIsEuclidean = false ∧ (Pat.dynSame (.angle degrees360) 0).elems = [] ∧
    (Pat.dynAny []).getIsEuclidean = true :=
  ⟨rfl, rfl, rfl⟩

/-- **C10** (Euclidean patterns): stat dimension equals dimension and all conversions are the identity. -/
theorem C10_euclidean_identity (dyn cr : Bool) (hc : dyn = true → cr = false) (p : Pat) (hp : p.getIsEuclidean = true) (x : List ℝ)
    (h : x.length = p.getDim Descriptor.dimension) :
    p.getDim Descriptor.statDimension = p.getDim Descriptor.dimension ∧
    toStatSpace dyn p.elems x = some x ∧ fromStatSpace dyn cr p.elems x = some x ∧ wrapSpace dyn p.elems x = some x := by
  have he : ∀ e ∈ p.elems, e.d.isEuclidean = true := by
    cases p with
    | dynSame d n => intro e he; rw [(List.mem_replicate.mp he).2]; exact hp
    | _ => exact (C10_euclidean_partial _ (by simp)).mp hp
  rw [C10_dimension] at h ⊢
  rw [C10_dimension]
  generalize p.elems = es at he h
  have hdim : es.map (·.d.statDimension) = es.map (·.d.dimension) := by
    apply List.map_congr_left
    intro e hm
    have := he e hm
    revert this
    cases e.d <;> simp [Descriptor.isEuclidean, Descriptor.statDimension, Descriptor.dimension]
  have hblk : ∀ (conv : Descriptor → List ℝ → Option (List ℝ)) (dimOf : Elem → Nat), (∀ n l, conv (.dim n) l = some l) → ∀ es : List Elem,
      (∀ e ∈ es, e.d.isEuclidean = true) → ∀ x : List ℝ, x.length = (es.map dimOf).sum →
      (blocks dimOf (fun e l => (conv e.d l).getD []) es x).flatten = x := by
    intro conv dimOf hconv es
    induction es with
    | nil => intro _ x hx; simp at hx; simp [hx, blocks]
    | cons e es ih =>
      intro he x hx
      simp only [List.map_cons, List.sum_cons] at hx
      have h1 := ih (fun e' h' => he e' (by simp [h'])) (x.drop (dimOf e)) (by simp; omega)
      have h2 : ∃ n, e.d = .dim n := by
        have := he e (by simp)
        revert this
        cases e.d <;> simp [Descriptor.isEuclidean]
      obtain ⟨n, hn⟩ := h2
      unfold blocks at h1 ⊢
      simp only [List.map_cons, splitBy, List.zipWith_cons_cons, List.flatten_cons, hn, hconv, Option.getD_some, h1]
      exact List.take_append_drop _ _
  refine ⟨by rw [hdim], ?_, ?_, ?_⟩
  · rw [toStatSpace_eq dyn es x h.ge, hblk _ _ (fun _ _ => rfl) es he x h]
  · rw [fromStatSpace_eq dyn cr hc es x (by rw [hdim]; exact h.ge), hblk _ _ (fun _ _ => rfl) es he x (by rw [hdim]; exact h)]
  · rw [wrapSpace_eq dyn es x h.ge, hblk _ _ (fun _ _ => rfl) es he x h]

example : toStatSpace true (Pat.dynDims [2, 0, 1]).elems [1, 2, 3] = some [1, 2, 3] :=
  (C10_euclidean_identity true false (fun _ => rfl) (.dynDims [2, 0, 1]) rfl [1, 2, 3] rfl).2.1

/-! ## C11 -/

/-- The axes of a pattern: one plain axis for each Euclidean dimension, one special axis, known by its hash code, for each other descriptor. -/
noncomputable def axes (es : List Elem) : List (Axis Nat) :=
  axesOf (es.map fun e => if e.d.isEuclidean then .plain e.d.dimension else .special e.d.hash)

/-- **C11**: the comparison of two patterns is the prefix order of their axes. -/
theorem C11_prefix (a b : List Elem) :
    (compareImpl a b 0 0 = .equivalent ↔ axes a = axes b) ∧
    (compareImpl a b 0 0 = .less ↔ axes a <+: axes b ∧ axes a ≠ axes b) ∧
    (compareImpl a b 0 0 = .greater ↔ axes b <+: axes a ∧ axes a ≠ axes b) ∧
    (compareImpl a b 0 0 = .unordered ↔ ¬ axes a <+: axes b ∧ ¬ axes b <+: axes a) := by
  have := compareImpl_eq a b 0 0
  simp only [List.replicate_zero, List.nil_append] at this
  rw [this]
  exact prefixCmp_spec _ _

/-- **C11** (fixed-size version), for patterns without type-erased elements. -/
theorem C11_prefix_fixed (a b : List Elem) (ha : ∀ e ∈ a, e.erased = false) (hb : ∀ e ∈ b, e.erased = false) :
    compareFixed a b 0 0 = compareImpl a b 0 0 := by
  have hs : ∀ l : List Elem, (∀ e ∈ l, e.erased = false) → l.map Elem.staticPart = l.map Elem.part := by
    intro l hl
    apply List.map_congr_left
    intro e he
    simp [Elem.staticPart, Elem.part, Elem.staticEuclidean, hl e he]
  rw [compareFixed_eq, compareImpl_eq, hs a ha, hs b hb]

/-- **C11** (laws): reflexive, antisymmetric up to reversal, transitive, and equivalence is a congruence. -/
theorem C11_order_laws : OrderLaws fun a b : List Elem => compareImpl a b 0 0 := by
  have e : (fun a b : List Elem => compareImpl a b 0 0) = fun a b => prefixCmp (axes a) (axes b) := by
    funext a b
    have := compareImpl_eq a b 0 0
    simp only [List.replicate_zero, List.nil_append] at this
    exact this
  rw [e]
  exact ⟨fun a => prefixCmp_order.refl _, fun a b => prefixCmp_order.rev _ _, fun a b c h => prefixCmp_order.eq_left _ _ _ h,
    fun a b c h h' => prefixCmp_order.trans _ _ _ h h'⟩

/-- Splitting dimensions makes no difference; a longer tail is greater. -/
example : compareImpl [⟨.dim 2, false⟩, ⟨.dim 1, true⟩, ⟨.distance, false⟩] [⟨.dim 3, false⟩, ⟨.distance, true⟩] 0 0 = .equivalent ∧
    compareImpl [⟨.dim 2, false⟩] [⟨.dim 1, false⟩, ⟨.dim 1, false⟩, ⟨.distance, false⟩] 0 0 = .less := by
  refine ⟨(C11_prefix _ _).1.mpr ?_, (C11_prefix _ _).2.1.mpr ⟨?_, ?_⟩⟩
  · simp [axes, axesOf, Part.axes, Descriptor.isEuclidean, Descriptor.dimension, List.replicate]
  · exact ⟨[.special 0xBD0A668977D34578], by simp [axes, axesOf, Part.axes, Descriptor.isEuclidean, Descriptor.dimension, List.replicate, Descriptor.hash]⟩
  · simp [axes, axesOf, Part.axes, Descriptor.isEuclidean, Descriptor.dimension, List.replicate]

/-! ## C12 -/

theorem axes_eq (es : List Elem) : axes es = axesOf (es.map Elem.part) := rfl

theorem axes_all_euclidean (es : List Elem) (h : ∀ e ∈ es, e.d.isEuclidean = true) : axes es = List.replicate (es.map (·.d.dimension)).sum .plain := by
  induction es with
  | nil => rfl
  | cons e es ih =>
    have := ih fun e' h' => h e' (by simp [h'])
    unfold axes at this ⊢
    rw [List.map_cons, axesOf_cons, this, h e (by simp)]
    simp [Part.axes]

theorem axes_ne_nil (es : List Elem) (hne : es ≠ []) (h : ∀ e ∈ es, e.d.dimension ≠ 0) : axes es ≠ [] := by
  cases es with
  | nil => exact absurd rfl hne
  | cons e es =>
    unfold axes
    rw [List.map_cons, axesOf_cons]
    have := h e (by simp)
    split_ifs
    · cases hd : e.d.dimension
      · exact absurd hd this
      · simp [Part.axes, List.replicate_succ]
    · simp [Part.axes]

theorem compareColl_eq (fa fb : Bool) (a b : List Elem) (hs : fa = true → fb = true → ∀ e ∈ a ++ b, e.erased = false)
    (h0 : ∀ e ∈ a ++ b, e.d.dimension ≠ 0) : compareColl fa fb a b = prefixCmp (axes a) (axes b) := by
  have hi : compareImpl a b 0 0 = prefixCmp (axes a) (axes b) := by
    have := compareImpl_eq a b 0 0
    simp only [List.replicate_zero, List.nil_append] at this
    exact this
  have ha : ∀ e ∈ a, e.d.dimension ≠ 0 := fun e he => h0 e (by simp [he])
  have hb : ∀ e ∈ b, e.d.dimension ≠ 0 := fun e he => h0 e (by simp [he])
  by_cases ea : a = []
  · by_cases eb : b = []
    · subst ea; subst eb
      cases fa <;> cases fb <;> simp [compareColl, cmpNat, axes, axesOf, prefixCmp]
    · have n := axes_ne_nil b eb hb
      have : prefixCmp (axes a) (axes b) = .less := (prefixCmp_spec _ _).2.1.mpr ⟨by simp [ea, axes, axesOf], by rw [ea]; exact n.symm⟩
      rw [this]
      have lb : b.length ≠ 0 := fun h => eb (List.length_eq_zero_iff.mp h)
      subst ea
      cases fa <;> cases fb <;> simp [compareColl, cmpNat, eb, Nat.pos_of_ne_zero lb]
  · have la : a.length ≠ 0 := fun h => ea (List.length_eq_zero_iff.mp h)
    by_cases eb : b = []
    · have n := axes_ne_nil a ea ha
      have : prefixCmp (axes a) (axes b) = .greater := (prefixCmp_spec _ _).2.2.1.mpr ⟨by simp [eb, axes, axesOf], by rw [eb]; exact n⟩
      rw [this]
      subst eb
      cases fa <;> cases fb <;> simp [compareColl, cmpNat, ea]
    · have lb : b.length ≠ 0 := fun h => eb (List.length_eq_zero_iff.mp h)
      have hf : fa = true → fb = true → compareFixed a b 0 0 = prefixCmp (axes a) (axes b) := fun h1 h2 => by
        rw [C11_prefix_fixed a b (fun e he => hs h1 h2 e (by simp [he])) (fun e he => hs h1 h2 e (by simp [he])), hi]
      cases fa <;> cases fb <;> simp [compareColl, ea, eb, hi, hf]

/-- **C12**: the verdict of the dispatcher is the prefix order of the axes, whatever the presentation, provided no descriptor is of dimension zero,
no element of two fixed-size patterns is type-erased (unless both are single descriptors), and no Euclidean descriptor shares the hash code of the
non-Euclidean descriptor it is compared with.  Missing: the four presentations of `C12_violated`. -/
theorem C12_dispatch_partial (a b : Pat) (h0 : ∀ e ∈ a.elems ++ b.elems, e.d.dimension ≠ 0)
    (hs : a.fixedSize = true → b.fixedSize = true → (∀ x y, ¬ (a = .single x ∧ b = .single y)) → ∀ e ∈ a.elems ++ b.elems, e.erased = false)
    (hh : ∀ x y, a = .single x → b = .single y → x.d.isEuclidean ≠ y.d.isEuclidean → x.d.hash ≠ y.d.hash) :
    compareThreeWay a b = prefixCmp (axes a.elems) (axes b.elems) := by
  have hst : ∀ p : Pat, p.staticEuclidean = true → ∀ e ∈ p.elems, e.d.isEuclidean = true := by
    intro p hp
    cases p with
    | single e =>
      simp only [Pat.staticEuclidean, Elem.staticEuclidean, Bool.and_eq_true] at hp
      simp [Pat.elems, hp.1]
    | fixed es =>
      intro e he
      have := List.all_eq_true.mp hp e he
      simp only [Elem.staticEuclidean, Bool.and_eq_true] at this
      exact this.1
    | dynAny ds => simp [Pat.staticEuclidean] at hp
    | dynSame d n => intro e he; rw [(List.mem_replicate.mp he).2]; exact hp
    | dynDims ns => simp [Pat.elems, Descriptor.isEuclidean]
  unfold compareThreeWay
  split_ifs with h
  · simp only [Bool.and_eq_true] at h
    rw [axes_all_euclidean _ (hst a h.1), axes_all_euclidean _ (hst b h.2), prefixCmp_plain, C10_dimension, C10_dimension]
  · split
    · rename_i x y
      have hx : x.d.dimension ≠ 0 := h0 x (by simp [Pat.elems])
      have hy : y.d.dimension ≠ 0 := h0 y (by simp [Pat.elems])
      obtain ⟨k, hk⟩ := Nat.exists_eq_succ_of_ne_zero hx
      obtain ⟨k', hk'⟩ := Nat.exists_eq_succ_of_ne_zero hy
      cases ex : x.d.isEuclidean <;> cases ey : y.d.isEuclidean
      · simp only [Bool.false_and, Bool.false_eq_true, if_false, Pat.elems, axes, axesOf, List.map_cons, List.map_nil, ex, ey, Part.axes,
          List.flatten_cons, List.flatten_nil, List.append_nil]
        by_cases he : x.d.hash = y.d.hash <;> simp [he, prefixCmp]
        intro h'; exact absurd h'.symm he
      · have hne := hh x y rfl rfl (by rw [ex, ey]; simp)
        simp [Pat.elems, axes, axesOf, ex, ey, Part.axes, hne, hk', List.replicate_succ, prefixCmp]
      · have hne := hh x y rfl rfl (by rw [ex, ey]; simp)
        simp [Pat.elems, axes, axesOf, ex, ey, Part.axes, hne, hk, List.replicate_succ, prefixCmp]
      · rw [axes_all_euclidean (Pat.single x).elems (by simp [Pat.elems, ex]), axes_all_euclidean (Pat.single y).elems (by simp [Pat.elems, ey]),
          prefixCmp_plain]
        simp [Pat.elems]
    · rename_i hns
      exact compareColl_eq _ _ _ _ (fun f1 f2 => hs f1 f2 (fun x y hxy => hns x y hxy.1 hxy.2)) h0

theorem dimFixed_eq (dimOf : Descriptor → Nat) (es : List Elem) : Pat.dimFixed dimOf es = (es.map (dimOf ·.d)).sum := by
  induction es with
  | nil => rfl
  | cons e es ih => simp [Pat.dimFixed, ih]

theorem prefixCmp_extend {α : Type} [DecidableEq α] {x y : List α} (z : List α) (h : y.length < x.length) : prefixCmp (x ++ z) y = prefixCmp x y := by
  have h1 : ∀ w : List α, y.length < w.length → w ≠ y ∧ ¬ w <+: y := fun w hw => ⟨fun e => by subst e; omega, fun e => by have := e.length_le; omega⟩
  have h2 : y <+: x ++ z ↔ y <+: x := by
    constructor
    · intro e
      exact List.prefix_of_prefix_length_le e (List.prefix_append x z) h.le
    · exact fun e => e.trans (List.prefix_append x z)
  obtain ⟨n1, n2⟩ := h1 x h
  obtain ⟨n3, n4⟩ := h1 (x ++ z) (by rw [List.length_append]; omega)
  by_cases hp : y <+: x
  · rw [(prefixCmp_spec _ _).2.2.1.mpr ⟨hp, n1⟩, (prefixCmp_spec _ _).2.2.1.mpr ⟨h2.mpr hp, n3⟩]
  · rw [(prefixCmp_spec _ _).2.2.2.mpr ⟨n2, hp⟩, (prefixCmp_spec _ _).2.2.2.mpr ⟨n4, fun e => hp (h2.mp e)⟩]

theorem axes_append (a b : List Elem) : axes (a ++ b) = axes a ++ axes b := by
  unfold axes axesOf
  simp

theorem axes_replicate_length (n : Nat) (e : Elem) : (axes (List.replicate n e)).length = n * (axes [e]).length := by
  induction n with
  | zero => simp [axes, axesOf]
  | succ n ih => rw [List.replicate_succ, show e :: List.replicate n e = [e] ++ List.replicate n e from rfl, axes_append, List.length_append, ih]; ring

/-- **C12**, unbounded ranges: a range of descriptors `e` without end compares with a sized pattern as every sufficiently long finite piece of it does,
provided the pattern is not longer, in axes, than a piece of one more element.  Missing: longer patterns (`C12_violated`, 4). -/
theorem C12_unbounded_partial (e : Elem) (fb : Bool) (b : List Elem) (he : e.d.dimension ≠ 0) (h0 : ∀ x ∈ b, x.d.dimension ≠ 0)
    (hs : fb = true → e.erased = false ∧ ∀ x ∈ b, x.erased = false) (hl : (axes b).length < (b.length + 1) * (axes [e]).length) (n : Nat) (hn : b.length < n) :
    compareUnboundedLeft e fb b = prefixCmp (axes (List.replicate n e)) (axes b) := by
  have hx : prefixCmp (axes (List.replicate n e)) (axes b) = prefixCmp (axes (List.replicate (b.length + 1) e)) (axes b) := by
    obtain ⟨k, rfl⟩ : ∃ k, n = b.length + 1 + k := ⟨n - (b.length + 1), by omega⟩
    rw [List.replicate_add, axes_append]
    exact prefixCmp_extend _ (by rw [axes_replicate_length]; exact hl)
  rw [hx]
  unfold compareUnboundedLeft
  simp only
  split_ifs with h
  · simp only [Bool.and_eq_true, Elem.staticEuclidean, List.all_eq_true] at h
    rw [axes_all_euclidean _ (fun x hx => by rw [List.eq_of_mem_replicate hx]; exact h.1.1), axes_all_euclidean _ (fun x hx => (h.2 x hx).1), prefixCmp_plain]
    congr 1 <;> exact dimFixed_eq _ _
  · refine compareColl_eq _ _ _ _ (fun h1 _ x hx => ?_) (fun x hx => ?_)
    · rcases List.mem_append.mp hx with hx | hx
      · rw [List.eq_of_mem_replicate hx]; exact (hs h1).1
      · exact (hs h1).2 x hx
    · rcases List.mem_append.mp hx with hx | hx
      · rw [List.eq_of_mem_replicate hx]; exact he
      · exact h0 x hx

/-- Angles without end against one angle (greater) and against an angle and a distance (unordered). -/
example : compareUnboundedLeft ⟨.distance, false⟩ true [⟨.distance, false⟩] = .greater := by
  rw [C12_unbounded_partial _ _ _ (by simp [Descriptor.dimension]) (by simp [Descriptor.dimension]) (by simp)
    (by simp [axes, axesOf, Part.axes, Descriptor.isEuclidean]) 2 (by simp)]
  simp [axes, axesOf, Part.axes, Descriptor.isEuclidean, List.replicate, prefixCmp]

/-- A single distance, a tuple and a dynamic range: the same verdict. -/
example : compareThreeWay (.single ⟨.distance, true⟩) (.dynAny [.distance, .dim 2]) = .less ∧
    compareThreeWay (.fixed [⟨.distance, false⟩]) (.fixed [⟨.distance, false⟩, ⟨.dim 2, false⟩]) = .less := by
  have h : prefixCmp (axes [⟨.distance, true⟩]) (axes [⟨.distance, true⟩, ⟨.dim 2, true⟩]) = .less := by
    simp [axes, axesOf, Part.axes, Descriptor.isEuclidean, Descriptor.dimension, List.replicate, prefixCmp]
  constructor
  · rw [C12_dispatch_partial _ _ (by simp [Pat.elems, Descriptor.dimension]) (by simp [Pat.fixedSize]) (by simp)]
    exact h
  · rw [C12_dispatch_partial _ _ (by simp [Pat.elems, Descriptor.dimension]) (by simp [Pat.elems]) (by simp)]
    exact h

/-- **C12** violated, four ways: (1) an empty dynamic range is less than a range holding only a dimension of size zero; (2) a single zero dimension
and a single angle are unordered though the one-element collections are less; (3) fixed-size collections of type-erased dimensions compare by hash
code, so `(2, 3)` and `(3, 2)` are unordered while as dynamic ranges they are equivalent; (4) an unbounded range of one-dimensional patterns is less
than a five-dimensional pattern. -/
theorem C12_violated :
    (compareThreeWay (.dynAny []) (.dynAny [.dim 0]) = .less ∧ axes (Pat.dynAny []).elems = axes (Pat.dynAny [.dim 0]).elems) ∧
    (compareThreeWay (.single ⟨.dim 0, false⟩) (.single ⟨.distance, false⟩) = .unordered ∧
      compareThreeWay (.dynAny [.dim 0]) (.dynAny [.distance]) = .less) ∧
    (compareThreeWay (.fixed [⟨.dim 2, true⟩, ⟨.dim 3, true⟩]) (.fixed [⟨.dim 3, true⟩, ⟨.dim 2, true⟩]) = .unordered ∧
      compareThreeWay (.dynAny [.dim 2, .dim 3]) (.dynAny [.dim 3, .dim 2]) = .equivalent) ∧
    (compareUnboundedLeft ⟨.dim 1, false⟩ true [⟨.dim 5, false⟩] = .less ∧
      prefixCmp (axes (List.replicate 6 ⟨.dim 1, false⟩)) (axes [⟨.dim 5, false⟩]) = .greater) := by
  refine ⟨⟨rfl, rfl⟩, ⟨?_, ?_⟩, ⟨?_, ?_⟩, rfl, ?_⟩
  · simp [compareThreeWay, Pat.staticEuclidean, Elem.staticEuclidean, Descriptor.isEuclidean, Descriptor.hash]
  · simp [compareThreeWay, Pat.staticEuclidean, compareColl, Pat.fixedSize, Pat.elems, compareImpl, Descriptor.isEuclidean, Descriptor.dimension]
  · simp [compareThreeWay, Pat.staticEuclidean, compareColl, Pat.fixedSize, Pat.elems, compareFixed, Elem.staticEuclidean, Descriptor.hash]
  · simp [compareThreeWay, Pat.staticEuclidean, compareColl, Pat.fixedSize, Pat.elems, compareImpl, Descriptor.isEuclidean, Descriptor.dimension, cmpNat]
  · simp [axes, axesOf, Part.axes, Descriptor.isEuclidean, Descriptor.dimension, List.replicate, prefixCmp]

/-! ## C13 -/

/-- The kind of a descriptor, other than inclinations and spherical coordinates. -/
inductive Kind | dim (n : Nat) | distance | angle | polar (angleFirst : Bool)

/-- `d` is of the kind `k`. -/
def Kind.Is : Kind → Descriptor → Prop
  | .dim n, d => d = .dim n ∧ n < 2 ^ 62
  | .distance, d => d = .distance
  | .angle, d => ∃ L, d = .angle L
  | .polar b, d => ∃ L, d = .polar b L

theorem angleHash_range (L : AngleLim) : ∃ k, k < 2304 ∧ Descriptor.angleHash L = 0x62BB0D37A58D6F96 + k := by
  set a : ℝ := (L.max * 3 + L.min * 2 + 1) / (L.max - L.min + 1) with ha
  have hp : 0 < L.max - L.min + 1 := by linarith [L.min_nonpos, L.max_pos]
  have h1 : a < 3 := by rw [ha, div_lt_iff₀ hp]; linarith [L.min_nonpos, L.max_pos]
  have h2 : -3 < a := by rw [ha, lt_div_iff₀ hp]; linarith [L.min_nonpos, L.max_pos]
  have h3 : a * a < 9 := by nlinarith
  have hk : ⌊a * a * 2 ^ 8⌋₊ < 2304 := by
    rw [Nat.floor_lt (mul_nonneg (mul_self_nonneg a) (by norm_num))]
    push_cast
    linarith
  refine ⟨_, hk, ?_⟩
  show Descriptor.u64 (0x62BB0D37A58D6F96 + ⌊a * a * 2 ^ 8⌋₊) = _
  unfold Descriptor.u64
  apply Nat.mod_eq_of_lt
  omega

/-- **C13** (kinds): equal hash codes imply the same kind of descriptor, and the same dimension for dimensions.  Missing: equal limits
(`C13_violated`), and inclinations and spherical coordinates, whose hash codes wrap around for large limits. -/
theorem C13_kind_partial (d d' : Descriptor) (k k' : Kind) (hk : k.Is d) (hk' : k'.Is d') (h : d.hash = d'.hash) : k = k' := by
  have hr : ∀ (d : Descriptor) (k : Kind), k.Is d → match k with
      | .dim n => ∃ j < 1, d.hash = n + j ∧ n < 2 ^ 62
      | .distance => ∃ j < 1, d.hash = 0xBD0A668977D34578 + j
      | .angle => ∃ j < 2304, d.hash = 0x62BB0D37A58D6F96 + j
      | .polar false => ∃ j < 2304, d.hash = 0xCAF97738E104AEDA + j
      | .polar true => ∃ j < 2304, d.hash = 0xDAF97738E104AEDA + j := by
    intro d k hk
    match k, hk with
    | .dim n, hk => rw [hk.1]; exact ⟨0, one_pos, rfl, hk.2⟩
    | .distance, hk => rw [show d = .distance from hk]; exact ⟨0, one_pos, rfl⟩
    | .angle, ⟨L, hL⟩ => rw [hL]; exact angleHash_range L
    | .polar false, ⟨L, hL⟩ =>
      obtain ⟨j, hj, e⟩ := angleHash_range L
      refine ⟨j, hj, ?_⟩
      rw [hL]
      show Descriptor.u64 _ = _
      rw [e]; unfold Descriptor.u64; simp; omega
    | .polar true, ⟨L, hL⟩ =>
      obtain ⟨j, hj, e⟩ := angleHash_range L
      refine ⟨j, hj, ?_⟩
      rw [hL]
      show Descriptor.u64 _ = _
      rw [e]; unfold Descriptor.u64; simp; omega
  have h1 := hr d k hk
  have h2 := hr d' k' hk'
  rcases k with n | _ | _ | b <;> rcases k' with n' | _ | _ | b' <;> (try cases b) <;> (try cases b') <;> simp only at h1 h2 <;>
    first
    | rfl
    | (exfalso; obtain ⟨j, hj, e⟩ := h1; obtain ⟨j', hj', e'⟩ := h2; omega)
    | (congr 1; obtain ⟨j, hj, e⟩ := h1; obtain ⟨j', hj', e'⟩ := h2; omega)

example : (Descriptor.distance).hash ≠ (Descriptor.angle degrees360).hash := by
  intro h
  have := C13_kind_partial _ _ .distance .angle rfl ⟨_, rfl⟩ h
  simp at this

/-- `angle::Circle`, limits `[0, 1)`. -/
def circle01 : AngleLim := ⟨0, 1, le_refl _, by norm_num, false, by simp⟩
/-- An angle with limits `[-1, 5)`. -/
def angleM1to5 : AngleLim := ⟨-1, 5, by norm_num, by norm_num, false, by simp⟩

theorem angleHash_of {L : AngleLim} {k : Nat} (h1 : (k : ℝ) ≤ ((L.max * 3 + L.min * 2 + 1) / (L.max - L.min + 1)) ^ 2 * 256)
    (h2 : ((L.max * 3 + L.min * 2 + 1) / (L.max - L.min + 1)) ^ 2 * 256 < k + 1) : Descriptor.angleHash L = Descriptor.u64 (0x62BB0D37A58D6F96 + k) := by
  unfold Descriptor.angleHash
  simp only []
  congr 2
  rw [Nat.floor_eq_iff (mul_nonneg (mul_self_nonneg _) (by positivity)), ← sq]
  norm_num at h1 h2 ⊢
  exact ⟨h1, h2⟩

/-- **C13** violated: angles with limits `[0, 1)` and `[-1, 5)` have the same hash code, so they (and the polar descriptors built from them) compare
as equivalent, although wrapping differs; likewise inclinations with limits 0.01 and 0.02. -/
theorem C13_violated :
    (Descriptor.angle circle01).hash = (Descriptor.angle angleM1to5).hash ∧
    compareThreeWay (.single ⟨.angle circle01, false⟩) (.single ⟨.angle angleM1to5, false⟩) = .equivalent ∧
    (Descriptor.angle circle01).wrap [3] = some [0] ∧ (Descriptor.angle angleM1to5).wrap [3] = some [3] ∧
    ∃ I J : InclLim, I.down ≠ J.down ∧ (Descriptor.inclination I).hash = (Descriptor.inclination J).hash := by
  have hh : (Descriptor.angle circle01).hash = (Descriptor.angle angleM1to5).hash := by
    show Descriptor.angleHash _ = Descriptor.angleHash _
    rw [angleHash_of (L := circle01) (k := 1024) (by norm_num [circle01]) (by norm_num [circle01]),
      angleHash_of (L := angleM1to5) (k := 1024) (by norm_num [angleM1to5]) (by norm_num [angleM1to5])]
  refine ⟨hh, by simp [compareThreeWay, Pat.staticEuclidean, Elem.staticEuclidean, Descriptor.isEuclidean, hh], ?_, ?_, ?_⟩
  · have : circle01.wrap 3 = 0 :=
      ((C01_wrap_canonical circle01 3).2.2 0 ⟨by norm_num [circle01], by norm_num [circle01]⟩ ⟨-3, by norm_num [circle01]⟩).symm
    show some [circle01.wrap 3] = _
    rw [this]
  · have : angleM1to5.wrap 3 = 3 := (C01_wrap_laws angleM1to5 3 0).1 ⟨by norm_num [angleM1to5], by norm_num [angleM1to5]⟩
    show some [angleM1to5.wrap 3] = _
    rw [this]
  · refine ⟨⟨0.01, by norm_num, false, by simp⟩, ⟨0.02, by norm_num, false, by simp⟩, by norm_num, ?_⟩
    show Descriptor.inclHash _ = Descriptor.inclHash _
    unfold Descriptor.inclHash
    have h1 : ⌊(0.01 : ℝ) * 0.01 * 2 ^ 8⌋₊ = 0 := by rw [Nat.floor_eq_zero]; norm_num
    have h2 : ⌊(0.02 : ℝ) * 0.02 * 2 ^ 8⌋₊ = 0 := by rw [Nat.floor_eq_zero]; norm_num
    simp only [h1, h2]

/-- **C13** (predefined angles): the five angle descriptors named in the library have five different hash codes. -/
theorem C13_predefined_partial (r pr dg pd c : AngleLim) (hr : r.min = -π ∧ r.max = π) (hpr : pr.min = 0 ∧ pr.max = 2 * π)
    (hdg : dg.min = -180 ∧ dg.max = 180) (hpd : pd.min = 0 ∧ pd.max = 360) (hc : c.min = 0 ∧ c.max = 1) :
    [r, pr, dg, pd, c].map (fun L => (Descriptor.angle L).hash) =
      [82, 1901, 64, 2295, 1024].map (0x62BB0D37A58D6F96 + ·) := by
  have hpi1 := pi_gt_d4
  have hpi2 := pi_lt_d4
  have e : ∀ (L : AngleLim) (k : Nat), k < 2304 → (k : ℝ) ≤ ((L.max * 3 + L.min * 2 + 1) / (L.max - L.min + 1)) ^ 2 * 256 →
      ((L.max * 3 + L.min * 2 + 1) / (L.max - L.min + 1)) ^ 2 * 256 < k + 1 → (Descriptor.angle L).hash = 0x62BB0D37A58D6F96 + k := by
    intro L k hk h1 h2
    show Descriptor.angleHash L = _
    rw [angleHash_of h1 h2]
    unfold Descriptor.u64
    apply Nat.mod_eq_of_lt
    omega
  simp only [List.map_cons, List.map_nil]
  rw [e r 82, e pr 1901, e dg 64, e pd 2295, e c 1024]
  all_goals try norm_num
  all_goals simp only [hr, hpr, hdg, hpd, hc, div_pow]
  all_goals try norm_num
  · rw [div_mul_eq_mul_div, le_div_iff₀ (by positivity)]; nlinarith
  · rw [div_mul_eq_mul_div, div_lt_iff₀ (by positivity)]; nlinarith
  · rw [div_mul_eq_mul_div, le_div_iff₀ (by positivity)]; nlinarith
  · rw [div_mul_eq_mul_div, div_lt_iff₀ (by positivity)]; nlinarith

end OpenKalman.Patterns
