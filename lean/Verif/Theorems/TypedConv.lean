import Verif.Proof.TypedConv

/-! # C115: conversions among typed matrices keep the point -/

namespace OpenKalman.TypedConv
open OpenKalman.Angular OpenKalman.Patterns

/-- A typed matrix stands for the point with numbers `x`: a `Matrix` by any numbers of the point, a `Mean` by the canonical ones, a `EuclideanMean` by the
image in the statistical space. -/
def Stands (cs : List Coord) (x : List ℝ) (v : Typed) : Prop :=
  match v.kind with
  | .matrix => SameVec cs x v.col
  | .mean => SameVec cs x v.col ∧ CanonicalVec cs v.col
  | .euclidean => x.length = cs.length ∧ v.col = imageVec cs x

/-- One conversion. -/
theorem C115_convert (es : List Elem) (ha : AxesAndAngles es) (x : List ℝ) (v : Typed) (h : Stands (coordsOf es) x v) (k : Angular.Kind) :
    ∃ w, convert es k v = some w ∧ w.kind = k ∧ Stands (coordsOf es) x w := by
  obtain ⟨kv, c⟩ := v
  cases kv with
  | matrix =>
    have h : SameVec (coordsOf es) x c := h
    cases k with
    | matrix => exact ⟨⟨.matrix, c⟩, rfl, rfl, h⟩
    | mean =>
      refine ⟨⟨.mean, wrapVec es c⟩, ?_, rfl, sameVec_trans h (wrapVec_same es c h.2.1), wrapVec_canonical es c⟩
      simp [convert, ofTyped, wrapAngles_vec es ha c h.2.1]
    | euclidean =>
      refine ⟨⟨.euclidean, imageVec (coordsOf es) c⟩, ?_, rfl, h.1, (imageVec_congr h).symm⟩
      simp [convert, toEuclidean, encode_image ha h.2.1]
  | mean =>
    have h : SameVec (coordsOf es) x c ∧ CanonicalVec (coordsOf es) c := h
    cases k with
    | matrix => exact ⟨⟨.matrix, c⟩, rfl, rfl, h.1⟩
    | mean => exact ⟨⟨.mean, c⟩, rfl, rfl, h⟩
    | euclidean =>
      refine ⟨⟨.euclidean, imageVec (coordsOf es) c⟩, ?_, rfl, h.1.1, (imageVec_congr h.1).symm⟩
      simp [convert, toEuclidean, encode_image ha h.1.2.1]
  | euclidean =>
    have h : x.length = (coordsOf es).length ∧ c = imageVec (coordsOf es) x := h
    obtain ⟨hl, rfl⟩ := h
    cases k with
    | matrix =>
      refine ⟨⟨.matrix, wrapVec es x⟩, ?_, rfl, wrapVec_same es x hl⟩
      simp [convert, toMatrix, decode_image ha hl]
    | mean =>
      refine ⟨⟨.mean, wrapVec es x⟩, ?_, rfl, wrapVec_same es x hl, wrapVec_canonical es x⟩
      simp [convert, ofTyped, decode_image ha hl]
    | euclidean => exact ⟨⟨.euclidean, _⟩, rfl, rfl, hl, rfl⟩

/-- **C115**: after any chain of conversions a typed matrix still stands for the same point. -/
theorem C115_chain (es : List Elem) (ha : AxesAndAngles es) (x : List ℝ) (v : Typed) (h : Stands (coordsOf es) x v) (ks : List Angular.Kind) :
    ∃ w, chain es v ks = some w ∧ Stands (coordsOf es) x w ∧ ∀ k ∈ ks.getLast?, w.kind = k := by
  induction ks generalizing v with
  | nil => exact ⟨v, rfl, h, by simp⟩
  | cons k ks ih =>
    obtain ⟨w, hw, hk, hs⟩ := C115_convert es ha x v h k
    obtain ⟨u, hu, hsu, hl⟩ := ih w hs
    refine ⟨u, ?_, hsu, fun k' hk' => ?_⟩
    · unfold chain at hu ⊢
      rw [List.foldlM_cons, hw]
      exact hu
    · cases ks with
      | nil =>
        cases hu
        simp only [List.getLast?_singleton, Option.mem_def, Option.some.injEq] at hk'
        rw [hk, hk']
      | cons a l =>
        rw [List.getLast?_cons_cons] at hk'
        exact hl k' hk'

/-- **C115** (uniqueness): a `Mean` and a `EuclideanMean` are determined by the point; so chains that end in one of them and begin with the same point end
in the same value, whatever is between. -/
theorem C115_confluent (es : List Elem) (ha : AxesAndAngles es) (x : List ℝ) (v v' : Typed) (h : Stands (coordsOf es) x v) (h' : Stands (coordsOf es) x v')
    (ks ks' : List Angular.Kind) (k : Angular.Kind) (hk : k ≠ .matrix) : chain es v (ks ++ [k]) = chain es v' (ks' ++ [k]) := by
  obtain ⟨w, hw, hs, hl⟩ := C115_chain es ha x v h (ks ++ [k])
  obtain ⟨w', hw', hs', hl'⟩ := C115_chain es ha x v' h' (ks' ++ [k])
  have e := hl k (by simp)
  have e' := hl' k (by simp)
  rw [hw, hw']
  obtain ⟨kw, c⟩ := w
  obtain ⟨kw', c'⟩ := w'
  obtain rfl : kw = k := e
  obtain rfl : kw' = kw := e'
  cases kw' with
  | matrix => exact absurd rfl hk
  | mean =>
    have hs : SameVec (coordsOf es) x c ∧ CanonicalVec (coordsOf es) c := hs
    have hs' : SameVec (coordsOf es) x c' ∧ CanonicalVec (coordsOf es) c' := hs'
    rw [canonicalVec_unique (sameVec_trans (sameVec_symm hs.1) hs'.1) hs.2 hs'.2]
  | euclidean => rw [show c = _ from hs.2, show c' = _ from hs'.2]

/-- Two points with the same image are the same. -/
theorem C115_faithful (es : List Elem) (ha : AxesAndAngles es) (x y : List ℝ) (hx : x.length = (coordsOf es).length) (hy : y.length = (coordsOf es).length) :
    imageVec (coordsOf es) x = imageVec (coordsOf es) y ↔ SameVec (coordsOf es) x y := by
  constructor
  · intro h
    have h1 := decode_image ha hx
    rw [h, decode_image ha hy, Option.some.injEq] at h1
    refine sameVec_trans (wrapVec_same es x hx) ?_
    rw [← h1]
    exact sameVec_symm (wrapVec_same es y hy)
  · exact imageVec_congr

/-- **C115** (partial, assignment): where the pattern has an angle, or the other matrix is Euclidean-transformed, assigning to a `EuclideanMean` is the same as
constructing one.  Missing: Euclidean patterns, see below. -/
theorem C115_assign_partial (es : List Elem) (v : Typed) (h : v.kind = .euclidean ∨ ∃ e ∈ es, e.d.isEuclidean = false) :
    assignEuclidean es v = convert es .euclidean v := by
  obtain ⟨k, c⟩ := v
  unfold assignEuclidean plainAssignment encodingAssignment
  cases k with
  | euclidean => simp [convert, toEuclidean]
  | matrix =>
    obtain ⟨e, he, hf⟩ := h.resolve_left (by simp)
    have : es.all (·.staticEuclidean) = false := by
      rw [List.all_eq_false]
      exact ⟨e, he, by simp [Elem.staticEuclidean, hf]⟩
    simp [convert, toEuclidean, this]
  | mean =>
    obtain ⟨e, he, hf⟩ := h.resolve_left (by simp)
    have : es.all (·.staticEuclidean) = false := by
      rw [List.all_eq_false]
      exact ⟨e, he, by simp [Elem.staticEuclidean, hf]⟩
    simp [convert, toEuclidean, this]

/-- **C115** violated: with a fixed Euclidean pattern a `Mean` cannot be assigned to a `EuclideanMean`, though one can be constructed from it. -/
theorem C115_assign_violated :
    let es : List Elem := [⟨.dim 2, false⟩]
    let v : Typed := ⟨.mean, [3, 4]⟩
    Stands (coordsOf es) [3, 4] v ∧ convert es .euclidean v = some ⟨.euclidean, [3, 4]⟩ ∧ assignEuclidean es v = none := by
  have ha : AxesAndAngles [⟨.dim 2, false⟩] := by intro e he; simp at he; subst he; trivial
  have hs : SameVec (coordsOf [⟨.dim 2, false⟩]) [3, 4] [3, 4] := sameVec_refl rfl
  refine ⟨⟨hs, rfl, ?_⟩, ?_, ?_⟩
  · intro i c hc
    obtain ⟨o, ho, rfl⟩ := coordsOf_get hc
    have : o = none := (euclidean_lims [⟨.dim 2, false⟩] (by decide)).2 o (List.mem_of_getElem? ho)
    subst this
    trivial
  · simp only [convert, toEuclidean]
    rw [encode_image ha hs.1]
    rfl
  · unfold assignEuclidean
    have h1 : plainAssignment [⟨.dim 2, false⟩] .mean = true := by decide
    have h2 : encodingAssignment [⟨.dim 2, false⟩] .mean = true := by decide
    simp only [h1, h2, if_true]

/-- 370° as a matrix, made a Euclidean mean, a matrix again and then a mean, is 10°. -/
example : chain [⟨.angle degrees360, false⟩] ⟨.matrix, [370]⟩ [.euclidean, .matrix, .mean] = some ⟨.mean, [10]⟩ := by
  have ha : AxesAndAngles [⟨.angle degrees360, false⟩] := by intro e he; simp at he; subst he; trivial
  have hs : Stands (coordsOf [⟨.angle degrees360, false⟩]) [370] ⟨.matrix, [370]⟩ := sameVec_refl rfl
  have := C115_confluent _ ha [370] _ _ hs hs [.euclidean, .matrix] [] .mean (by simp)
  refine this.trans ?_
  have hw := degrees_wrap 370 10 (-1) (by norm_num) (by norm_num) (by norm_num)
  simp [chain, convert, ofTyped, hw]

end OpenKalman.TypedConv
