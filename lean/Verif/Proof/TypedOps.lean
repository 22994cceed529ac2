import Verif.Model.TypedOps
import Verif.Theorems.TypedConv

/-! # Lemmas for C147–C149 -/

namespace OpenKalman.TypedOps
open OpenKalman.Angular OpenKalman.Patterns OpenKalman.TypedConv

/-! ## Appending points -/

theorem lims_append (es es' : List Elem) : lims (es ++ es') = lims es ++ lims es' := by
  induction es with
  | nil => rfl
  | cons e es ih => simp [lims, ih]

theorem coordsOf_append (es es' : List Elem) : coordsOf (es ++ es') = coordsOf es ++ coordsOf es' := by simp [coordsOf, lims_append]

theorem axes_append {es es' : List Elem} : AxesAndAngles (es ++ es') ↔ AxesAndAngles es ∧ AxesAndAngles es' := by
  simp only [AxesAndAngles, List.mem_append]
  exact ⟨fun h => ⟨fun e he => h e (Or.inl he), fun e he => h e (Or.inr he)⟩, fun h e he => he.elim (h.1 e) (h.2 e)⟩

theorem getD_append_right' (a b : List ℝ) (i : ℕ) (h : a.length ≤ i) : (a ++ b).getD i 0 = b.getD (i - a.length) 0 := by
  rw [List.getD_eq_getElem?_getD, List.getD_eq_getElem?_getD, List.getElem?_append_right h]

theorem getD_append_left' (a b : List ℝ) (i : ℕ) (h : i < a.length) : (a ++ b).getD i 0 = a.getD i 0 := by
  rw [List.getD_eq_getElem?_getD, List.getD_eq_getElem?_getD, List.getElem?_append_left h]

theorem sameVec_append {cs cs' : List Coord} {x y x' y' : List ℝ} (h : SameVec cs x y) (h' : SameVec cs' x' y') : SameVec (cs ++ cs') (x ++ x') (y ++ y') := by
  refine ⟨by simp [h.1, h'.1], by simp [h.2.1, h'.2.1], fun i c hc => ?_⟩
  by_cases hi : i < cs.length
  · rw [List.getElem?_append_left hi] at hc
    rw [getD_append_left' _ _ _ (by rw [h.1]; exact hi), getD_append_left' _ _ _ (by rw [h.2.1]; exact hi)]
    exact h.2.2 i c hc
  · have hi : cs.length ≤ i := by omega
    rw [List.getElem?_append_right hi] at hc
    rw [getD_append_right' _ _ _ (by rw [h.1]; exact hi), getD_append_right' _ _ _ (by rw [h.2.1]; exact hi), h.1, h.2.1]
    exact h'.2.2 _ c hc

theorem imageVec_append {cs cs' : List Coord} {x x' : List ℝ} (h : x.length = cs.length) : imageVec (cs ++ cs') (x ++ x') = imageVec cs x ++ imageVec cs' x' := by
  unfold imageVec
  rw [List.mapIdx_append, List.flatten_append]
  congr 2
  · apply List.ext_getElem
    · simp
    · intro i h1 h2
      rw [List.getElem_mapIdx, List.getElem_mapIdx, getD_append_left']
      simpa [h] using h1
  · apply List.ext_getElem
    · simp
    · intro i h1 h2
      rw [List.getElem_mapIdx, List.getElem_mapIdx, getD_append_right' _ _ _ (by omega)]
      congr 2
      omega

theorem sameVec_take {cs cs' : List Coord} {x y : List ℝ} (h : SameVec (cs ++ cs') x y) : SameVec cs (x.take cs.length) (y.take cs.length) := by
  obtain ⟨h1, h2, h3⟩ := h
  simp only [List.length_append] at h1 h2
  refine ⟨by simp [h1], by simp [h2], fun i c hc => ?_⟩
  have hi : i < cs.length := (List.getElem?_eq_some_iff.1 hc).1
  have := h3 i c (by rw [List.getElem?_append_left hi]; exact hc)
  simpa [List.getD_eq_getElem?_getD, List.getElem?_take, hi] using this

theorem sameVec_drop {cs cs' : List Coord} {x y : List ℝ} (h : SameVec (cs ++ cs') x y) : SameVec cs' (x.drop cs.length) (y.drop cs.length) := by
  obtain ⟨h1, h2, h3⟩ := h
  simp only [List.length_append] at h1 h2
  refine ⟨by simp [h1], by simp [h2], fun i c hc => ?_⟩
  have := h3 (cs.length + i) c (by rw [List.getElem?_append_right (by omega)]; simpa using hc)
  rw [getD_drop, getD_drop]
  exact this

theorem canonicalVec_append {cs cs' : List Coord} {x x' : List ℝ} (h : CanonicalVec cs x) (h' : CanonicalVec cs' x') : CanonicalVec (cs ++ cs') (x ++ x') := by
  refine ⟨by simp [h.1, h'.1], fun i c hc => ?_⟩
  by_cases hi : i < cs.length
  · rw [List.getElem?_append_left hi] at hc
    rw [getD_append_left' _ _ _ (by rw [h.1]; exact hi)]
    exact h.2 i c hc
  · have hi : cs.length ≤ i := by omega
    rw [List.getElem?_append_right hi] at hc
    rw [getD_append_right' _ _ _ (by rw [h.1]; exact hi), h.1]
    exact h'.2 _ c hc

/-! ## Dimensions -/

theorem rowsOf_append (k : Angular.Kind) (es es' : List Elem) : rowsOf k (es ++ es') = rowsOf k es + rowsOf k es' := by
  cases k <;> simp [rowsOf]

theorem rowsOf_plain {k : Angular.Kind} (hk : k ≠ .euclidean) {es : List Elem} (ha : AxesAndAngles es) : rowsOf k es = (coordsOf es).length := by
  cases k
  · exact (coordsOf_length es ha).symm
  · exact (coordsOf_length es ha).symm
  · exact absurd rfl hk

theorem imageVec_length {es : List Elem} (ha : AxesAndAngles es) {x : List ℝ} (hx : x.length = (coordsOf es).length) : (imageVec (coordsOf es) x).length = rowsOf .euclidean es := by
  rw [coordsOf_length es ha] at hx
  rw [← encB_image es ha x hx, encB_length es x hx]
  rfl

/-! ## Columns -/

/-- What the numbers of a column must be before a typed matrix of kind `k` is made of them. -/
def Raw (k : Angular.Kind) (cs : List Coord) (x c : List ℝ) : Prop :=
  match k with
  | .euclidean => x.length = cs.length ∧ c = imageVec cs x
  | _ => SameVec cs x c

theorem raw_of_stands {cs : List Coord} {x c : List ℝ} {k k' : Angular.Kind} (h : Stands cs x ⟨k, c⟩) (hk : k = .euclidean ↔ k' = .euclidean) : Raw k' cs x c := by
  cases k <;> cases k' <;> simp at hk <;> first | exact h | exact h.1

theorem raw_append {k : Angular.Kind} {cs cs' : List Coord} {x x' c c' : List ℝ} (h : Raw k cs x c) (h' : Raw k cs' x' c') : Raw k (cs ++ cs') (x ++ x') (c ++ c') := by
  cases k
  · exact sameVec_append h h'
  · exact sameVec_append h h'
  · exact ⟨by simp [h.1, h'.1], by rw [imageVec_append h.1, ← h.2, ← h'.2]⟩

theorem raw_length {k : Angular.Kind} {es : List Elem} (ha : AxesAndAngles es) {x c : List ℝ} (h : Raw k (coordsOf es) x c) : c.length = rowsOf k es := by
  cases k
  · exact h.2.1.trans (rowsOf_plain (by simp) ha).symm
  · exact h.2.1.trans (rowsOf_plain (by simp) ha).symm
  · rw [h.2, imageVec_length ha h.1]

theorem mapM_wrap {es : List Elem} (ha : AxesAndAngles es) (cols : List (List ℝ)) (h : ∀ c ∈ cols, c.length = (coordsOf es).length) :
    cols.mapM (wrapAngles es) = some (cols.map (wrapVec es)) := by
  induction cols with
  | nil => rfl
  | cons c cols ih =>
    rw [List.mapM_cons, wrapAngles_vec es ha c (h c (by simp)), ih fun d hd => h d (by simp [hd])]
    rfl

/-- The matrix stands for the points, column by column. -/
def StandsM (cs : List Coord) (xs : List (List ℝ)) (v : TM) : Prop := List.Forall₂ (fun x c => Stands cs x ⟨v.kind, c⟩) xs v.cols

theorem make_stands {k : Angular.Kind} {es : List Elem} (ha : AxesAndAngles es) {xs cols : List (List ℝ)} (h : List.Forall₂ (Raw k (coordsOf es)) xs cols) :
    ∃ w, make k es cols = some w ∧ w.kind = k ∧ StandsM (coordsOf es) xs w := by
  have hl : ∀ c ∈ cols, c.length = rowsOf k es := by
    intro c hc
    obtain ⟨i, hi, rfl⟩ := List.mem_iff_getElem.1 hc
    have hi' : i < xs.length := by rw [h.length_eq]; exact hi
    exact raw_length ha (List.forall₂_iff_get.1 h |>.2 i hi' hi)
  unfold make
  rw [if_pos hl]
  cases k with
  | matrix => exact ⟨_, rfl, rfl, h⟩
  | euclidean => exact ⟨_, rfl, rfl, h⟩
  | mean =>
    have hl' : ∀ c ∈ cols, c.length = (coordsOf es).length := fun c hc => (hl c hc).trans (rowsOf_plain (by simp) ha)
    rw [mapM_wrap ha cols hl']
    refine ⟨_, rfl, rfl, ?_⟩
    show List.Forall₂ _ xs (cols.map (wrapVec es))
    rw [List.forall₂_map_right_iff]
    exact h.imp fun x c hxc => ⟨sameVec_trans hxc (wrapVec_same es c hxc.2.1), wrapVec_canonical es c⟩

/-- The numbers of a matrix that satisfies the invariant of its class. -/
def Valid (es : List Elem) (v : TM) : Prop := ∀ c ∈ v.cols, c.length = rowsOf v.kind es ∧ (v.kind = .mean → CanonicalVec (coordsOf es) c)

/-- Making a matrix of numbers that are already right. -/
theorem make_valid {es : List Elem} (ha : AxesAndAngles es) {v : TM} (h : Valid es v) : make v.kind es v.cols = some v := by
  obtain ⟨k, cols⟩ := v
  simp only [Valid] at h
  unfold make
  rw [if_pos fun c hc => (h c hc).1]
  cases k with
  | matrix => rfl
  | euclidean => rfl
  | mean =>
    rw [mapM_wrap ha cols fun c hc => (h c hc).1.trans (rowsOf_plain (by simp) ha)]
    have : cols.map (wrapVec es) = cols := by
      conv_rhs => rw [← List.map_id cols]
      exact List.map_congr_left fun c hc => wrapVec_of_canonical ((h c hc).2 rfl)
    rw [this]
    rfl

/-- What is made satisfies the invariant. -/
theorem valid_make {k : Angular.Kind} {es : List Elem} (ha : AxesAndAngles es) {cols : List (List ℝ)} {w : TM} (h : make k es cols = some w) :
    w.kind = k ∧ Valid es w ∧ w.cols.length = cols.length := by
  unfold make at h
  split at h
  · rename_i hl
    cases k with
    | matrix =>
      cases h
      exact ⟨rfl, fun c hc => ⟨hl c hc, by simp⟩, rfl⟩
    | euclidean =>
      cases h
      exact ⟨rfl, fun c hc => ⟨hl c hc, by simp⟩, rfl⟩
    | mean =>
      rw [mapM_wrap ha cols fun c hc => (hl c hc).trans (rowsOf_plain (by simp) ha)] at h
      cases h
      refine ⟨rfl, fun c hc => ?_, by simp⟩
      obtain ⟨d, _, rfl⟩ := List.mem_map.1 hc
      exact ⟨(wrapVec_length es d).trans (rowsOf_plain (k := .mean) (by simp) ha).symm, fun _ => wrapVec_canonical es d⟩
  · cases h

end OpenKalman.TypedOps
