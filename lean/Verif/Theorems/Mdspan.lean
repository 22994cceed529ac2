import Verif.Proof.Mdspan

/-!
# Multidimensional extents, layouts and slices (C110–C113)
-/

namespace OpenKalman.Mdspan

/-! ## C110: extents are what they were made from -/

/-- C110. Extents made of all values, or of the values of the open extents only, have the shape that
was meant, for any way in which the type fixes some of the extents. -/
theorem C110_construct (M : ℕ) (statics : List (Option ℕ)) (shape vals : List ℕ)
    (hA : Agrees statics shape) (hM : ∀ n ∈ shape, n < M)
    (hv : vals = shape ∨ vals = openExtents statics shape) :
    ∃ e, construct M statics vals = some e ∧ e.statics = statics ∧ e.shape = shape :=
  ⟨_, construct_eq M statics shape vals hA hM hv, rfl,
    shape_of_open statics shape hA _ rfl rfl⟩

example : Agrees [none, some 3, none] [2, 3, 5] ∧ (∀ n ∈ [2, 3, 5], n < 2 ^ 64) ∧
    openExtents [none, some 3, none] [2, 3, 5] = [2, 5] ∧
    construct (2 ^ 64) [none, some 3, none] [2, 5] = some ⟨[none, some 3, none], [2, 5]⟩ ∧
    construct (2 ^ 64) [none, some 3, none] [2, 3, 5] = some ⟨[none, some 3, none], [2, 5]⟩ ∧
    construct (2 ^ 64) [none, some 3, none] [2] = none := by
  refine ⟨?_, by decide, rfl, rfl, rfl, rfl⟩
  exact .cons (by simp) (.cons (by simp) (.cons (by simp) .nil))

/-- C110. Extents with the wrong number of values are refused. -/
theorem C110_refused (M : ℕ) (statics : List (Option ℕ)) (shape vals : List ℕ)
    (hA : Agrees statics shape) (h : vals.length ≠ shape.length)
    (h' : vals.length ≠ (openExtents statics shape).length) : construct M statics vals = none := by
  unfold construct
  rw [if_neg]
  rw [openExtents_length statics shape hA] at h'
  have := hA.length_eq
  omega

example : ([2] : List ℕ).length ≠ [2, 3, 5].length ∧
    ([2] : List ℕ).length ≠ (openExtents [none, some 3, none] [2, 3, 5]).length := by decide

/-- C110. Extents converted to another type keep their shape, if the new type is true of it. -/
theorem C110_convert (M : ℕ) (statics : List (Option ℕ)) (e : Ext) (hA : Agrees statics e.shape)
    (hM : ∀ n ∈ e.shape, n < M) :
    ∃ e', convert M statics e = some e' ∧ e'.statics = statics ∧ e'.shape = e.shape := by
  have hlen := hA.length_eq
  have hcomp : compatible statics e.statics = true := by
    unfold compatible
    rw [Bool.and_eq_true]
    constructor
    · rw [shape_length] at hlen
      simpa [Ext.rank] using hlen
    · rw [List.all_eq_true]
      intro b hb
      obtain ⟨r, hr, rfl⟩ := List.getElem_of_mem hb
      have hr1 : r < statics.length := by simp at hr; omega
      have hr2 : r < e.statics.length := by simp at hr; omega
      simp only [List.getElem_zipWith, id]
      cases h1 : statics[r] with
      | none => simp
      | some v =>
        cases h2 : e.statics[r] with
        | none => simp
        | some w =>
          have := agrees_fixed statics e.shape hA r v hr1 h1
          rw [shape_getD e r hr2] at this
          unfold Ext.extent at this
          rw [staticGet_lt _ r hr2, h2] at this
          simp_all
  have hcol : collectOpen M e 0 statics = openExtents statics e.shape :=
    collectOpen_eq M e statics e.shape 0 hA
      (fun r hr => by
        rw [Nat.zero_add, shape_getD e r (by rw [shape_length] at hlen; omega)]) hM
  unfold convert
  rw [if_pos hcomp]
  exact ⟨_, rfl, rfl, shape_of_open statics e.shape hA _ rfl hcol⟩

example : (⟨[none, some 3], [2]⟩ : Ext).shape = [2, 3] ∧ Agrees [some 2, none] [2, 3] ∧
    convert (2 ^ 64) [some 2, none] ⟨[none, some 3], [2]⟩ = some ⟨[some 2, none], [3]⟩ := by
  refine ⟨rfl, ?_, rfl⟩
  exact .cons (by simp) (.cons (by simp) .nil)

/-- C110. However extents were made, reading an extent never reads beyond the values that are stored. -/
theorem C110_defined (M : ℕ) (statics : List (Option ℕ)) (vals : List ℕ) (o e : Ext)
    (h : construct M statics vals = some e ∨ convert M statics o = some e) (r : ℕ) (hr : r < e.rank)
    (hn : e.statics[r]'hr = none) : openPlace e.statics r < e.dyn.length := by
  have hlen : e.dyn.length = openCount e.statics := by
    rcases h with h | h
    · unfold construct at h
      split at h
      · split at h
        · obtain rfl := Option.some.inj h
          simp_all
        · split at h
          · obtain rfl := Option.some.inj h
            simp_all
          · obtain rfl := Option.some.inj h
            exact fillAll_length M statics vals
      · simp at h
    · unfold convert at h
      split at h
      · obtain rfl := Option.some.inj h
        exact collectOpen_length M o 0 statics
      · simp at h
  rw [hlen, openPlace_eq _ _ hr]
  exact openCount_take_lt _ r hr hn

example : construct (2 ^ 64) [some 3, none, none] [3, 5, 7] =
      some ⟨[some 3, none, none], [5, 7]⟩ ∧ openPlace [some 3, none, none] 2 = 1 := ⟨rfl, rfl⟩

/-- C110. Extents of the same rank are equal exactly if their shapes are. -/
theorem C110_equal_partial (a b : Ext) (h : a.rank = b.rank) :
    a.equal b = true ↔ a.shape = b.shape := equal_iff a b h

example : (⟨[none, some 3], [2]⟩ : Ext).rank = (⟨[some 2, some 3], []⟩ : Ext).rank ∧
    (⟨[none, some 3], [2]⟩ : Ext).equal ⟨[some 2, some 3], []⟩ = true ∧
    (⟨[none, some 3], [4]⟩ : Ext).equal ⟨[some 2, some 3], []⟩ = false := ⟨rfl, rfl, rfl⟩

/-- C110. Extents of different ranks can compare as equal: a vector with two elements and a matrix with
two rows and three columns; and a matrix with two rows and two columns, and a vector. -/
theorem C110_equal_violated :
    ((⟨[some 2], []⟩ : Ext).equal ⟨[some 2, some 3], []⟩ = true ∧
      (⟨[some 2], []⟩ : Ext).shape ≠ (⟨[some 2, some 3], []⟩ : Ext).shape) ∧
    ((⟨[none, none], [2, 2]⟩ : Ext).equal ⟨[some 2], []⟩ = true ∧
      (⟨[none, none], [2, 2]⟩ : Ext).shape ≠ (⟨[some 2], []⟩ : Ext).shape) ∧
    ∃ a b : Ext, a.equal b ≠ b.equal a := by
  refine ⟨⟨rfl, by decide⟩, ⟨rfl, by decide⟩, ⟨[some 2], []⟩, ⟨[some 2, some 3], []⟩, by decide⟩

/-! ## C111: row-major and column-major layouts -/

/-- C111. If the number of elements can be represented, then the positions of a column-major or
row-major mapping are exactly those below the size that the mapping reports, each belongs to one index
only, and that size is the number of elements. -/
theorem C111_bijection (M : ℕ) (m : Mapping) (e : Ext) (hm : m = .left e ∨ m = .right e)
    (hM : e.shape.prod < M) :
    m.span M = e.shape.prod ∧ NeededSize e.shape (m.offset M) (m.span M) ∧
      Unique e.shape (m.offset M) ∧ Onto e.shape (m.offset M) (m.span M) := by
  have hspan : m.span M = e.shape.prod := by
    rcases hm with rfl | rfl <;>
    · show productLoop M e.shape = _
      rw [productLoop_eq, Nat.mod_eq_of_lt hM]
  have hpos : ∃ pos : List ℕ → ℕ, (∀ i, InBounds e.shape i → m.offset M i = pos i) ∧
      (∀ i, InBounds e.shape i → pos i < e.shape.prod) ∧
      (∀ i j, InBounds e.shape i → InBounds e.shape j → pos i = pos j → i = j) ∧
      ∀ p, p < e.shape.prod → ∃ i, InBounds e.shape i ∧ pos i = p := by
    rcases hm with rfl | rfl
    · refine ⟨leftPos e.shape, fun i hi => ?_, fun i hi => leftPos_lt hi,
        fun i j hi hj => leftPos_inj hi hj, leftPos_surj _⟩
      show leftOffset M e.shape _ = _
      rw [leftOffset_eq M _ _ (inBounds_length hi),
        Nat.mod_eq_of_lt (lt_trans (leftPos_lt hi) hM)]
    · refine ⟨rightPos e.shape, fun i hi => ?_, fun i hi => rightPos_lt hi,
        fun i j hi hj => rightPos_inj hi hj, rightPos_surj _⟩
      show rightOffset M e.shape _ = _
      rw [rightOffset_eq M _ _ (inBounds_length hi),
        Nat.mod_eq_of_lt (lt_trans (rightPos_lt hi) hM)]
  obtain ⟨pos, h1, h2, h3, h4⟩ := hpos
  rw [hspan]
  refine ⟨rfl, ⟨fun i hi => by rw [h1 i hi]; exact h2 i hi, ?_⟩, ?_, ?_⟩
  · intro k hk
    by_contra hlt
    obtain ⟨i, hi, hp⟩ := h4 k (by omega)
    have := hk i hi
    rw [h1 i hi] at this
    omega
  · intro i j hi hj hij
    rw [h1 i hi, h1 j hj] at hij
    exact h3 i j hi hj hij
  · intro p hp
    obtain ⟨i, hi, hpi⟩ := h4 p hp
    exact ⟨i, hi, by rw [h1 i hi]; exact hpi⟩

example : (⟨[none, some 3, none], [2, 4]⟩ : Ext).shape.prod < 2 ^ 64 ∧
    (Mapping.left ⟨[none, some 3, none], [2, 4]⟩).offset (2 ^ 64) [1, 2, 3] = 23 ∧
    (Mapping.left ⟨[none, some 3, none], [2, 4]⟩).offset (2 ^ 64) [1, 0, 2] = 13 ∧
    (Mapping.right ⟨[none, some 3, none], [2, 4]⟩).offset (2 ^ 64) [1, 0, 2] = 14 := by decide

/-- C111. The position is the sum of the products of indices and strides, the strides reported are
those of column-major and row-major order, and neighbours along a rank are a stride apart. -/
theorem C111_strides (M : ℕ) (e : Ext) (hM : e.shape.prod < M) (idx : List ℕ)
    (hi : InBounds e.shape idx) :
    (Mapping.left e).offset M idx = weigh idx (columnStrides e.shape) ∧
    (Mapping.right e).offset M idx = weigh idx (rowStrides e.shape) ∧
    (List.range e.rank).map ((Mapping.left e).strideOf M) = columnStrides e.shape ∧
    (List.range e.rank).map ((Mapping.right e).strideOf M) = rowStrides e.shape := by
  have hl := inBounds_length hi
  have hne := inBounds_ne_zero hi
  have hdvd : ∀ l : List ℕ, l.Sublist e.shape → l.prod ≤ e.shape.prod := by
    intro l hs
    have hp : 0 < e.shape.prod := prod_pos hne
    exact Nat.le_of_dvd hp hs.prod_dvd_prod
  refine ⟨?_, ?_, ?_, ?_⟩
  · rw [offset_eq M _ _ (by rw [← hl, shape_length]; rfl)]
    show weigh idx (columnStrides e.shape) % M = _
    rw [← leftPos_weigh _ _ hl, Nat.mod_eq_of_lt (lt_trans (leftPos_lt hi) hM)]
  · rw [offset_eq M _ _ (by rw [← hl, shape_length]; rfl)]
    show weigh idx (rowStrides e.shape) % M = _
    rw [← rightPos_weigh _ _ hl, Nat.mod_eq_of_lt (lt_trans (rightPos_lt hi) hM)]
  · apply list_eq_of_getD (by rw [columnStrides_length, shape_length])
    intro r hr
    rw [columnStrides_getD _ _ (by rw [shape_length]; exact hr)]
    show productLoop M _ = _
    rw [productLoop_eq]
    exact Nat.mod_eq_of_lt (lt_of_le_of_lt (hdvd _ (List.take_sublist _ _)) hM)
  · apply list_eq_of_getD (by rw [rowStrides_length, shape_length])
    intro r hr
    rw [rowStrides_getD _ _ (by rw [shape_length]; exact hr)]
    show productLoop M _ = _
    rw [productLoop_eq, List.prod_reverse]
    exact Nat.mod_eq_of_lt (lt_of_le_of_lt (hdvd _ (List.drop_sublist _ _)) hM)

example : InBounds (⟨[none, some 3, none], [2, 4]⟩ : Ext).shape [1, 0, 2] ∧
    columnStrides [2, 3, 4] = [1, 2, 6] ∧ rowStrides [2, 3, 4] = [12, 4, 1] :=
  ⟨.cons (by decide) (.cons (by decide) (.cons (by decide) .nil)), rfl, rfl⟩

/-- C111. The size and emptiness of a multidimensional span are those of its shape. -/
theorem C111_size (S : ℕ) (m : Mapping) (hS : m.exts.shape.prod < S) :
    mdspanSize S m = m.exts.shape.prod ∧
      (mdspanEmpty m = true ↔ ¬ ∃ i, InBounds m.exts.shape i) := by
  constructor
  · rw [mdspanSize, foldr_prod_eq, Nat.mod_eq_of_lt hS]
  · rw [mdspanEmpty]
    constructor
    · intro h
      rw [Bool.and_eq_true] at h
      obtain ⟨x, hx, hx0⟩ := List.any_eq_true.mp h.2
      rintro ⟨i, hi⟩
      exact inBounds_ne_zero hi x hx (by simpa using hx0)
    · intro h
      have hz : ∃ x ∈ m.exts.shape, x = 0 := by
        by_contra hcon
        push Not at hcon
        exact h ⟨_, last_inBounds hcon⟩
      obtain ⟨x, hx, rfl⟩ := hz
      rw [Bool.and_eq_true]
      refine ⟨?_, List.any_eq_true.mpr ⟨0, hx, by simp⟩⟩
      have := List.length_pos_of_mem hx
      rw [shape_length] at this
      simpa using this

example : mdspanSize (2 ^ 64) (.left ⟨[none, some 3, none], [2, 4]⟩) = 24 ∧
    mdspanEmpty (.left ⟨[none, some 3, none], [2, 4]⟩) = false ∧
    mdspanEmpty (.left ⟨[none, some 3, none], [2, 0]⟩) = true ∧
    mdspanEmpty (.left ⟨[], []⟩) = false := by decide

/-! ## C112: strided layouts -/

/-- C112. The size that a strided mapping reports is the size of the memory it needs. -/
theorem C112_span (M : ℕ) (e : Ext) (s : List ℕ) (hl : s.length = e.rank)
    (hM : ∀ i, InBounds e.shape i → weigh i s + 1 < M) :
    NeededSize e.shape ((Mapping.stride e s).offset M) ((Mapping.stride e s).span M) := by
  have hoff : ∀ i, InBounds e.shape i → (Mapping.stride e s).offset M i = weigh i s := by
    intro i hi
    rw [offset_eq M _ _ (by rw [← inBounds_length hi, shape_length]; rfl)]
    exact Nat.mod_eq_of_lt (by have := hM i hi; show weigh i s < M; omega)
  have hsl : e.shape.length = s.length := by rw [shape_length, hl]
  by_cases hz : 0 ∈ e.shape
  · have : (Mapping.stride e s).span M = 0 := strideSpanFrom_zero M _ _ _ hsl hz
    rw [this]
    refine ⟨fun i hi => absurd rfl (inBounds_ne_zero hi 0 hz), fun m _ => Nat.zero_le m⟩
  · have hne : ∀ x ∈ e.shape, x ≠ 0 := fun x hx h0 => hz (h0 ▸ hx)
    have hlast := last_inBounds hne
    have : (Mapping.stride e s).span M = weigh (e.shape.map (· - 1)) s + 1 := by
      show strideSpanFrom M (1 % M) e.shape s = _
      rw [strideSpanFrom_eq M _ _ _ hsl hne, Nat.add_comm]
      exact Nat.mod_eq_of_lt (hM _ hlast)
    rw [this]
    constructor
    · intro i hi
      rw [hoff i hi]
      have := weigh_le s hi
      omega
    · intro m hm
      have := hm _ hlast
      rw [hoff _ hlast] at this
      omega

example : (Mapping.stride ⟨[none, none], [3, 2]⟩ [2, 10]).span (2 ^ 64) = 15 ∧
    (Mapping.stride ⟨[none, none], [3, 2]⟩ [2, 10]).offset (2 ^ 64) [2, 1] = 14 ∧
    (Mapping.stride ⟨[none, none], [3, 0]⟩ [2, 10]).span (2 ^ 64) = 0 ∧
    ∀ i, InBounds (⟨[none, none], [3, 2]⟩ : Ext).shape i → weigh i [2, 10] + 1 < 2 ^ 64 := by
  refine ⟨by decide, by decide, by decide, fun i hi => ?_⟩
  have := weigh_le [2, 10] hi
  have h2 : weigh ((⟨[none, none], [3, 2]⟩ : Ext).shape.map (· - 1)) [2, 10] = 14 := by decide
  omega

/-- C112. A strided mapping is unique, as it reports, if its strides are nested as documented. -/
theorem C112_unique_partial (M : ℕ) (e : Ext) (s : List ℕ) (hl : s.length = e.rank)
    (hM : ∀ i, InBounds e.shape i → weigh i s < M) (hN : Nested e.shape s) :
    (Mapping.stride e s).isUnique = true ∧ Unique e.shape ((Mapping.stride e s).offset M) := by
  refine ⟨rfl, fun i j hi hj hij => ?_⟩
  have hoff : ∀ i, InBounds e.shape i → (Mapping.stride e s).offset M i = weigh i s := by
    intro i hi
    rw [offset_eq M _ _ (by rw [← inBounds_length hi, shape_length]; rfl)]
    exact Nat.mod_eq_of_lt (hM i hi)
  rw [hoff i hi, hoff j hj] at hij
  exact nested_unique e.shape s (by rw [shape_length, hl]) hN i j hi hj hij

example : Nested [3, 2, 4] [8, 24, 2] :=
  ⟨by decide, [2, 0, 1], by decide, by decide⟩

/-- C112. A strided mapping reports that it is unique whatever its strides are: also if they are equal,
or zero. The constructor does not check them. -/
theorem C112_unique_violated :
    let m := Mapping.stride ⟨[some 2, some 2], []⟩ [1, 1]
    let z := Mapping.stride ⟨[some 2], []⟩ [0]
    (m.isUnique = true ∧ ¬ Unique [2, 2] (m.offset (2 ^ 64))) ∧
      z.isUnique = true ∧ ¬ Unique [2] (z.offset (2 ^ 64)) := by
  refine ⟨⟨rfl, fun h => ?_⟩, rfl, fun h => ?_⟩
  · have := h [0, 1] [1, 0] (.cons (by decide) (.cons (by decide) .nil))
      (.cons (by decide) (.cons (by decide) .nil)) (by decide)
    simp at this
  · have := h [0] [1] (.cons (by decide) .nil) (.cons (by decide) .nil) (by decide)
    simp at this

/-- C112. A unique strided mapping reports that it is exhaustive exactly if every position below its
size belongs to an index. -/
theorem C112_exhaustive (M : ℕ) (e : Ext) (s : List ℕ) (hl : s.length = e.rank)
    (hM : ∀ i, InBounds e.shape i → weigh i s + 1 < M) (hM1 : 1 < M)
    (hU : Unique e.shape ((Mapping.stride e s).offset M)) :
    (Mapping.stride e s).isExhaustive M = true ↔
      Onto e.shape ((Mapping.stride e s).offset M) ((Mapping.stride e s).span M) := by
  have hspan := C112_span M e s hl hM
  rw [unique_onto e.shape _ _ hU hspan.1]
  have hex : (Mapping.stride e s).isExhaustive M =
      ((Mapping.stride e s).span M == e.shape.prod % M) := by
    show (strideSpanFrom M (1 % M) e.shape s == _) = _
    rw [foldr_prod_eq]
    rfl
  rw [hex, beq_iff_eq]
  -- the number of elements is at most the size, and so can be represented
  have hle : e.shape.prod < M := by
    by_cases hz : 0 ∈ e.shape
    · rw [prod_zero hz]; omega
    · have hne : ∀ x ∈ e.shape, x ≠ 0 := fun x hx h0 => hz (h0 ▸ hx)
      have hlast := last_inBounds hne
      have hb : ∀ i, InBounds e.shape i → (Mapping.stride e s).offset M i < M - 1 := by
        intro i hi
        rw [offset_eq M _ _ (by rw [← inBounds_length hi, shape_length]; rfl)]
        have := hM i hi
        have h2 : weigh i (Mapping.stride e s).weights % M ≤ weigh i s := Nat.mod_le _ _
        omega
      have := unique_card e.shape _ (M - 1) hU hb
      omega
  rw [Nat.mod_eq_of_lt hle]

example : (Mapping.stride ⟨[none, none], [3, 2]⟩ [2, 1]).isExhaustive (2 ^ 64) = true ∧
    (Mapping.stride ⟨[none, none], [3, 2]⟩ [2, 10]).isExhaustive (2 ^ 64) = false := by decide

/-- C112. Converting any mapping to a strided one keeps all positions. -/
theorem C112_toStride (M : ℕ) (m : Mapping) (hm : m.WellFormed) (idx : List ℕ)
    (hi : InBounds m.exts.shape idx) :
    (m.toStride M).exts = m.exts ∧ (m.toStride M).offset M idx = m.offset M idx := by
  have hlen : idx.length = m.exts.rank := by rw [← inBounds_length hi, shape_length]
  refine ⟨rfl, ?_⟩
  rw [offset_eq M m _ hlen, offset_eq M (m.toStride M) _ hlen]
  exact weigh_congr M idx _ _ (toStride_weights M m hm)

example : ((Mapping.right ⟨[none, some 3, none], [2, 4]⟩).toStride (2 ^ 64)).offset (2 ^ 64)
    [1, 0, 2] = 14 := by decide

/-- C112. With assertions, converting a strided mapping to a column-major or row-major one keeps all
positions, or the program is terminated; and it is not terminated for a mapping that was column-major
or row-major. -/
theorem C112_fromStride_partial (M : ℕ) (e : Ext) (s : List ℕ) (hl : s.length = e.rank) (m : Mapping)
    (h : toLeft M false e s = some m ∨ toRight M false e s = some m) (idx : List ℕ)
    (hi : InBounds e.shape idx) :
    m.exts = e ∧ m.offset M idx = (Mapping.stride e s).offset M idx := by
  have hsl : e.shape.length = s.length := by rw [shape_length, hl]
  have hlen : idx.length = e.rank := by rw [← inBounds_length hi, shape_length]
  rcases h with h | h
  · unfold toLeft at h
    split at h
    · rename_i hc
      obtain rfl : Mapping.left e = m := by simpa using h
      have := leftCheck_eq M e.shape s 1 hsl (by simpa using hc)
      refine ⟨rfl, ?_⟩
      rw [offset_eq M _ _ hlen, offset_eq M (.stride e s) _ hlen]
      apply weigh_congr
      show (columnStrides e.shape).map (· % M) = s.map (· % M)
      rw [this]
      simp
    · simp at h
  · unfold toRight at h
    split at h
    · rename_i hc
      obtain rfl : Mapping.right e = m := by simpa using h
      have := leftCheck_eq M e.shape.reverse s.reverse 1 (by simpa using hsl) (by simpa using hc)
      refine ⟨rfl, ?_⟩
      rw [offset_eq M _ _ hlen, offset_eq M (.stride e s) _ hlen]
      apply weigh_congr
      show (rowStrides e.shape).map (· % M) = s.map (· % M)
      have h2 := congrArg List.reverse this
      rw [← List.map_reverse, List.reverse_reverse, columnStrides_reverse] at h2
      rw [h2]
      simp
    · simp at h

example : (toLeft (2 ^ 64) false ⟨[none, none], [2, 3]⟩ [1, 2]).isSome = true ∧
    (toLeft (2 ^ 64) false ⟨[none, none], [2, 3]⟩ [3, 1]).isSome = false ∧
    (toRight (2 ^ 64) false ⟨[none, none], [2, 3]⟩ [3, 1]).isSome = true := by decide

/-- C112. Without assertions, converting a strided mapping to a column-major or row-major one changes
positions silently. -/
theorem C112_fromStride_violated :
    ∃ m, toLeft (2 ^ 64) true ⟨[none, none], [2, 3]⟩ [3, 1] = some m ∧
      m.offset (2 ^ 64) [1, 0] ≠
        (Mapping.stride ⟨[none, none], [2, 3]⟩ [3, 1]).offset (2 ^ 64) [1, 0] :=
  ⟨.left ⟨[none, none], [2, 3]⟩, rfl, by decide⟩

/-- C112. Round trip: a column-major or row-major mapping made strided can be made column-major or
row-major again. -/
theorem C112_roundTrip (M : ℕ) (hM0 : 0 < M) (e : Ext) (ndebug : Bool) :
    toLeft M ndebug e ((List.range e.rank).map fun r => (Mapping.left e).strideOf M r % M) =
        some (.left e) ∧
      toRight M ndebug e ((List.range e.rank).map fun r => (Mapping.right e).strideOf M r % M) =
        some (.right e) := by
  have hL : ((List.range e.rank).map fun r => (Mapping.left e).strideOf M r % M) =
      (columnStrides e.shape).map (· % M) := by
    have := toStride_weights M (.left e) trivial
    have h2 : ((Mapping.left e).toStride M).weights.map (· % M) =
        ((Mapping.left e).toStride M).weights := by
      apply map_mod_self
      intro x hx
      obtain ⟨r, _, rfl⟩ := List.mem_map.mp hx
      exact Nat.mod_lt _ hM0
    rw [h2] at this
    exact this
  have hR : ((List.range e.rank).map fun r => (Mapping.right e).strideOf M r % M) =
      (rowStrides e.shape).map (· % M) := by
    have := toStride_weights M (.right e) trivial
    have h2 : ((Mapping.right e).toStride M).weights.map (· % M) =
        ((Mapping.right e).toStride M).weights := by
      apply map_mod_self
      intro x hx
      obtain ⟨r, _, rfl⟩ := List.mem_map.mp hx
      exact Nat.mod_lt _ hM0
    rw [h2] at this
    exact this
  constructor
  · unfold toLeft
    rw [hL, leftCheck_column, Bool.or_true, if_pos rfl]
  · unfold toRight
    rw [hR, ← List.map_reverse, ← columnStrides_reverse, leftCheck_column, Bool.or_true,
      if_pos rfl]

example : toRight (2 ^ 64) false ⟨[none, none], [2, 3]⟩ [3, 1] =
    some (.right ⟨[none, none], [2, 3]⟩) := rfl

/-- C112. If a strided mapping compares as equal to another mapping of the same rank, both have the
same shape and the same positions. The converse holds if all extents are at least two, so that
positions determine strides. -/
theorem C112_equal (M : ℕ) (e : Ext) (s : List ℕ) (y : Mapping) (hl : s.length = e.rank)
    (hr : e.rank = y.exts.rank) (hy : y.WellFormed) (hs : ∀ x ∈ s, x < M)
    (hys : ∀ r, r < e.rank → y.strideOf M r < M) :
    (Mapping.equalStrided M e s y = true →
      e.shape = y.exts.shape ∧
        ∀ i, InBounds e.shape i → (Mapping.stride e s).offset M i = y.offset M i) ∧
    ((∀ n ∈ e.shape, 2 ≤ n) → e.shape = y.exts.shape →
      (∀ i, InBounds e.shape i → (Mapping.stride e s).offset M i = y.offset M i) →
      Mapping.equalStrided M e s y = true) := by
  have hwl := weights_length y hy
  constructor
  · intro h
    unfold Mapping.equalStrided at h
    rw [Bool.and_eq_true, Bool.and_eq_true, foldl_and, Bool.true_and, List.all_eq_true] at h
    obtain ⟨⟨h1, _⟩, h3⟩ := h
    refine ⟨(equal_iff e y.exts hr).mp h1, fun i hi => ?_⟩
    have hlen : i.length = e.rank := by rw [← inBounds_length hi, shape_length]
    rw [offset_eq M _ _ hlen, offset_eq M y _ (by omega)]
    apply weigh_congr
    show s.map (· % M) = y.weights.map (· % M)
    apply List.ext_getElem
    · simp; omega
    · intro r hr1 hr2
      have hrr : r < e.rank := by simp at hr1; omega
      have := h3 r (by simpa using hrr)
      rw [beq_iff_eq] at this
      have h5 := strideOf_mod M y r (by omega)
      rw [← this, List.getD_eq_getElem _ _ (by omega), List.getD_eq_getElem _ _ (by omega)] at h5
      simpa using h5
  · intro h2 hsh hoff
    unfold Mapping.equalStrided
    rw [Bool.and_eq_true, Bool.and_eq_true, foldl_and, Bool.true_and, List.all_eq_true]
    have hzero : weigh (List.replicate e.rank 0) y.weights = 0 := weigh_zero _ _
    refine ⟨⟨(equal_iff e y.exts hr).mpr hsh, ?_⟩, ?_⟩
    · rw [offset_eq M y _ (by simpa using hr), hzero]
      simp
    · intro r hr'
      have hrr : r < e.rank := by simpa using hr'
      have hin : InBounds e.shape ((List.replicate e.rank 0).set r 1) := by
        rw [← shape_length e]
        exact unit_inBounds e.shape h2 r (by rwa [shape_length])
      have := hoff _ hin
      rw [offset_eq M _ _ (by simp; rfl), offset_eq M y _ (by simpa using hr)] at this
      have hu1 := weigh_unit e.rank s r hrr hl
      have hu2 := weigh_unit e.rank y.weights r hrr (by omega)
      rw [hu2] at this
      have hu1' : weigh ((List.replicate e.rank 0).set r 1) (Mapping.stride e s).weights =
          s.getD r 0 := hu1
      rw [hu1', ← strideOf_mod M y r (by omega), Nat.mod_eq_of_lt (hys r hrr),
        Nat.mod_eq_of_lt] at this
      · simpa using this
      · rw [List.getD_eq_getElem _ _ (by omega)]
        exact hs _ (List.getElem_mem _)

example : Mapping.equalStrided (2 ^ 64) ⟨[none, none], [2, 3]⟩ [3, 1]
      (.right ⟨[some 2, some 3], []⟩) = true ∧
    Mapping.equalStrided (2 ^ 64) ⟨[none, none], [2, 3]⟩ [3, 1]
      (.left ⟨[some 2, some 3], []⟩) = false := by decide

/-! ## C113: slices -/

/-- The positions of a mapping can be represented. -/
def Mapping.Representable (M : ℕ) : Mapping → Prop
  | .left e => e.shape.prod < M
  | .right e => e.shape.prod < M
  | .stride e s => ∀ i, InBounds e.shape i → weigh i s < M

/-- C113. A part of a multidimensional array, chosen by slices of any kind for each rank, has the shape
of what is kept, and each of its elements is the element of the original that was to be kept: same
memory, whatever the layouts of the two are. -/
theorem C113_part (M : ℕ) (m : Mapping) (slices : List Slice) (hm : m.WellFormed)
    (hrep : m.Representable M) (hM : ∀ n ∈ m.exts.shape, n < M)
    (hw : List.Forall₂ (fun n (s : Slice) => s.part.Within n) m.exts.shape slices)
    (hst : ∀ o x s, Slice.strided o x s ∈ slices → s.val < M) :
    ∃ sub off, subMapping M m slices = some (sub, off) ∧
      sub.exts.shape = keptShape m.exts.shape (slices.map Slice.part) ∧
      ∀ j, InBounds sub.exts.shape j →
        InBounds m.exts.shape (original m.exts.shape (slices.map Slice.part) j) ∧
        off + sub.offset M j =
          m.offset M (original m.exts.shape (slices.map Slice.part) j) := by
  obtain ⟨dst, hdst, hshape⟩ := subExtents_spec M m.exts slices hw hM hst
  have hlen : slices.length = m.exts.rank := by rw [← hw.length_eq, shape_length]
  have hdr : dst.rank = keptRank slices := by
    rw [← shape_length, hshape]
    exact keptShape_length _ _ (by rw [shape_length, hlen])
  -- a mapping with the weights of the part is as claimed
  have key : ∀ sub : Mapping, sub.exts = dst → sub.weights.map (· % M) =
      (subWeights slices m.weights).map (· % M) → ∀ j, InBounds sub.exts.shape j →
        InBounds m.exts.shape (original m.exts.shape (slices.map Slice.part) j) ∧
        m.offset M (slices.map fun s => s.first.val) + sub.offset M j =
          m.offset M (original m.exts.shape (slices.map Slice.part) j) := by
    intro sub hsub hwt j hj
    have hj' := hj
    rw [hsub, hshape] at hj'
    obtain ⟨ho, hsum⟩ := original_spec m.exts.shape slices m.weights j hw
      (by rw [weights_length m hm, shape_length]) hj'
    refine ⟨ho, ?_⟩
    have hlt : weigh (original m.exts.shape (slices.map Slice.part) j) m.weights < M := by
      cases m with
      | left e =>
        show weigh _ (columnStrides e.shape) < M
        rw [← leftPos_weigh e.shape _ (inBounds_length ho)]
        exact lt_trans (leftPos_lt ho) hrep
      | right e =>
        show weigh _ (rowStrides e.shape) < M
        rw [← rightPos_weigh e.shape _ (inBounds_length ho)]
        exact lt_trans (rightPos_lt ho) hrep
      | stride e s => exact hrep _ ho
    rw [offset_eq M m _ (by rw [List.length_map, hlen]),
      offset_eq M m _ (by rw [← inBounds_length ho, shape_length]),
      offset_eq M sub _ (by rw [← inBounds_length hj, shape_length]),
      weigh_congr M j _ _ hwt, hsum, Nat.mod_eq_of_lt, Nat.mod_eq_of_lt, Nat.mod_eq_of_lt] <;> omega
  have hstrided : ∀ j, InBounds dst.shape j → _ :=
    key (.stride dst (subStrides M m slices)) rfl (by
      show (subStrides M m slices).map (· % M) = _
      rw [subStrides_eq M m slices hm hlen]
      simp [List.map_map, Function.comp_def])
  have hone : ∀ w, keptRank slices = 0 → subWeights slices w = [] := fun w h0 =>
    (keptRank_zero m.exts.shape slices w h0).2
  unfold subMapping
  rw [hdst]
  cases m with
  | stride e s => exact ⟨_, _, rfl, hshape, hstrided⟩
  | left e =>
    simp only []
    split
    · rename_i hp
      refine ⟨_, _, rfl, hshape, key (.left dst) rfl ?_⟩
      show (columnStrides dst.shape).map (· % M) = _
      rw [hshape]
      congr 1
      show columnStrides (keptShape e.shape (slices.map Slice.part)) =
        subWeights slices (columnStrides e.shape)
      rcases Nat.eq_zero_or_pos (keptRank slices) with h0 | hpos
      · rw [(keptRank_zero e.shape slices (columnStrides e.shape) h0).1,
          (keptRank_zero e.shape slices (columnStrides e.shape) h0).2]
        rfl
      · rw [left_weights e.shape slices (by rw [shape_length]; exact hlen.symm) hpos]
        intro r hr
        rw [preserveLeft, hdr, Bool.or_eq_true] at hp
        rcases hp with hp | hp
        · simp at hp; omega
        · have := preserved_all hp r hr
          simp only [Bool.or_eq_true, Bool.and_eq_true, decide_eq_true_eq] at this
          tauto
    · exact ⟨_, _, rfl, hshape, hstrided⟩
  | right e =>
    simp only []
    split
    · rename_i hp
      refine ⟨_, _, rfl, hshape, key (.right dst) rfl ?_⟩
      show (rowStrides dst.shape).map (· % M) = _
      rw [hshape]
      congr 1
      show rowStrides (keptShape e.shape (slices.map Slice.part)) =
        subWeights slices (rowStrides e.shape)
      rcases Nat.eq_zero_or_pos (keptRank slices) with h0 | hpos
      · rw [(keptRank_zero e.shape slices (rowStrides e.shape) h0).1,
          (keptRank_zero e.shape slices (rowStrides e.shape) h0).2]
        rfl
      · rw [right_weights e.shape slices (by rw [shape_length]; exact hlen.symm) hpos]
        intro r hr
        rw [preserveRight, hdr, Bool.or_eq_true] at hp
        rcases hp with hp | hp
        · simp at hp; omega
        · have := preserved_all hp r hr
          simp only [Bool.or_eq_true, Bool.and_eq_true, decide_eq_true_eq] at this
          tauto
    · exact ⟨_, _, rfl, hshape, hstrided⟩

/-- A four by five by six array: all rows, every second of the columns one to four with a fixed step,
and one slice. -/
example : List.Forall₂ (fun n (s : Slice) => s.part.Within n)
      (Mapping.left ⟨[none, some 5, none], [4, 6]⟩).exts.shape
      [.full, .strided ⟨1, false⟩ ⟨4, true⟩ ⟨2, true⟩, .index 3] ∧
    (∃ sub, subMapping (2 ^ 64) (.left ⟨[none, some 5, none], [4, 6]⟩)
      [.full, .strided ⟨1, false⟩ ⟨4, true⟩ ⟨2, true⟩, .index 3] = some (sub, 64) ∧
      sub.exts.shape = [4, 2] ∧ sub.offset (2 ^ 64) [3, 1] = 11) ∧
    original [4, 5, 6] [.all, .every 1 4 2, .one 3] [3, 1] = [3, 3, 3] ∧
    (Mapping.left ⟨[none, some 5, none], [4, 6]⟩).offset (2 ^ 64) [3, 3, 3] = 75 := by
  refine ⟨.cons trivial (.cons ?_ (.cons ?_ .nil)), ⟨_, rfl, by decide, by decide⟩, by decide,
    by decide⟩
  · exact ⟨by decide, fun _ => by decide⟩
  · show 3 < 6
    decide

end OpenKalman.Mdspan
