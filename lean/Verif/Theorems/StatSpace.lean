import Verif.Proof.StatSpace

/-!
# C77: conversion to and from the space for directional statistics, of tensors of any rank
-/

namespace OpenKalman.StatSpace

open Shape Patterns

theorem dim_le_statDim (p : IdxPat) : p.dim ≤ p.statDim := by
  unfold IdxPat.dim IdxPat.statDim
  refine List.sum_le_sum fun e _ => ?_
  cases e.d <;> simp [Descriptor.dimension, Descriptor.statDimension]

theorem toExtent_valid (f : IdxPat → Nat) (p : IdxPat) (m : Nat) (h : (p.toExtent f).fixed = some m) : (p.toExtent f).value = m := by
  unfold IdxPat.toExtent at h ⊢
  cases hd : p.dyn <;> simp [hd] at h ⊢; exact h

theorem statPatterns_valid (ps : List IdxPat) : Valid (statPatterns ps) := by
  intro e he m hm
  cases ps with
  | nil =>
    simp only [statPatterns, List.mem_singleton] at he
    subst he; exact toExtent_valid _ _ _ hm
  | cons p ps =>
    simp only [statPatterns, List.mem_cons, List.mem_map] at he
    rcases he with rfl | ⟨q, _, rfl⟩
    · exact toExtent_valid _ _ _ hm
    · exact toExtent_valid _ _ _ hm

theorem patterns_valid (ps : List IdxPat) : Valid (ps.map (·.toExtent IdxPat.dim)) := by
  intro e he m hm
  obtain ⟨q, _, rfl⟩ := List.mem_map.1 he
  exact toExtent_valid _ _ _ hm

theorem statPatterns_extent (ps : List IdxPat) : extentOf (shapeOf (statPatterns ps)) 0 = (ps.getD 0 .one).statDim ∧
    ∀ i, extentOf (shapeOf (statPatterns ps)) (i + 1) = (ps.getD (i + 1) .one).dim := by
  cases ps with
  | nil => exact ⟨rfl, fun i => by simp [statPatterns, extentOf, shapeOf, IdxPat.one, IdxPat.dim, Descriptor.dimension]⟩
  | cons p ps =>
    refine ⟨rfl, fun i => ?_⟩
    simp only [statPatterns, extentOf, shapeOf, List.map_cons, List.map_map, List.getD, List.getElem?_cons_succ, List.getElem?_map]
    cases ps[i]? with
    | none => rfl
    | some q => rfl

theorem patterns_extent (ps : List IdxPat) (i : Nat) : extentOf (shapeOf (ps.map (·.toExtent IdxPat.dim))) i = (ps.getD i .one).dim := by
  simp only [extentOf, shapeOf, List.map_map, List.getD, List.getElem?_map]
  cases ps[i]? with
  | none => rfl
  | some q => rfl

theorem toExtents_eq {p : List Extent} (h : Valid p) : toExtents false none p = some ((List.range (indexCount (statics p))).map (dimAt p)) := by
  have hN : deriveRank (p.map (·.fixed)) p.length = indexCount (statics p) := by
    rw [deriveRank_eq _ _ (by simp)]; simp [indexCount, statics]
  unfold toExtents; simp only [hN]; exact derive_eq h _

/-- The rank of the result of `to_extents` is its index count. -/
theorem toExtents_count (p : List Extent) :
    indexCount (statics ((List.range (indexCount (statics p))).map (dimAt p))) = indexCount (statics p) := by
  set s := statics ((List.range (indexCount (statics p))).map (dimAt p)) with hs
  have hl : s.length = indexCount (statics p) := by simp [hs, statics]
  unfold indexCount
  rw [hl]
  cases hk : indexCount (statics p) with
  | zero => simp [indexCount] at hk; rw [hk]; rfl
  | succ k =>
    have hlast := removeTrailing_last (statics p) _ k hk
    have hlen : k < p.length := by
      have := indexCount_le (statics p); simp [statics] at this hk ⊢; omega
    have e : s[k]? = (statics p)[k]? := by
      rw [hs, hk]
      simp [statics, dimAt, List.getD, hlen]
    rw [show removeTrailing (statics p) (statics p).length = k + 1 from hk]
    unfold removeTrailing
    rw [if_neg (by rw [e]; exact hlast)]

section
variable {n : Nested} {A : Tensor}

theorem Represents.one (h : Represents n A) (i : Nat) (hi : n.count ≤ i) : extentOf A.shape i = 1 := by
  rw [h.shape]; exact indexCount_extent (valid_instance h.valid) hi

theorem column_length (A : Tensor) (k : Nat → Nat) : (A.column k).length = extentOf A.shape 0 := by simp [Tensor.column]

/-- Construction of the adapter for `to_stat_space`. -/
theorem toStat_ok (h : Represents n A) (hp : ∀ i, (n.pattern i).dim = extentOf A.shape i)
    (hne : some 0 ∉ statics n.exts) (hrank : n.exts.length ≤ n.count + 1) (hfix : ∀ i < n.count, (n.pattern i).dyn = false)
    (hN : 0 < n.count ∨ (n.pattern 0).statDim ≤ 1) :
    ∃ b, toStatAdapter n = .ok b ∧ b.exts = (List.range (indexCount (statics (statPatterns n.pats)))).map (dimAt (statPatterns n.pats)) ∧
      (∀ ps, Represents ⟨b.exts, ps, b.read⟩ (converted (toStatSpace (n.pattern 0).dyn (n.pattern 0).elems) A (shapeOf b.exts))) ∧
      Converts (toStatSpace (n.pattern 0).dyn (n.pattern 0).elems) A (converted (toStatSpace (n.pattern 0).dyn (n.pattern 0).elems) A (shapeOf b.exts)) ∧
      extentOf (shapeOf b.exts) 0 = (n.pattern 0).statDim := by
  have hconv : ∀ k : Nat → Nat, (∀ i, k i < extentOf A.shape (i + 1)) →
      ∃ o, toStatSpace (n.pattern 0).dyn (n.pattern 0).elems (A.column k) = some o ∧ o.length = (n.pattern 0).statDim := by
    intro k _
    obtain ⟨o, h1, -, h3⟩ := C09_to_stat (n.pattern 0).dyn (n.pattern 0).elems (A.column k) (by rw [column_length, ← hp]; rfl)
    exact ⟨o, h1, h3⟩
  have hcap : (n.pattern 0).statDim * ∏ m ∈ Finset.range n.count, extentOf A.shape (m + 1) ≤ ∏ m ∈ Finset.range n.count, (n.pattern m).statDim := by
    rcases Nat.eq_zero_or_pos n.count with h0 | h0
    · rw [h0]; simp; rcases hN with hN | hN <;> omega
    · obtain ⟨M, hM⟩ : ∃ M, n.count = M + 1 := ⟨n.count - 1, by omega⟩
      rw [hM, Finset.prod_range_succ, Finset.prod_range_succ', h.one (M + 1) (by omega), mul_one, mul_comm]
      refine Nat.mul_le_mul_right _ (Finset.prod_le_prod' fun m _ => ?_)
      rw [← hp]; exact dim_le_statDim _
  obtain ⟨e0, es⟩ := statPatterns_extent n.pats
  have hv := statPatterns_valid n.pats
  have hte := toExtents_eq hv
  obtain ⟨hr, hsame⟩ := (C75_to_extents false _ hv).1 none _ hte
  have h0 := (hsame 0).trans e0
  have hs : ∀ i, extentOf (shapeOf ((List.range (indexCount (statics (statPatterns n.pats)))).map (dimAt (statPatterns n.pats)))) (i + 1) =
      extentOf A.shape (i + 1) := fun i => by rw [hsame, es, ← hp]; rfl
  refine ⟨⟨⟨∏ m ∈ Finset.range n.count, (n.pattern m).statDim, block (toStatSpace (n.pattern 0).dyn (n.pattern 0).elems) A n.count []⟩,
    (List.range (indexCount (statics (statPatterns n.pats)))).map (dimAt (statPatterns n.pats))⟩, ?_, rfl,
    fun ps => adapter_represents h h.one hconv _ _ hr h0 hs ps, converted_converts hconv _ h0 hs, h0⟩
  unfold toStatAdapter
  simp only
  rw [storeInit_eq h hne hrank hconv _ hfix h.one hcap, hte]
  rfl

/-- Construction of the adapter for `from_stat_space`. -/
theorem fromStat_ok (cr : Bool) (ps : List IdxPat) (hc : (ps.getD 0 .one).dyn = true → cr = false) (h : Represents n A)
    (hp : ∀ i, (n.pattern i).dim = extentOf A.shape i) (h0 : extentOf A.shape 0 = (ps.getD 0 .one).statDim)
    (hs : ∀ i, extentOf A.shape (i + 1) = (ps.getD (i + 1) .one).dim)
    (hne : some 0 ∉ statics n.exts) (hrank : n.exts.length ≤ n.count + 1) (hfix : ∀ i < n.count, (n.pattern i).dyn = false) :
    ∃ b, fromStatAdapter cr n ps = .ok b ∧
      (∀ ps', Represents ⟨b.exts, ps', b.read⟩ (converted (fromStatSpace (ps.getD 0 .one).dyn cr (ps.getD 0 .one).elems) A (shapeOf b.exts))) ∧
      Converts (fromStatSpace (ps.getD 0 .one).dyn cr (ps.getD 0 .one).elems) A
        (converted (fromStatSpace (ps.getD 0 .one).dyn cr (ps.getD 0 .one).elems) A (shapeOf b.exts)) ∧
      extentOf (shapeOf b.exts) 0 = (ps.getD 0 .one).dim := by
  have hconv : ∀ k : Nat → Nat, (∀ i, k i < extentOf A.shape (i + 1)) →
      ∃ o, fromStatSpace (ps.getD 0 .one).dyn cr (ps.getD 0 .one).elems (A.column k) = some o ∧ o.length = (ps.getD 0 .one).dim := by
    intro k _
    obtain ⟨o, h1, -, h3⟩ := C09_from_stat_partial (ps.getD 0 .one).dyn cr hc (ps.getD 0 .one).elems (A.column k) (by rw [column_length, h0]; rfl)
    exact ⟨o, h1, h3⟩
  have hcap : (ps.getD 0 .one).dim * ∏ m ∈ Finset.range n.count, extentOf A.shape (m + 1) ≤ ∏ m ∈ Finset.range n.count, (n.pattern m).dim := by
    have hd := dim_le_statDim (ps.getD 0 .one)
    rcases Nat.eq_zero_or_pos n.count with hz | hz
    · have := h.one 0 (by omega)
      rw [hz]; simp only [Finset.range_zero, Finset.prod_empty, mul_one]; omega
    · obtain ⟨M, hM⟩ : ∃ M, n.count = M + 1 := ⟨n.count - 1, by omega⟩
      rw [hM, Finset.prod_range_succ, Finset.prod_range_succ', h.one (M + 1) (by omega), mul_one, mul_comm]
      refine Nat.mul_le_mul (Finset.prod_le_prod' fun m _ => ?_) ?_
      · rw [hp]
      · rw [hp, h0]; exact hd
  have hv := patterns_valid ps
  have hte := toExtents_eq hv
  obtain ⟨hr, hsame⟩ := (C75_to_extents false _ hv).1 none _ hte
  have h0' := (hsame 0).trans (patterns_extent ps 0)
  have hs' : ∀ i, extentOf (shapeOf ((List.range (indexCount (statics (ps.map (·.toExtent IdxPat.dim))))).map (dimAt (ps.map (·.toExtent IdxPat.dim))))) (i + 1) =
      extentOf A.shape (i + 1) := fun i => by rw [hsame, patterns_extent, hs]
  refine ⟨⟨⟨∏ m ∈ Finset.range n.count, (n.pattern m).dim, block (fromStatSpace (ps.getD 0 .one).dyn cr (ps.getD 0 .one).elems) A n.count []⟩,
    (List.range (indexCount (statics (ps.map (·.toExtent IdxPat.dim))))).map (dimAt (ps.map (·.toExtent IdxPat.dim)))⟩, ?_,
    fun ps' => adapter_represents h h.one hconv _ _ hr h0' hs' ps', converted_converts hconv _ h0' hs', h0'⟩
  unfold fromStatAdapter
  simp only
  rw [storeInit_eq h hne hrank hconv _ hfix h.one hcap, hte]
  rfl

/-- The view `range_of` is the vector along index 0 at the other indices that are given, for every rank and shape.  It is refused if indices are missing that
could matter: those before the last extent that may differ from 1. -/
theorem C77_range_of (n : Nested) (A : Tensor) (h : Represents n A) (js : List Nat) :
    (some 0 ∉ statics n.exts → n.exts.length ≤ js.length + 1 → (∀ i, js.getD i 0 < extentOf A.shape (i + 1)) → rangeOf n js = .ok (A.column (js.getD · 0))) ∧
    ((∃ i, js.length + 1 ≤ i ∧ i < n.exts.length ∧ (statics n.exts)[i]? ≠ some (some 1)) → rangeOf n js = .error .illFormed) := by
  refine ⟨fun hne hl hjs => h.rangeOf_many hne js hl hjs, fun ⟨i, h1, h2, h3⟩ => ?_⟩
  have : i < n.count := by
    by_contra hc
    exact h3 (indexCount_one (Nat.le_of_not_lt hc) (by simpa [statics] using h2))
  unfold rangeOf
  rw [if_pos (by simp; omega)]

/-- The adapter that `to_stat_space` makes holds the tensor in which every vector along index 0 is converted by the pattern of index 0, for every rank,
shape and pattern with compile-time dimensions.  (C09 says what the conversion of a vector is.)  Missing: run-time dimensions, more than one trailing extent
1, and objects with one component whose pattern needs more; see the violations below. -/
theorem C77_to_stat_space_partial (h : Represents n A) (hp : ∀ i, (n.pattern i).dim = extentOf A.shape i)
    (hne : some 0 ∉ statics n.exts) (hrank : n.exts.length ≤ n.count + 1) (hfix : ∀ i < n.count, (n.pattern i).dyn = false)
    (hN : 0 < n.count ∨ (n.pattern 0).statDim ≤ 1) :
    ∃ b B, toStatAdapter n = .ok b ∧ Represents b.asNested B ∧
      Converts (toStatSpace (n.pattern 0).dyn (n.pattern 0).elems) A B ∧ extentOf B.shape 0 = (n.pattern 0).statDim := by
  obtain ⟨b, h1, -, h3, h4, h5⟩ := toStat_ok h hp hne hrank hfix hN
  exact ⟨b, _, h1, h3 _, h4, h5⟩

/-- The adapter that `from_stat_space` makes holds the tensor in which every vector along index 0 is converted back.  Missing: as above (apart from
objects with one component), and the conversion of vectors that C09 shows to be wrong. -/
theorem C77_from_stat_space_partial (cr : Bool) (ps : List IdxPat) (hc : (ps.getD 0 .one).dyn = true → cr = false) (h : Represents n A)
    (hp : ∀ i, (n.pattern i).dim = extentOf A.shape i) (h0 : extentOf A.shape 0 = (ps.getD 0 .one).statDim)
    (hs : ∀ i, extentOf A.shape (i + 1) = (ps.getD (i + 1) .one).dim)
    (hne : some 0 ∉ statics n.exts) (hrank : n.exts.length ≤ n.count + 1) (hfix : ∀ i < n.count, (n.pattern i).dyn = false) :
    ∃ b B, fromStatAdapter cr n ps = .ok b ∧ Represents (b.asNestedWith ps) B ∧
      Converts (fromStatSpace (ps.getD 0 .one).dyn cr (ps.getD 0 .one).elems) A B ∧ extentOf B.shape 0 = (ps.getD 0 .one).dim := by
  obtain ⟨b, h1, h3, h4, h5⟩ := fromStat_ok cr ps hc h hp h0 hs hne hrank hfix
  exact ⟨b, _, h1, h3 _, h4, h5⟩

/-- Converting a tensor and converting it back wraps every vector along index 0. -/
theorem C77_round_trip_partial (cr : Bool) (h : Represents n A) (hp : ∀ i, (n.pattern i).dim = extentOf A.shape i)
    (hpos : ∀ i, 0 < extentOf A.shape i) (hrank : n.exts.length ≤ n.count + 1) (hfix : ∀ i, (n.pattern i).dyn = false)
    (hN : 0 < n.count ∨ (n.pattern 0).statDim ≤ 1) (hrt : ∀ e ∈ (n.pattern 0).elems, e.d.RoundTrips) :
    ∃ b c C, toStatAdapter n = .ok b ∧ fromStatAdapter cr b.asNested n.pats = .ok c ∧ Represents (c.asNestedWith n.pats) C ∧
      Converts (wrapSpace (n.pattern 0).dyn (n.pattern 0).elems) A C ∧ ∀ i, extentOf C.shape i = extentOf A.shape i := by
  have hne : some 0 ∉ statics n.exts := by
    intro hm
    obtain ⟨e, he, h1⟩ := List.mem_map.1 hm
    obtain ⟨i, hi, h2⟩ := List.getElem_of_mem he
    have hv := h.valid e he 0 h1
    have := hpos i
    rw [h.shape] at this
    have e0 : extentOf (shapeOf n.exts) i = 0 := by simp [extentOf, shapeOf, List.getD, hi, h2, hv]
    omega
  obtain ⟨b, hb, hbe, hrep, hcv, hsd⟩ := toStat_ok h hp hne hrank (fun i _ => hfix i) hN
  set p := statPatterns n.pats with hpdef
  have hcount : indexCount (statics b.exts) = b.exts.length := by rw [hbe, toExtents_count]; simp
  have hbs : ∀ i, extentOf (shapeOf b.exts) (i + 1) = extentOf A.shape (i + 1) := hcv.extents
  have hbv : Valid b.exts := (hrep []).valid
  have hbpos : ∀ i, 0 < extentOf (shapeOf b.exts) i := by
    intro i
    cases i with
    | zero => rw [hsd]; exact lt_of_lt_of_le (by rw [hp]; exact hpos 0) (dim_le_statDim _)
    | succ i => rw [hbs]; exact hpos _
  have hbfix : ∀ e ∈ b.exts, e.fixed.isSome = true := by
    intro e he
    rw [hbe] at he
    obtain ⟨i, _, rfl⟩ := List.mem_map.1 he
    have hpt : ∀ q ∈ n.pats, q.dyn = false := by
      intro q hq
      obtain ⟨j, hj, rfl⟩ := List.getElem_of_mem hq
      have := hfix j
      rwa [Nested.pattern, List.getD_eq_getElem _ _ hj] at this
    have hall : ∀ x ∈ p, x.fixed.isSome = true := by
      intro x hx
      rw [hpdef] at hx
      cases hps : n.pats with
      | nil =>
        rw [hps] at hx
        simp only [statPatterns, List.mem_singleton] at hx
        subst hx; rfl
      | cons q qs =>
        rw [hps] at hx hpt
        simp only [statPatterns, List.mem_cons, List.mem_map] at hx
        rcases hx with rfl | ⟨q', hq', rfl⟩
        · simp [IdxPat.toExtent, hpt q (List.mem_cons_self ..)]
        · simp [IdxPat.toExtent, hpt q' (List.mem_cons_of_mem _ hq')]
    unfold dimAt
    rw [List.getD]
    cases hx : p[i]? with
    | none => rfl
    | some x => exact hall x (List.mem_of_getElem? hx)
  have hbpat : ∀ i, (b.asNested.pattern i).dim = extentOf (shapeOf b.exts) i ∧ (b.asNested.pattern i).dyn = false := by
    intro i
    unfold Nested.pattern Adapter.asNested extentOf shapeOf
    simp only [List.getD, List.getElem?_map]
    cases hx : b.exts[i]? with
    | none => exact ⟨rfl, rfl⟩
    | some x =>
      have := hbfix x (List.mem_of_getElem? hx)
      obtain ⟨v, hv⟩ := Option.isSome_iff_exists.1 this
      simp [IdxPat.dim, Descriptor.dimension, hv]
  have hbne : some 0 ∉ statics b.exts := by
    intro hm
    obtain ⟨e, he, h1⟩ := List.mem_map.1 hm
    obtain ⟨i, hi, h2⟩ := List.getElem_of_mem he
    have hv := hbv e he 0 h1
    have := hbpos i
    have e0 : extentOf (shapeOf b.exts) i = 0 := by simp [extentOf, shapeOf, List.getD, hi, h2, hv]
    omega
  obtain ⟨c, hc, hrepc, hcvc, hdc⟩ := fromStat_ok cr n.pats (fun hd => by have := hfix 0; unfold Nested.pattern at this; rw [this] at hd; cases hd)
    (hrep b.asNested.pats : Represents b.asNested _) (fun i => (hbpat i).1) hsd (fun i => by
      show extentOf (shapeOf b.exts) (i + 1) = _
      rw [hbs, ← hp]; rfl) hbne (by show b.exts.length ≤ indexCount (statics b.exts) + 1; omega) (fun i _ => (hbpat i).2)
  refine ⟨b, c, _, hb, hc, hrepc _, ⟨fun i => ?_, fun k hk => ?_⟩, fun i => ?_⟩
  · exact (hcvc.extents i).trans (hbs i)
  · have h1 := hcv.columns k hk
    have h2 := hcvc.columns k (fun i => lt_of_lt_of_eq (hk i) (hbs i).symm)
    have h3 := C09_round_trip (n.pattern 0).dyn cr (fun hd => by rw [hfix 0] at hd; cases hd) (n.pattern 0).elems hrt (A.column k)
      (by rw [column_length, ← hp]; rfl)
    rw [← h3, h1]
    exact h2
  · cases i with
    | zero =>
      show extentOf (shapeOf c.exts) 0 = _
      rw [hdc, ← hp]; rfl
    | succ i => exact (hcvc.extents i).trans (hbs i)

end

/-! ## An example: two angles and a distance in each of three columns -/

noncomputable def exPat : IdxPat := ⟨[⟨.angle degrees360, false⟩, ⟨.distance, false⟩], false⟩

noncomputable def exNested : Nested := ⟨[⟨some 2, 2⟩, ⟨some 3, 3⟩], [exPat, ⟨[⟨.dim 3, false⟩], false⟩], fun ix => .ok (ix.getD 0 0 + 10 * ix.getD 1 0 : ℕ)⟩

noncomputable def exTensor : Tensor := ⟨[2, 3], fun k => (k 0 + 10 * k 1 : ℕ)⟩

theorem exNested_represents : Represents exNested exTensor := by
  refine ⟨?_, rfl, fun ix hl hin => ?_⟩
  · intro e he m hm
    simp only [exNested, List.mem_cons, List.not_mem_nil, or_false] at he
    rcases he with rfl | rfl <;> simp_all
  · have hne : some 0 ∉ statics exNested.exts := by simp [exNested, statics]
    have hv : Valid exNested.exts := by
      intro e he m hm
      simp only [exNested, List.mem_cons, List.not_mem_nil, or_false] at he
      rcases he with rfl | rfl <;> simp_all
    unfold Nested.component
    rw [(C73_access_partial exNested.exts hv ⟨true, ix⟩ hl hne).1 fun i _ => hin i]
    have hl' : 2 ≤ ix.length := hl
    simp only [exNested, exTensor, List.length_cons, List.length_nil]
    rw [List.getD_eq_getElem?_getD, List.getElem?_take, List.getD_eq_getElem?_getD, List.getElem?_take]
    simp [List.getD]

theorem exNested_pattern (i : Nat) : (exNested.pattern i).dim = extentOf exTensor.shape i := by
  rcases i with _ | _ | i
  · simp [Nested.pattern, exNested, exPat, IdxPat.dim, Descriptor.dimension, exTensor, extentOf]
  · simp [Nested.pattern, exNested, IdxPat.dim, Descriptor.dimension, exTensor, extentOf]
  · simp [Nested.pattern, exNested, IdxPat.one, IdxPat.dim, Descriptor.dimension, exTensor, extentOf]

example : rangeOf exNested [2] = .ok [20, 21] ∧ rangeOf exNested [] = .error .illFormed := by
  refine ⟨((C77_range_of _ _ exNested_represents [2]).1 (by simp [exNested, statics]) (by simp [exNested]) fun i => ?_).trans ?_,
    (C77_range_of _ _ exNested_represents []).2 ⟨1, by simp, by simp [exNested], by simp [exNested, statics]⟩⟩
  · rcases i with _ | i <;> simp [exTensor, extentOf]
  · norm_num [Tensor.column, exTensor, extentOf, consIx, List.range_succ]

/-- A matrix of unknown height with two columns, which happens to have no rows. -/
example : rangeOf ⟨[⟨none, 0⟩, ⟨some 2, 2⟩], [], fun _ => .error .undefined⟩ [] = .error .illFormed ∧
    rangeOf ⟨[⟨none, 0⟩, ⟨some 2, 2⟩], [], fun _ => .error .undefined⟩ [1] = .ok [] := ⟨rfl, rfl⟩

example : ∃ b B, toStatAdapter exNested = .ok b ∧ Represents b.asNested B ∧ Converts (toStatSpace false exPat.elems) exTensor B ∧ extentOf B.shape 0 = 3 :=
  C77_to_stat_space_partial exNested_represents exNested_pattern (by simp [exNested, statics]) (by decide) (by
    intro i hi
    rcases i with _ | _ | i
    · rfl
    · rfl
    · rfl) (Or.inl (by decide))

example : ∃ b c C, toStatAdapter exNested = .ok b ∧ fromStatAdapter true b.asNested exNested.pats = .ok c ∧ Represents (c.asNestedWith exNested.pats) C ∧
    Converts (wrapSpace false exPat.elems) exTensor C ∧ ∀ i, extentOf C.shape i = extentOf exTensor.shape i :=
  C77_round_trip_partial true exNested_represents exNested_pattern (by
    intro i
    rcases i with _ | _ | i <;> simp [exTensor, extentOf]) (by decide) (by
    intro i
    rcases i with _ | _ | i
    · rfl
    · rfl
    · rfl) (Or.inl (by decide)) (by simp [Nested.pattern, exNested, exPat, Descriptor.RoundTrips, degrees360])

/-! ## Violations -/

/-- A single angle (an object of rank 1 with the compile-time extent 1): the store has one element, two are written. -/
theorem C77_one_component_violated :
    toStatAdapter ⟨[⟨some 1, 1⟩], [⟨[⟨.angle degrees360, false⟩], false⟩], fun _ => .ok 0⟩ = .error .undefined := by
  rfl

/-- A vector of two angles whose number is only known at run time: the store is a vector without elements, to which four are written. -/
theorem C77_dynamic_violated :
    toStatAdapter ⟨[⟨none, 2⟩], [⟨[⟨.angle degrees360, false⟩, ⟨.angle degrees360, false⟩], true⟩], fun _ => .ok 0⟩ = .error .undefined := by
  rfl

/-- A 2-by-1-by-1 tensor of a polar pattern: components are asked for with too few indices, which does not compile. -/
theorem C77_rank_violated :
    toStatAdapter ⟨[⟨some 2, 2⟩, ⟨some 1, 1⟩, ⟨some 1, 1⟩], [⟨[⟨.polar false degrees360, false⟩], false⟩], fun _ => .ok 0⟩ = .error .illFormed := by
  rfl

/-! ## Copies -/

/-- A copy reads like the original as long as the original is there.  Missing: afterwards; see `C77_copy_violated`. -/
theorem C77_copy_partial (μ : Memory) (x y : Nat) (hxy : y ≠ x) (a : Adapter) (ix : List Nat) :
    (construct μ x a).2.read (construct μ x a).1 ix = a.read ix ∧
    (copy (construct μ x a).1 y (construct μ x a).2).2.read (copy (construct μ x a).1 y (construct μ x a).2).1 ix = a.read ix := by
  constructor
  · simp [construct, Handle.read]
  · simp [construct, copy, Handle.read, Function.update_of_ne hxy.symm]

example : (construct (fun _ => none) 0 ⟨⟨2, [3, 4]⟩, [⟨some 2, 2⟩]⟩).2.read (construct (fun _ => none) 0 ⟨⟨2, [3, 4]⟩, [⟨some 2, 2⟩]⟩).1 [1] = .ok 4 := by
  rw [(C77_copy_partial _ 0 1 (by omega) _ _).1]
  simp [Adapter.read, leftOffset, Store.get]

/-- Whatever an adapter holds, once the original is destroyed every component read through a copy is undefined, although the copy has all components. -/
theorem C77_copy_violated (μ : Memory) (x y : Nat) (hxy : y ≠ x) (a : Adapter) (ix : List Nat) :
    let s := construct μ x a
    let c := copy s.1 y s.2
    (destroy c.1 s.2) c.2.own = some a.store ∧ c.2.read (destroy c.1 s.2) ix = .error .undefined := by
  simp [construct, copy, destroy, Handle.read, Function.update_of_ne hxy]

end OpenKalman.StatSpace
