import Verif.Proof.Concat

/-!
# C40, C41: tiling, concatenation, splitting, slices and chips

`Verif.Spec.Slices` says what a block matrix is; the theorems compare the code's results with it.
-/

namespace OpenKalman.Slices

variable {F : Type}

/-- A concrete matrix for the examples: element `(i, j)` is `base + 10 i + j`. -/
def exM (r c base : ℕ) : Ten ℕ := ⟨[r, c], fun ix => some (base + 10 * ix.getD 0 0 + ix.getD 1 0), fun _ => 1⟩

/-! ## C41: slices -/

/-- `set_slice` followed by `get_slice` at the same place returns the block, and elements outside the block are as before. -/
theorem C41_set_slice_get_slice (static : Bool) (a block : Ten F) (offs : List ℕ) (h0 : offs ≠ []) (hl : offs.length = block.dims.length)
    (hfit : Within offs block.dims a.dims) :
    ∃ a' s, setSlice a block offs = .ok a' ∧ a'.dims = a.dims ∧ getSlice static [] a' offs block.dims = .ok s ∧ Same s block ∧
      (∀ ix, (∀ js, InBox block.dims js → ix ≠ shift offs js) → a'.get ix = a.get ix ∧ a'.writes ix = a.writes ix) ∧
      (∀ js, InBox block.dims js → a'.writes (shift offs js) = a.writes (shift offs js) + 1) := by
  obtain ⟨a', h1, h2, h3, h4⟩ := setSlice_ok hl hfit
  have hlen : block.dims.length = a.dims.length := by
    have := List.Forall₂.length_eq hfit
    simp [hl] at this; exact this
  refine ⟨a', ⟨block.dims, fun ix => a'.get (shift offs ix), fun _ => 1⟩, h1, h2, ?_, ⟨rfl, fun ix hix => (h3 ix hix).1⟩, h4, fun js hjs => (h3 js hjs).2⟩
  rw [getSlice, if_neg h0, if_pos rfl, h2, show a.dims.length - offs.length = 0 by omega, List.replicate_zero, List.append_nil, List.replicate_zero, List.append_nil]
  refine getSliceImpl_ok static (by rw [h2]; exact hfit) ?_
  intro i hi1 hi2
  exact absurd hi2 (by omega)

example : Within [1, 1] (exM 2 1 0).dims (exM 3 4 100).dims := by
  exact List.Forall₂.cons (by decide) (List.Forall₂.cons (by decide) List.Forall₂.nil)

/-- A nonempty block that does not lie within the argument is never stored silently. -/
theorem C41_set_slice_out_of_range (a block : Ten F) (offs : List ℕ) (hl : offs.length = block.dims.length) (hr : a.dims.length = offs.length)
    (js : List ℕ) (hjs : InBox block.dims js) (hout : ¬ InBox a.dims (shift offs js)) : ∀ a', setSlice a block offs ≠ .ok a' := by
  intro a' h
  rw [setSlice_error hl hr ⟨js, hjs, hout⟩] at h
  cases h

example : InBox (exM 2 2 0).dims [1, 1] ∧ ¬ InBox (exM 3 4 100).dims (shift [2, 0] [1, 1]) := by decide

/-- `get_slice<indices...>` takes the block at the given offsets along the named indices and everything along the others.  What is missing from the full claim:
the result is described by as many indices as are named, so this holds only if every later extent is 1. -/
theorem C41_get_slice_named_partial (static : Bool) (a : Ten F) (indices offsets extents offs exts : List ℕ) (hi : indices ≠ []) (hn : indices.Nodup)
    (hlo : indices.length = offsets.length) (hle : indices.length = extents.length)
    (ho : Expands a.dims.length indices offsets (fun _ => 0) offs) (he : Expands a.dims.length indices extents a.dim exts)
    (hfit : Within offs exts a.dims) (hone : ∀ k, indices.length ≤ k → k < a.dims.length → exts.getD k 1 = 1) :
    ∃ s, getSlice static indices a offsets extents = .ok s ∧ s.dims = exts ∧ ∀ js, InBox exts js → s.get js = a.get (shift offs js) := by
  refine ⟨⟨exts, fun ix => a.get (shift offs ix), fun _ => 1⟩, ?_, rfl, fun _ _ => rfl⟩
  rw [getSlice_whole static hi hn hlo hle ho he]
  refine getSliceImpl_ok static hfit ?_
  intro i h1 h2
  exact hone i (by omega) (by rw [← he.len]; exact h2)

/-- Columns then rows named, in the order the test-suite uses: `get_slice<1, 0>`. -/
example : Expands 2 [1, 0] [2, 1] (fun _ => 0) [1, 2] ∧ Expands 2 [1, 0] [2, 1] (exM 3 4 0).dim [1, 2] ∧ Within [1, 2] [1, 2] (exM 3 4 0).dims := by
  refine ⟨⟨rfl, ?_, ?_⟩, ⟨rfl, ?_, ?_⟩, ?_⟩
  · intro q hq; match q, hq with
    | 0, _ => rfl
    | 1, _ => rfl
  · intro k hk hn; match k, hk with
    | 0, _ => simp at hn
    | 1, _ => simp at hn
  · intro q hq; match q, hq with
    | 0, _ => rfl
    | 1, _ => rfl
  · intro k hk hn; match k, hk with
    | 0, _ => simp at hn
    | 1, _ => simp at hn
  · exact List.Forall₂.cons (by decide) (List.Forall₂.cons (by decide) List.Forall₂.nil)

/-- The full claim fails: rows of a matrix with more or fewer than one column come back with one column (dynamic sizes), or do not compile (static sizes). -/
theorem C41_get_slice_rows_violated (a : Ten F) (R C p r : ℕ) (ha : a.dims = [R, C]) (hC : C ≠ 1) (hp : p + r ≤ R) :
    (∃ s, getSlice false [0] a [p] [r] = .ok s ∧ s.dims = [r, 1] ∧ s.dims ≠ [r, C]) ∧ getSlice true [0] a [p] [r] = .error .illFormed := by
  have hfit : List.Forall₂ (fun (oe : ℕ × ℕ) n => oe.1 + oe.2 ≤ n) ([p, 0].zip [r, C]) a.dims := by
    rw [ha]; exact List.Forall₂.cons hp (List.Forall₂.cons (by simp) List.Forall₂.nil)
  constructor
  · refine ⟨⟨[r, 1], fun ix => a.get (shift [p, 0] ix), fun _ => 1⟩, ?_, rfl, ?_⟩
    · rw [getSlice_rows false ha, getSliceImpl, libSlice_ok hfit]
      rfl
    · simp; exact fun h => hC h.symm
  · rw [getSlice_rows true ha, getSliceImpl, libSlice_ok hfit]
    show (if true = true ∧ [r, 1] ≠ [r, C] then Except.error Err.illFormed else _) = _
    rw [if_pos ⟨rfl, by simp; exact fun h => hC h.symm⟩]

example : (exM 3 4 0).dims = [3, 4] ∧ 4 ≠ 1 ∧ 1 + 2 ≤ 3 := by decide

/-- So `get_chip<0>` of a matrix with several columns is not a row of it. -/
theorem C41_get_chip_row_violated (a : Ten F) (R C i : ℕ) (ha : a.dims = [R, C]) (hC : C ≠ 1) (hi : i < R) :
    (∃ s, getChip false [0] a [i] = .ok s ∧ s.dims ≠ [1, C]) ∧ getChip true [0] a [i] = .error .illFormed := by
  obtain ⟨⟨s, h1, -, h2⟩, h3⟩ := C41_get_slice_rows_violated a R C i 1 ha hC (by omega)
  exact ⟨⟨s, h1, h2⟩, h3⟩

/-- Without indices, the omitted trailing index is documented to be included whole; a matrix slice given by rows only has one column. -/
theorem C41_get_slice_leading_violated (a : Ten F) (R C p r : ℕ) (ha : a.dims = [R, C]) (hC : 1 < C) (hp : p + r ≤ R) (static : Bool) :
    ∃ s, getSlice static [] a [p] [r] = .ok s ∧ s.dims ≠ [r, C] := by
  have hfit : List.Forall₂ (fun (oe : ℕ × ℕ) n => oe.1 + oe.2 ≤ n) ([p, 0].zip [r, 1]) a.dims := by
    rw [ha]; exact List.Forall₂.cons hp (List.Forall₂.cons (by simp; omega) List.Forall₂.nil)
  refine ⟨⟨[r, 1], fun ix => a.get (shift [p, 0] ix), fun _ => 1⟩, ?_, by simp; omega⟩
  rw [getSlice, if_neg (by simp), if_pos rfl, ha]
  refine getSliceImpl_ok static (offs := [p, 0]) (exts := [r, 1]) hfit ?_
  intro i h1 h2
  match i, h1, h2 with
  | 1, _, _ => rfl

/-! ## C41: chips -/

/-- A chip stored at position `j` of an index is found there, and elements at other positions of that index are untouched.  Any rank. -/
theorem C41_set_chip (a chip : Ten F) (index j : ℕ) (hix : index < a.dims.length) (hc : chip.dims = a.dims.set index 1) (hj : j < a.dim index) :
    ∃ a', setChip [index] a chip [j] = .ok a' ∧ a'.dims = a.dims ∧
      (∀ js, InBox chip.dims js → a'.get (js.set index j) = chip.get js ∧ a'.writes (js.set index j) = a.writes (js.set index j) + 1) ∧
      (∀ ix, ix.getD index 0 ≠ j → a'.get ix = a.get ix ∧ a'.writes ix = a.writes ix) := by
  have hlc : chip.dims.length = a.dims.length := by rw [hc, List.length_set]
  have hbox : ∀ js, InBox chip.dims js → js.length = a.dims.length ∧ js.getD index 0 = 0 := by
    intro js hjs
    have hl := hjs.length_eq.trans hlc
    refine ⟨hl, ?_⟩
    have hk : index < js.length := by omega
    have hk' : index < chip.dims.length := by omega
    have h1 := List.Forall₂.get hjs hk hk'
    simp only [List.get_eq_getElem, hc, List.getElem_set_self] at h1
    rw [List.getD_eq_getElem _ _ hk]; omega
  obtain ⟨a', h1, h2, h3, h4⟩ := setSlice_ok (a := a) (block := chip) (bs := (List.replicate a.dims.length 0).set index j) (by simp [hlc]) (by
    show List.Forall₂ _ _ _
    rw [List.forall₂_iff_get]
    refine ⟨by simp [hlc], ?_⟩
    intro k hk1 hk2
    simp only [List.get_eq_getElem, List.getElem_zip, hc, List.getElem_set, List.getElem_replicate]
    by_cases h : index = k
    · subst h
      rw [if_pos rfl, if_pos rfl]
      rw [Ten.dim, List.getD_eq_getElem _ _ hk2] at hj
      omega
    · rw [if_neg h, if_neg h]; omega)
  refine ⟨a', ?_, h2, ?_, ?_⟩
  · rw [setChip, chip_begin]; exact h1
  · intro js hjs
    obtain ⟨hl, h0⟩ := hbox js hjs
    have := h3 js hjs
    rw [shift_chip hl h0] at this
    exact this
  · intro ix hix'
    refine h4 ix ?_
    intro js hjs he
    obtain ⟨hl, h0⟩ := hbox js hjs
    rw [shift_chip hl h0] at he
    apply hix'
    rw [he, List.getD_eq_getElem _ _ (by simp; omega), List.getElem_set_self]

example : 1 < (exM 3 4 0).dims.length ∧ (exM 3 1 50).dims = (exM 3 4 0).dims.set 1 1 ∧ 2 < (exM 3 4 0).dim 1 := by decide

/-- The same with several fixed indices, given in any order: the chip is stored where each of them has its given value. -/
theorem C41_set_chip_indices (a chip : Ten F) (indices ixs : List ℕ) (hn : indices.Nodup) (hlt : ∀ k ∈ indices, k < a.dims.length)
    (hlen : indices.length = ixs.length) (hc : Expands a.dims.length indices (List.replicate indices.length 1) a.dim chip.dims)
    (hj : ∀ q < indices.length, ixs.getD q 0 < a.dim (indices.getD q 0)) :
    ∃ a', setChip indices a chip ixs = .ok a' ∧ a'.dims = a.dims ∧
      (∀ js full, InBox chip.dims js → Expands a.dims.length indices ixs (fun k => js.getD k 0) full →
        a'.get full = chip.get js ∧ a'.writes full = a.writes full + 1) ∧
      (∀ ix, (∃ q < indices.length, ix.getD (indices.getD q 0) 0 ≠ ixs.getD q 0) → a'.get ix = a.get ix ∧ a'.writes ix = a.writes ix) := by
  have hmem : ∀ q < indices.length, indices.getD q 0 < a.dims.length := by
    intro q hq
    rw [List.getD_eq_getElem _ _ hq]
    exact hlt _ (List.getElem_mem hq)
  have hone : ∀ q < indices.length, chip.dims.getD (indices.getD q 0) 0 = 1 := by
    intro q hq
    rw [hc.given q hq, List.getD_eq_getElem _ _ (by simpa using hq), List.getElem_replicate]
  have hbox : ∀ js, InBox chip.dims js → js.length = a.dims.length ∧ ∀ q < indices.length, js.getD (indices.getD q 0) 0 = 0 := by
    intro js hjs
    have hl := hjs.length_eq.trans hc.len
    refine ⟨hl, ?_⟩
    intro q hq
    have hk : indices.getD q 0 < js.length := by rw [hl]; exact hmem q hq
    have hk' : indices.getD q 0 < chip.dims.length := by rw [hc.len]; exact hmem q hq
    have h1 := List.Forall₂.get hjs hk hk'
    have h2 := hone q hq
    rw [List.getD_eq_getElem _ _ hk'] at h2
    simp only [List.get_eq_getElem] at h1
    rw [List.getD_eq_getElem _ _ hk]
    omega
  obtain ⟨a', h1, h2, h3, h4⟩ := setSlice_ok (a := a) (block := chip) (bs := (List.range a.dims.length).map fun k => chipIndexMatch k indices ixs)
    (by simp [hc.len]) (by
    show List.Forall₂ _ _ _
    rw [List.forall₂_iff_get]
    refine ⟨by simp [hc.len], ?_⟩
    intro k hk1 hk2
    have hk : k < a.dims.length := hk2
    have hk3 : k < chip.dims.length := by rw [hc.len]; exact hk
    simp only [List.get_eq_getElem, List.getElem_zip, List.getElem_map, List.getElem_range]
    rw [← List.getD_eq_getElem _ 0 hk3, ← List.getD_eq_getElem _ 0 hk]
    by_cases h : k ∈ indices
    · obtain ⟨q, hq, rfl⟩ := List.getElem_of_mem h
      have := hj q hq
      rw [← List.getD_eq_getElem _ 0 hq, chipIndexMatch_given hn hlen hq, hone q hq]
      have e : a.dim (indices.getD q 0) = a.dims.getD (indices.getD q 0) 0 := by
        rw [Ten.dim, List.getD_eq_getElem _ _ (hmem q hq), List.getD_eq_getElem _ _ (hmem q hq)]
      omega
    · have e : a.dim k = a.dims.getD k 0 := by
        rw [Ten.dim, List.getD_eq_getElem _ _ hk, List.getD_eq_getElem _ _ hk]
      rw [chipIndexMatch_other h, hc.other k hk h, e, Nat.zero_add])
  refine ⟨a', h1, h2, ?_, ?_⟩
  · intro js full hjs hf
    obtain ⟨hl, h0⟩ := hbox js hjs
    have := h3 js hjs
    rw [shift_chips hn hlen hl h0 hf] at this
    exact this
  · rintro ix ⟨q, hq, hne⟩
    refine h4 ix ?_
    intro js hjs he
    obtain ⟨hl, h0⟩ := hbox js hjs
    apply hne
    have hk : indices.getD q 0 < js.length := by rw [hl]; exact hmem q hq
    have hz := h0 q hq
    rw [List.getD_eq_getElem _ _ hk] at hz
    have hm := chipIndexMatch_given hn hlen hq
    rw [he, List.getD_eq_getElem _ _ (by simp [shift, hl]; exact hmem q hq)]
    simp only [shift, List.getElem_zipWith, List.getElem_map, List.getElem_range]
    rw [hz, hm, Nat.add_zero]

/-- Position 2 of index 1 and position 1 of index 0: a single element of a matrix. -/
example : ∃ a', setChip [1, 0] (exM 3 4 0) (exM 1 1 50) [2, 1] = .ok a' ∧ a'.get [1, 2] = (exM 1 1 50).get [0, 0] := by
  obtain ⟨a', h1, -, h2, -⟩ := C41_set_chip_indices (exM 3 4 0) (exM 1 1 50) [1, 0] [2, 1] (by decide) (by decide) rfl
    ⟨by decide, by decide, by decide⟩ (by decide)
  exact ⟨a', h1, (h2 [0, 0] [1, 2] (by decide) ⟨by decide, by decide, by decide⟩).1⟩

/-- `get_chip<1>` of a matrix is its column. -/
theorem C41_get_chip_column (static : Bool) (a : Ten F) (R C j : ℕ) (ha : a.dims = [R, C]) (hj : j < C) :
    ∃ s, getChip static [1] a [j] = .ok s ∧ s.dims = [R, 1] ∧ ∀ i < R, s.get [i, 0] = a.get [i, j] := by
  have hfit : List.Forall₂ (fun (oe : ℕ × ℕ) n => oe.1 + oe.2 ≤ n) ([0, j].zip [R, 1]) a.dims := by
    rw [ha]; exact List.Forall₂.cons (by simp) (List.Forall₂.cons (by simp; omega) List.Forall₂.nil)
  refine ⟨⟨[R, 1], fun ix => a.get (shift [0, j] ix), fun _ => 1⟩, ?_, rfl, ?_⟩
  · rw [getChip, if_neg (by simp)]
    show getSlice static [1] a [j] [1] = _
    rw [getSlice_cols static ha]
    refine getSliceImpl_ok static hfit ?_
    intro i h1 h2
    match i, h1, h2 with
    | 1, _, _ => rfl
  · intro i _
    simp [shift]

/-- A column stored with `set_chip<1>` and read with `get_chip<1>`. -/
theorem C41_set_chip_get_chip_column (static : Bool) (a chip : Ten F) (R C j : ℕ) (ha : a.dims = [R, C]) (hc : chip.dims = [R, 1]) (hj : j < C) :
    ∃ a' s, setChip [1] a chip [j] = .ok a' ∧ getChip static [1] a' [j] = .ok s ∧ Same s chip := by
  obtain ⟨a', h1, h2, h3, -⟩ := C41_set_chip a chip 1 j (by simp [ha]) (by rw [hc, ha]; rfl) (by simp [Ten.dim, ha, hj])
  obtain ⟨s, g1, g2, g3⟩ := C41_get_chip_column static a' R C j (h2.trans ha) hj
  refine ⟨a', s, h1, g1, g2.trans hc.symm, ?_⟩
  intro ix hix
  rw [g2] at hix
  obtain ⟨i, k, rfl, hi, hk⟩ := inBox_pair.1 hix
  have hk0 : k = 0 := by omega
  subst hk0
  rw [g3 i hi]
  exact (h3 [i, 0] (by rw [hc, inBox_pair]; exact ⟨_, _, rfl, hi, by omega⟩)).1

/-- The column-by-column operation: column `j` of the result is the operation applied to column `j` of the argument, and each element is stored once. -/
theorem C41_chipwise_columns (static : Bool) (op : Ten F → ℕ → Ten F) (a : Ten F) (R C : ℕ) (ha : a.dims = [R, C]) (hop : ∀ c j, (op c j).dims = [R, 1]) :
    ∃ m, chipwise static 1 op a = .ok m ∧ m.dims = [R, C] ∧
      ∀ j < C, ∃ s, getChip static [1] a [j] = .ok s ∧ ∀ i < R, m.get [i, j] = (op s j).get [i, 0] ∧ m.writes [i, j] = 1 := by
  have hdim : a.dim 1 = C := by simp [Ten.dim, ha]
  suffices h : ∀ n ≤ C, ∃ m, (List.range n).foldlM (fun m i => do
      let c ← getChip static [1] a [i]
      setChip [1] m (op c i) [i]) (fresh a.dims) = .ok m ∧ m.dims = [R, C] ∧ (∀ i j, n ≤ j → m.writes [i, j] = 0) ∧
      ∀ j < n, ∃ s, getChip static [1] a [j] = .ok s ∧ ∀ i < R, m.get [i, j] = (op s j).get [i, 0] ∧ m.writes [i, j] = 1 by
    obtain ⟨m, h1, h2, -, h3⟩ := h C le_rfl
    refine ⟨m, ?_, h2, h3⟩
    rw [chipwise, hdim]; exact h1
  intro n
  induction n with
  | zero => intro _; exact ⟨fresh a.dims, rfl, ha, fun _ _ _ => rfl, by simp⟩
  | succ n ih =>
    intro hn
    obtain ⟨m, h1, h2, h0, h3⟩ := ih (by omega)
    obtain ⟨s, g1, g2, g3⟩ := C41_get_chip_column static a R C n ha (by omega)
    obtain ⟨m', k1, k2, k3, k4⟩ := C41_set_chip m (op s n) 1 n (by simp [h2]) (by rw [hop, h2]; rfl) (by simp [Ten.dim, h2]; omega)
    refine ⟨m', ?_, k2.trans h2, ?_, ?_⟩
    · rw [List.range_succ, List.foldlM_append, h1]
      simp only [List.foldlM_cons, List.foldlM_nil, bind, Except.bind, g1, k1]
      rfl
    · intro i j hj
      rw [(k4 [i, j] (by simp; omega)).2]; exact h0 i j (by omega)
    · intro j hj
      rcases Nat.lt_succ_iff_lt_or_eq.1 hj with hj | rfl
      · obtain ⟨t, t1, t2⟩ := h3 j hj
        refine ⟨t, t1, fun i hi => ?_⟩
        rw [(k4 [i, j] (by simp; omega)).1, (k4 [i, j] (by simp; omega)).2]
        exact t2 i hi
      · refine ⟨s, g1, fun i hi => ?_⟩
        have := k3 [i, 0] (by rw [hop, inBox_pair]; exact ⟨_, _, rfl, hi, by omega⟩)
        simp only [List.set_cons_succ, List.set_cons_zero] at this
        rw [this.1, this.2, h0 i j le_rfl]
        exact ⟨rfl, rfl⟩

example : (exM 3 4 0).dims = [3, 4] ∧ ∀ (c : Ten ℕ) (j : ℕ), (exM 3 1 (c.dims.length + j)).dims = [3, 1] := ⟨rfl, fun _ _ => rfl⟩

/-- Repeating a chip along one index of a tensor of any rank: every position of the index holds the operation's chip for it, stored once. -/
theorem C41_chipwise_nullary_partial (index : ℕ) (op : ℕ → Ten F) (n : ℕ) (D : List ℕ) (hD : index < D.length) (h1 : D.getD index 0 = 1)
    (hop : ∀ j, (op j).dims = D) (hn : 0 < n) :
    ∃ m, chipwiseNullary index op n = .ok m ∧ m.dims = D.set index n ∧
      ∀ j < n, ∀ js, InBox D js → m.get (js.set index j) = (op j).get js ∧ m.writes (js.set index j) = 1 := by
  have hd1 : (op 0).dim index = 1 := by
    rw [Ten.dim, hop, List.getD_eq_getElem _ _ hD]; rw [List.getD_eq_getElem _ _ hD] at h1; exact h1
  have hset1 : (D.set index n).set index 1 = D := by
    rw [List.set_set]
    conv_rhs => rw [← List.set_getElem_self (as := D) (i := index) hD]
    rw [List.getD_eq_getElem _ _ hD] at h1
    rw [h1]
  have hin : ∀ js, InBox D js → ∀ j, (js.set index j).getD index 0 = j := by
    intro js hjs j
    have hl := hjs.length_eq
    rw [List.getD_eq_getElem _ _ (by simp; omega), List.getElem_set_self]
  have step : ∀ (m : Ten F) j, m.dims = D.set index n → j < n → ∃ m', setChip [index] m (op j) [j] = .ok m' ∧ m'.dims = D.set index n ∧
      (∀ js, InBox D js → m'.get (js.set index j) = (op j).get js ∧ m'.writes (js.set index j) = m.writes (js.set index j) + 1) ∧
      (∀ ix, ix.getD index 0 ≠ j → m'.get ix = m.get ix ∧ m'.writes ix = m.writes ix) := by
    intro m j hm hj
    obtain ⟨m', a1, a2, a3, a4⟩ := C41_set_chip m (op j) index j (by rw [hm]; simpa using hD) (by rw [hop, hm, hset1]) (by
      rw [Ten.dim, hm, List.getD_eq_getElem _ _ (by simpa using hD), List.getElem_set_self]; exact hj)
    exact ⟨m', a1, a2.trans hm, fun js hjs => a3 js (by rw [hop]; exact hjs), a4⟩
  obtain ⟨m0, b1, b2, b3, b4⟩ := step (fresh (D.set index n)) 0 rfl hn
  suffices h : ∀ k, k + 1 ≤ n → ∃ m, (List.range' 1 k).foldlM (fun m j => setChip [index] m (op j) [j]) m0 = .ok m ∧ m.dims = D.set index n ∧
      (∀ ix, k + 1 ≤ ix.getD index 0 → m.writes ix = 0) ∧
      ∀ j < k + 1, ∀ js, InBox D js → m.get (js.set index j) = (op j).get js ∧ m.writes (js.set index j) = 1 by
    obtain ⟨m, c1, c2, -, c3⟩ := h (n - 1) (by omega)
    refine ⟨m, ?_, c2, fun j hj => c3 j (by omega)⟩
    rw [chipwiseNullary, hd1, Nat.one_mul, hop, b1]
    exact c1
  intro k
  induction k with
  | zero =>
    intro _
    refine ⟨m0, rfl, b2, ?_, ?_⟩
    · intro ix hix; rw [(b4 ix (by omega)).2]; rfl
    · intro j hj js hjs
      have hj0 : j = 0 := by omega
      subst hj0
      exact b3 js hjs
  | succ k ih =>
    intro hk
    obtain ⟨m, c1, c2, c0, c3⟩ := ih (by omega)
    obtain ⟨m', d1, d2, d3, d4⟩ := step m (k + 1) c2 (by omega)
    refine ⟨m', ?_, d2, ?_, ?_⟩
    · rw [List.range'_concat, List.foldlM_append, c1]
      simp only [List.foldlM_cons, List.foldlM_nil, bind, Except.bind, show 1 + 1 * k = k + 1 by omega, d1]
      rfl
    · intro ix hix; rw [(d4 ix (by omega)).2]; exact c0 ix (by omega)
    · intro j hj js hjs
      rcases Nat.lt_succ_iff_lt_or_eq.1 hj with hj | rfl
      · rw [(d4 _ (by rw [hin js hjs]; omega)).1, (d4 _ (by rw [hin js hjs]; omega)).2]
        exact c3 j hj js hjs
      · rw [(d3 js hjs).1, (d3 js hjs).2, c0 _ (by rw [hin js hjs])]
        exact ⟨rfl, rfl⟩

example : (1 : ℕ) < [3, 1].length ∧ [3, 1].getD 1 0 = 1 ∧ ∀ j, (exM 3 1 j).dims = [3, 1] := by
  exact ⟨by decide, rfl, fun _ => rfl⟩

/-- What is missing: zero repetitions store chip 0 into an object that has no position for it. -/
theorem C41_chipwise_nullary_violated : chipwiseNullary 1 (fun j => exM 3 1 j) 0 = .error .outOfRange := by
  rfl

/-! ## C40: tiling -/

/-- Blocks that exactly cover a matrix are accepted, every element of the result is stored exactly once, and the result is the block matrix.  The fuel is a
bound on the recursion depth, which is at most twice the number of blocks plus one. -/
theorem C40_tile (R C fuel : ℕ) (rows : List (List (Ten F))) (h : Fits R C rows) (h2 : 2 ≤ rows.flatten.length) (hf : 2 * rows.flatten.length < fuel) :
    ∃ m, tile fuel [R, C] rows.flatten = .ok m ∧ m.dims = [R, C] ∧
      (∀ i < R, ∀ j < C, m.get [i, j] = gridGet rows i j ∧ m.writes [i, j] = 1) ∧ (∀ i j, ¬ (i < R ∧ j < C) → m.writes [i, j] = 0) := by
  obtain ⟨m, h1, hd, hg, hw⟩ := grid_ok (R := R) (C := C) rows (fresh [R, C]) 0 [0, 0] rfl h.nonempty h.mats h.level h.wide (by simpa using h.high)
  refine ⟨m, ?_, hd, ?_, ?_⟩
  · have := h1 fuel hf
    match hfl : rows.flatten, h2 with
    | x :: y :: l, _ =>
      rw [hfl] at this
      exact this
  · intro i hi j hj
    rw [hg, hw, if_pos ⟨by omega, hi, hj⟩, if_pos ⟨by omega, hi, hj⟩]
    exact ⟨rfl, rfl⟩
  · intro i j hn
    rw [hw, if_neg (by rintro ⟨-, h3, h4⟩; exact hn ⟨h3, h4⟩)]; rfl

/-- Two rows: a 1×2 and a 1×1 block above a 2×3 block. -/
theorem exFits : Fits 3 3 [[exM 1 2 0, exM 1 1 50], [exM 2 3 100]] := by
  constructor <;> simp [exM, IsMat, Ten.rows, Ten.cols, rowHeight, widths]

example : Fits 3 3 [[exM 1 2 0, exM 1 1 50], [exM 2 3 100]] ∧ 2 ≤ [[exM 1 2 0, exM 1 1 50], [exM 2 3 100]].flatten.length := ⟨exFits, by decide⟩

/-- Which lists of nonempty blocks `tile` accepts: complete rows of blocks, followed by at most one row that stops short of the full width, all within the
height.  In particular a block of the wrong height, one that sticks out, or one too many, is never accepted. -/
theorem C40_tile_accepts (R C fuel : ℕ) (blocks : List (Ten F)) (m : Ten F) (hC : 0 < C) (hm : ∀ b ∈ blocks, IsMat b ∧ 0 < b.rows ∧ 0 < b.cols)
    (h2 : 2 ≤ blocks.length) (hok : tile fuel [R, C] blocks = .ok m) :
    ∃ (rows : List (List (Ten F))) (part : List (Ten F)), blocks = rows.flatten ++ part ∧ Fits (rows.map rowHeight).sum C rows ∧
      (∀ b ∈ part, b.rows = rowHeight part) ∧ widths part < C ∧ (rows.map rowHeight).sum + rowHeight part ≤ R := by
  have hrun : tileImpl 2 fuel 0 [0, 0] [0, 0] (fresh [R, C]) blocks = .ok m := by
    match blocks, h2 with
    | x :: y :: l, _ => exact hok
  obtain ⟨rows, part, e1, e2, e3, e4, e5, e6, e7⟩ := grid_accepts hC fuel blocks (fresh [R, C]) m 0 [0, 0] rfl hm (by omega) hrun
  refine ⟨rows, part, e1, ⟨e2, ?_, e3, e4, rfl⟩, e5, e6, by omega⟩
  intro r hr b hb
  exact hm b (by rw [e1]; simp only [List.mem_append, List.mem_flatten]; exact Or.inl ⟨r, hr, hb⟩)

/-- If the blocks have as many elements as the matrix, `tile` accepts them exactly if they are the rows of blocks of a block matrix. -/
theorem C40_tile_iff (R C fuel : ℕ) (blocks : List (Ten F)) (hC : 0 < C) (hm : ∀ b ∈ blocks, IsMat b ∧ 0 < b.rows ∧ 0 < b.cols)
    (h2 : 2 ≤ blocks.length) (hf : 2 * blocks.length < fuel) (harea : (blocks.map fun b => b.rows * b.cols).sum = R * C) :
    (∃ m, tile fuel [R, C] blocks = .ok m) ↔ ∃ rows, blocks = rows.flatten ∧ Fits R C rows := by
  constructor
  · rintro ⟨m, hok⟩
    obtain ⟨rows, part, e1, e2, e3, e4, e5⟩ := C40_tile_accepts R C fuel blocks m hC hm h2 hok
    change area blocks = R * C at harea
    rw [e1, area_append, area_flatten rows C e2.level e2.wide, area_level part _ e3] at harea
    have hpart : part = [] := by
      by_contra hne
      obtain ⟨b, l, hb⟩ := List.exists_cons_of_ne_nil hne
      have hpos : 0 < rowHeight part := by
        rw [hb]; exact (hm b (by rw [e1, hb]; simp)).2.1
      have h1 : rowHeight part * widths part < rowHeight part * C := Nat.mul_lt_mul_of_pos_left e4 hpos
      have h3 : ((rows.map rowHeight).sum + rowHeight part) * C ≤ R * C := Nat.mul_le_mul_right _ e5
      rw [Nat.add_mul] at h3
      omega
    subst hpart
    refine ⟨rows, by simpa using e1, ?_⟩
    have hR : (rows.map rowHeight).sum = R := by
      have : (rows.map rowHeight).sum * C = R * C := by simpa [rowHeight] using harea
      exact Nat.eq_of_mul_eq_mul_right hC this
    rw [← hR]; exact e2
  · rintro ⟨rows, rfl, hfit⟩
    obtain ⟨m, h, -⟩ := C40_tile R C fuel rows hfit h2 hf
    exact ⟨m, h⟩

/-- Misfitting lists that are accepted nevertheless: too few blocks leave elements without a value, and a single block is returned whatever its size. -/
theorem C40_tile_violated :
    (∃ m, tile 100 [3, 2] [exM 1 2 0, exM 1 2 50] = .ok m ∧ m.get [2, 0] = none) ∧
    (∃ m, tile 100 [3, 2] [exM 1 7 0] = .ok m ∧ m.dims ≠ [3, 2]) := by
  refine ⟨⟨_, rfl, rfl⟩, ⟨_, rfl, by decide⟩⟩

/-- With three indices the position after a finished slab advances by the size of the next block: the second block of a vertical concatenation of heights 2 and 1
overwrites the second row, and the third row has no value. -/
theorem C40_tile_rank3_violated :
    ∃ m, tile 100 [3, 1, 1] [⟨[2, 1, 1], fun ix => some (ix.getD 0 0), fun _ => 1⟩, ⟨[1, 1, 1], fun _ => some 70, fun _ => 1⟩] = .ok m ∧
      m.get [1, 0, 0] = some 70 ∧ m.writes [1, 0, 0] = 2 ∧ m.get [2, 0, 0] = none := by
  refine ⟨_, rfl, rfl, rfl, rfl⟩

/-! ## C40: concatenation -/

section
variable [Zero F]

omit [Zero F] in
theorem catDims_diag (args : List (Ten F)) : catDims [0, 1] args = .ok [heights args, widths args] := rfl

/-- Vertical concatenation stacks the operands. -/
theorem C40_concatenate_vertical_partial (fuel C : ℕ) (args : List (Ten F)) (hne : args ≠ []) (hm : ∀ b ∈ args, IsMat b ∧ 0 < b.rows ∧ 0 < b.cols)
    (hc : ∀ b ∈ args, b.cols = C) (hf : 2 * args.length < fuel) :
    ∃ m, concatenate fuel [0] args = .ok m ∧ m.dims = [heights args, C] ∧
      ∀ i < heights args, ∀ j < C, m.get [i, j] = gridGet (args.map fun b => [b]) i j := by
  have hcat : catDims [0] args = .ok [heights args, C] := by
    obtain ⟨b, l, rfl⟩ := List.exists_cons_of_ne_nil hne
    have : ¬ ∃ c ∈ l, c.dim 1 ≠ b.dim 1 := by
      rintro ⟨c, hcl, hcd⟩
      exact hcd ((hc c (by simp [hcl])).trans (hc b (by simp)).symm)
    unfold catDims
    simp only [List.mapM_cons, List.mapM_nil, bind, Except.bind, pure, Except.pure]
    simp only [List.mem_singleton, one_ne_zero, if_false, if_true]
    rw [if_neg this, show b.dim 1 = C from hc b (by simp)]
    rfl
  have hfits : Fits (heights args) C (args.map fun b => [b]) := by
    constructor
    · intro r hr; obtain ⟨b, -, rfl⟩ := List.mem_map.1 hr; simp
    · intro r hr c hcr
      obtain ⟨b, hb, rfl⟩ := List.mem_map.1 hr
      rw [List.mem_singleton.1 hcr]; exact hm b hb
    · intro r hr c hcr
      obtain ⟨b, hb, rfl⟩ := List.mem_map.1 hr
      rw [List.mem_singleton.1 hcr]; rfl
    · intro r hr
      obtain ⟨b, hb, rfl⟩ := List.mem_map.1 hr
      simp [widths, hc b hb]
    · rw [List.map_map]; rfl
  have hfl : (args.map fun b => [b]).flatten = args := by
    clear * -
    induction args with
    | nil => rfl
    | cons b l ih => simp [ih]
  match args, hne with
  | [b], _ =>
    refine ⟨b, ?_, ?_, ?_⟩
    · rw [concatenate, hcat]; rfl
    · rw [(hm b (by simp)).1.dims_eq, hc b (by simp)]; simp [heights]
    · intro i hi j hj
      have hi' : i < b.rows := by simpa [heights] using hi
      rw [List.map_cons, gridGet, if_pos (show i < rowHeight [b] from hi'), rowGet, if_pos (by rw [hc b (by simp)]; exact hj)]
  | b :: c :: l, _ =>
    obtain ⟨m, h1, h2, h3, -⟩ := C40_tile (heights (b :: c :: l)) C fuel _ hfits (by rw [hfl]; simp) (by rw [hfl]; exact hf)
    refine ⟨m, ?_, h2, fun i hi j hj => (h3 i hi j hj).1⟩
    rw [concatenate, hcat]
    rw [hfl] at h1
    exact h1

example : (∀ b ∈ [exM 2 3 0, exM 1 3 50], IsMat b ∧ 0 < b.rows ∧ 0 < b.cols) ∧ ∀ b ∈ [exM 2 3 0, exM 1 3 50], b.cols = 3 := by
  simp [exM, IsMat, Ten.rows, Ten.cols]

/-- What is missing: an operand without rows, placed last, makes the concatenation throw. -/
theorem C40_concatenate_empty_violated : concatenate 100 [0] [exM 2 1 0, exM 0 1 0] = .error .lengthError := by rfl

/-- Operands with different numbers of columns are rejected by a vertical concatenation. -/
theorem C40_concatenate_mismatch (fuel : ℕ) (args : List (Ten F)) (b c : Ten F) (hb : b ∈ args) (hc : c ∈ args) (h : b.cols ≠ c.cols) :
    concatenate fuel [0] args = .error .invalidArgument := by
  match args, hb with
  | a :: l, hb =>
    have hex : ∃ d ∈ l, d.dim 1 ≠ a.dim 1 := by
      by_contra hn
      push Not at hn
      have hall : ∀ d ∈ a :: l, d.cols = a.cols := by
        intro d hd
        rcases List.mem_cons.1 hd with rfl | hd
        · rfl
        · exact hn d hd
      exact h ((hall b hb).trans (hall c hc).symm)
    have hcat : catDims [0] (a :: l) = .error .invalidArgument := by
      unfold catDims
      simp only [List.mapM_cons, List.mapM_nil, bind, Except.bind, pure, Except.pure]
      simp only [List.mem_singleton, one_ne_zero, if_false, if_true]
      rw [if_pos hex]
    rw [concatenate, hcat]; rfl

/-- Horizontal concatenation lays the operands side by side. -/
theorem C40_concatenate_horizontal_partial (fuel R : ℕ) (args : List (Ten F)) (hne : args ≠ []) (hm : ∀ b ∈ args, IsMat b ∧ 0 < b.rows ∧ 0 < b.cols)
    (hr : ∀ b ∈ args, b.rows = R) (hf : 2 * args.length < fuel) :
    ∃ m, concatenate fuel [1] args = .ok m ∧ m.dims = [R, widths args] ∧ ∀ i < R, ∀ j < widths args, m.get [i, j] = rowGet args i j := by
  have hcat : catDims [1] args = .ok [R, widths args] := by
    obtain ⟨b, l, rfl⟩ := List.exists_cons_of_ne_nil hne
    have : ¬ ∃ c ∈ l, c.dim 0 ≠ b.dim 0 := by
      rintro ⟨c, hcl, hcd⟩
      exact hcd ((hr c (by simp [hcl])).trans (hr b (by simp)).symm)
    unfold catDims
    simp only [List.mapM_cons, List.mapM_nil, bind, Except.bind, pure, Except.pure]
    simp only [List.mem_singleton, zero_ne_one, if_false]
    rw [if_neg this, show b.dim 0 = R from hr b (by simp)]
    rfl
  have hrow : rowHeight args = R := by
    obtain ⟨b, l, rfl⟩ := List.exists_cons_of_ne_nil hne
    exact hr b (by simp)
  have hfits : Fits R (widths args) [args] := by
    constructor
    · intro r h; rw [List.mem_singleton.1 h]; exact hne
    · intro r h; rw [List.mem_singleton.1 h]; exact hm
    · intro r h; rw [List.mem_singleton.1 h, hrow]; exact hr
    · intro r h; rw [List.mem_singleton.1 h]
    · simp [hrow]
  match args, hne with
  | [b], _ =>
    refine ⟨b, ?_, ?_, ?_⟩
    · rw [concatenate, hcat]; rfl
    · rw [(hm b (by simp)).1.dims_eq, hr b (by simp)]; simp [widths]
    · intro i hi j hj
      rw [rowGet, if_pos (by simpa [widths] using hj)]
  | b :: c :: l, _ =>
    obtain ⟨m, h1, h2, h3, -⟩ := C40_tile R (widths (b :: c :: l)) fuel _ hfits (by simp) (by simpa using hf)
    refine ⟨m, ?_, h2, ?_⟩
    · rw [concatenate, hcat]
      rw [show [b :: c :: l].flatten = b :: c :: l by simp] at h1
      exact h1
    · intro i hi j hj
      rw [(h3 i hi j hj).1, gridGet, if_pos (by omega)]

/-- Diagonal concatenation is the block-diagonal matrix with zeros off the blocks. -/
theorem C40_concatenate_diagonal_partial (fuel : ℕ) (args : List (Ten F)) (hne : args ≠ []) (hm : ∀ b ∈ args, IsMat b ∧ 0 < b.rows ∧ 0 < b.cols)
    (hf : 2 * (args.length * args.length) < fuel) :
    ∃ m, concatenate fuel [0, 1] args = .ok m ∧ m.dims = [heights args, widths args] ∧
      ∀ i < heights args, ∀ j < widths args, m.get [i, j] = blockDiagGet args i j := by
  have hfits := diag_fits hm
  have hlen : (diagGrid args).flatten.length = args.length * args.length := by
    rw [diagGrid, List.length_flatten, List.map_map]
    simp [Function.comp_def]
  match args, hne with
  | [b], _ =>
    refine ⟨b, rfl, ?_, ?_⟩
    · rw [(hm b (by simp)).1.dims_eq]; simp [heights, widths]
    · intro i hi j hj
      rw [blockDiagGet, if_pos (by simpa [heights] using hi), if_pos (by simpa [widths] using hj)]
  | b :: c :: l, _ =>
    obtain ⟨m, h1, h2, h3, -⟩ := C40_tile _ _ fuel _ hfits (by rw [hlen]; simp; nlinarith) (by rw [hlen]; exact hf)
    refine ⟨m, ?_, h2, ?_⟩
    · rw [concatenate, catDims_diag, ← diagGrid_flatten]
      exact h1
    · intro i hi j hj
      rw [(h3 i hi j hj).1]
      exact diagGrid_get _ i j hi hj

example : ∀ b ∈ [exM 2 3 0, exM 1 4 50], IsMat b ∧ 0 < b.rows ∧ 0 < b.cols := by simp [exM, IsMat, Ten.rows, Ten.cols]

/-! ## C40: splitting -/

/-- `split<0, 1>` of a diagonal concatenation, by the operands' dimensions, returns the operands. -/
theorem C40_split_concatenate_diagonal_partial (static : Bool) (fuel : ℕ) (args : List (Ten F)) (hne : args ≠ [])
    (hm : ∀ b ∈ args, IsMat b ∧ 0 < b.rows ∧ 0 < b.cols) (hf : 2 * (args.length * args.length) < fuel) :
    ∃ m bs, concatenate fuel [0, 1] args = .ok m ∧ split static [0, 1] m (args.map fun b => [b.rows, b.cols]) = .ok bs ∧ List.Forall₂ Same bs args := by
  obtain ⟨m, h1, h2, h3⟩ := C40_concatenate_diagonal_partial fuel args hne hm hf
  obtain ⟨bs, g1, g2⟩ := splitImpl_diag static args m _ _ 0 0 h2 (fun b hb => (hm b hb).1) (by omega) (by omega) (by
    intro i j hi hj
    rw [Nat.zero_add, Nat.zero_add]; exact h3 i hi j hj)
  refine ⟨m, bs, h1, ?_, g2⟩
  have e0 : (List.map (fun s : List ℕ => s.getD 0 0) (args.map fun b => [b.rows, b.cols])).sum = heights args := by rw [List.map_map]; rfl
  have e1 : (List.map (fun s : List ℕ => s.getD 1 0) (args.map fun b => [b.rows, b.cols])).sum = widths args := by rw [List.map_map]; rfl
  rw [split, if_neg]
  · exact g1
  · rintro ⟨q, hq, hlt⟩
    simp [List.zipIdx] at hq
    rcases hq with rfl | rfl
    · rw [e0, show m.dim 0 = heights args by simp [Ten.dim, h2]] at hlt; omega
    · rw [e1, show m.dim 1 = widths args by simp [Ten.dim, h2]] at hlt; omega

/-- `split<0>` of a vertical concatenation returns the operands.  What is missing: this holds for columns only; see `C40_split_vertical_violated`. -/
theorem C40_split_concatenate_vertical_partial (static : Bool) (fuel : ℕ) (args : List (Ten F)) (hne : args ≠ [])
    (hm : ∀ b ∈ args, IsMat b ∧ 0 < b.rows ∧ b.cols = 1) (hf : 2 * args.length < fuel) :
    ∃ m bs, concatenate fuel [0] args = .ok m ∧ split static [0] m (args.map fun b => [b.rows]) = .ok bs ∧ List.Forall₂ Same bs args := by
  obtain ⟨m, h1, h2, h3⟩ := C40_concatenate_vertical_partial fuel 1 args hne (fun b hb => ⟨(hm b hb).1, (hm b hb).2.1, by rw [(hm b hb).2.2]; omega⟩)
    (fun b hb => (hm b hb).2.2) hf
  obtain ⟨bs, g1, g2⟩ := splitImpl_rows static args m _ 0 h2 (fun b hb => ⟨(hm b hb).1, (hm b hb).2.2⟩) (by omega) (by
    intro i hi
    rw [Nat.zero_add]; exact h3 i hi 0 (by omega))
  refine ⟨m, bs, h1, ?_, g2⟩
  have e0 : (List.map (fun s : List ℕ => s.getD 0 0) (args.map fun b => [b.rows])).sum = heights args := by rw [List.map_map]; rfl
  rw [split, if_neg]
  · exact g1
  · rintro ⟨q, hq, hlt⟩
    simp [List.zipIdx] at hq
    subst hq
    rw [e0, show m.dim 0 = heights args by simp [Ten.dim, h2]] at hlt; omega

example : ∀ b ∈ [exM 2 1 0, exM 3 1 50], IsMat b ∧ 0 < b.rows ∧ b.cols = 1 := by simp [exM, IsMat, Ten.rows, Ten.cols]

/-- `split<1>` of a horizontal concatenation of columns returns the columns.  What is missing: blocks with several columns; see
`C40_split_horizontal_violated`. -/
theorem C40_split_concatenate_horizontal_partial (static : Bool) (fuel R : ℕ) (args : List (Ten F)) (hne : args ≠ [])
    (hm : ∀ b ∈ args, IsMat b ∧ b.cols = 1 ∧ b.rows = R) (hR : 0 < R) (hf : 2 * args.length < fuel) :
    ∃ m bs, concatenate fuel [1] args = .ok m ∧ split static [1] m (args.map fun b => [b.cols]) = .ok bs ∧ List.Forall₂ Same bs args := by
  obtain ⟨m, h1, h2, h3⟩ := C40_concatenate_horizontal_partial fuel R args hne
    (fun b hb => ⟨(hm b hb).1, by rw [(hm b hb).2.2]; exact hR, by rw [(hm b hb).2.1]; omega⟩) (fun b hb => (hm b hb).2.2) hf
  obtain ⟨bs, g1, g2⟩ := splitImpl_cols static args m _ _ 0 h2 hm (by omega) (by
    intro i j hi hj
    rw [Nat.zero_add]; exact h3 i hi j hj)
  refine ⟨m, bs, h1, ?_, g2⟩
  have e0 : (List.map (fun s : List ℕ => s.getD 0 0) (args.map fun b => [b.cols])).sum = widths args := by rw [List.map_map]; rfl
  rw [split, if_neg]
  · exact g1
  · rintro ⟨q, hq, hlt⟩
    simp [List.zipIdx] at hq
    subst hq
    rw [e0, show m.dim 1 = widths args by simp [Ten.dim, h2]] at hlt; omega

/-- Splitting a vertical concatenation of blocks with several columns returns blocks with one column. -/
theorem C40_split_vertical_violated :
    ∃ m s t, concatenate 100 [0] [exM 2 3 0, exM 1 3 50] = .ok m ∧ split false [0] m [[2], [1]] = .ok [s, t] ∧ s.dims = [2, 1] ∧ t.dims = [1, 1] ∧
      ¬ Same s (exM 2 3 0) := by
  refine ⟨_, _, _, rfl, rfl, rfl, rfl, ?_⟩
  rintro ⟨h, -⟩
  revert h
  decide

/-- The same for a horizontal concatenation. -/
theorem C40_split_horizontal_violated :
    ∃ m s t, concatenate 100 [1] [exM 2 3 0, exM 2 1 50] = .ok m ∧ split false [1] m [[3], [1]] = .ok [s, t] ∧ s.dims = [2, 1] ∧ ¬ Same s (exM 2 3 0) := by
  refine ⟨_, _, _, rfl, rfl, rfl, ?_⟩
  rintro ⟨h, -⟩
  revert h
  decide

omit [Zero F] in
/-- Dimensions that together exceed the argument's are rejected. -/
theorem C40_split_too_large (static : Bool) (index : ℕ) (a : Ten F) (sizes : List ℕ) (h : a.dim index < sizes.sum) :
    split static [index] a (sizes.map fun s => [s]) = .error .logicError := by
  rw [split, if_pos]
  refine ⟨(index, 0), by simp [List.zipIdx], ?_⟩
  rw [List.map_map]
  have : ((fun s : List ℕ => s.getD (index, 0).2 0) ∘ fun s : ℕ => [s]) = id := by funext s; rfl
  rw [this, List.map_id]; exact h

example : (exM 3 4 0).dim 0 < [2, 2].sum := by decide

end

end OpenKalman.Slices
