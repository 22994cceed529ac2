import Verif.Proof.Tile

/-! # Lemmas for concatenation, splitting and chips -/

namespace OpenKalman.Slices

variable {F : Type}

theorem map_getD_range {β : Type} (l : List (Ten F)) (d : Ten F) (f : Ten F → β) : (List.range l.length).map (fun j => f (l.getD j d)) = l.map f := by
  apply List.ext_getElem
  · simp
  · intro i h1 h2
    simp at h2
    simp [List.getElem?_eq_getElem h2]

section
variable [Zero F]

/-- The block rows of the diagonal concatenation. -/
def diagGrid (args : List (Ten F)) : List (List (Ten F)) := (List.range args.length).map fun i => (List.range args.length).map fun j => diagBlock args i j

theorem diagGrid_flatten (args : List (Ten F)) :
    (diagGrid args).flatten = (List.range args.length).flatMap fun i => (List.range args.length).map fun j => diagBlock args i j := by
  rw [diagGrid, List.flatMap_def]

theorem diagBlock_rows (args : List (Ten F)) (i j : ℕ) : (diagBlock args i j).rows = (args.getD i (zeros [0, 0])).rows := by
  unfold diagBlock
  split_ifs with h
  · rfl
  · simp [zeros, Ten.rows]

theorem diagBlock_cols (args : List (Ten F)) (i j : ℕ) : (diagBlock args i j).cols = (args.getD j (zeros [0, 0])).cols := by
  unfold diagBlock
  split_ifs with h
  · rw [h]
  · simp [zeros, Ten.cols]

omit [Zero F] in
theorem rowHeight_map_range {n : ℕ} (hn : 0 < n) (f : ℕ → Ten F) : rowHeight ((List.range n).map f) = (f 0).rows := by
  obtain ⟨m, rfl⟩ : ∃ m, n = m + 1 := ⟨n - 1, by omega⟩
  rw [List.range_succ_eq_map]; rfl

theorem diag_fits {args : List (Ten F)} (hm : ∀ b ∈ args, IsMat b ∧ 0 < b.rows ∧ 0 < b.cols) :
    Fits (heights args) (widths args) (diagGrid args) := by
  have hget : ∀ i < args.length, args.getD i (zeros [0, 0]) ∈ args := by
    intro i hi; rw [List.getD_eq_getElem _ _ hi]; exact List.getElem_mem hi
  constructor
  · intro r hr
    obtain ⟨i, hi, rfl⟩ := List.mem_map.1 hr
    have h1 := List.mem_range.1 hi
    intro h
    have h2 := congrArg List.length h
    rw [List.length_map, List.length_range, List.length_nil] at h2; omega
  · intro r hr b hb
    obtain ⟨i, hi, rfl⟩ := List.mem_map.1 hr
    obtain ⟨j, hj, rfl⟩ := List.mem_map.1 hb
    rw [List.mem_range] at hi hj
    refine ⟨?_, ?_, ?_⟩
    · unfold diagBlock
      split_ifs
      · exact (hm _ (hget i hi)).1
      · simp [IsMat, zeros]
    · rw [diagBlock_rows]; exact (hm _ (hget i hi)).2.1
    · rw [diagBlock_cols]; exact (hm _ (hget j hj)).2.2
  · intro r hr b hb
    obtain ⟨i, hi, rfl⟩ := List.mem_map.1 hr
    obtain ⟨j, hj, rfl⟩ := List.mem_map.1 hb
    rw [List.mem_range] at hi hj
    rw [rowHeight_map_range (by omega), diagBlock_rows, diagBlock_rows]
  · intro r hr
    obtain ⟨i, hi, rfl⟩ := List.mem_map.1 hr
    rw [widths, List.map_map]
    have : (Ten.cols ∘ fun j => diagBlock args i j) = fun j => (args.getD j (zeros [0, 0])).cols := by
      funext j; exact diagBlock_cols args i j
    rw [this, map_getD_range args _ Ten.cols]; rfl
  · rw [diagGrid, List.map_map]
    have : ∀ i ∈ List.range args.length, (rowHeight ∘ fun i => (List.range args.length).map fun j => diagBlock args i j) i = (args.getD i (zeros [0, 0])).rows := by
      intro i hi
      rw [List.mem_range] at hi
      simp only [Function.comp]
      rw [rowHeight_map_range (by omega), diagBlock_rows]
    rw [List.map_congr_left this, map_getD_range args _ Ten.rows]; rfl

theorem rowGet_zeros (l : List (Ten F)) (hl : ∀ b ∈ l, ∀ ix, b.get ix = some 0) (i j : ℕ) (hj : j < widths l) : rowGet l i j = some 0 := by
  induction l generalizing j with
  | nil => simp [widths] at hj
  | cons b l ih =>
    rw [rowGet]
    split_ifs with h
    · exact hl b (by simp) _
    · refine ih (fun c hc => hl c (by simp [hc])) _ ?_
      simp [widths] at hj ⊢; omega

theorem gridGet_prepend (rows : List (Ten F × List (Ten F))) (c i j : ℕ) (h1 : ∀ p ∈ rows, p.1.cols = c ∧ p.1.rows = rowHeight p.2 ∧ ∀ ix, p.1.get ix = some 0)
    (hi : i < (rows.map fun p => rowHeight p.2).sum) :
    gridGet (rows.map fun p => p.1 :: p.2) i j = if j < c then some 0 else gridGet (rows.map Prod.snd) i (j - c) := by
  induction rows generalizing i with
  | nil => simp at hi
  | cons p rows ih =>
    obtain ⟨hc, hr, hz⟩ := h1 p (by simp)
    have hrow : rowHeight (p.1 :: p.2) = rowHeight p.2 := hr
    rw [List.map_cons, List.map_cons, gridGet, gridGet, hrow]
    by_cases hi' : i < rowHeight p.2
    · rw [if_pos hi', if_pos hi', rowGet, hz, hc]
    · rw [if_neg hi', if_neg hi']
      refine ih _ (fun q hq => h1 q (by simp [hq])) ?_
      simp only [List.map_cons, List.sum_cons] at hi
      omega

theorem diagGrid_cons (b : Ten F) (args : List (Ten F)) :
    diagGrid (b :: args) = (b :: args.map fun c => zeros [b.rows, c.cols]) ::
      ((List.range args.length).map fun i => zeros [(args.getD i (zeros [0, 0])).rows, b.cols] :: (List.range args.length).map fun j => diagBlock args i j) := by
  unfold diagGrid
  rw [List.length_cons, List.range_succ_eq_map, List.map_cons, List.map_cons, List.map_map, List.map_map]
  congr 1
  · congr 1
    rw [← map_getD_range args (zeros [0, 0]) fun c => zeros [b.rows, c.cols]]
    apply List.map_congr_left
    intro j _
    simp [diagBlock]
  · apply List.map_congr_left
    intro i _
    simp only [Function.comp, List.map_cons, List.map_map]
    congr 1
    apply List.map_congr_left
    intro j _
    simp [diagBlock]

theorem diagGrid_get (args : List (Ten F)) (i j : ℕ) (hi : i < heights args) (hj : j < widths args) :
    gridGet (diagGrid args) i j = blockDiagGet args i j := by
  induction args generalizing i j with
  | nil => simp [heights] at hi
  | cons b args ih =>
    rw [diagGrid_cons, gridGet, blockDiagGet]
    have hrow : rowHeight (b :: args.map fun c => (zeros [b.rows, c.cols] : Ten F)) = b.rows := rfl
    rw [hrow]
    by_cases hib : i < b.rows
    · rw [if_pos hib, if_pos hib, rowGet]
      by_cases hjb : j < b.cols
      · rw [if_pos hjb, if_pos hjb]
      · rw [if_neg hjb, if_neg hjb]
        refine rowGet_zeros _ ?_ _ _ ?_
        · intro c hc ix
          obtain ⟨d, -, rfl⟩ := List.mem_map.1 hc
          rfl
        · have : widths (args.map fun c => (zeros [b.rows, c.cols] : Ten F)) = widths args := by
            rw [widths, widths, List.map_map]; rfl
          rw [this]
          simp [widths] at hj ⊢; omega
    · rw [if_neg hib, if_neg hib]
      have hlen : i - b.rows < heights args := by simp [heights] at hi ⊢; omega
      have hpos : 0 < args.length := by
        rcases args with _ | ⟨c, args⟩
        · simp [heights] at hlen
        · simp
      have hpre := gridGet_prepend ((List.range args.length).map fun i =>
          ((zeros [(args.getD i (zeros [0, 0])).rows, b.cols] : Ten F), (List.range args.length).map fun j => diagBlock args i j)) b.cols (i - b.rows) j
        (by
          intro p hp
          obtain ⟨k, hk, rfl⟩ := List.mem_map.1 hp
          refine ⟨by simp [zeros, Ten.cols], ?_, fun ix => rfl⟩
          rw [rowHeight_map_range hpos, diagBlock_rows]
          simp [zeros, Ten.rows])
        (by
          rw [List.map_map]
          have : ∀ k ∈ List.range args.length, ((fun p : Ten F × List (Ten F) => rowHeight p.2) ∘ fun i =>
              ((zeros [(args.getD i (zeros [0, 0])).rows, b.cols] : Ten F), (List.range args.length).map fun j => diagBlock args i j)) k =
              (args.getD k (zeros [0, 0])).rows := by
            intro k _
            simp only [Function.comp]
            rw [rowHeight_map_range hpos, diagBlock_rows]
          rw [List.map_congr_left this, map_getD_range args _ Ten.rows]
          exact hlen)
      rw [List.map_map, List.map_map] at hpre
      simp only [Function.comp_def] at hpre
      rw [hpre]
      by_cases hjb : j < b.cols
      · rw [if_pos hjb, if_pos hjb]
      · rw [if_neg hjb, if_neg hjb]
        refine ih _ _ hlen ?_
        simp [widths] at hj ⊢; omega

end

/-! ### Slices of matrices -/

theorem getSlice_both {a : Ten F} {R C p q r c : ℕ} (static : Bool) (ha : a.dims = [R, C]) (hp : p + r ≤ R) (hq : q + c ≤ C) :
    getSlice static [0, 1] a [p, q] [r, c] = .ok ⟨[r, c], fun ix => a.get (shift [p, q] ix), fun _ => 1⟩ := by
  rw [getSlice_whole static (indices := [0, 1]) (offsets := [p, q]) (extents := [r, c]) (offs := [p, q]) (exts := [r, c]) (by simp) (by simp) rfl rfl]
  · refine getSliceImpl_ok static ?_ ?_
    · rw [ha]; exact List.Forall₂.cons hp (List.Forall₂.cons hq List.Forall₂.nil)
    · intro i h1 h2; simp at h1 h2; omega
  · rw [ha]
    constructor
    · rfl
    · intro k hk; match k, hk with
      | 0, _ => rfl
      | 1, _ => rfl
    · intro k hk hn; exfalso; simp at hk hn; omega
  · rw [ha]
    constructor
    · rfl
    · intro k hk; match k, hk with
      | 0, _ => rfl
      | 1, _ => rfl
    · intro k hk hn; exfalso; simp at hk hn; omega

theorem getSlice_rows {a : Ten F} {R C p r : ℕ} (static : Bool) (ha : a.dims = [R, C]) :
    getSlice static [0] a [p] [r] = getSliceImpl static a [p, 0] [r, C] 1 := by
  refine getSlice_whole static (offs := [p, 0]) (exts := [r, C]) (by simp) (by simp) rfl rfl ?_ ?_
  · rw [ha]
    refine ⟨rfl, ?_, ?_⟩
    · intro k hk; match k, hk with
      | 0, _ => rfl
    · intro k hk hn
      match k, hk with
      | 0, _ => simp at hn
      | 1, _ => rfl
  · rw [ha]
    refine ⟨rfl, ?_, ?_⟩
    · intro k hk; match k, hk with
      | 0, _ => rfl
    · intro k hk hn
      match k, hk with
      | 0, _ => simp at hn
      | 1, _ => simp [Ten.dim, ha]

theorem getSlice_cols {a : Ten F} {R C q c : ℕ} (static : Bool) (ha : a.dims = [R, C]) :
    getSlice static [1] a [q] [c] = getSliceImpl static a [0, q] [R, c] 1 := by
  refine getSlice_whole static (offs := [0, q]) (exts := [R, c]) (by simp) (by simp) rfl rfl ?_ ?_
  · rw [ha]
    refine ⟨rfl, ?_, ?_⟩
    · intro k hk; match k, hk with
      | 0, _ => rfl
    · intro k hk hn
      match k, hk with
      | 0, _ => rfl
      | 1, _ => simp at hn
  · rw [ha]
    refine ⟨rfl, ?_, ?_⟩
    · intro k hk; match k, hk with
      | 0, _ => rfl
    · intro k hk hn
      match k, hk with
      | 0, _ => simp [Ten.dim, ha]
      | 1, _ => simp at hn

/-- Splitting what looks like a block-diagonal matrix from `(p, q)` on. -/
theorem splitImpl_diag [Zero F] (static : Bool) (args : List (Ten F)) (a : Ten F) (R C p q : ℕ) (ha : a.dims = [R, C]) (hm : ∀ b ∈ args, IsMat b)
    (hp : p + heights args ≤ R) (hq : q + widths args ≤ C)
    (hget : ∀ i j, i < heights args → j < widths args → a.get [p + i, q + j] = blockDiagGet args i j) :
    ∃ bs, splitImpl static [0, 1] a [p, q] (args.map fun b => [b.rows, b.cols]) = .ok bs ∧ List.Forall₂ Same bs args := by
  induction args generalizing p q with
  | nil => exact ⟨[], rfl, List.Forall₂.nil⟩
  | cons b args ih =>
    have hh : heights (b :: args) = b.rows + heights args := by simp [heights]
    have hw : widths (b :: args) = b.cols + widths args := by simp [widths]
    obtain ⟨bs, h1, h2⟩ := ih (p + b.rows) (q + b.cols) (fun c hc => hm c (by simp [hc])) (by omega) (by omega) (by
      intro i j hi hj
      have := hget (b.rows + i) (b.cols + j) (by omega) (by omega)
      rw [blockDiagGet, if_neg (by omega), if_neg (by omega)] at this
      rw [Nat.add_assoc, Nat.add_assoc, this]
      congr 1 <;> omega)
    refine ⟨⟨[b.rows, b.cols], fun ix => a.get (shift [p, q] ix), fun _ => 1⟩ :: bs, ?_, List.Forall₂.cons ?_ h2⟩
    · rw [List.map_cons, splitImpl, getSlice_both static ha (by omega) (by omega)]
      show (do let bs ← splitImpl static [0, 1] a [p + b.rows, q + b.cols] _; Except.ok (_ :: bs)) = _
      rw [h1]; rfl
    · have hd := (hm b (by simp)).dims_eq
      refine ⟨hd.symm, ?_⟩
      intro ix hix
      obtain ⟨i, j, rfl, hi, hj⟩ := inBox_pair.1 hix
      have := hget i j (by omega) (by omega)
      rw [blockDiagGet, if_pos hi, if_pos hj] at this
      exact this

/-- Splitting a column. -/
theorem splitImpl_rows (static : Bool) (args : List (Ten F)) (a : Ten F) (R p : ℕ) (ha : a.dims = [R, 1]) (hm : ∀ b ∈ args, IsMat b ∧ b.cols = 1)
    (hp : p + heights args ≤ R)
    (hget : ∀ i, i < heights args → a.get [p + i, 0] = gridGet (args.map fun b => [b]) i 0) :
    ∃ bs, splitImpl static [0] a [p] (args.map fun b => [b.rows]) = .ok bs ∧ List.Forall₂ Same bs args := by
  induction args generalizing p with
  | nil => exact ⟨[], rfl, List.Forall₂.nil⟩
  | cons b args ih =>
    have hh : heights (b :: args) = b.rows + heights args := by simp [heights]
    obtain ⟨hbm, hbc⟩ := hm b (by simp)
    obtain ⟨bs, h1, h2⟩ := ih (p + b.rows) (fun c hc => hm c (by simp [hc])) (by omega) (by
      intro i hi
      have := hget (b.rows + i) (by omega)
      rw [List.map_cons, gridGet] at this
      rw [show rowHeight [b] = b.rows from rfl] at this
      rw [if_neg (by omega)] at this
      rw [Nat.add_assoc, this]
      congr 1; omega)
    refine ⟨⟨[b.rows, 1], fun ix => a.get (shift [p, 0] ix), fun _ => 1⟩ :: bs, ?_, List.Forall₂.cons ?_ h2⟩
    · rw [List.map_cons, splitImpl, getSlice_rows static ha, getSliceImpl_ok static]
      · show (do let bs ← splitImpl static [0] a [p + b.rows] _; Except.ok (_ :: bs)) = _
        rw [h1]; rfl
      · rw [ha]; exact List.Forall₂.cons (by simp; omega) (List.Forall₂.cons (by simp) List.Forall₂.nil)
      · intro i h1 h2
        match i, h1, h2 with
        | 1, _, _ => rfl
    · have hd := hbm.dims_eq
      rw [hbc] at hd
      refine ⟨hd.symm, ?_⟩
      intro ix hix
      obtain ⟨i, j, rfl, hi, hj⟩ := inBox_pair.1 hix
      have hj0 : j = 0 := by omega
      subst hj0
      have := hget i (by omega)
      rw [List.map_cons, gridGet] at this
      rw [show rowHeight [b] = b.rows from rfl] at this
      rw [if_pos hi, rowGet, if_pos (by omega)] at this
      exact this

/-- Splitting a matrix into single columns. -/
theorem splitImpl_cols (static : Bool) (args : List (Ten F)) (a : Ten F) (R C q : ℕ) (ha : a.dims = [R, C]) (hm : ∀ b ∈ args, IsMat b ∧ b.cols = 1 ∧ b.rows = R)
    (hq : q + widths args ≤ C)
    (hget : ∀ i j, i < R → j < widths args → a.get [i, q + j] = rowGet args i j) :
    ∃ bs, splitImpl static [1] a [q] (args.map fun b => [b.cols]) = .ok bs ∧ List.Forall₂ Same bs args := by
  induction args generalizing q with
  | nil => exact ⟨[], rfl, List.Forall₂.nil⟩
  | cons b args ih =>
    have hw : widths (b :: args) = b.cols + widths args := by simp [widths]
    obtain ⟨hbm, hbc, hbr⟩ := hm b (by simp)
    obtain ⟨bs, h1, h2⟩ := ih (q + b.cols) (fun c hc => hm c (by simp [hc])) (by omega) (by
      intro i j hi hj
      have := hget i (b.cols + j) hi (by omega)
      rw [rowGet, if_neg (by omega)] at this
      rw [Nat.add_assoc, this]
      congr 1; omega)
    refine ⟨⟨[R, b.cols], fun ix => a.get (shift [0, q] ix), fun _ => 1⟩ :: bs, ?_, List.Forall₂.cons ?_ h2⟩
    · rw [List.map_cons, splitImpl, getSlice_cols static ha, getSliceImpl_ok static]
      · show (do let bs ← splitImpl static [1] a [q + b.cols] _; Except.ok (_ :: bs)) = _
        rw [h1]; rfl
      · rw [ha]; exact List.Forall₂.cons (by simp) (List.Forall₂.cons (by simp; omega) List.Forall₂.nil)
      · intro i h1 h2
        match i, h1, h2 with
        | 1, _, _ => exact hbc
    · have hd := hbm.dims_eq
      rw [hbr] at hd
      refine ⟨hd.symm, ?_⟩
      intro ix hix
      obtain ⟨i, j, rfl, hi, hj⟩ := inBox_pair.1 hix
      have := hget i j hi (by omega)
      rw [rowGet, if_pos hj] at this
      rw [← this]
      simp [shift]

/-! ### Chips -/

theorem chip_begin (r index j : ℕ) :
    (List.range r).map (fun k => chipIndexMatch k [index] [j]) = (List.replicate r 0).set index j := by
  apply List.ext_getElem
  · simp
  · intro k h1 h2
    simp only [List.getElem_map, List.getElem_range, chipIndexMatch, List.getElem_set, List.getElem_replicate]
    by_cases h : k = index
    · rw [if_pos h, if_pos h.symm]
    · rw [if_neg h, if_neg (fun h' => h h'.symm)]

theorem shift_chip {r index j : ℕ} {js : List ℕ} (hl : js.length = r) (h0 : js.getD index 0 = 0) :
    shift ((List.replicate r 0).set index j) js = js.set index j := by
  apply List.ext_getElem
  · simp [shift, hl]
  · intro k h1 h2
    simp only [shift, List.getElem_zipWith, List.getElem_set, List.getElem_replicate]
    have hk : k < js.length := by simpa using h2
    by_cases h : index = k
    · subst h
      rw [List.getD_eq_getElem _ _ hk] at h0
      rw [if_pos rfl, if_pos rfl, h0, Nat.add_zero]
    · rw [if_neg h, if_neg h, Nat.zero_add]

theorem chipIndexMatch_other {k : ℕ} : ∀ {indices ixs : List ℕ}, k ∉ indices → chipIndexMatch k indices ixs = 0
  | [], _, _ => by rw [chipIndexMatch]; simp
  | _ :: _, [], _ => by rw [chipIndexMatch]; simp
  | ix :: indices, i :: ixs, h => by
    rw [chipIndexMatch, if_neg (fun e => h (by simp [e])), chipIndexMatch_other (fun e => h (by simp [e]))]

theorem chipIndexMatch_given : ∀ {indices ixs : List ℕ} (_ : indices.Nodup) (_ : indices.length = ixs.length) {q : ℕ} (_ : q < indices.length),
    chipIndexMatch (indices.getD q 0) indices ixs = ixs.getD q 0
  | ix :: indices, i :: ixs, _, _, 0, _ => by rw [chipIndexMatch]; simp
  | ix :: indices, i :: ixs, hn, hl, q + 1, hq => by
    have hq' : q < indices.length := by simpa using hq
    have hne : indices.getD q 0 ≠ ix := by
      rw [List.getD_eq_getElem _ _ hq']
      intro e
      exact (List.nodup_cons.1 hn).1 (e ▸ List.getElem_mem hq')
    rw [List.getD_cons_succ, List.getD_cons_succ, chipIndexMatch, if_neg hne]
    exact chipIndexMatch_given (List.nodup_cons.1 hn).2 (by simpa using hl) hq'

/-- The position at which a chip with several fixed indices begins. -/
theorem shift_chips {r : ℕ} {indices ixs js full : List ℕ} (hn : indices.Nodup) (hlen : indices.length = ixs.length) (hl : js.length = r)
    (h0 : ∀ q < indices.length, js.getD (indices.getD q 0) 0 = 0) (hf : Expands r indices ixs (fun k => js.getD k 0) full) :
    shift ((List.range r).map fun k => chipIndexMatch k indices ixs) js = full := by
  apply List.ext_getElem
  · simp [shift, hl, hf.len]
  · intro k h1 h2
    have hk : k < js.length := by rw [hl, ← hf.len]; exact h2
    simp only [shift, List.getElem_zipWith, List.getElem_map, List.getElem_range]
    rw [← List.getD_eq_getElem _ 0 h2, ← List.getD_eq_getElem _ 0 hk]
    by_cases h : k ∈ indices
    · obtain ⟨q, hq, rfl⟩ := List.getElem_of_mem h
      rw [← List.getD_eq_getElem _ 0 hq, chipIndexMatch_given hn hlen hq, h0 q hq, hf.given q hq, Nat.add_zero]
    · rw [chipIndexMatch_other h, hf.other k (by rw [← hf.len]; exact h2) h, Nat.zero_add]

end OpenKalman.Slices
