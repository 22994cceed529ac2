import Verif.Model.Comma
import Verif.Proof.CovArith

/-! # Lemmas on comma initialisers -/

namespace OpenKalman.Comma

variable {α : Type}

theorem newRow_of_full {s : CI α} {b : Block α} (h : s.col = s.cols) (hb : b.Proper) : s.newRow b = { s with row := s.row + s.brows, col := 0, brows := b.rows } := by
  rw [CI.newRow, if_pos ⟨h, Or.inl hb.2.ne'⟩]

theorem newRow_of_not_full {s : CI α} {b : Block α} (h : s.col ≠ s.cols) : s.newRow b = s := by
  rw [CI.newRow, if_neg fun h' => h h'.1]

/-- The state before the first block: the end of a row of no height. -/
def CI.before (rows cols : ℕ) (M : ℕ → ℕ → α) : CI α := ⟨rows, cols, M, 0, cols, 0⟩

theorem start_eq {rows cols : ℕ} {M : ℕ → ℕ → α} {b : Block α} (hb : b.Proper) : CI.start rows cols M b = (CI.before rows cols M).comma b := by
  have hn : (CI.before rows cols M).newRow b = ⟨rows, cols, M, 0, 0, b.rows⟩ := newRow_of_full rfl hb
  simp only [CI.start, CI.comma, hn, Nat.zero_add, and_true]

/-- The blocks that go on in a row. -/
theorem row_fill (bs : List (Block α)) : ∀ (s : CI α), (∀ b ∈ bs, b.Proper) → (∀ b ∈ bs, b.rows = s.brows) → s.col + width bs ≤ s.cols → s.row + s.brows ≤ s.rows →
    ∃ M', bs.foldlM CI.comma s = .ok { s with M := M', col := s.col + width bs } ∧
      ∀ i j, M' i j = if s.row ≤ i ∧ i < s.row + s.brows ∧ s.col ≤ j ∧ j < s.col + width bs then (rowVal bs (i - s.row) (j - s.col)).getD (s.M i j) else s.M i j := by
  induction bs with
  | nil =>
    intro s _ _ _ _
    refine ⟨s.M, by simp [width, pure, Except.pure], fun i j => ?_⟩
    simp [rowVal]
  | cons b bs ih =>
    intro s hp hr hw hh
    have hb : b.Proper := hp b (by simp)
    have hbr : b.rows = s.brows := hr b (by simp)
    have hwb : width (b :: bs) = b.cols + width bs := by simp [width]
    have hnf : s.col ≠ s.cols := by have := hb.2; omega
    have hstep : s.comma b = .ok { s with M := write s.M s.row s.col b, col := s.col + b.cols } := by
      simp only [CI.comma, newRow_of_not_full hnf]
      rw [if_pos ⟨hh, by omega, hbr.symm⟩]
    obtain ⟨M', h1, h2⟩ := ih { s with M := write s.M s.row s.col b, col := s.col + b.cols } (fun c hc => hp c (by simp [hc])) (fun c hc => hr c (by simp [hc]))
      (by simp only; omega) hh
    refine ⟨M', ?_, fun i j => ?_⟩
    · rw [List.foldlM_cons, hstep]
      simp only [bind, Except.bind]
      rw [h1, hwb]
      simp only [Nat.add_assoc]
    · rw [h2]
      simp only [write, hwb, rowVal]
      by_cases hi : s.row ≤ i ∧ i < s.row + s.brows
      · by_cases hj : s.col ≤ j ∧ j < s.col + b.cols
        · rw [if_neg (by omega), if_pos (by omega), if_pos (by omega), if_pos (by omega)]
          rfl
        · by_cases hj' : s.col + b.cols ≤ j ∧ j < s.col + b.cols + width bs
          · rw [if_pos (by omega), if_neg (by omega), if_pos (by omega), if_neg (by omega), Nat.sub_add_eq]
          · rw [if_neg (by omega), if_neg (by omega), if_neg (by omega)]
      · rw [if_neg (by omega), if_neg (by omega), if_neg (by omega)]

/-- A new row. -/
theorem new_row_fill (r : Row α) (s : CI α) (hp : ∀ b ∈ r.blocks, b.Proper) (hf : r.Fills s.cols) (hc : s.col = s.cols) (hh : s.row + s.brows + r.height ≤ s.rows) :
    ∃ M', r.blocks.foldlM CI.comma s = .ok { s with M := M', row := s.row + s.brows, brows := r.height } ∧
      ∀ i j, M' i j = if s.row + s.brows ≤ i ∧ i < s.row + s.brows + r.height ∧ j < s.cols then (rowVal r.blocks (i - (s.row + s.brows)) j).getD (s.M i j) else s.M i j := by
  obtain ⟨hne, hr, hw⟩ := hf
  obtain ⟨b, bs, hbs⟩ := List.exists_cons_of_ne_nil hne
  have hb : b.Proper := hp b (by simp [hbs])
  have hbr : b.rows = r.height := hr b (by simp [hbs])
  have hwb : b.cols + width bs = s.cols := by rw [← hw, hbs]; simp [width]
  have hb2 := hb.2
  -- the first block is written as if the row had begun
  let s' : CI α := { s with row := s.row + s.brows, col := 0, brows := r.height }
  have hfirst : s.comma b = s'.comma b := by
    have h1 : s.newRow b = s' := by rw [newRow_of_full hc hb, hbr]
    have h2 : s'.newRow b = s' := newRow_of_not_full (by show 0 ≠ s.cols; omega)
    simp only [CI.comma, h1, h2]
  have hall : r.blocks.foldlM CI.comma s = r.blocks.foldlM CI.comma s' := by rw [hbs, List.foldlM_cons, List.foldlM_cons, hfirst]
  obtain ⟨M', h1, h2⟩ := row_fill r.blocks s' hp (fun c hc => hr c hc) (by show 0 + width r.blocks ≤ s.cols; omega) hh
  refine ⟨M', ?_, fun i j => ?_⟩
  · rw [hall, h1]
    simp only [s', hw, Nat.zero_add, ← hc]
  · rw [h2]
    simp only [s', hw, Nat.zero_add, Nat.zero_le, true_and, Nat.sub_zero]

/-- The rows of a tableau. -/
theorem tab_fill (t : List (Row α)) : ∀ (s : CI α), (∀ r ∈ t, ∀ b ∈ r.blocks, b.Proper) → (∀ r ∈ t, r.Fills s.cols) → s.col = s.cols → s.row + s.brows + total t ≤ s.rows →
    ∃ s', (blocksOf t).foldlM CI.comma s = .ok s' ∧ s'.rows = s.rows ∧ s'.cols = s.cols ∧ s'.col = s.cols ∧ s'.row + s'.brows = s.row + s.brows + total t ∧
      ∀ i j, s'.M i j = if s.row + s.brows ≤ i ∧ i < s.row + s.brows + total t ∧ j < s.cols then (tabVal t (i - (s.row + s.brows)) j).getD (s.M i j) else s.M i j := by
  induction t with
  | nil =>
    intro s _ _ hc _
    exact ⟨s, rfl, rfl, rfl, hc, by simp [total], fun i j => by simp [tabVal]⟩
  | cons r t ih =>
    intro s hp hf hc hh
    have ht : total (r :: t) = r.height + total t := by simp [total]
    obtain ⟨M', h1, h2⟩ := new_row_fill r s (hp r (by simp)) (hf r (by simp)) hc (by omega)
    obtain ⟨s', k1, k2, k3, k4, k5, k6⟩ := ih { s with M := M', row := s.row + s.brows, brows := r.height } (fun q hq => hp q (by simp [hq]))
      (fun q hq => hf q (by simp [hq])) hc (by simp only; omega)
    refine ⟨s', ?_, k2, k3, k4, by simp only at k5; omega, fun i j => ?_⟩
    · have : blocksOf (r :: t) = r.blocks ++ blocksOf t := by simp [blocksOf]
      rw [this, List.foldlM_append, h1]
      exact k1
    · rw [k6]
      simp only [h2, ht, tabVal]
      by_cases hj : j < s.cols
      · by_cases hi : s.row + s.brows ≤ i ∧ i < s.row + s.brows + r.height
        · rw [if_neg (by omega), if_pos (by omega), if_pos (by omega), if_pos (by omega)]
        · by_cases hi' : s.row + s.brows + r.height ≤ i ∧ i < s.row + s.brows + r.height + total t
          · rw [if_pos (by omega), if_neg (by omega), if_pos (by omega), if_neg (by omega), Nat.sub_add_eq]
          · rw [if_neg (by omega), if_neg (by omega), if_neg (by omega)]
      · rw [if_neg (by omega), if_neg (by omega), if_neg (by omega)]

theorem rowVal_isSome (bs : List (Block α)) (i j : ℕ) (h : j < width bs) : (rowVal bs i j).isSome = true := by
  induction bs generalizing j with
  | nil => simp [width] at h
  | cons b bs ih =>
    have hwb : width (b :: bs) = b.cols + width bs := by simp [width]
    simp only [rowVal]
    split
    · rfl
    · exact ih _ (by omega)

theorem tabVal_isSome {cols : ℕ} (t : List (Row α)) (hf : ∀ r ∈ t, r.Fills cols) (i j : ℕ) (hi : i < total t) (hj : j < cols) : (tabVal t i j).isSome = true := by
  induction t generalizing i with
  | nil => simp [total] at hi
  | cons r t ih =>
    have ht : total (r :: t) = r.height + total t := by simp [total]
    simp only [tabVal]
    split
    · exact rowVal_isSome _ _ _ (by rw [(hf r (by simp)).2.2]; exact hj)
    · exact ih (fun q hq => hf q (by simp [hq])) _ (by omega)

/-- What has been accepted is the rest of a row followed by a tableau. -/
theorem accepted (bs : List (Block α)) : ∀ (s : CI α) (N : ℕ → ℕ → α), (∀ b ∈ bs, b.Proper) → 0 < s.cols → s.col ≤ s.cols →
    (bs.foldlM CI.comma s).bind CI.finished = .ok N →
    ∃ (rest : List (Block α)) (t : List (Row α)), bs = rest ++ blocksOf t ∧ (∀ b ∈ rest, b.rows = s.brows) ∧ s.col + width rest = s.cols ∧ (∀ r ∈ t, r.Fills s.cols) ∧
      s.row + s.brows + total t = s.rows := by
  induction bs with
  | nil =>
    intro s N _ hpos _ h
    simp only [List.foldlM_nil, pure, Except.pure, Except.bind, CI.finished] at h
    split at h
    · rename_i hc
      exact ⟨[], [], rfl, by simp, by simp [width, hc.2], by simp, by rcases hc.1 with h1 | h1; (· simp [total, h1]); (· omega)⟩
    · cases h
  | cons b bs ih =>
    intro s N hp hpos hle h
    have hb : b.Proper := hp b (by simp)
    have hb2 := hb.2
    rw [List.foldlM_cons] at h
    by_cases hc : s.col = s.cols
    · -- a new row begins
      simp only [CI.comma, newRow_of_full hc hb] at h
      split at h
      · rename_i hcond
        obtain ⟨rest, t, e1, e2, e3, e4, e5⟩ := ih { s with M := write s.M (s.row + s.brows) 0 b, row := s.row + s.brows, col := 0 + b.cols, brows := b.rows } N
          (fun c hc => hp c (by simp [hc])) hpos (by simp only; omega) h
        refine ⟨[], ⟨b.rows, b :: rest⟩ :: t, by simp [blocksOf, e1], by simp, by simp [width, hc], ?_, ?_⟩
        · intro r hr
          rcases List.mem_cons.1 hr with rfl | hr
          · refine ⟨by simp, fun c hc => ?_, ?_⟩
            · rcases List.mem_cons.1 hc with rfl | hc
              · rfl
              · exact e2 c hc
            · simp only [width, List.map_cons, List.sum_cons] at e3 ⊢
              simpa using e3
          · exact e4 r hr
        · simp only [total, List.map_cons, List.sum_cons] at e5 ⊢
          omega
      · cases h
    · simp only [CI.comma, newRow_of_not_full hc] at h
      split at h
      · rename_i hcond
        obtain ⟨rest, t, e1, e2, e3, e4, e5⟩ := ih { s with M := write s.M s.row s.col b, col := s.col + b.cols } N
          (fun c hc => hp c (by simp [hc])) hpos (by simp only; omega) h
        refine ⟨b :: rest, t, by simp [e1], fun c hc => ?_, ?_, e4, e5⟩
        · rcases List.mem_cons.1 hc with rfl | hc
          · exact hcond.2.2.symm
          · exact e2 c hc
        · simp only [width, List.map_cons, List.sum_cons] at e3 ⊢
          omega
      · cases h

/-- Writing a tableau. -/
theorem fill_tableau {rows cols : ℕ} (M : ℕ → ℕ → α) (t : List (Row α)) (b : Block α) (bs : List (Block α)) (ht : Tableau rows cols t) (hb : blocksOf t = b :: bs)
    (hp : ∀ c ∈ b :: bs, c.Proper) :
    ∃ N, fill rows cols M b bs = .ok N ∧ (∀ i j, i < rows → j < cols → some (N i j) = tabVal t i j) ∧ ∀ i j, ¬ (i < rows ∧ j < cols) → N i j = M i j := by
  have hp' : ∀ r ∈ t, ∀ c ∈ r.blocks, c.Proper := fun r hr c hc => hp c (by
    rw [← hb, blocksOf, List.mem_flatten]
    exact ⟨r.blocks, List.mem_map.2 ⟨r, hr, rfl⟩, hc⟩)
  obtain ⟨s', h1, h2, h3, h4, h5, h6⟩ := tab_fill t (CI.before rows cols M) hp' ht.1 rfl (by simp [CI.before, ht.2])
  have h6 : ∀ i j, s'.M i j = if 0 ≤ i ∧ i < total t ∧ j < cols then (tabVal t i j).getD (M i j) else M i j := by
    intro i j
    rw [h6 i j]
    simp only [CI.before, Nat.add_zero, Nat.zero_add, Nat.sub_zero]
  have hitems : CI.items rows cols M b bs = .ok s' := by
    rw [CI.items, start_eq (hp b (by simp)), ← h1, hb, List.foldlM_cons]
    rfl
  simp only [CI.before] at h2 h3 h4 h5
  refine ⟨s'.M, ?_, fun i j hi hj => ?_, fun i j hij => ?_⟩
  · simp only [fill, hitems, Except.bind, CI.finished]
    rw [if_pos ⟨Or.inl (by rw [h5, h2, ht.2]; simp), by rw [h4, h3]⟩]
  · have hs := tabVal_isSome t ht.1 i j (by rw [ht.2]; exact hi) hj
    obtain ⟨v, hv⟩ := Option.isSome_iff_exists.1 hs
    have h7 := h6 i j
    rw [if_pos ⟨by omega, by rw [ht.2]; omega, hj⟩] at h7
    simp [h7, hv]
  · rw [h6, if_neg (by rw [ht.2]; omega)]

theorem fill_accepted {rows cols : ℕ} {M N : ℕ → ℕ → α} {b : Block α} {bs : List (Block α)} (hp : ∀ c ∈ b :: bs, c.Proper) (hcols : 0 < cols)
    (h : fill rows cols M b bs = .ok N) : ∃ t, Tableau rows cols t ∧ blocksOf t = b :: bs := by
  have h' : ((b :: bs).foldlM CI.comma (CI.before rows cols M)).bind CI.finished = .ok N := by
    rw [← h, fill, CI.items, start_eq (hp b (by simp)), List.foldlM_cons]
    rfl
  obtain ⟨rest, t, e1, _, e3, e4, e5⟩ := accepted (b :: bs) _ N hp hcols le_rfl h'
  simp only [CI.before] at e3 e4 e5
  have hr : rest = [] := by
    cases rest with
    | nil => rfl
    | cons c rest =>
      have := (hp c (by rw [e1]; simp)).2
      simp only [width, List.map_cons, List.sum_cons] at e3
      omega
  subst hr
  exact ⟨t, ⟨e4, by omega⟩, by simpa using e1.symm⟩

end OpenKalman.Comma
