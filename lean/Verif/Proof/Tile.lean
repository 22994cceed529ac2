import Verif.Proof.Slices

/-! # Lemmas for tiling a matrix -/

namespace OpenKalman.Slices

variable {F : Type}

theorem IsMat.dims_eq {b : Ten F} (h : IsMat b) : b.dims = [b.rows, b.cols] := by
  unfold IsMat at h
  match hd : b.dims, h with
  | [x, y], _ => simp [Ten.rows, Ten.cols, hd]

theorem inBox_pair {R C : ℕ} {js : List ℕ} : InBox [R, C] js ↔ ∃ i j, js = [i, j] ∧ i < R ∧ j < C := by
  constructor
  · intro h
    cases h with
    | cons h1 h2 => cases h2 with
      | cons h3 h4 => cases h4; exact ⟨_, _, rfl, h1, h3⟩
  · rintro ⟨i, j, rfl, hi, hj⟩
    exact List.Forall₂.cons hi (List.Forall₂.cons hj List.Forall₂.nil)

/-- Storing a matrix block in a matrix. -/
theorem set_mat {a b : Ten F} {R C p q : ℕ} (ha : a.dims = [R, C]) (hb : IsMat b) (hp : p + b.rows ≤ R) (hq : q + b.cols ≤ C) :
    ∃ a', setSlice a b [p, q] = .ok a' ∧ a'.dims = [R, C] ∧
      (∀ i j, a'.get [i, j] = if p ≤ i ∧ i < p + b.rows ∧ q ≤ j ∧ j < q + b.cols then b.get [i - p, j - q] else a.get [i, j]) ∧
      (∀ i j, a'.writes [i, j] = a.writes [i, j] + if p ≤ i ∧ i < p + b.rows ∧ q ≤ j ∧ j < q + b.cols then 1 else 0) := by
  have hd := hb.dims_eq
  obtain ⟨a', h1, h2, h3, h4⟩ := setSlice_ok (a := a) (block := b) (bs := [p, q]) (by rw [hd]; rfl)
    (by
      show List.Forall₂ _ ([p, q].zip b.dims) a.dims
      rw [hd, ha]
      exact List.Forall₂.cons hp (List.Forall₂.cons hq List.Forall₂.nil))
  have key : ∀ i j, (a'.get [i, j] = if p ≤ i ∧ i < p + b.rows ∧ q ≤ j ∧ j < q + b.cols then b.get [i - p, j - q] else a.get [i, j]) ∧
      (a'.writes [i, j] = a.writes [i, j] + if p ≤ i ∧ i < p + b.rows ∧ q ≤ j ∧ j < q + b.cols then 1 else 0) := by
    intro i j
    by_cases hin : p ≤ i ∧ i < p + b.rows ∧ q ≤ j ∧ j < q + b.cols
    · have hbox : InBox b.dims [i - p, j - q] := by
        rw [hd, inBox_pair]; exact ⟨_, _, rfl, by omega, by omega⟩
      have := h3 _ hbox
      have hs : shift [p, q] [i - p, j - q] = [i, j] := by
        simp only [shift, List.zipWith_cons_cons, List.zipWith_nil_left]
        rw [Nat.add_sub_cancel' hin.1, Nat.add_sub_cancel' hin.2.2.1]
      rw [hs] at this
      rw [if_pos hin, if_pos hin]
      exact this
    · rw [if_neg hin, if_neg hin]
      refine h4 _ ?_
      intro js hjs
      rw [hd, inBox_pair] at hjs
      obtain ⟨x, y, rfl, hx, hy⟩ := hjs
      simp only [shift, List.zipWith_cons_cons, List.zipWith_nil_left]
      intro he
      simp at he
      exact hin (by omega)
  exact ⟨a', h1, h2.trans ha, fun i j => (key i j).1, fun i j => (key i j).2⟩

/-- A nonempty block that was stored fits. -/
theorem set_mat_fits {a b a' : Ten F} {R C p q : ℕ} (ha : a.dims = [R, C]) (hb : IsMat b) (hr : 0 < b.rows) (hc : 0 < b.cols)
    (h : setSlice a b [p, q] = .ok a') : p + b.rows ≤ R ∧ q + b.cols ≤ C := by
  by_contra hn
  have hd := hb.dims_eq
  have := setSlice_error (a := a) (block := b) (bs := [p, q]) (by rw [hd]; rfl) (by rw [ha]; rfl) (by
    refine ⟨[b.rows - 1, b.cols - 1], ?_, ?_⟩
    · rw [hd, inBox_pair]; exact ⟨_, _, rfl, by omega, by omega⟩
    · rw [ha, inBox_pair]
      rintro ⟨i, j, he, hi, hj⟩
      simp only [shift, List.zipWith_cons_cons, List.zipWith_nil_left, List.cons.injEq, and_true] at he
      omega)
  rw [this] at h
  cases h

theorem tile_step0 (fuel p : ℕ) (bs : List ℕ) (a b : Ten F) (rest : List (Ten F)) :
    tileImpl 2 (fuel + 1) 0 [p, 0] bs a (b :: rest) =
      if p < a.rows then tileImpl 2 fuel 1 [p, 0] [b.rows, b.cols] a (b :: rest) else .error .lengthError := by
  rw [tileImpl]
  simp [List.range_succ]
  rfl

theorem tile_step1 (fuel p q h w : ℕ) (a b : Ten F) (rest : List (Ten F)) :
    tileImpl 2 (fuel + 1) 1 [p, q] [h, w] a (b :: rest) = (do
      let a' ← setSlice a b [p, q]
      if 0 < q ∧ b.rows ≠ h then .error .lengthError
      else if q + b.cols < a.cols then tileImpl 2 fuel 1 [p, q + b.cols] [h, w] a' rest
      else if q + b.cols = a.cols then tileImpl 2 fuel 0 [p + b.rows, 0] [h, w] a' rest
      else .error .lengthError) := by
  rw [tileImpl]
  simp [List.range_succ]
  rfl

theorem row_ok {R C : ℕ} (r rest : List (Ten F)) (a : Ten F) (p q h w : ℕ) (ha : a.dims = [R, C]) (hne : r ≠ [])
    (hm : ∀ b ∈ r, IsMat b ∧ 0 < b.cols) (hh : ∀ b ∈ r, b.rows = h) (hq : q + widths r = C) (hp : p + h ≤ R) :
    ∃ a', (∀ fuel, tileImpl 2 (fuel + r.length) 1 [p, q] [h, w] a (r ++ rest) = tileImpl 2 fuel 0 [p + h, 0] [h, w] a' rest) ∧ a'.dims = [R, C] ∧
      (∀ i j, a'.get [i, j] = if p ≤ i ∧ i < p + h ∧ q ≤ j ∧ j < C then rowGet r (i - p) (j - q) else a.get [i, j]) ∧
      (∀ i j, a'.writes [i, j] = a.writes [i, j] + if p ≤ i ∧ i < p + h ∧ q ≤ j ∧ j < C then 1 else 0) := by
  induction r generalizing a q with
  | nil => exact absurd rfl hne
  | cons b r ih =>
    obtain ⟨hb, hbc⟩ := hm b (by simp)
    have hbr := hh b (by simp)
    have hw : widths (b :: r) = b.cols + widths r := by simp [widths]
    obtain ⟨a1, h1, h2, h3, h4⟩ := set_mat (p := p) (q := q) ha hb (by omega) (by omega)
    have hac : a.cols = C := by simp [Ten.cols, ha]
    by_cases hr : r = []
    · subst hr
      have hw0 : q + b.cols = C := by simp [widths] at hq; exact hq
      refine ⟨a1, ?_, h2, ?_, ?_⟩
      · intro fuel
        show tileImpl 2 (fuel + 1) 1 [p, q] [h, w] a (b :: rest) = _
        rw [tile_step1, h1]
        show (if 0 < q ∧ b.rows ≠ h then _ else _) = _
        rw [if_neg (by simp [hbr]), if_neg (by omega), if_pos (by omega), hbr]
      · intro i j
        rw [h3]
        by_cases hin : p ≤ i ∧ i < p + h ∧ q ≤ j ∧ j < C
        · rw [if_pos (by omega), if_pos hin]
          rw [rowGet, if_pos (by omega)]
        · rw [if_neg (by omega), if_neg hin]
      · intro i j
        rw [h4]
        by_cases hin : p ≤ i ∧ i < p + h ∧ q ≤ j ∧ j < C
        · rw [if_pos (by omega), if_pos hin]
        · rw [if_neg (by omega), if_neg hin]
    · have hwpos : 0 < widths r := by
        obtain ⟨c, r', rfl⟩ := List.exists_cons_of_ne_nil hr
        have := (hm c (by simp)).2
        simp [widths]; omega
      obtain ⟨a', g1, g2, g3, g4⟩ := ih a1 (q + b.cols) h2 hr (fun c hc => hm c (by simp [hc])) (fun c hc => hh c (by simp [hc])) (by omega)
      refine ⟨a', ?_, g2, ?_, ?_⟩
      · intro fuel
        show tileImpl 2 (fuel + r.length + 1) 1 [p, q] [h, w] a (b :: (r ++ rest)) = _
        rw [tile_step1, h1]
        show (if 0 < q ∧ b.rows ≠ h then _ else _) = _
        rw [if_neg (by simp [hbr]), if_pos (by omega)]
        exact g1 fuel
      · intro i j
        rw [g3, h3]
        by_cases hin : p ≤ i ∧ i < p + h ∧ q ≤ j ∧ j < C
        · rw [if_pos hin, rowGet]
          by_cases hj : j < q + b.cols
          · rw [if_neg (by omega), if_pos (by omega), if_pos (by omega)]
          · rw [if_pos (by omega), if_neg (by omega)]
            congr 1; omega
        · rw [if_neg hin, if_neg (by omega), if_neg (by omega)]
      · intro i j
        rw [g4, h4]
        by_cases hin : p ≤ i ∧ i < p + h ∧ q ≤ j ∧ j < C
        · rw [if_pos hin]
          by_cases hj : j < q + b.cols
          · rw [if_pos (by omega), if_neg (by omega)]
          · rw [if_neg (by omega), if_pos (by omega)]
        · rw [if_neg hin, if_neg (by omega), if_neg (by omega)]

theorem grid_ok {R C : ℕ} (rows : List (List (Ten F))) (a : Ten F) (p : ℕ) (bs : List ℕ) (ha : a.dims = [R, C])
    (hne : ∀ r ∈ rows, r ≠ []) (hm : ∀ r ∈ rows, ∀ b ∈ r, IsMat b ∧ 0 < b.rows ∧ 0 < b.cols) (hh : ∀ r ∈ rows, ∀ b ∈ r, b.rows = rowHeight r)
    (hw : ∀ r ∈ rows, widths r = C) (hp : p + (rows.map rowHeight).sum = R) :
    ∃ a', (∀ fuel, 2 * rows.flatten.length < fuel → tileImpl 2 fuel 0 [p, 0] bs a rows.flatten = .ok a') ∧ a'.dims = [R, C] ∧
      (∀ i j, a'.get [i, j] = if p ≤ i ∧ i < R ∧ j < C then gridGet rows (i - p) j else a.get [i, j]) ∧
      (∀ i j, a'.writes [i, j] = a.writes [i, j] + if p ≤ i ∧ i < R ∧ j < C then 1 else 0) := by
  induction rows generalizing a p bs with
  | nil =>
    simp at hp
    refine ⟨a, ?_, ha, ?_, ?_⟩
    · intro fuel hf
      obtain ⟨f, rfl⟩ : ∃ f, fuel = f + 1 := ⟨fuel - 1, by omega⟩
      simp [tileImpl]
    · intro i j; rw [if_neg (by omega)]
    · intro i j; rw [if_neg (by omega)]; rfl
  | cons r rows ih =>
    have hr := hne r (by simp)
    obtain ⟨b, r', hbr⟩ := List.exists_cons_of_ne_nil hr
    have hbm := hm r (by simp) b (by simp [hbr])
    have hrh : rowHeight r = b.rows := by rw [hbr]; rfl
    simp only [List.map_cons, List.sum_cons] at hp
    obtain ⟨a1, h1, h2, h3, h4⟩ := row_ok r rows.flatten a p 0 (rowHeight r) b.cols ha hr (fun c hc => ⟨(hm r (by simp) c hc).1, (hm r (by simp) c hc).2.2⟩)
      (hh r (by simp)) (by rw [hw r (by simp)]; omega) (by omega)
    obtain ⟨a', g1, g2, g3, g4⟩ := ih a1 (p + rowHeight r) [rowHeight r, b.cols] h2 (fun s hs => hne s (by simp [hs])) (fun s hs => hm s (by simp [hs]))
      (fun s hs => hh s (by simp [hs])) (fun s hs => hw s (by simp [hs])) (by omega)
    refine ⟨a', ?_, g2, ?_, ?_⟩
    · intro fuel hf
      simp only [List.flatten_cons, List.length_append] at hf
      have hlen : 1 ≤ r.length := by rw [hbr]; simp
      obtain ⟨f, rfl⟩ : ∃ f, fuel = f + r.length + 1 := ⟨fuel - r.length - 1, by omega⟩
      have e0 : tileImpl 2 (f + r.length + 1) 0 [p, 0] bs a (r :: rows).flatten =
          tileImpl 2 (f + r.length) 1 [p, 0] [rowHeight r, b.cols] a (r ++ rows.flatten) := by
        rw [List.flatten_cons, hbr, List.cons_append, tile_step0]
        rw [if_pos (by simp [Ten.rows, ha]; omega)]
        rfl
      rw [e0, h1]
      exact g1 f (by omega)
    · intro i j
      rw [g3, h3]
      by_cases hin : p ≤ i ∧ i < R ∧ j < C
      · rw [if_pos hin, gridGet]
        by_cases hi : i < p + rowHeight r
        · rw [if_neg (by omega), if_pos (by omega), if_pos (by omega)]
          simp
        · rw [if_pos (by omega), if_neg (by omega)]
          congr 1; omega
      · rw [if_neg hin, if_neg (by omega), if_neg (by omega)]
    · intro i j
      rw [g4, h4]
      by_cases hin : p ≤ i ∧ i < R ∧ j < C
      · rw [if_pos hin]
        by_cases hi : i < p + rowHeight r
        · rw [if_pos (by omega), if_neg (by omega)]
        · rw [if_neg (by omega), if_pos (by omega)]
      · rw [if_neg hin, if_neg (by omega), if_neg (by omega)]

/-! ### What an accepted list of blocks looks like -/

/-- From within a row: either a full row and the rest is accepted, or the blocks run out within the row. -/
theorem row_accepts {R C : ℕ} (bl : List (Ten F)) (a m : Ten F) (fuel p q h w : ℕ) (ha : a.dims = [R, C])
    (hm : ∀ b ∈ bl, IsMat b ∧ 0 < b.rows ∧ 0 < b.cols) (hq : q < C) (hhead : q = 0 → ∀ b ∈ bl.head?, b.rows = h) (hne : bl ≠ [])
    (hok : tileImpl 2 fuel 1 [p, q] [h, w] a bl = .ok m) :
    p + h ≤ R ∧ ((∃ r rest fuel' a', bl = r ++ rest ∧ r ≠ [] ∧ (∀ b ∈ r, b.rows = h) ∧ q + widths r = C ∧ fuel' < fuel ∧ a'.dims = [R, C] ∧
        tileImpl 2 fuel' 0 [p + h, 0] [h, w] a' rest = .ok m) ∨
      ((∀ b ∈ bl, b.rows = h) ∧ q + widths bl < C)) := by
  induction bl generalizing a q fuel with
  | nil => exact absurd rfl hne
  | cons b bl ih =>
    cases fuel with
    | zero => simp [tileImpl] at hok
    | succ fuel =>
      rw [tile_step1] at hok
      obtain ⟨hb, hbr, hbc⟩ := hm b (by simp)
      cases hs : setSlice a b [p, q] with
      | error e => rw [hs] at hok; simp [bind, Except.bind] at hok
      | ok a1 =>
        rw [hs] at hok
        have hfit := set_mat_fits ha hb hbr hbc hs
        obtain ⟨a1', e1, e2, -, -⟩ := set_mat (p := p) (q := q) ha hb hfit.1 hfit.2
        rw [hs] at e1; cases e1
        have hac : a.cols = C := by simp [Ten.cols, ha]
        change (if 0 < q ∧ b.rows ≠ h then _ else _) = _ at hok
        by_cases hc : 0 < q ∧ b.rows ≠ h
        · rw [if_pos hc] at hok; cases hok
        · rw [if_neg hc] at hok
          have hbh : b.rows = h := by
            rcases Nat.eq_zero_or_pos q with h0 | h0
            · exact hhead h0 b (by simp)
            · by_contra hx; exact hc ⟨h0, hx⟩
          refine ⟨by omega, ?_⟩
          by_cases hlt : q + b.cols < a.cols
          · rw [if_pos hlt] at hok
            by_cases hbl : bl = []
            · right
              subst hbl
              refine ⟨by simpa using hbh, ?_⟩
              simp [widths]; omega
            · rcases (ih a1 fuel (q + b.cols) e2 (fun c hc => hm c (by simp [hc])) (by omega) (by omega) hbl hok).2 with
                ⟨r, rest, f', a', hr, hrn, hrh, hrw, hf, had, hrun⟩ | ⟨hall, hlt'⟩
              · left
                refine ⟨b :: r, rest, f', a', by rw [hr]; rfl, by simp, ?_, ?_, by omega, had, hrun⟩
                · intro c hc
                  rcases List.mem_cons.1 hc with rfl | hc
                  · exact hbh
                  · exact hrh c hc
                · simp [widths] at hrw ⊢; omega
              · right
                refine ⟨?_, ?_⟩
                · intro c hc
                  rcases List.mem_cons.1 hc with rfl | hc
                  · exact hbh
                  · exact hall c hc
                · simp [widths] at hlt' ⊢; omega
          · rw [if_neg hlt] at hok
            by_cases heq : q + b.cols = a.cols
            · rw [if_pos heq] at hok
              left
              refine ⟨[b], bl, fuel, a1, rfl, by simp, by simpa using hbh, by simp [widths]; omega, by omega, e2, ?_⟩
              rw [hbh] at hok; exact hok
            · rw [if_neg heq] at hok; cases hok

/-- What `tile` accepts: full rows, then possibly a row that is not finished, all within the height. -/
theorem grid_accepts {R C : ℕ} (hC : 0 < C) (fuel : ℕ) : ∀ (bl : List (Ten F)) (a m : Ten F) (p : ℕ) (bs : List ℕ), a.dims = [R, C] →
    (∀ b ∈ bl, IsMat b ∧ 0 < b.rows ∧ 0 < b.cols) → p ≤ R → tileImpl 2 fuel 0 [p, 0] bs a bl = .ok m →
    ∃ (rows : List (List (Ten F))) (part : List (Ten F)), bl = rows.flatten ++ part ∧ (∀ r ∈ rows, r ≠ []) ∧ (∀ r ∈ rows, ∀ b ∈ r, b.rows = rowHeight r) ∧ (∀ r ∈ rows, widths r = C) ∧
      (∀ b ∈ part, b.rows = rowHeight part) ∧ widths part < C ∧ p + (rows.map rowHeight).sum + rowHeight part ≤ R := by
  induction fuel using Nat.strong_induction_on with
  | _ fuel ih =>
    intro bl a m p bs ha hm hp hok
    cases bl with
    | nil => exact ⟨[], [], by simp, by simp, by simp, by simp, by simp, by simpa [widths] using hC, by simpa [rowHeight] using hp⟩
    | cons b bl =>
      cases fuel with
      | zero => simp [tileImpl] at hok
      | succ fuel =>
        rw [tile_step0] at hok
        by_cases hpr : p < a.rows
        · rw [if_pos hpr] at hok
          have har : a.rows = R := by simp [Ten.rows, ha]
          obtain ⟨hph, hcase⟩ := row_accepts (b :: bl) a m fuel p 0 b.rows b.cols ha hm hC (by intro _ c hc; simp at hc; rw [hc]) (by simp) hok
          rcases hcase with ⟨r, rest, f', a', hr, hrn, hrh, hrw, hf, had, hrun⟩ | ⟨hall, hlt⟩
          · obtain ⟨rows, part, e1, e2, e3, e4, e5, e6, e7⟩ := ih f' (by omega) rest a' m (p + b.rows) [b.rows, b.cols] had
              (fun c hc => hm c (by rw [hr]; simp [hc])) hph hrun
            have hrow : rowHeight r = b.rows := by
              obtain ⟨c, r', rfl⟩ := List.exists_cons_of_ne_nil hrn
              exact hrh c (by simp)
            refine ⟨r :: rows, part, by rw [hr, e1]; simp, ?_, ?_, ?_, e5, e6, ?_⟩
            · intro s hs; rcases List.mem_cons.1 hs with rfl | hs
              · exact hrn
              · exact e2 s hs
            · intro s hs c hc; rcases List.mem_cons.1 hs with rfl | hs
              · rw [hrow]; exact hrh c hc
              · exact e3 s hs c hc
            · intro s hs; rcases List.mem_cons.1 hs with rfl | hs
              · omega
              · exact e4 s hs
            · simp only [List.map_cons, List.sum_cons]; omega
          · exact ⟨[], b :: bl, rfl, by simp, by simp, by simp, fun c hc => hall c hc, by omega, by simpa [rowHeight] using hph⟩
        · rw [if_neg hpr] at hok; cases hok

/-- Number of elements of a list of blocks. -/
def area (l : List (Ten F)) : ℕ := (l.map fun b => b.rows * b.cols).sum

theorem area_level (l : List (Ten F)) (h : ℕ) (hl : ∀ b ∈ l, b.rows = h) : area l = h * widths l := by
  induction l with
  | nil => simp [area, widths]
  | cons b l ih =>
    have := ih (fun c hc => hl c (by simp [hc]))
    simp only [area, widths, List.map_cons, List.sum_cons] at this ⊢
    rw [this, hl b (by simp)]; ring

theorem area_append (l l' : List (Ten F)) : area (l ++ l') = area l + area l' := by simp [area]

theorem area_flatten (rows : List (List (Ten F))) (C : ℕ) (hl : ∀ r ∈ rows, ∀ b ∈ r, b.rows = rowHeight r) (hw : ∀ r ∈ rows, widths r = C) :
    area rows.flatten = (rows.map rowHeight).sum * C := by
  induction rows with
  | nil => simp [area]
  | cons r rows ih =>
    rw [List.flatten_cons, area_append, ih (fun s hs => hl s (by simp [hs])) (fun s hs => hw s (by simp [hs])),
      area_level r _ (hl r (by simp)), hw r (by simp), List.map_cons, List.sum_cons]
    ring

end OpenKalman.Slices
