import Verif.Model.EigenShapes

/-! # Lemmas for C116 and C117 -/

namespace OpenKalman.EigenShapes
open OpenKalman.EigenTraits

variable {𝕜 : Type*}

/-- If neither extent changes, nothing does. -/
theorem reshape_same (byRows : Bool) (a : Arr 𝕜) {i j : ℕ} (hi : i < a.rows) (hj : j < a.cols) :
    (reshape byRows a.rows a.cols a).get i j = a.get i j := by
  cases byRows with
  | true =>
    have h1 : (i * a.cols + j) / a.cols = i := by
      rw [Nat.add_comm, Nat.add_mul_div_right _ _ (Nat.zero_lt_of_lt hj), Nat.div_eq_of_lt hj, Nat.zero_add]
    have h2 : (i * a.cols + j) % a.cols = j := by rw [Nat.add_comm, Nat.add_mul_mod_self_right, Nat.mod_eq_of_lt hj]
    show a.get ((i * a.cols + j) / a.cols) ((i * a.cols + j) % a.cols) = _
    rw [h1, h2]
  | false =>
    have h1 : (j * a.rows + i) / a.rows = j := by
      rw [Nat.add_comm, Nat.add_mul_div_right _ _ (Nat.zero_lt_of_lt hi), Nat.div_eq_of_lt hi, Nat.zero_add]
    have h2 : (j * a.rows + i) % a.rows = i := by rw [Nat.add_comm, Nat.add_mul_mod_self_right, Nat.mod_eq_of_lt hi]
    show a.get ((j * a.rows + i) % a.rows) ((j * a.rows + i) / a.rows) = _
    rw [h1, h2]

/-- Every component of a reshaped matrix is one of the matrix. -/
theorem reshape_mem (byRows : Bool) (r c : ℕ) (a : Arr 𝕜) (h : r * c = a.rows * a.cols) {i j : ℕ} (hi : i < r) (hj : j < c) :
    ∃ i' < a.rows, ∃ j' < a.cols, (reshape byRows r c a).get i j = a.get i' j' := by
  cases byRows with
  | true =>
    have hlt : i * c + j < a.rows * a.cols := by
      rw [← h]
      calc i * c + j < i * c + c := by omega
        _ = (i + 1) * c := by rw [Nat.add_mul, Nat.one_mul]
        _ ≤ r * c := Nat.mul_le_mul_right _ hi
    have hc : 0 < a.cols := by
      rcases Nat.eq_zero_or_pos a.cols with h0 | h0
      · rw [h0, Nat.mul_zero] at hlt; omega
      · exact h0
    refine ⟨(i * c + j) / a.cols, (Nat.div_lt_iff_lt_mul hc).mpr hlt, (i * c + j) % a.cols, Nat.mod_lt _ hc, rfl⟩
  | false =>
    have hlt : j * r + i < a.rows * a.cols := by
      rw [← h]
      calc j * r + i < j * r + r := by omega
        _ = (j + 1) * r := by rw [Nat.add_mul, Nat.one_mul]
        _ ≤ c * r := Nat.mul_le_mul_right _ hj
        _ = r * c := Nat.mul_comm _ _
    have hr : 0 < a.rows := by
      rcases Nat.eq_zero_or_pos a.rows with h0 | h0
      · rw [h0, Nat.zero_mul] at hlt; omega
      · exact h0
    refine ⟨(j * r + i) % a.rows, Nat.mod_lt _ hr, (j * r + i) / a.rows, (Nat.div_lt_iff_lt_mul hr).mpr (by rw [Nat.mul_comm a.cols]; exact hlt), rfl⟩

/-- The extents at compile time are those of the objects. -/
structure Reshaped.Fits (t : Reshaped) (a : Arr 𝕜) (r c : ℕ) : Prop where
  xprRows : Knows t.xprRows a.rows
  xprCols : Knows t.xprCols a.cols
  rows : Knows t.rows r
  cols : Knows t.cols c
  size : r * c = a.rows * a.cols

theorem Reshaped.Fits.swap {t : Reshaped} {a : Arr 𝕜} {r c : ℕ} (h : t.Fits a r c) (m : ℕ) : t.components = some m → m = a.rows * a.cols := by
  intro hm
  unfold Reshaped.components at hm
  split at hm
  · next p q hp hq =>
    rw [h.xprRows p hp, h.xprCols q hq] at hm
    exact (Option.some.inj hm).symm
  · cases hm

theorem keeps_extents {t : Reshaped} {a : Arr 𝕜} {r c : ℕ} (h : t.Fits a r c) (hk : t.keeps = true) (hne : 0 < r * c) : r = a.rows ∧ c = a.cols := by
  have hs := h.size
  rw [Reshaped.keeps, Bool.or_eq_true, Bool.and_eq_true, Bool.and_eq_true, Option.isSome_iff_exists, Option.isSome_iff_exists, beq_iff_eq, beq_iff_eq] at hk
  rcases hk with ⟨⟨p, hp⟩, he⟩ | ⟨⟨p, hp⟩, he⟩
  · have h1 : r = a.rows := by rw [← h.rows p hp]; exact h.xprRows p (by rw [← he]; exact hp)
    refine ⟨h1, ?_⟩
    rw [← h1] at hs
    exact Nat.eq_of_mul_eq_mul_left (Nat.pos_of_mul_pos_right hne) hs
  · have h1 : c = a.cols := by rw [← h.cols p hp]; exact h.xprCols p (by rw [← he]; exact hp)
    refine ⟨?_, h1⟩
    rw [← h1] at hs
    exact Nat.eq_of_mul_eq_mul_right (Nat.pos_of_mul_pos_left hne) hs

theorem dimension_sound (t : Reshaped) (a : Arr 𝕜) (x y : ℕ) (dim other : Option ℕ) (hd : Knows dim x) (ho : Knows other y) (hr : Knows t.xprRows a.rows)
    (hc : Knows t.xprCols a.cols) (hk : ∀ m, t.components = some m → m = a.rows * a.cols) (hs : x * y = a.rows * a.cols) :
    Knows (t.dimension dim other) x := by
  intro k e
  cases dim with
  | some d => exact hd k e
  | none =>
    cases other with
    | none => cases e
    | some o =>
      obtain rfl : o = y := ho o rfl
      simp only [Reshaped.dimension] at e
      by_cases h0 : o = 0
      · rw [if_pos h0] at e; cases e
      · rw [if_neg h0] at e
        have hpos : 0 < o := Nat.pos_of_ne_zero h0
        by_cases h1 : t.xprRows = some o
        · rw [if_pos h1] at e
          have hro := hr o h1
          rw [hc k e]
          rw [← hro, Nat.mul_comm] at hs
          exact (Nat.eq_of_mul_eq_mul_left hpos hs).symm
        · rw [if_neg h1] at e
          by_cases h2 : t.xprCols = some o
          · rw [if_pos h2] at e
            have hco := hc o h2
            rw [hr k e]
            rw [← hco] at hs
            exact (Nat.eq_of_mul_eq_mul_right hpos hs).symm
          · rw [if_neg h2] at e
            cases hm : t.components with
            | none => rw [hm] at e; cases e
            | some m =>
              rw [hm] at e
              simp only at e
              split at e
              · rw [← Option.some.inj e, hk m hm, ← hs, Nat.mul_div_cancel _ hpos]
              · cases e

theorem largest_cases {t : Reshaped} {a : Arr 𝕜} (hr : Knows t.xprRows a.rows) (hc : Knows t.xprCols a.cols) {m : ℕ} (h : t.largest = some m) :
    m = a.rows ∨ m = a.cols ∨ (m = 0 ∧ (t.xprRows = some 0 ∨ t.xprCols = some 0)) := by
  unfold Reshaped.largest at h
  cases h1 : t.xprRows with
  | none =>
    cases h2 : t.xprCols with
    | none => rw [h1, h2] at h; cases h
    | some q =>
      rw [h1, h2] at h
      have := hc q h2
      simp at h
      omega
  | some p =>
    have := hr p h1
    cases h2 : t.xprCols with
    | none =>
      rw [h1, h2] at h
      simp at h
      omega
    | some q =>
      have := hc q h2
      rw [h1, h2] at h
      simp at h
      omega

theorem largest_dvd {t : Reshaped} {a : Arr 𝕜} (hr : Knows t.xprRows a.rows) (hc : Knows t.xprCols a.cols) (hpos : 0 < a.rows * a.cols) {m : ℕ}
    (h : t.largest = some m) : m ≠ 0 ∧ a.rows * a.cols % m = 0 := by
  have p1 : 0 < a.rows := Nat.pos_of_mul_pos_right hpos
  have p2 : 0 < a.cols := Nat.pos_of_mul_pos_left hpos
  rcases largest_cases hr hc h with rfl | rfl | ⟨_, h0 | h0⟩
  · exact ⟨by omega, Nat.mul_mod_right _ _⟩
  · exact ⟨by omega, Nat.mul_mod_left _ _⟩
  · have := hr 0 h0; omega
  · have := hc 0 h0; omega

theorem divides_ok {d m : Option ℕ} {n k : ℕ} (hd : Knows d n) (hm : ∀ q, m = some q → q ≠ 0 ∧ k % q = 0) (hk : n * n = k) : divides d m = some true := by
  cases d with
  | none => rfl
  | some p =>
    cases m with
    | none => rfl
    | some q =>
      obtain ⟨h0, h1⟩ := hm q rfl
      obtain rfl := hd p rfl
      simp only [divides]
      rw [if_neg h0, hk, h1]
      rfl

theorem andThen_true {a : Bool} {b : Option Bool} : andThen a b = some true ↔ a = true ∧ b = some true := by
  cases a <;> simp [andThen]

end OpenKalman.EigenShapes
