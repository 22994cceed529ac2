import Verif.Model.LinalgViews

/-! # Lemmas for transposed, conjugated and scaled views -/

namespace OpenKalman.LinalgViews
open OpenKalman.Mdspan

/-- Extents of rank two, with a value below `M` for each that is open. -/
structure Rank2 (M : ℕ) (e : Ext) : Prop where
  rank : e.statics.length = 2
  values : e.dyn.length = e.statics.countP (·.isNone)
  below : ∀ d ∈ e.dyn, d < M

theorem Rank2.cases {M : ℕ} {e : Ext} (h : Rank2 M e) :
    (∃ a b, e = ⟨[some a, some b], []⟩) ∨ (∃ a d, d < M ∧ e = ⟨[some a, none], [d]⟩) ∨
    (∃ b d, d < M ∧ e = ⟨[none, some b], [d]⟩) ∨ ∃ c d, c < M ∧ d < M ∧ e = ⟨[none, none], [c, d]⟩ := by
  obtain ⟨st, dyn⟩ := e
  obtain ⟨hr, hv, hb⟩ := h
  match st, hr with
  | [x, y], _ =>
    rcases x with _ | x <;> rcases y with _ | y <;> simp at hv
    · match dyn, hv with
      | [c, d], _ => simp at hb; simp [hb]
    · match dyn, hv with
      | [c], _ => simp at hb; simp [hb]
    · match dyn, hv with
      | [c], _ => simp at hb; simp [hb]
    · subst hv; simp

theorem Rank2.shape {M : ℕ} {e : Ext} (h : Rank2 M e) : e.shape = [e.extent 0, e.extent 1] := by
  simp [Ext.shape, Ext.rank, h.rank, List.range_succ]

theorem transposeExtents_spec {M : ℕ} {e : Ext} (h : Rank2 M e) :
    ∃ t, transposeExtents M e = some t ∧ Rank2 M t ∧ t.extent 0 = e.extent 1 ∧ t.extent 1 = e.extent 0 ∧
      t.statics = e.statics.reverse ∧ transposeExtents M t = some e := by
  rcases h.cases with ⟨a, b, rfl⟩ | ⟨a, d, hd, rfl⟩ | ⟨b, d, hd, rfl⟩ | ⟨c, d, hc, hd, rfl⟩
  · refine ⟨⟨[some b, some a], []⟩, ?_, ⟨?_, ?_, ?_⟩, ?_, ?_, ?_, ?_⟩ <;>
      simp [transposeExtents, construct, staticGet, Ext.extent, openCount, openFlags]
  · refine ⟨⟨[none, some a], [d]⟩, ?_, ⟨?_, ?_, ?_⟩, ?_, ?_, ?_, ?_⟩ <;>
      simp [transposeExtents, construct, staticGet, Ext.extent, openCount, openFlags, openPlace, scan, Nat.mod_eq_of_lt, hd]
  · refine ⟨⟨[some b, none], [d]⟩, ?_, ⟨?_, ?_, ?_⟩, ?_, ?_, ?_, ?_⟩ <;>
      simp [transposeExtents, construct, staticGet, Ext.extent, openCount, openFlags, openPlace, scan, Nat.mod_eq_of_lt, hd]
  · refine ⟨⟨[none, none], [d, c]⟩, ?_, ⟨?_, ?_, ?_⟩, ?_, ?_, ?_, ?_⟩ <;>
      simp [transposeExtents, construct, staticGet, Ext.extent, openCount, openFlags, openPlace, scan, Nat.mod_eq_of_lt, hc, hd]

/-- A layout of rank two that `transposed` has not made itself. -/
def Plain (M : ℕ) : Layout2 → Prop
  | .std (.stride e s) => Rank2 M e ∧ s.length = 2
  | .std m => Rank2 M m.exts
  | .own e _ _ => Rank2 M e
  | .transposedOf _ _ => False

theorem transposedMapping_spec {M : ℕ} {l : Layout2} (h : Plain M l) :
    ∃ t, transposedMapping M l = some t ∧ t.exts.extent 0 = l.exts.extent 1 ∧ t.exts.extent 1 = l.exts.extent 0 ∧
      t.exts.statics = l.exts.statics.reverse ∧ (∀ i j, t.offset M i j = l.offset M j i) ∧ (∀ r < 2, t.stride M r = l.stride M (1 - r)) := by
  match l, h with
  | .std (.left e), h =>
    obtain ⟨t, ht, h2, h0, h1, hs, -⟩ := transposeExtents_spec (show Rank2 M e from h)
    refine ⟨.std (.right t), by simp [transposedMapping, ht], h0, h1, hs, ?_, ?_⟩
    · intro i j
      have h : Rank2 M e := h
      simp [Layout2.offset, Mapping.offset, h.shape, h2.shape, rightOffset, rightOffsetFrom, leftOffset, h1]
    · intro r hr
      have h : Rank2 M e := h
      obtain rfl | rfl : r = 0 ∨ r = 1 := by omega
      all_goals simp [Layout2.stride, Mapping.strideOf, h.shape, h2.shape, rightStride, leftStride, h1]
  | .std (.right e), h =>
    obtain ⟨t, ht, h2, h0, h1, hs, -⟩ := transposeExtents_spec (show Rank2 M e from h)
    refine ⟨.std (.left t), by simp [transposedMapping, ht], h0, h1, hs, ?_, ?_⟩
    · intro i j
      have h : Rank2 M e := h
      simp [Layout2.offset, Mapping.offset, h.shape, h2.shape, rightOffset, rightOffsetFrom, leftOffset, h0]
    · intro r hr
      have h : Rank2 M e := h
      obtain rfl | rfl : r = 0 ∨ r = 1 := by omega
      all_goals simp [Layout2.stride, Mapping.strideOf, h.shape, h2.shape, rightStride, leftStride, h0]
  | .std (.stride e s), h =>
    obtain ⟨h, hl⟩ := h
    obtain ⟨t, ht, h2, h0, h1, hs, -⟩ := transposeExtents_spec h
    match s, hl with
    | [a, b], _ =>
      refine ⟨.std (.stride t [b, a]), by simp [transposedMapping, ht], h0, h1, hs, ?_, ?_⟩
      · intro i j
        simp [Layout2.offset, Mapping.offset, strideOffset, Nat.add_comm]
      · intro r hr
        obtain rfl | rfl : r = 0 ∨ r = 1 := by omega
        all_goals simp [Layout2.stride, Mapping.strideOf]
  | .own e o s, h =>
    obtain ⟨t, ht, h2, h0, h1, hs, -⟩ := transposeExtents_spec (show Rank2 M e from h)
    refine ⟨.transposedOf (.own e o s) t, by simp [transposedMapping, ht], h0, h1, hs, fun i j => rfl, ?_⟩
    intro r hr
    obtain rfl | rfl : r = 0 ∨ r = 1 := by omega
    all_goals simp [Layout2.stride]

theorem transposedMapping_twice {M : ℕ} {m : Mapping} (h : Plain M (.std m)) :
    (transposedMapping M (.std m)).bind (transposedMapping M) = some (.std m) := by
  match m, h with
  | .left e, h =>
    obtain ⟨t, ht, -, -, -, -, hb⟩ := transposeExtents_spec (show Rank2 M e from h)
    simp [transposedMapping, ht, hb]
  | .right e, h =>
    obtain ⟨t, ht, -, -, -, -, hb⟩ := transposeExtents_spec (show Rank2 M e from h)
    simp [transposedMapping, ht, hb]
  | .stride e s, h =>
    obtain ⟨h, hl⟩ := h
    obtain ⟨t, ht, -, -, -, -, hb⟩ := transposeExtents_spec h
    match s, hl with
    | [a, b], _ => simp [transposedMapping, ht, hb]

variable {𝕜 : Type*}

theorem conjugated_mapping (v : View 𝕜) : (conjugated v).mapping = v.mapping := by
  unfold conjugated; split <;> rfl

theorem conjugated_data (v : View 𝕜) : (conjugated v).data = v.data := by
  unfold conjugated; split <;> rfl

theorem conjugated_access [Mul 𝕜] [InvolutiveStar 𝕜] (v : View 𝕜) (p : ℕ → 𝕜) (i : ℕ) :
    (conjugated v).acc.access p i = star (v.acc.access p i) := by
  obtain ⟨d, m, acc⟩ := v
  cases acc <;> simp [conjugated, Acc.access]

end OpenKalman.LinalgViews
