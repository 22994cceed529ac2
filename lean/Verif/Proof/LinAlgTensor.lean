import Verif.Model.LinAlgTensor

/-!
# Lemmas for tensors
-/

set_option linter.unusedSectionVars false

namespace OpenKalman.LinAlg.Ten
variable {F : Type} [AddMonoid F] [StarAddMonoid F] {t : Ten F}

theorem swapIx_swapIx {α : Type} (a b : ℕ) (ix : ℕ → α) : swapIx a b (swapIx a b ix) = ix := by
  funext k; simp [swapIx]

theorem swapIx_dims {a b : ℕ} (h : t.dims a = t.dims b) : swapIx a b t.dims = t.dims := by
  funext k
  simp only [swapIx, Equiv.swap_apply_def]
  split_ifs with h1 h2
  · rw [h1, h]
  · rw [h2, h]
  · rfl

/-- A position within the swapped dimensions, swapped back. -/
theorem inb_swap {a b : ℕ} {ix : ℕ → ℕ} (h : ∀ k, ix k < swapIx a b t.dims k) : t.Inb (swapIx a b ix) := by
  intro k
  have := h (Equiv.swap a b k)
  simpa [swapIx] using this

/-- Dimensions and elements are the index-swapped ones. -/
def IsTranspose (a b : ℕ) (g : F → F) (t r : Ten F) : Prop :=
  r.dims = swapIx a b t.dims ∧ ∀ ix, r.Inb ix → r.get ix = g (t.get (swapIx a b ix))

theorem swap01 (ix : ℕ → ℕ) : swapIx 0 1 ix 0 = ix 1 ∧ swapIx 0 1 ix 1 = ix 0 := by simp [swapIx]

theorem swap01_diag {ix : ℕ → ℕ} (h : ix 0 = ix 1) : swapIx 0 1 ix = ix := by
  funext k
  simp only [swapIx, Equiv.swap_apply_def]
  split_ifs with h1 h2
  · rw [h1, h]
  · rw [h2, h]
  · rfl

theorem transpose01 (hw : t.WF) : IsTranspose 0 1 id t (t.transpose 0 1) := by
  unfold transpose
  by_cases h1 : t.dims 0 = t.dims 1 ∧ (t.cst.isSome = true ∨ ((1:ℕ) = 1 ∧ (t.diag = true ∨ (t.herm = true ∧ t.cplx = false))))
  · rw [if_pos h1]
    refine ⟨(swapIx_dims h1.1).symm, fun ix hix => ?_⟩
    have hs : t.Inb (swapIx 0 1 ix) := inb_swap (by rw [swapIx_dims h1.1]; exact hix)
    rcases h1.2 with h | ⟨-, h | h⟩
    · obtain ⟨c, hc⟩ := Option.isSome_iff_exists.1 h
      rw [hw.cst c hc ix hix, id, hw.cst c hc _ hs]
    · by_cases hd : ix 0 = ix 1
      · rw [swap01_diag hd]; rfl
      · rw [hw.diag h ix hix hd, id, hw.diag h _ hs (by rw [(swap01 ix).1, (swap01 ix).2]; exact Ne.symm hd)]
    · rw [id, (hw.herm h.1).2 ix hix, hw.real h.2 ix hix]
  · rw [if_neg h1]
    cases hc : t.cst with
    | some c =>
      refine ⟨rfl, fun ix hix => ?_⟩
      rw [id, hw.cst c hc _ (inb_swap hix)]
    | none =>
      cases hcd : t.cstDiag with
      | some c =>
        refine ⟨rfl, fun ix hix => ?_⟩
        simp only [id]
        rw [hw.cstDiag c hcd _ (inb_swap hix), (swap01 ix).1, (swap01 ix).2]
        simp only [eq_comm]
      | none =>
        simp only
        split_ifs with h2 h3
        · refine ⟨?_, fun ix hix => ?_⟩
          · rw [swapIx_dims h2.2]; unfold conjugate; split_ifs <;> rfl
          · have hix' : t.Inb ix := by intro k; have := hix k; unfold conjugate at this; split_ifs at this <;> exact this
            rw [id, (hw.herm h2.1).2 ix hix']
            unfold conjugate
            split_ifs with h4
            · rw [hw.real h4 ix hix']
            · rfl
        · refine ⟨rfl, fun ix hix => ?_⟩
          simp only [id]
          split_ifs with hd
          · rw [swap01_diag hd]
          · rw [hw.diag h3 _ (inb_swap hix) (by rw [(swap01 ix).1, (swap01 ix).2]; exact Ne.symm hd)]
        · exact ⟨rfl, fun ix hix => rfl⟩

theorem conjugate_get (hw : t.WF) (ix : ℕ → ℕ) (h : t.Inb ix) : t.conjugate.get ix = star (t.get ix) := by
  unfold conjugate
  split_ifs with h1
  · exact (hw.real h1 ix h).symm
  · rfl

theorem conjugateTranspose01 (hw : t.WF) : IsTranspose 0 1 star t (t.conjugateTranspose 0 1) := by
  unfold conjugateTranspose
  have ht := transpose01 hw
  by_cases h1 : t.herm = true ∧ t.dims 0 = t.dims 1
  · rw [if_pos h1]
    refine ⟨(swapIx_dims h1.2).symm, fun ix hix => ?_⟩
    rw [(hw.herm h1.1).2 ix hix, star_star]
  rw [if_neg h1]
  by_cases h2 : t.cplx = false
  · rw [if_pos h2]
    refine ⟨ht.1, fun ix hix => ?_⟩
    rw [ht.2 ix hix, id, hw.real h2]
    exact inb_swap (by intro k; have := hix k; rw [ht.1] at this; exact this)
  · rw [if_neg h2]
    cases hc : t.cst with
    | some c =>
      refine ⟨rfl, fun ix hix => ?_⟩
      rw [hw.cst c hc _ (inb_swap hix)]
    | none =>
      cases hcd : t.cstDiag with
      | some c =>
        refine ⟨rfl, fun ix hix => ?_⟩
        simp only
        rw [hw.cstDiag c hcd _ (inb_swap hix), (swap01 ix).1, (swap01 ix).2]
        by_cases h : ix 0 = ix 1
        · simp [h]
        · simp [h, Ne.symm h]
      | none =>
        simp only
        split_ifs with h3
        · refine ⟨rfl, fun ix hix => ?_⟩
          simp only
          split_ifs with hd
          · rw [swap01_diag hd]
          · rw [hw.diag h3 _ (inb_swap hix) (by rw [(swap01 ix).1, (swap01 ix).2]; exact Ne.symm hd), star_zero]
        · have hcx : ((t.transpose 0 1).conjugate).dims = (t.transpose 0 1).dims := by unfold conjugate; split_ifs <;> rfl
          refine ⟨hcx.trans ht.1, fun ix hix => ?_⟩
          have hix' : (t.transpose 0 1).Inb ix := by intro k; have := hix k; rw [hcx] at this; exact this
          unfold conjugate
          have hcp : (t.transpose 0 1).cplx = t.cplx := by
            unfold transpose
            rw [hc, hcd]
            simp only
            split_ifs
            all_goals first | rfl | (unfold conjugate; split_ifs; rfl)
          rw [hcp, if_neg h2]
          simp only
          rw [ht.2 ix hix', id]

/-- Untagged tensors, for every pair of indices. -/
theorem transpose_plain (a b : ℕ) (h1 : t.herm = false) (h2 : t.diag = false) (h3 : t.cst = none) (h4 : t.cstDiag = none) :
    IsTranspose a b id t (t.transpose a b) := by
  unfold transpose
  simp only [h1, h2, h3, h4]
  simp
  exact ⟨rfl, fun ix hix => rfl⟩

/-- Constant tensors, for every pair of indices. -/
theorem transpose_const (hw : t.WF) (a b : ℕ) {c : F} (h3 : t.cst = some c) : IsTranspose a b id t (t.transpose a b) := by
  unfold transpose
  by_cases h1 : t.dims a = t.dims b ∧ (t.cst.isSome = true ∨ (b = 1 ∧ (t.diag = true ∨ (t.herm = true ∧ t.cplx = false))))
  · rw [if_pos h1]
    refine ⟨(swapIx_dims h1.1).symm, fun ix hix => ?_⟩
    rw [hw.cst c h3 ix hix, id, hw.cst c h3 _ (inb_swap (by rw [swapIx_dims h1.1]; exact hix))]
  · rw [if_neg h1, h3]
    refine ⟨rfl, fun ix hix => ?_⟩
    rw [id, hw.cst c h3 _ (inb_swap hix)]

end OpenKalman.LinAlg.Ten
