import Verif.Proof.LinalgViews
import Mathlib.Data.Int.Star
import Mathlib.Analysis.Complex.Basic

/-!
# Transposed, conjugated and scaled views of matrices (C127, C128)

`Plain M l` says that the layout has rank two, that its open extents have values of the index type, and that it was not itself made by `transposed` of a layout of the user's own.
-/

namespace OpenKalman.LinalgViews
open OpenKalman.Mdspan

variable {𝕜 : Type*}

/-- C127: `transposed(a)` shows the transpose of what `a` shows, with the static extents swapped too; component `(i, j)` is kept at the very place of memory at which `a` keeps `(j, i)`, whatever the
accessor; and the strides are swapped. -/
theorem C127_transposed [Mul 𝕜] [Star 𝕜] (M : ℕ) (a : View 𝕜) (h : Plain M a.mapping) :
    ∃ t, transposed M a = some t ∧ (t.shown M).Same (a.shown M).transpose ∧ t.data = a.data ∧ t.acc = a.acc ∧
      t.mapping.exts.statics = a.mapping.exts.statics.reverse ∧ (∀ i j, t.mapping.offset M i j = a.mapping.offset M j i) ∧
      t.mapping.stride M 0 = a.mapping.stride M 1 ∧ t.mapping.stride M 1 = a.mapping.stride M 0 := by
  obtain ⟨t, ht, h0, h1, hs, ho, hst⟩ := transposedMapping_spec h
  refine ⟨{ a with mapping := t }, by simp [transposed, ht], ⟨h0, h1, ?_⟩, rfl, rfl, hs, ho, hst 0 (by omega), hst 1 (by omega)⟩
  intro i _ j _
  simp [View.shown, Shown.transpose, ho]

/-- C127 (part): transposing twice gives back the very same view if the layout is `layout_left`, `layout_right` or `layout_stride`.  For other layouts it does not compile, see `C127_twice_violated`. -/
theorem C127_twice_partial (M : ℕ) (a : View 𝕜) (m : Mapping) (hm : a.mapping = .std m) (h : Plain M a.mapping) :
    (transposed M a).bind (transposed M) = some a := by
  obtain ⟨d, l, acc⟩ := a
  subst hm
  have := transposedMapping_twice h
  simp only [transposed, Option.bind_map]
  cases hx : transposedMapping M (.std m) with
  | none => simp [hx] at this
  | some y => simp [hx] at this; simp [transposed, this]

/-- C127: with a layout of the user's own, `transposed(transposed(a))` is not well-formed, although `transposed(a)` is; neither is the question whether the transposed layout is always exhaustive. -/
theorem C127_twice_violated (M : ℕ) (a : View 𝕜) (e : Ext) (o : ℕ → ℕ → ℕ) (s : ℕ → ℕ) (ha : a.mapping = .own e o s) (h : Plain M a.mapping) :
    ∃ t, transposed M a = some t ∧ transposed M t = none ∧ t.mapping.alwaysExhaustive = none := by
  rw [ha] at h
  obtain ⟨t, ht, -⟩ := transposeExtents_spec (show Rank2 M e from h)
  exact ⟨{ a with mapping := .transposedOf (.own e o s) t }, by simp [transposed, ha, transposedMapping, ht], by simp [transposed, transposedMapping], rfl⟩

/-- C128: `conjugated(a)` shows the conjugates, whatever the accessor, also when `a` is a conjugated view, of which the accessor is removed. -/
theorem C128_conjugated [Mul 𝕜] [InvolutiveStar 𝕜] (M : ℕ) (a : View 𝕜) : ((conjugated a).shown M).Same (a.shown M).conj := by
  refine ⟨by simp [View.shown, Shown.conj, conjugated_mapping], by simp [View.shown, Shown.conj, conjugated_mapping], ?_⟩
  intro i _ j _
  simp [View.shown, Shown.conj, conjugated_mapping, conjugated_data, conjugated_access]

/-- C128: conjugating twice shows the same matrix, and gives back the very same view unless the first conjugation already removed an accessor below which there is a further one. -/
theorem C128_conjugated_twice [Mul 𝕜] [InvolutiveStar 𝕜] (M : ℕ) (a : View 𝕜) :
    ((conjugated (conjugated a)).shown M).Same (a.shown M) ∧
      ((∀ n, a.acc ≠ .conjugated (.conjugated n)) → conjugated (conjugated a) = a) := by
  refine ⟨⟨by simp [View.shown, conjugated_mapping], by simp [View.shown, conjugated_mapping], ?_⟩, ?_⟩
  · intro i _ j _
    simp [View.shown, conjugated_mapping, conjugated_data, conjugated_access]
  · obtain ⟨d, l, acc⟩ := a
    intro h
    match acc with
    | .base => rfl
    | .scaled _ _ => rfl
    | .conjugated .base => rfl
    | .conjugated (.scaled _ _) => rfl
    | .conjugated (.conjugated n) => exact absurd rfl (h n)

/-- C128: `scaled(s, x)` shows the components multiplied by the factor from the left. -/
theorem C128_scaled [Mul 𝕜] [Star 𝕜] (M : ℕ) (s : 𝕜) (x : View 𝕜) : ((scaled s x).shown M).Same (Shown.scale s (x.shown M)) :=
  ⟨rfl, rfl, fun _ _ _ _ => rfl⟩

/-- C128: `conjugate_transposed(a)` shows the conjugate transpose, and twice gives back what was there if the layout is one of the three standard ones. -/
theorem C128_conjugate_transposed [Mul 𝕜] [InvolutiveStar 𝕜] (M : ℕ) (a : View 𝕜) (h : Plain M a.mapping) :
    (∃ t, conjugateTransposed M a = some t ∧ (t.shown M).Same (a.shown M).transpose.conj) ∧
      (∀ m, a.mapping = .std m → ∃ t, (conjugateTransposed M a).bind (conjugateTransposed M) = some t ∧ (t.shown M).Same (a.shown M) ∧ t.mapping = a.mapping) := by
  constructor
  · obtain ⟨t, ht, ⟨h0, h1, hv⟩, -⟩ := C127_transposed M a h
    refine ⟨conjugated t, by simp [conjugateTransposed, ht], ?_⟩
    obtain ⟨c0, c1, cv⟩ := C128_conjugated M t
    refine ⟨c0.trans h0, c1.trans h1, fun i hi j hj => (cv i hi j hj).trans ?_⟩
    simp only [Shown.conj] at c0 c1 ⊢
    rw [hv i (c0 ▸ hi) j (c1 ▸ hj)]
  · intro m hm
    have tw := C127_twice_partial M a m hm h
    obtain ⟨t, ht, -, hd, hacc, -⟩ := C127_transposed M a h
    rw [ht] at tw
    simp only [Option.bind_some, transposed, Option.map_eq_some_iff] at tw
    obtain ⟨l, hl, hal⟩ := tw
    have hlm : l = a.mapping := by rw [← hal]
    subst hlm
    refine ⟨conjugated { conjugated t with mapping := a.mapping }, ?_, ?_, by simp [conjugated_mapping]⟩
    · have h1 : conjugateTransposed M a = some (conjugated t) := by simp [conjugateTransposed, ht]
      rw [h1]
      simp [conjugateTransposed, transposed, conjugated_mapping, hl]
    · refine ⟨by simp [View.shown, conjugated_mapping], by simp [View.shown, conjugated_mapping], ?_⟩
      intro i _ j _
      simp [View.shown, conjugated_mapping, conjugated_data, conjugated_access, hd, hacc]

/-! ## Examples -/

/-- A matrix of two rows and three columns, stored by rows; the number of columns is static. -/
def exampleView : View ℤ := ⟨fun i => 10 + i, .std (.right ⟨[none, some 3], [2]⟩), .scaled 2 .base⟩

example : Plain (2 ^ 64) exampleView.mapping := ⟨rfl, rfl, by simp [Mapping.exts]⟩

example : ((exampleView.shown (2 ^ 64)).rows, (exampleView.shown (2 ^ 64)).cols, (exampleView.shown (2 ^ 64)).at_ 1 2) = (2, 3, 30) := by decide +kernel

example : ((transposed (2 ^ 64) exampleView).map fun t => ((t.shown (2 ^ 64)).rows, (t.shown (2 ^ 64)).cols, (t.shown (2 ^ 64)).at_ 2 1)) = some (3, 2, 30) := by decide +kernel

/-- A layout of the user's own: diagonals one after the other. -/
def exampleOwn : View ℤ := ⟨fun i => i, .own ⟨[some 2, some 2], []⟩ (fun i j => if i = j then i else 2 + i) (fun _ => 0), .base⟩

example : Plain (2 ^ 64) exampleOwn.mapping := ⟨rfl, rfl, by simp⟩

example : ((transposed (2 ^ 64) exampleOwn).map fun t => (t.shown (2 ^ 64)).at_ 0 1) = some 3 := by decide +kernel

/-- A complex matrix with one component. -/
noncomputable def exampleComplex : View ℂ := ⟨fun _ => Complex.I, .std (.left ⟨[some 1, some 1], []⟩), .base⟩

example : ((conjugated exampleComplex).shown 16).at_ 0 0 = - Complex.I := by
  simp [View.shown, exampleComplex, conjugated, Acc.access]

end OpenKalman.LinalgViews
