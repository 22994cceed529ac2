import Verif.Model.Gets
import Mathlib.Tactic.Ring

/-! # Lemmas on size and element access of collections -/

namespace OpenKalman.Gets

theorem windows_length {α : Type} {n : ℕ} (hn : 0 < n) (l : List α) : (windows n l).length = if l.length ≥ n then l.length - n + 1 else 0 := by
  induction l with
  | nil => simp [windows]; omega
  | cons a l ih =>
    simp only [windows, List.length_cons]
    by_cases h : n ≤ l.length + 1
    · rw [if_pos h, if_pos h, List.length_cons, ih]
      split <;> omega
    · rw [if_neg h, if_neg h]; rfl

theorem products_length {α : Type} (ls : List (List α)) : (products ls).length = (ls.map List.length).prod := by
  induction ls with
  | nil => simp [products]
  | cons l ls ih =>
    simp only [products, List.length_flatMap, List.length_map, ih, List.map_cons, List.prod_cons]
    clear ih
    generalize (List.map List.length ls).prod = k
    induction l with
    | nil => simp
    | cons a l ih => rw [List.map_cons, List.sum_cons, ih, List.length_cons]; ring

theorem zips_length {α : Type} (ls : List (List α)) (h : ls ≠ []) : (ls.map List.length).min? = some (zips ls).length := by
  induction ls with
  | nil => exact absurd rfl h
  | cons l ls ih =>
    cases ls with
    | nil => simp [zips]
    | cons m ls =>
      have := ih (by simp)
      rw [List.map_cons, List.min?_cons, this]
      simp [zips, List.length_zipWith]

theorem allKnown_some {l : List (Option ℕ)} {ns : List ℕ} (h : allKnown l = some ns) : l = ns.map some := by
  induction l generalizing ns with
  | nil => simp [allKnown] at h; subst h; rfl
  | cons a l ih =>
    cases a with
    | none => simp [allKnown] at h
    | some n =>
      simp only [allKnown, Option.map_eq_some_iff] at h
      obtain ⟨ms, h1, rfl⟩ := h
      rw [ih h1]; rfl

theorem allKnown_map (ns : List ℕ) : allKnown (ns.map some) = some ns := by
  induction ns with
  | nil => rfl
  | cons a l ih => simp only [List.map_cons, allKnown, ih]; rfl

/-- What is known of all parts is their length. -/
theorem parts_length {cs : List Coll} {ns : List ℕ} (h : allKnown (cs.map extent) = some ns)
    (ih : ∀ c ∈ cs, ∀ n, extent c = some n → c.elems.length = n) : ns = (cs.map Coll.elems).map List.length := by
  replace h := allKnown_some h
  induction cs generalizing ns with
  | nil => cases ns with | nil => rfl | cons => simp at h
  | cons c cs hi =>
    cases ns with
    | nil => simp at h
    | cons n ns =>
      simp only [List.map_cons, List.cons.injEq] at h
      rw [List.map_cons, List.map_cons, ih c (by simp) n h.1, ← hi (fun c hc => ih c (by simp [hc])) h.2]

theorem extent_length {c : Coll} (hc : c.Plain) : ∀ n, extent c = some n → c.elems.length = n := by
  induction hc with
  | tuple l => intro n h; simpa [extent, Coll.elems] using h
  | stdArray l => intro n h; simpa [extent, Coll.elems] using h
  | array l => intro n h; simpa [extent, Coll.elems] using h
  | vector l => intro n h; simp [extent] at h
  | constSize l => intro n h; simpa [extent, Coll.elems] using h
  | unsized l => intro n h; simp [extent] at h
  | all _ ih => intro n h; simpa [extent, Coll.elems] using ih n (by simpa [extent] using h)
  | transform f _ ih => intro n h; simpa [extent, Coll.elems] using ih n (by simpa [extent] using h)
  | reverse _ ih => intro n h; simpa [extent, Coll.elems] using ih n (by simpa [extent] using h)
  | enumerate _ ih => intro n h; simpa [extent, Coll.elems] using ih n (by simpa [extent] using h)
  | concat _ ih =>
    intro n h
    simp only [extent, Option.map_eq_some_iff] at h
    obtain ⟨ns, h1, rfl⟩ := h
    rw [parts_length h1 ih, Coll.elems, List.length_flatten]
  | zip f _ h' ih =>
    intro n h
    simp only [extent, Option.bind_eq_some_iff] at h
    obtain ⟨ns, h1, h2⟩ := h
    rw [parts_length h1 ih, zips_length _ (by simpa using h')] at h2
    simpa [Coll.elems] using h2
  | adjacent f n hn _ ih =>
    intro m h
    simp only [extent, Option.map_eq_some_iff] at h
    obtain ⟨e, h1, rfl⟩ := h
    rw [Coll.elems, List.length_map, windows_length hn, ih e h1]
  | cartesian _ ih =>
    intro n h
    simp only [extent, Option.map_eq_some_iff] at h
    obtain ⟨ns, h1, rfl⟩ := h
    rw [parts_length h1 ih, Coll.elems, List.length_map, products_length]

theorem parts_known {cs : List Coll} (ih : ∀ c ∈ cs, ∃ n, extent c = some n) : ∃ ns, allKnown (cs.map extent) = some ns ∧ (cs ≠ [] → ns ≠ []) := by
  induction cs with
  | nil => exact ⟨[], rfl, fun h => absurd rfl h⟩
  | cons c cs hi =>
    obtain ⟨n, hn⟩ := ih c (by simp)
    obtain ⟨ns, h, _⟩ := hi fun c hc => ih c (by simp [hc])
    exact ⟨n :: ns, by simp [allKnown, hn, h], by simp⟩

theorem extent_known {c : Coll} (hc : c.Plain) (h : c.FixedSize) : ∃ n, extent c = some n := by
  induction hc with
  | tuple l => exact ⟨_, by rw [extent]⟩
  | stdArray l => exact ⟨_, by rw [extent]⟩
  | array l => exact ⟨_, by rw [extent]⟩
  | vector l => simp [Coll.FixedSize] at h
  | constSize l => exact ⟨_, by rw [extent]⟩
  | unsized l => simp [Coll.FixedSize] at h
  | all _ ih => simpa [extent] using ih (by simpa [Coll.FixedSize] using h)
  | transform f _ ih => simpa [extent] using ih (by simpa [Coll.FixedSize] using h)
  | reverse _ ih => simpa [extent] using ih (by simpa [Coll.FixedSize] using h)
  | enumerate _ ih => simpa [extent] using ih (by simpa [Coll.FixedSize] using h)
  | concat _ ih =>
    rw [Coll.FixedSize] at h
    obtain ⟨ns, h1, _⟩ := parts_known fun c hc => ih c hc (h c hc)
    exact ⟨_, by rw [extent, h1]; rfl⟩
  | zip f _ h' ih =>
    rw [Coll.FixedSize] at h
    obtain ⟨ns, h1, h2⟩ := parts_known fun c hc => ih c hc (h c hc)
    obtain ⟨n, hn⟩ := Option.isSome_iff_exists.mp (List.isSome_min?_of_ne_nil (h2 h'))
    exact ⟨n, by rw [extent, h1]; exact hn⟩
  | adjacent f n hn _ ih =>
    rw [Coll.FixedSize] at h
    obtain ⟨e, he⟩ := ih h
    exact ⟨_, by rw [extent, he]; rfl⟩
  | cartesian _ ih =>
    rw [Coll.FixedSize] at h
    obtain ⟨ns, h1, _⟩ := parts_known fun c hc => ih c hc (h c hc)
    exact ⟨_, by rw [extent, h1]; rfl⟩

theorem isSized_of {c : Coll} (hc : c.Plain) (h : c.Sized) : isSized c = true := by
  induction hc with
  | unsized l => simp [Coll.Sized] at h
  | all _ ih => simpa [isSized] using ih (by simpa [Coll.Sized] using h)
  | transform f _ ih => simpa [isSized] using ih (by simpa [Coll.Sized] using h)
  | reverse _ ih => simpa [isSized] using ih (by simpa [Coll.Sized] using h)
  | enumerate _ ih => simpa [isSized] using ih (by simpa [Coll.Sized] using h)
  | concat _ ih => rw [Coll.Sized] at h; simp only [isSized, List.all_map, List.all_eq_true]; exact fun c hc => ih c hc (h c hc)
  | zip f _ h' ih => rw [Coll.Sized] at h; simp only [isSized, List.all_map, List.all_eq_true]; exact fun c hc => ih c hc (h c hc)
  | adjacent f n hn _ ih => simpa [isSized] using ih (by simpa [Coll.Sized] using h)
  | cartesian _ ih => rw [Coll.Sized] at h; simp only [isSized, List.all_map, List.all_eq_true]; exact fun c hc => ih c hc (h c hc)
  | _ => simp [isSized]

theorem getFixed_plain {c : Coll} (hc : c.Plain) (i : ℕ) : getFixed c i = c.elems[i]? := by
  have hlen := extent_length hc
  unfold getFixed
  by_cases h : beyond (extent c) i = true
  · rw [if_pos h]
    cases he : extent c with
    | none => rw [he] at h; simp [beyond] at h
    | some n =>
      rw [he] at h
      have h : n ≤ i := by simpa [beyond] using h
      rw [List.getElem?_eq_none (by rw [hlen n he]; exact h)]
  · rw [if_neg h]
    clear h hlen
    cases hc <;> first | rfl | simp [stdGet, Coll.elems]

theorem flattenAll_atoms {l : List Elem} (h : l.any Elem.isTup = false) : leavesList l = l := by
  induction l with
  | nil => rfl
  | cons e l ih =>
    cases e with
    | atom n =>
      simp only [List.any_cons, Elem.isTup, Bool.false_or] at h
      simp [leavesList, leaves, ih h]
    | tup m => simp [Elem.isTup] at h

mutual
theorem flatten_eq : (e : Elem) → flatten e = leaves e
  | .atom n => by simp [flatten, leaves]
  | .tup l => by
    rw [flatten, leaves]
    split
    · exact flattenAll_eq l
    · rename_i h
      exact (flattenAll_atoms (Bool.eq_false_iff.mpr h)).symm
theorem flattenAll_eq : (l : List Elem) → flattenAll l = leavesList l
  | [] => by simp [flattenAll, leavesList]
  | e :: l => by rw [flattenAll, leavesList, flatten_eq e, flattenAll_eq l]
end

end OpenKalman.Gets
