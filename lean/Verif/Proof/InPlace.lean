import Mathlib.Tactic.Ring
import Mathlib.Algebra.BigOperators.Ring.Finset
import Verif.Model.InPlace
import Verif.Theorems.Shape

/-! # Lemmas for C82–C84 -/

namespace OpenKalman.InPlace

open LinAlg (Tri)

variable {𝕜 : Type}

/-! ## Parts -/

theorem Part.has_total {p : Part} (hp : p ≠ .diag) {i j : ℕ} (h : ¬ p.Has i j) : p.Has j i := by
  cases p with
  | lower => simp only [Part.Has, not_le] at h ⊢; omega
  | upper => simp only [Part.Has, not_le] at h ⊢; omega
  | diag => exact absurd rfl hp

theorem Part.has_diag (p : Part) (i : ℕ) : p.Has i i := by cases p <;> simp [Part.Has]

section
variable [Zero 𝕜] [Star 𝕜]

theorem View.holds_diag {q : Part} : ∀ {v : View 𝕜}, v.Holds q → v.Holds .diag
  | .full _, _ => trivial
  | .part _ _, h => ⟨.inr rfl, holds_diag h.2⟩
  | .hermitian _ _, h => h
  | .vector _, _ => rfl

theorem View.written_of_has {p : Part} (src : ℕ → ℕ → 𝕜) {i j : ℕ} (hij : p.Has i j) :
    ∀ {v : View 𝕜}, v.Holds p → v.written p src i j = src i j
  | .full _, _ => if_pos hij
  | .part q n, h => by
    have hq : q.Has i j := by
      rcases h.1 with rfl | rfl
      · exact hij
      · have : i = j := hij
        subst this; exact q.has_diag i
    show (if q.Has i j then n.written p src i j else 0) = _
    rw [if_pos hq, written_of_has src hij h.2]
  | .hermitian _ _, _ => if_pos hij
  | .vector v, h => by
    have hp : p = .diag := h
    subst hp
    have e : i = j := hij
    subst e
    exact if_pos rfl

theorem View.written_diag_of_ne (src : ℕ → ℕ → 𝕜) {i j : ℕ} (hij : i ≠ j) :
    ∀ (v : View 𝕜), v.written .diag src i j = v.elem i j
  | .full _ => if_neg hij
  | .part q n => by
    show (if q.Has i j then n.written .diag src i j else 0) = if q.Has i j then n.elem i j else 0
    rw [written_diag_of_ne src hij n]
  | .hermitian q n => by
    show (if i = j then src i j else if j = i then star (src j i) else _) = _
    rw [if_neg hij, if_neg (Ne.symm hij)]
  | .vector v => by
    show (if i = j then src i i else 0) = if i = j then v i else 0
    rw [if_neg hij, if_neg hij]
end

/-! ## set_triangle -/

theorem accepts_iff (t : Part) (b : Source 𝕜) :
    accepts t b = true ↔ (t = .lower → b.tri ≠ .upper ∧ b.tri ≠ .diagonal) ∧ (t = .upper → b.tri ≠ .lower ∧ b.tri ≠ .diagonal) := by
  unfold accepts Source.isTri
  cases t <;> cases b.tri <;> simp

theorem setLoop_diag (r c : ℕ) (m : ℕ → ℕ → 𝕜) (b : Source 𝕜) (h : r ≤ c) :
    setLoop .diag r c m b = .done fun i j => if i = j ∧ i < r then b.get i i else m i j := by
  have key : ∀ k ≤ r, forLoop (fun i m => setComponent r c m (b.get i i) i i) k m
      = .done fun i j => if i = j ∧ i < k then b.get i i else m i j := by
    intro k
    induction k with
    | zero => intro _; simp [forLoop]
    | succ k ih =>
      intro hk
      rw [forLoop, ih (by omega)]
      show setComponent r c _ (b.get k k) k k = _
      rw [setComponent, if_pos ⟨by omega, by omega⟩]
      congr 1
      funext i j
      by_cases h1 : i = k ∧ j = k
      · rw [if_pos h1, if_pos ⟨by omega, by omega⟩, h1.1]
      · rw [if_neg h1]
        by_cases h2 : i = j ∧ i < k
        · rw [if_pos h2, if_pos ⟨h2.1, by omega⟩]
        · rw [if_neg h2, if_neg (by omega)]
  exact key r le_rfl

/-- Loops that only write diagonal elements leave the others. -/
theorem forLoop_off {P : (ℕ → ℕ → 𝕜) → Prop} (body : ℕ → (ℕ → ℕ → 𝕜) → Copied (ℕ → ℕ → 𝕜))
    (hb : ∀ i m m', P m → body i m = .done m' → P m') : ∀ (k : ℕ) (m m' : ℕ → ℕ → 𝕜), P m → forLoop body k m = .done m' → P m'
  | 0, m, m', hP, h => by cases h; exact hP
  | k + 1, m, m', hP, h => by
    rw [forLoop] at h
    cases hk : forLoop body k m with
    | done s' => rw [hk] at h; exact hb k s' m' (forLoop_off body hb k m s' hP hk) h
    | throws => rw [hk] at h; cases h
    | illFormed => rw [hk] at h; cases h
    | undefined => rw [hk] at h; cases h

theorem setComponent_off {r c : ℕ} {m m' : ℕ → ℕ → 𝕜} {s : 𝕜} {k : ℕ} (h : setComponent r c m s k k = .done m') {i j : ℕ} (hij : i ≠ j) :
    m' i j = m i j := by
  unfold setComponent at h
  split_ifs at h
  cases h
  exact if_neg (by omega)

theorem setLoop_off {t : Part} {r c : ℕ} {m m' : ℕ → ℕ → 𝕜} {b : Source 𝕜} (h : setLoop t r c m b = .done m') {i j : ℕ} (hij : i ≠ j) :
    m' i j = m i j := by
  have hbody : ∀ k l (m₁ m₂ : ℕ → ℕ → 𝕜), m₁ i j = m i j → setComponent r c m₁ (b.get l l) k k = .done m₂ → m₂ i j = m i j := by
    intro k l m₁ m₂ h1 h2
    rw [setComponent_off h2 hij, h1]
  cases t with
  | upper =>
    refine forLoop_off (P := fun m' => m' i j = m i j) _ ?_ r m m' rfl h
    intro k m₁ m₂ h1 h2
    exact forLoop_off (P := fun m' => m' i j = m i j) _ (fun _ m₃ m₄ h3 h4 => hbody k k m₃ m₄ h3 h4) _ m₁ m₂ h1 h2
  | lower =>
    refine forLoop_off (P := fun m' => m' i j = m i j) _ ?_ r m m' rfl h
    intro k m₁ m₂ h1 h2
    exact forLoop_off (P := fun m' => m' i j = m i j) _ (fun _ m₃ m₄ h3 h4 => hbody k k m₃ m₄ h3 h4) _ m₁ m₂ h1 h2
  | diag =>
    refine forLoop_off (P := fun m' => m' i j = m i j) _ ?_ r m m' rfl h
    intro k m₁ m₂ h1 h2
    exact hbody k k m₁ m₂ h1 h2

/-! ## copy_from -/

open Shape (Extent Access Indices indexCount statics getIndexExtent Valid extentOf shapeOf)

/-- `x` starts with `j`. -/
def Pre (j x : List ℕ) : Prop := ∃ l, x = j ++ l

theorem pre_succ {j x : List ℕ} : Pre j x ↔ x = j ∨ ∃ i, Pre (j ++ [i]) x := by
  constructor
  · rintro ⟨l, rfl⟩
    cases l with
    | nil => exact .inl (by simp)
    | cons a l => exact .inr ⟨a, l, by simp⟩
  · rintro (rfl | ⟨i, l, rfl⟩)
    · exact ⟨[], by simp⟩
    · exact ⟨i :: l, by simp⟩

theorem pre_inj {j x : List ℕ} {i i' : ℕ} (h : Pre (j ++ [i]) x) (h' : Pre (j ++ [i']) x) : i = i' := by
  obtain ⟨l, rfl⟩ := h
  obtain ⟨l', h'⟩ := h'
  simp only [List.append_assoc, List.append_cancel_left_eq] at h'
  simpa using (List.cons.inj h').1

theorem pre_getD {j x : List ℕ} {i : ℕ} (h : Pre (j ++ [i]) x) : x.getD j.length 0 = i := by
  obtain ⟨l, rfl⟩ := h
  simp [List.getD]

/-- What the copy is given: sizes that are consistent, a destination without trailing extents 1 known at compile time, a source of at most that rank,
no extent known to be 0, and the same extents. -/
structure Fits (md ms : List Extent) : Prop where
  vd : Valid md
  vs : Valid ms
  last : (statics md).getLast? ≠ some (some 1)
  rank : ms.length ≤ md.length
  ned : some 0 ∉ statics md
  nes : some 0 ∉ statics ms
  same : ∀ i, extentOf (shapeOf ms) i = extentOf (shapeOf md) i

/-- An element of the source depends on no other element of the destination. -/
def Local (md ms : List Extent) (read : Elems 𝕜 → List ℕ → 𝕜) : Prop :=
  ∀ s s' j, InBounds (shapeOf md) j → s j = s' j → read s (j.take ms.length) = read s' (j.take ms.length)

theorem extentOf_lt {m : List Extent} {i : ℕ} (hi : i < m.length) : extentOf (shapeOf m) i = (shapeOf m).getD i 0 := by
  have hi' : i < (shapeOf m).length := by simpa [shapeOf] using hi
  simp [extentOf, List.getD, hi']

theorem copyElement_done {md ms : List Extent} (hf : Fits md ms) (read : Elems 𝕜 → List ℕ → 𝕜) {j : List ℕ} (hj : InBounds (shapeOf md) j)
    (s : Elems 𝕜) : copyElement md ms read j s = .done (Function.update s j (read s (j.take ms.length))) := by
  have hl : j.length = md.length := by simpa [shapeOf] using hj.1
  have hb : ∀ i < md.length, j.getD i 0 < extentOf (shapeOf md) i := by
    intro i hi
    rw [extentOf_lt hi]
    exact hj.2 i (by simpa [shapeOf] using hi)
  have h1 := (Shape.C73_access_partial md hf.vd ⟨true, j⟩ (le_of_eq hl.symm) hf.ned).1 hb
  have h2 := (Shape.C73_access_partial ms hf.vs ⟨true, j⟩ (by rw [hl]; exact hf.rank) hf.nes).1
    (fun i hi => by rw [hf.same]; exact hb i (lt_of_lt_of_le hi hf.rank))
  unfold copyElement
  rw [h1, h2]
  have : j.take md.length = j := by rw [← hl]; exact List.take_length
  simp only [this]

theorem copyElements_done {md ms : List Extent} (hf : Fits md ms) {read : Elems 𝕜 → List ℕ → 𝕜} (hr : Local md ms read) :
    ∀ (todo I : ℕ) (j : List ℕ) (s : Elems 𝕜), j.length = I → I + todo = md.length →
      (∀ i < I, j.getD i 0 < (shapeOf md).getD i 0) →
      ∃ s', copyElements md ms read todo I j s = .done s' ∧
        (∀ x, InBounds (shapeOf md) x → Pre j x → s' x = read s (x.take ms.length)) ∧
        ∀ x, ¬ (InBounds (shapeOf md) x ∧ Pre j x) → s' x = s x := by
  intro todo
  induction todo with
  | zero =>
    intro I j s hI hlen hb
    have hj : InBounds (shapeOf md) j := ⟨by simp [shapeOf]; omega, fun k hk => hb k (by simp [shapeOf] at hk; omega)⟩
    refine ⟨_, copyElement_done hf read hj s, ?_, ?_⟩
    · rintro x hx ⟨l, rfl⟩
      have : l = [] := by
        have h1 := hx.1; have h2 := hj.1
        rw [List.length_append] at h1
        exact List.eq_nil_of_length_eq_zero (by omega)
      subst this
      simp
    · intro x hx
      refine Function.update_of_ne ?_ _ _
      rintro rfl
      exact hx ⟨hj, [], by simp⟩
  | succ todo ih =>
    intro I j s hI hlen hb
    have hext : getIndexExtent ms true I = some ((shapeOf md).getD I 0) := by
      have := Shape.C72_extent ms hf.vs true I
      rw [this, hf.same, extentOf_lt (by omega)]
    rw [copyElements, hext]
    show ∃ s', forLoop (fun i s => copyElements md ms read todo (I + 1) (j ++ [i]) s) ((shapeOf md).getD I 0) s = .done s' ∧ _
    have key : ∀ k ≤ (shapeOf md).getD I 0, ∃ s', forLoop (fun i s => copyElements md ms read todo (I + 1) (j ++ [i]) s) k s = .done s' ∧
        (∀ x, InBounds (shapeOf md) x → (∃ i < k, Pre (j ++ [i]) x) → s' x = read s (x.take ms.length)) ∧
        ∀ x, ¬ (InBounds (shapeOf md) x ∧ ∃ i < k, Pre (j ++ [i]) x) → s' x = s x := by
      intro k
      induction k with
      | zero =>
        intro _
        refine ⟨s, rfl, ?_, fun _ _ => rfl⟩
        rintro x - ⟨i, hi, -⟩
        omega
      | succ k ihk =>
        intro hk
        obtain ⟨s₁, e₁, r₁, o₁⟩ := ihk (by omega)
        obtain ⟨s₂, e₂, r₂, o₂⟩ := ih (I + 1) (j ++ [k]) s₁ (by simp [hI]) (by omega) (by
          intro i hi
          by_cases hc : i < I
          · have : (j ++ [k]).getD i 0 = j.getD i 0 := by
              rw [List.getD_eq_getElem?_getD, List.getD_eq_getElem?_getD, List.getElem?_append_left (by omega)]
            rw [this]; exact hb i hc
          · have : i = I := by omega
            subst this
            have : (j ++ [k]).getD i 0 = k := by simp [List.getD, ← hI]
            rw [this]; omega)
        refine ⟨s₂, ?_, ?_, ?_⟩
        · rw [forLoop, e₁]; exact e₂
        · rintro x hx ⟨i, hi, hp⟩
          by_cases hik : i = k
          · subst hik
            rw [r₂ x hx hp]
            refine hr _ _ x hx (o₁ x ?_)
            rintro ⟨-, i', hi', hp'⟩
            have := pre_inj hp hp'
            omega
          · rw [o₂ x (fun h => hik (pre_inj hp h.2))]
            exact r₁ x hx ⟨i, by omega, hp⟩
        · intro x hx
          rw [o₂ x (fun h => hx ⟨h.1, k, by omega, h.2⟩)]
          refine o₁ x ?_
          rintro ⟨h1, i, hi, hp⟩
          exact hx ⟨h1, i, by omega, hp⟩
    obtain ⟨s', e, r, o⟩ := key _ le_rfl
    have hpre : ∀ x, InBounds (shapeOf md) x → (Pre j x ↔ ∃ i < (shapeOf md).getD I 0, Pre (j ++ [i]) x) := by
      intro x hx
      constructor
      · intro hp
        rcases pre_succ.1 hp with rfl | ⟨i, hp'⟩
        · have := hx.1
          simp only [shapeOf, List.length_map] at this
          omega
        · refine ⟨i, ?_, hp'⟩
          have h1 := pre_getD hp'
          have h2 := hx.2 I (by simp [shapeOf]; omega)
          rw [hI] at h1
          omega
      · rintro ⟨i, -, hp⟩
        exact pre_succ.2 (.inr ⟨i, hp⟩)
    refine ⟨s', e, fun x hx hp => r x hx ((hpre x hx).1 hp), fun x hx => o x ?_⟩
    rintro ⟨h1, h2⟩
    exact hx ⟨h1, (hpre x h1).2 h2⟩

end OpenKalman.InPlace
