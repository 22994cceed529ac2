import Verif.Model.Evaluators

/-! # Lemmas on evaluators -/

namespace OpenKalman.Evaluators

variable {𝕜 : Type}

theorem lvalue_of_base {N : Numbers 𝕜} {t : Tower} (h : t.base.lvalue = false) : t.lvalue N = false := by
  induction t with
  | leaf l => exact h
  | hermitian up t ih => simp [Tower.lvalue, ih h]
  | triangular tri t ih => exact ih h
  | diagonal t ih => exact ih h

theorem position_column {l : Leaf} (h : l.cols = 1) {i : ℕ} (hi : i < l.rows) : l.position i = (i, 0) := by
  unfold Leaf.position
  split
  · rw [h, Nat.div_one, Nat.mod_one]
  · rw [Nat.mod_eq_of_lt hi, Nat.div_eq_of_lt hi]

theorem herm_elem_up [Zero 𝕜] (N : Numbers 𝕜) (m : ℕ → ℕ → 𝕜) (t : Tower) (i j : ℕ) : (Tower.hermitian true t).elem N m i j =
    if i > j then N.conj (t.elem N m j i) else if i = j then N.re (t.elem N m i j) else t.elem N m i j := by
  simp only [Tower.elem, iff_true]
  rcases Nat.lt_trichotomy i j with h | h | h
  · rw [if_neg (by omega), if_pos h, if_neg (by omega), if_neg (by omega)]
  · subst h; simp
  · rw [if_neg (by omega), if_neg (by omega), if_pos h]

theorem herm_elem_low [Zero 𝕜] (N : Numbers 𝕜) (m : ℕ → ℕ → 𝕜) (t : Tower) (i j : ℕ) : (Tower.hermitian false t).elem N m i j =
    if i < j then N.conj (t.elem N m j i) else if i = j then N.re (t.elem N m i j) else t.elem N m i j := by
  simp only [Tower.elem, Bool.false_eq_true, iff_false]
  rcases Nat.lt_trichotomy i j with h | h | h
  · rw [if_neg (by omega), if_neg (by omega), if_pos h]
  · subst h; simp
  · rw [if_neg (by omega), if_pos (by omega), if_neg (by omega), if_neg (by omega)]

theorem tri_elem [Zero 𝕜] (N : Numbers 𝕜) (m : ℕ → ℕ → 𝕜) (tri : Tri) (t : Tower) (i j : ℕ) : (Tower.triangular tri t).elem N m i j =
    match tri with
    | .diagonal => if i ≠ j then 0 else t.elem N m i j
    | .upper => if i > j then 0 else t.elem N m i j
    | .lower => if i < j then 0 else t.elem N m i j := by
  cases tri
  · show (if Tri.upper.has i j then t.elem N m i j else 0) = if i > j then 0 else t.elem N m i j
    by_cases h : i ≤ j
    · rw [if_pos (show Tri.upper.has i j from h), if_neg (by omega)]
    · rw [if_neg (show ¬ Tri.upper.has i j from h), if_pos (by omega)]
  · show (if Tri.lower.has i j then t.elem N m i j else 0) = if i < j then 0 else t.elem N m i j
    by_cases h : j ≤ i
    · rw [if_pos (show Tri.lower.has i j from h), if_neg (by omega)]
    · rw [if_neg (show ¬ Tri.lower.has i j from h), if_pos (by omega)]
  · show (if Tri.diagonal.has i j then t.elem N m i j else 0) = if i ≠ j then 0 else t.elem N m i j
    by_cases h : i = j
    · rw [if_pos (show Tri.diagonal.has i j from h), if_neg (by simpa using h)]
    · rw [if_neg (show ¬ Tri.diagonal.has i j from h), if_pos h]

theorem coeff_eq [Zero 𝕜] (N : Numbers 𝕜) (m : ℕ → ℕ → 𝕜) {t : Tower} (hv : t.Valid) (hs : t.Simple)
    (hok : N.complex = false ∨ t.someHermitian = false ∨ t.base.lvalue = false) : ∀ {i j : ℕ}, i < t.rows → j < t.cols →
      t.coeff N m i j = .value (t.elem N m i j) := by
  induction t with
  | leaf l => intros; rfl
  | hermitian up t ih =>
    intro i j hi hj
    simp only [Tower.rows, Tower.cols] at hi hj
    obtain ⟨hv, hsq⟩ := hv
    have hok' : N.complex = false ∨ t.base.lvalue = false := by
      obtain h | h | h := hok
      · exact .inl h
      · simp [Tower.someHermitian] at h
      · exact .inr h
    have ih1 := ih hv hs (hok'.imp id .inr) hi hj
    have ih2 := ih hv hs (hok'.imp id .inr) (i := j) (j := i) (by omega) (by omega)
    have hc : conjugated N (t.lvalue N) (t.coeff N m j i) = .value (N.conj (t.elem N m j i)) := by
      rw [ih2]; unfold conjugated
      obtain h | h := hok'
      · simp [h, (N.real h _).1]
      · rw [lvalue_of_base h]
        by_cases hx : N.complex = true
        · simp [hx, Read.map]
        · simp [hx, (N.real (by simpa using hx) _).1]
    have hd : (if i = j ∧ N.complex = true ∧ t.lvalue N = false then (t.coeff N m i j).map N.re else t.coeff N m i j) =
        .value (if i = j then N.re (t.elem N m i j) else t.elem N m i j) := by
      rw [ih1]
      by_cases hij : i = j
      · by_cases hx : N.complex = true
        · have hl := lvalue_of_base (N := N) (hok'.resolve_left (by simp [hx]))
          rw [if_pos ⟨hij, hx, hl⟩, if_pos hij]; rfl
        · rw [if_neg (by simp [hx]), if_pos hij, (N.real (by simpa using hx) _).2]
      · rw [if_neg (by simp [hij]), if_neg hij]
    cases up
    · rw [herm_elem_low]; simp only [Tower.coeff]
      rw [hc, hd]
      split <;> rfl
    · rw [herm_elem_up]; simp only [Tower.coeff]
      rw [hc, hd]
      split <;> rfl
  | triangular tri t ih =>
    intro i j hi hj
    have ih1 := ih hv hs hok hi hj
    rw [tri_elem]
    cases tri <;> simp only [Tower.coeff] <;> rw [ih1] <;> split <;> rfl
  | diagonal t _ =>
    intro i j hi hj
    cases t with
    | leaf l =>
      simp only [Tower.coeff, Tower.elem, Tower.coeffAt]
      by_cases h : i = j
      · rw [if_pos h, if_pos h, position_column hv.2 hi]
      · rw [if_neg h, if_neg h]
    | _ => exact hs.elim

theorem one_size {t : Tower} (hv : t.Valid) (h : t.one = true) : t.rows = 1 ∧ t.cols = 1 ∧ t.base.rows = 1 ∧ t.base.cols = 1 := by
  induction t with
  | leaf l => exact ⟨(hv h).1, (hv h).2, hv h⟩
  | hermitian _ t ih => exact ih hv.1 h
  | triangular _ t ih => exact ih hv h
  | diagonal t ih => have := ih hv.1 h; exact ⟨this.1, this.1, this.2.2⟩

theorem coeffAt_one [Zero 𝕜] (N : Numbers 𝕜) (m : ℕ → ℕ → 𝕜) {t : Tower} (hok : N.complex = false ∨ t.someHermitian = false) (hv : t.Valid)
    (h : t.one = true) : t.coeffAt m 0 = .value (t.elem N m 0 0) := by
  induction t with
  | leaf l =>
    obtain ⟨-, -, h1, h2⟩ := one_size hv h
    simp only [Tower.base] at h1 h2
    simp [Tower.coeffAt, Tower.elem, Leaf.position]
  | hermitian up t ih =>
    have hr : N.complex = false := by
      obtain h | h := hok
      · exact h
      · simp [Tower.someHermitian] at h
    simp only [Tower.coeffAt, Tower.elem, if_true, (N.real hr _).2]
    exact ih (.inl hr) hv.1 h
  | triangular tri t ih =>
    simp only [Tower.coeffAt, Tower.elem]
    have h0 : tri.has 0 0 := by cases tri <;> simp [Tri.has]
    rw [if_pos h0, if_pos (show t.one = true from h)]
    exact ih hok hv h
  | diagonal t ih =>
    simp only [Tower.coeffAt, Tower.elem, if_true]
    rw [if_pos (show t.one = true from h)]
    exact ih hok hv.1 h

theorem one_of_evalLinear {t : Tower} (h : t.evalLinear = true) : t.one = true ∨ ∃ l, t = .leaf l := by
  cases t with
  | leaf l => exact .inr ⟨l, rfl⟩
  | hermitian up t => left; simp only [Tower.evalLinear, Tower.linear, Bool.and_eq_true] at h; exact h.2
  | triangular tri t => left; simp only [Tower.evalLinear, Tower.linear, Bool.and_eq_true] at h; exact h.2
  | diagonal t => simp [Tower.evalLinear] at h

/-- What is read at the place of a reference. -/
def Ref.read [Zero 𝕜] (m : ℕ → ℕ → 𝕜) : Ref → 𝕜
  | .element p q => m p q
  | _ => 0

theorem ref_diag {N : Numbers 𝕜} {l : Leaf} (hc : l.cols = 1) {i j : ℕ} (hi : i < l.rows) (h : (Tower.diagonal (.leaf l)).ref N i j ≠ .illFormed) :
    (Tower.diagonal (.leaf l)).ref N i j = if i = j then .element i 0 else .dummy := by
  simp only [Tower.ref, Tower.refAt] at h ⊢
  by_cases hl : l.lvalue = true
  · rw [if_pos hl, position_column hc hi]
  · rw [if_neg hl] at h; simp at h

theorem tri_key (tri : Tri) (i j : ℕ) (r : Ref) : (match tri with
      | .diagonal => if i ≠ j then .dummy else r
      | .upper => if i > j then .dummy else r
      | .lower => if i < j then .dummy else r) = if tri.has i j then r else Ref.dummy := by
  cases tri
  · by_cases h : i ≤ j
    · rw [if_pos (show Tri.upper.has i j from h)]; simp only; rw [if_neg (by omega)]
    · rw [if_neg (show ¬ Tri.upper.has i j from h)]; simp only; rw [if_pos (by omega)]
  · by_cases h : j ≤ i
    · rw [if_pos (show Tri.lower.has i j from h)]; simp only; rw [if_neg (by omega)]
    · rw [if_neg (show ¬ Tri.lower.has i j from h)]; simp only; rw [if_pos (by omega)]
  · by_cases h : i = j
    · rw [if_pos (show Tri.diagonal.has i j from h)]; simp only; rw [if_neg (by omega)]
    · rw [if_neg (show ¬ Tri.diagonal.has i j from h)]; simp only; rw [if_pos (by omega)]

theorem ref_tri {N : Numbers 𝕜} {tri : Tri} {t : Tower} {i j : ℕ} (h : (Tower.triangular tri t).ref N i j ≠ .illFormed) :
    t.ref N i j ≠ .illFormed ∧ (Tower.triangular tri t).ref N i j = if tri.has i j then t.ref N i j else .dummy := by
  simp only [Tower.ref] at h ⊢
  revert h
  cases t.ref N i j with
  | illFormed => intro h; simp at h
  | element p q => intro _; exact ⟨by simp, tri_key _ _ _ _⟩
  | dummy => intro _; exact ⟨by simp, tri_key _ _ _ _⟩

theorem ref_herm {N : Numbers 𝕜} {up : Bool} {t : Tower} {i j : ℕ} (h : (Tower.hermitian up t).ref N i j ≠ .illFormed) : N.complex = false ∧
    (Tower.hermitian up t).ref N i j = if (if up then i > j else i < j) then t.ref N j i else t.ref N i j := by
  by_cases hx : N.complex = true
  · cases up <;> simp [Tower.ref, hx] at h
  · refine ⟨by simpa using hx, ?_⟩
    cases up <;> simp [Tower.ref, hx]

theorem elem_ref [Zero 𝕜] {N : Numbers 𝕜} (m : ℕ → ℕ → 𝕜) {t : Tower} (hv : t.Valid) (hs : t.Simple) : ∀ {i j : ℕ}, i < t.rows → j < t.cols →
    t.ref N i j ≠ .illFormed → t.elem N m i j = (t.ref N i j).read m := by
  induction t with
  | leaf l =>
    intro i j _ _ h
    simp only [Tower.ref] at h ⊢
    by_cases hl : l.lvalue = true
    · rw [if_pos hl]; rfl
    · rw [if_neg hl] at h; simp at h
  | hermitian up t ih =>
    intro i j hi hj h
    simp only [Tower.rows, Tower.cols] at hi hj
    obtain ⟨hv, hsq⟩ := hv
    obtain ⟨hx, hr⟩ := ref_herm h
    rw [hr] at h ⊢
    cases up
    · rw [herm_elem_low, (N.real hx _).1, (N.real hx _).2, ite_self]
      simp only [Bool.false_eq_true, if_false] at h ⊢
      by_cases hij : i < j
      · rw [if_pos hij] at h ⊢; rw [if_pos hij]; exact ih hv hs (by omega) (by omega) h
      · rw [if_neg hij] at h ⊢; rw [if_neg hij]; exact ih hv hs hi hj h
    · rw [herm_elem_up, (N.real hx _).1, (N.real hx _).2, ite_self]
      simp only [if_true] at h ⊢
      by_cases hij : i > j
      · rw [if_pos hij] at h ⊢; rw [if_pos hij]; exact ih hv hs (by omega) (by omega) h
      · rw [if_neg hij] at h ⊢; rw [if_neg hij]; exact ih hv hs hi hj h
  | triangular tri t ih =>
    intro i j hi hj h
    obtain ⟨h', hr⟩ := ref_tri h
    have ih1 := ih hv hs hi hj h'
    rw [hr]
    simp only [Tower.elem]
    rw [ih1]
    split <;> rfl
  | diagonal t _ =>
    intro i j hi hj h
    cases t with
    | leaf l =>
      rw [ref_diag hv.2 hi h]
      simp only [Tower.elem]
      split <;> rfl
    | _ => exact hs.elim

theorem ref_inj {N : Numbers 𝕜} {t : Tower} (hv : t.Valid) (hs : t.Simple) : ∀ {i j k l p q : ℕ}, i < t.rows → j < t.cols → k < t.rows → l < t.cols →
    t.ref N i j = .element p q → t.ref N k l = .element p q → (k = i ∧ l = j) ∨ (k = j ∧ l = i) := by
  induction t with
  | leaf b =>
    intro i j k l p q _ _ _ _ h1 h2
    simp only [Tower.ref] at h1 h2
    by_cases hl : b.lvalue = true
    · rw [if_pos hl] at h1 h2
      simp only [Ref.element.injEq] at h1 h2
      omega
    · rw [if_neg hl] at h1; cases h1
  | hermitian up t ih =>
    intro i j k l p q hi hj hk hl h1 h2
    simp only [Tower.rows, Tower.cols] at hi hj hk hl
    obtain ⟨hv, hsq⟩ := hv
    rw [(ref_herm (by rw [h1]; simp)).2] at h1
    rw [(ref_herm (by rw [h2]; simp)).2] at h2
    have g : ∀ {c : Prop} [Decidable c] {x y : Ref}, (if c then x else y) = .element p q → x = .element p q ∨ y = .element p q := by
      intro c _ x y h
      split at h
      · exact .inl h
      · exact .inr h
    obtain h1 | h1 := g h1 <;> obtain h2 | h2 := g h2
    · have := ih hv hs (by omega) (by omega) (by omega) (by omega) h1 h2; omega
    · have := ih hv hs (by omega) (by omega) (by omega) (by omega) h1 h2; omega
    · have := ih hv hs (by omega) (by omega) (by omega) (by omega) h1 h2; omega
    · exact ih hv hs hi hj hk hl h1 h2
  | triangular tri t ih =>
    intro i j k l p q hi hj hk hl h1 h2
    rw [(ref_tri (by rw [h1]; simp)).2] at h1
    rw [(ref_tri (by rw [h2]; simp)).2] at h2
    have g : ∀ {c : Prop} [Decidable c] {r : Ref}, (if c then r else Ref.dummy) = Ref.element p q → r = .element p q := by
      intro c _ r h
      split at h
      · exact h
      · cases h
    exact ih hv hs hi hj hk hl (g h1) (g h2)
  | diagonal t _ =>
    intro i j k l p q hi hj hk hl h1 h2
    cases t with
    | leaf b =>
      rw [ref_diag hv.2 hi (by rw [h1]; simp)] at h1
      rw [ref_diag hv.2 hk (by rw [h2]; simp)] at h2
      split at h1
      · split at h2
        · simp only [Ref.element.injEq] at h1 h2; omega
        · cases h2
      · cases h1
    | _ => exact hs.elim

theorem ref_illFormed {N : Numbers 𝕜} {t : Tower} (hs : t.Simple) : ∀ {i j : ℕ},
    t.ref N i j = .illFormed ↔ ¬ (t.base.lvalue = true ∧ (N.complex = true → t.someHermitian = false)) := by
  induction t with
  | leaf l => intro i j; simp [Tower.ref, Tower.base, Tower.someHermitian]
  | hermitian up t ih =>
    intro i j
    by_cases hx : N.complex = true
    · cases up <;> simp [Tower.ref, hx, Tower.someHermitian]
    · have h : ∀ i j, t.ref N i j = .illFormed ↔ ¬ (t.base.lvalue = true) := fun i j => by rw [ih hs]; simp [hx]
      have hx' : N.complex = false := by simpa using hx
      have g : ∀ c : Prop, [Decidable c] → ((if c then t.ref N j i else t.ref N i j) = .illFormed ↔ ¬ (t.base.lvalue = true)) := by
        intro c _
        split <;> exact h _ _
      cases up <;> simp only [Tower.ref, hx', Tower.base, Bool.false_eq_true, if_false, false_implies, and_true] <;> exact g _
  | triangular tri t ih =>
    intro i j
    rw [show (Tower.triangular tri t).base = t.base from rfl, show (Tower.triangular tri t).someHermitian = t.someHermitian from rfl, ← ih hs (i := i) (j := j)]
    constructor
    · intro h
      by_contra hn
      simp only [Tower.ref] at h
      cases hr : t.ref N i j with
      | illFormed => exact hn hr
      | element p q =>
        rw [hr] at h
        cases tri <;> (simp only at h; split at h <;> cases h)
      | dummy =>
        rw [hr] at h
        cases tri <;> (simp only at h; split at h <;> cases h)
    · intro h; simp only [Tower.ref, h]
  | diagonal t _ =>
    intro i j
    cases t with
    | leaf l =>
      simp only [Tower.ref, Tower.refAt, Tower.base, Tower.someHermitian]
      by_cases hl : l.lvalue = true
      · rw [if_pos hl]; simp only [hl]
        split <;> simp
      · rw [if_neg hl]; simp [hl]
    | _ => exact hs.elim

end OpenKalman.Evaluators
