import Verif.Model.Layout
import Mathlib.Tactic.Ring
import Mathlib.Tactic.Linarith
import Mathlib.Algebra.BigOperators.Group.List.Basic
import Mathlib.Logic.Equiv.Basic
import Mathlib.Data.List.GetD

/-! Helper lemmas for `Verif.Theorems.Layout`. -/

namespace OpenKalman.Layout

/-! ### Triangular numbers -/

theorem tri_succ (k : Nat) : (k + 1) * (k + 1 + 1) / 2 = k * (k + 1) / 2 + (k + 1) := by
  have : (k + 1) * (k + 1 + 1) = k * (k + 1) + 2 * (k + 1) := by ring
  omega

theorem two_tri (k : Nat) : 2 * (k * (k + 1) / 2) = k * (k + 1) := by
  induction k with
  | zero => rfl
  | succ k ih => rw [tri_succ]; ring_nf; ring_nf at ih; omega

theorem tri_mono {a b : Nat} (h : a ≤ b) : a * (a + 1) / 2 ≤ b * (b + 1) / 2 :=
  Nat.div_le_div_right (Nat.mul_le_mul h (by omega))

theorem tri_le_mul {n i : Nat} (h : i ≤ n) : i * (i + 1) / 2 ≤ n * i := by
  rcases Nat.eq_zero_or_pos i with rfl | hi
  · simp
  · have h2 := two_tri i
    nlinarith

/-- First offset of row `i` of the "large" packing. -/
def rowStart (n i : Nat) : Nat := i + n * i - i * (i + 1) / 2

theorem rowStart_succ {n i : Nat} (h : i < n) : rowStart n (i + 1) = rowStart n i + (n - i) := by
  have h1 := tri_le_mul (Nat.le_of_lt h)
  have h2 := tri_le_mul (show i + 1 ≤ n from h)
  unfold rowStart
  rw [tri_succ] at *
  have : n * (i + 1) = n * i + n := by ring
  omega

theorem rowStart_n (n : Nat) : rowStart n n = n * (n + 1) / 2 := by
  have h2 := two_tri n
  have : n * (n + 1) = n * n + n := by ring
  unfold rowStart
  omega

theorem body_large {n i j : Nat} (hi : i ≤ n) (hij : i ≤ j) : packedBody true n n i j = rowStart n i + (j - i) := by
  have h1 := tri_le_mul hi
  simp only [packedBody, if_true]
  unfold rowStart
  omega

theorem body_small {n i j : Nat} (hj : j ≤ n) : packedBody false n n i j = i + j * (j + 1) / 2 := by
  have : ¬ n < j := by omega
  simp [packedBody, this]

theorem rowStart_lt {n i i' : Nat} (h : i < i') (hn : i' ≤ n) : rowStart n i + (n - i) ≤ rowStart n i' := by
  induction i' with
  | zero => omega
  | succ k ih =>
    rcases Nat.lt_succ_iff_lt_or_eq.mp h with h' | rfl
    · have := ih h' (by omega)
      rw [rowStart_succ (by omega)]; omega
    · rw [rowStart_succ (by omega)]

theorem body_large_lt {n i j : Nat} (hij : i ≤ j) (hj : j < n) : packedBody true n n i j < n * (n + 1) / 2 := by
  rw [body_large (by omega) hij, ← rowStart_n n]
  have := rowStart_lt (show i < n by omega) (Nat.le_refl n)
  omega

theorem body_large_mono {n i j i' j' : Nat} (hij : i ≤ j) (hj : j < n) (hij' : i' ≤ j') (hj' : j' < n)
    (h : i < i' ∨ (i = i' ∧ j < j')) : packedBody true n n i j < packedBody true n n i' j' := by
  rw [body_large (by omega) hij, body_large (by omega) hij']
  rcases h with h | ⟨rfl, h⟩
  · have := rowStart_lt h (show i' ≤ n by omega)
    omega
  · omega

theorem body_large_surj_aux (n : Nat) : ∀ m ≤ n, ∀ k < rowStart n m, ∃ i j, i ≤ j ∧ j < n ∧ packedBody true n n i j = k := by
  intro m
  induction m with
  | zero => intro _ k hk; simp [rowStart] at hk
  | succ m ih =>
    intro hm k hk
    by_cases h : k < rowStart n m
    · exact ih (by omega) k h
    · rw [rowStart_succ (by omega)] at hk
      refine ⟨m, m + (k - rowStart n m), by omega, by omega, ?_⟩
      rw [body_large (by omega) (by omega)]; omega

theorem body_small_lt {n i j : Nat} (hij : i ≤ j) (hj : j < n) : packedBody false n n i j < n * (n + 1) / 2 := by
  rw [body_small (by omega)]
  have := tri_mono (show j + 1 ≤ n from hj)
  rw [tri_succ] at this; omega

theorem body_small_mono {n i j i' j' : Nat} (hij : i ≤ j) (hj : j < n) (hij' : i' ≤ j') (hj' : j' < n)
    (h : j < j' ∨ (j = j' ∧ i < i')) : packedBody false n n i j < packedBody false n n i' j' := by
  rw [body_small (by omega), body_small (by omega)]
  rcases h with h | ⟨rfl, h⟩
  · have := tri_mono (show j + 1 ≤ j' from h)
    rw [tri_succ] at this; omega
  · omega

theorem body_small_surj_aux (n : Nat) : ∀ m ≤ n, ∀ k < m * (m + 1) / 2, ∃ i j, i ≤ j ∧ j < n ∧ packedBody false n n i j = k := by
  intro m
  induction m with
  | zero => intro _ k hk; simp at hk
  | succ m ih =>
    intro hm k hk
    by_cases h : k < m * (m + 1) / 2
    · exact ih (by omega) k h
    · rw [tri_succ] at hk
      refine ⟨k - m * (m + 1) / 2, m, by omega, by omega, ?_⟩
      rw [body_small (by omega)]; omega

theorem packedMap_le (lg : Bool) (e0 e1 : Nat) {i j : Nat} (h : i ≤ j) (is : List Nat) :
    packedMap lg e0 e1 (i :: j :: is) = packedBody lg e0 e1 i j := by
  have : ¬ j < i := by omega
  simp [packedMap, this]

theorem packedMap_ge (lg : Bool) (e0 e1 : Nat) {i j : Nat} (h : j ≤ i) (is : List Nat) :
    packedMap lg e0 e1 (i :: j :: is) = packedBody lg e0 e1 j i := by
  rcases Nat.lt_or_eq_of_le h with h | rfl
  · simp [packedMap, h]
  · simp [packedMap]

/-! ### Index ranges -/

theorem inRange_length {ext idx : List Nat} (h : InRange ext idx) : idx.length = ext.length := List.Forall₂.length_eq h

@[simp] theorem inRange_cons {e i : Nat} {es is : List Nat} : InRange (e :: es) (i :: is) ↔ i < e ∧ InRange es is := by
  simp [InRange]

@[simp] theorem inRange_nil : InRange [] [] := List.Forall₂.nil

@[simp] theorem inRange_nil_cons {i : Nat} {is : List Nat} : ¬ InRange [] (i :: is) := by
  intro h; have := inRange_length h; simp at this

@[simp] theorem inRange_cons_nil {e : Nat} {es : List Nat} : ¬ InRange (e :: es) [] := by
  intro h; have := inRange_length h; simp at this

theorem inRange_iff {ext idx : List Nat} :
    InRange ext idx ↔ idx.length = ext.length ∧ ∀ i < ext.length, idx.getD i 0 < ext.getD i 0 := by
  induction ext generalizing idx with
  | nil => cases idx <;> simp
  | cons e es ih =>
    cases idx with
    | nil => simp
    | cons i is =>
      simp only [inRange_cons, ih, List.length_cons]
      constructor
      · rintro ⟨h1, h2, h3⟩
        refine ⟨by omega, fun k hk => ?_⟩
        cases k with
        | zero => simpa using h1
        | succ k => simpa using h3 k (by omega)
      · rintro ⟨h1, h2⟩
        refine ⟨by simpa using h2 0 (by omega), by omega, fun k hk => by simpa using h2 (k + 1) (by omega)⟩

/-! ### Standard mappings -/

theorem right_in_span (ext : List Nat) : StaysInSpan ext (rightMap ext) ext.prod := by
  induction ext with
  | nil => intro idx h; cases idx <;> simp_all [rightMap]
  | cons e es ih =>
    intro idx h
    cases idx with
    | nil => simp at h
    | cons i is =>
      rw [inRange_cons] at h
      have := ih is h.2
      simp only [rightMap, List.prod_cons]
      have : (i + 1) * es.prod ≤ e * es.prod := Nat.mul_le_mul_right _ h.1
      nlinarith

theorem right_unique (ext : List Nat) : Unique ext (rightMap ext) := by
  induction ext with
  | nil => intro i j hi hj _; cases i <;> cases j <;> simp_all
  | cons e es ih =>
    intro i j hi hj h
    cases i with
    | nil => simp at hi
    | cons i is =>
      cases j with
      | nil => simp at hj
      | cons j js =>
        rw [inRange_cons] at hi hj
        simp only [rightMap] at h
        have h1 := right_in_span es is hi.2
        have h2 := right_in_span es js hj.2
        have hij : i = j := by
          rcases Nat.lt_trichotomy i j with hlt | heq | hgt
          · have : (i + 1) * es.prod ≤ j * es.prod := Nat.mul_le_mul_right _ hlt
            nlinarith
          · exact heq
          · have : (j + 1) * es.prod ≤ i * es.prod := Nat.mul_le_mul_right _ hgt
            nlinarith
        subst hij
        rw [ih is js hi.2 hj.2 (by omega)]

theorem left_in_span (ext : List Nat) : StaysInSpan ext (leftMap ext) ext.prod := by
  induction ext with
  | nil => intro idx h; cases idx <;> simp_all [leftMap]
  | cons e es ih =>
    intro idx h
    cases idx with
    | nil => simp at h
    | cons i is =>
      rw [inRange_cons] at h
      have := ih is h.2
      simp only [leftMap, List.prod_cons]
      have : e * (leftMap es is + 1) ≤ e * es.prod := Nat.mul_le_mul_left _ this
      nlinarith

theorem left_unique (ext : List Nat) : Unique ext (leftMap ext) := by
  induction ext with
  | nil => intro i j hi hj _; cases i <;> cases j <;> simp_all
  | cons e es ih =>
    intro i j hi hj h
    cases i with
    | nil => simp at hi
    | cons i is =>
      cases j with
      | nil => simp at hj
      | cons j js =>
        rw [inRange_cons] at hi hj
        simp only [leftMap] at h
        have e1 : i = j := by
          have := congrArg (· % e) h
          simpa [Nat.add_mul_mod_self_left, Nat.mod_eq_of_lt hi.1, Nat.mod_eq_of_lt hj.1] using this
        subst e1
        have hpos : 0 < e := by omega
        rw [ih is js hi.2 hj.2 (Nat.eq_of_mul_eq_mul_left hpos (by omega))]

@[simp] theorem bump_zero (i : Nat) (is : List Nat) : bump 0 (i :: is) = (i + 1) :: is := rfl
@[simp] theorem bump_succ (r i : Nat) (is : List Nat) : bump (r + 1) (i :: is) = i :: bump r is := rfl

theorem right_stride (ext : List Nat) (r : Nat) (hr : r < ext.length) :
    StrideMeans ext (rightMap ext) r ((ext.drop (r + 1)).prod) := by
  induction ext generalizing r with
  | nil => simp at hr
  | cons e es ih =>
    intro idx h h'
    cases idx with
    | nil => simp at h
    | cons i is =>
      cases r with
      | zero => simp [rightMap]; ring
      | succ r =>
        simp only [bump_succ, inRange_cons] at h h'
        have := ih r (by simpa using hr) is h.2 h'.2
        simp only [bump_succ, rightMap, this, List.drop_succ_cons]; omega

theorem left_stride (ext : List Nat) (r : Nat) (hr : r < ext.length) :
    StrideMeans ext (leftMap ext) r ((ext.take r).prod) := by
  induction ext generalizing r with
  | nil => simp at hr
  | cons e es ih =>
    intro idx h h'
    cases idx with
    | nil => simp at h
    | cons i is =>
      cases r with
      | zero => simp [leftMap]; ring
      | succ r =>
        simp only [bump_succ, inRange_cons] at h h'
        have := ih r (by simpa using hr) is h.2 h'.2
        simp only [bump_succ, leftMap, this, List.take_succ_cons, List.prod_cons]; ring

/-! ### Transposition -/

theorem adjust_length (k a b : Nat) (ix : List Nat) : (adjust k a b ix).length = k := by simp [adjust]

theorem adjust_getD {k a b : Nat} {ix : List Nat} (hab : a < b) (hlen : ix.length = max k (b + 1)) {i : Nat} (hi : i < k) :
    (adjust k a b ix).getD i 0 = ix.getD (Equiv.swap a b i) 0 := by
  have h0 : k - ix.length = 0 := by omega
  have hb : b < ix.length := by omega
  have ha : a < ix.length := by omega
  simp only [adjust, h0, List.replicate_zero, List.append_nil, hb, ha, and_true]
  rw [List.getD_eq_getElem _ _ (by simpa using hi)]
  simp only [List.getElem_map, List.getElem_range, Equiv.swap_apply_def]

theorem ext_getD {l l' : List Nat} (hl : l.length = l'.length) (h : ∀ i < l.length, l.getD i 0 = l'.getD i 0) : l = l' := by
  apply List.ext_getElem hl
  intro i h1 h2
  have := h i h1
  rwa [List.getD_eq_getElem _ _ h1, List.getD_eq_getElem _ _ h2] at this

end OpenKalman.Layout

namespace OpenKalman.Layout

theorem bump_getD (r : Nat) (idx : List Nat) (i : Nat) :
    (bump r idx).getD i 0 = if i = r ∧ r < idx.length then idx.getD i 0 + 1 else idx.getD i 0 := by
  induction idx generalizing r i with
  | nil => cases r <;> simp [bump]
  | cons x xs ih =>
    cases r with
    | zero => cases i <;> simp
    | succ r => cases i with
      | zero => simp
      | succ i => simpa using ih r i

theorem bump_length (r : Nat) (idx : List Nat) : (bump r idx).length = idx.length := by simp [bump]

theorem adjust_swapped {k a b : Nat} {ix : List Nat} (hab : a < b) (hlen : ix.length = max k (b + 1)) :
    IndexSwapped a b ix (adjust k a b ix) := by
  intro i hi
  rw [adjust_length] at hi
  exact adjust_getD hab hlen hi

theorem swap_lt {a b L i : Nat} (ha : a < L) (hb : b < L) (hi : i < L) : Equiv.swap a b i < L := by
  rw [Equiv.swap_apply_def]; split_ifs <;> assumption

theorem adjust_inRange {a b : Nat} {ext e ix : List Nat} (hab : a < b) (he : ExtentsSwapped a b ext e) (h : InRange e ix) :
    InRange ext (adjust ext.length a b ix) := by
  obtain ⟨hl, hg⟩ := he
  obtain ⟨h1, h2⟩ := inRange_iff.mp h
  refine inRange_iff.mpr ⟨adjust_length .., fun i hi => ?_⟩
  rw [adjust_getD hab (by omega) hi]
  have hs : Equiv.swap a b i < e.length := swap_lt (by omega) (by omega) (by omega)
  have := h2 _ hs
  rw [hg _ hs, Equiv.swap_apply_self, List.getD_eq_getElem _ _ hi] at this
  rwa [List.getD_eq_getElem _ _ hi]

theorem adjust_inj {a b : Nat} {ext e ix jx : List Nat} (hab : a < b) (he : ExtentsSwapped a b ext e) (hi : InRange e ix)
    (hj : InRange e jx) (h : adjust ext.length a b ix = adjust ext.length a b jx) : ix = jx := by
  obtain ⟨hl, hg⟩ := he
  obtain ⟨i1, i2⟩ := inRange_iff.mp hi
  obtain ⟨j1, j2⟩ := inRange_iff.mp hj
  refine ext_getD (by omega) fun p hp => ?_
  by_cases hs : Equiv.swap a b p < ext.length
  · have := congrArg (fun l : List Nat => l.getD (Equiv.swap a b p) 0) h
    rwa [adjust_getD hab (by omega) hs, adjust_getD hab (by omega) hs, Equiv.swap_apply_self] at this
  · have hp' : p < e.length := by omega
    have e1 : e.getD p 0 = 1 := by rw [hg p hp', List.getD_eq_default _ _ (by omega)]
    have := i2 p hp'; have := j2 p hp'; omega

theorem adjust_bump {a b r : Nat} {ext e ix : List Nat} (hab : a < b) (he : ExtentsSwapped a b ext e) (hi : InRange e ix)
    (hr : r < e.length) : adjust ext.length a b (bump r ix) = bump (Equiv.swap a b r) (adjust ext.length a b ix) := by
  obtain ⟨hl, hg⟩ := he
  obtain ⟨i1, i2⟩ := inRange_iff.mp hi
  refine ext_getD (by simp [adjust_length, bump_length]) fun p hp => ?_
  rw [adjust_length] at hp
  rw [adjust_getD hab (by rw [bump_length]; omega) hp, bump_getD, bump_getD, adjust_getD hab (by omega) hp, adjust_length]
  have hiff : Equiv.swap a b p = r ↔ p = Equiv.swap a b r := by
    constructor
    · rintro rfl; simp
    · rintro rfl; simp
  by_cases hpr : p = Equiv.swap a b r
  · subst hpr
    simp only [Equiv.swap_apply_self, true_and]
    rw [if_pos (by omega), if_pos hp]
  · simp [hiff, hpr]

end OpenKalman.Layout

namespace OpenKalman.Layout

theorem inRange_mirror {ext : List Nat} {n : Nat} {es : List Nat} (he : ext = n :: n :: es) {i j : Nat} {is : List Nat}
    (h : InRange ext (i :: j :: is)) : InRange ext (j :: i :: is) := by
  subst he
  simp only [inRange_cons] at h ⊢
  exact ⟨h.2.1, h.1, h.2.2⟩

end OpenKalman.Layout
