import Verif.Spec.PatternColl
import Verif.Model.PatternColl
import Verif.Proof.Pattern
import Mathlib.Tactic.SplitIfs
import Mathlib.Data.List.Forall2
import Mathlib.Data.List.GetD

/-! # Lemmas for C14–C17 -/

namespace OpenKalman.PatternColl
open OpenKalman.Collections (OrderLaws)

variable {T : Theory}

/-! ## Comparison of collections -/

/-- Agreement of the entries that exist in at least one of the two. -/
def Agree (comp : POrd → Bool) (xs ys : List T.α) : Prop :=
  ∀ i, i < max xs.length ys.length → comp (T.cmp (xs.getD i T.one) (ys.getD i T.one)) = true

variable (comp : POrd → Bool)

theorem agree_cons (x y : T.α) (xs ys : List T.α) : Agree comp (x :: xs) (y :: ys) ↔ comp (T.cmp x y) = true ∧ Agree comp xs ys := by
  constructor
  · intro h
    refine ⟨by simpa using h 0 (by simp), fun i hi => by simpa using h (i + 1) (by simp only [List.length_cons]; omega)⟩
  · rintro ⟨h0, h⟩ i hi
    cases i with
    | zero => simpa using h0
    | succ i => simpa using h i (by simp only [List.length_cons] at hi; omega)

theorem agree_nil_right (x : T.α) (xs : List T.α) : Agree comp (x :: xs) [] ↔ comp (T.cmp x T.one) = true ∧ Agree comp xs [] := by
  constructor
  · intro h
    exact ⟨by simpa using h 0 (by simp), fun i hi => by simpa using h (i + 1) (by simp at hi ⊢; omega)⟩
  · rintro ⟨h0, h⟩ i hi
    cases i with
    | zero => simpa using h0
    | succ i => simpa using h i (by simp at hi ⊢; omega)

theorem agree_nil_left (y : T.α) (ys : List T.α) : Agree comp [] (y :: ys) ↔ comp (T.cmp T.one y) = true ∧ Agree comp [] ys := by
  constructor
  · intro h
    exact ⟨by simpa using h 0 (by simp), fun i hi => by simpa using h (i + 1) (by simp at hi ⊢; omega)⟩
  · rintro ⟨h0, h⟩ i hi
    cases i with
    | zero => simpa using h0
    | succ i => simpa using h i (by simp at hi ⊢; omega)

theorem agree_nil_nil : Agree (T := T) comp [] [] := fun i hi => by simp at hi

theorem aTail_iff (xs : List T.α) : aTail comp xs = true ↔ Agree comp xs [] := by
  induction xs with
  | nil => simp [aTail, agree_nil_nil]
  | cons x xs ih => rw [agree_nil_right, ← ih]; simp [aTail]

theorem bTail_iff (ys : List T.α) : bTail comp ys = true ↔ Agree comp [] ys := by
  induction ys with
  | nil => simp [bTail, agree_nil_nil]
  | cons x xs ih => rw [agree_nil_left, ← ih]; simp [bTail]

theorem iterA_iff (xs ys : List T.α) : iterA comp xs ys = true ↔ Agree comp xs ys := by
  induction xs generalizing ys with
  | nil => cases ys <;> simp only [iterA] <;> exact bTail_iff comp _
  | cons x xs ih =>
    cases ys with
    | nil => exact aTail_iff comp _
    | cons y ys => rw [agree_cons, ← ih]; simp [iterA]

theorem iterFixed_iff (xs ys : List T.α) : iterFixed comp xs ys = true ↔ Agree comp xs ys := by
  induction xs generalizing ys with
  | nil => cases ys <;> simp only [iterFixed] <;> exact bTail_iff comp _
  | cons x xs ih =>
    cases ys with
    | nil => exact aTail_iff comp _
    | cons y ys => rw [agree_cons, ← ih]; simp [iterFixed]

theorem iterB_iff (xs ys : List T.α) : iterB comp xs ys = true ↔ Agree comp xs ys := by
  induction xs generalizing ys with
  | nil =>
    cases ys with
    | nil => exact aTail_iff comp _
    | cons y ys => exact bTail_iff comp _
  | cons x xs ih =>
    cases ys with
    | nil => exact aTail_iff comp _
    | cons y ys => rw [agree_cons, ← ih]; simp [iterB]

theorem loopDyn_iff (xs ys : List T.α) : loopDyn comp xs ys = true ↔ Agree comp xs ys := by
  unfold loopDyn
  simp only [Bool.and_eq_true, List.all_eq_true, List.mem_range, List.mem_range'_1]
  constructor
  · rintro ⟨⟨h1, h2⟩, h3⟩ i hi
    by_cases hx : i < xs.length <;> by_cases hy : i < ys.length
    · exact h1 i (by omega)
    · rw [List.getD_eq_default ys _ (by omega)]; exact h2 i (by omega)
    · rw [List.getD_eq_default xs _ (by omega)]; exact h3 i (by omega)
    · omega
  · intro h
    refine ⟨⟨fun i hi => h i (by omega), fun i hi => ?_⟩, fun i hi => ?_⟩
    · have := h i (by omega)
      rwa [List.getD_eq_default ys _ (by omega)] at this
    · have := h i (by omega)
      rwa [List.getD_eq_default xs _ (by omega)] at this

theorem agree_iff_padded (h : comp (T.cmp T.one T.one) = true) (xs ys : List T.α) :
    Agree comp xs ys ↔ AgreePadded (fun x y => comp (T.cmp x y) = true) T.one xs ys := by
  constructor
  · intro hA i
    by_cases hi : i < max xs.length ys.length
    · exact hA i hi
    · show comp (T.cmp (xs.getD i T.one) (ys.getD i T.one)) = true
      rw [List.getD_eq_default _ _ (by omega), List.getD_eq_default _ _ (by omega)]; exact h
  · exact fun hA i _ => hA i

/-! ## Stripping -/

theorem isStrip_unique {α : Type} {p : α → Prop} {l s s' : List α} (h : IsStrip p l s) (h' : IsStrip p l s') : s = s' := by
  obtain ⟨⟨t, ht, hp⟩, hl⟩ := h
  obtain ⟨⟨t', ht', hp'⟩, hl'⟩ := h'
  rw [ht] at ht'
  rcases List.append_eq_append_iff.mp ht' with ⟨u, h1, h2⟩ | ⟨u, h1, h2⟩
  · rcases List.eq_nil_or_concat u with rfl | ⟨u', x, rfl⟩
    · simp [h1]
    · exact absurd (hp x (by simp [h2])) (hl' x (by rw [h1]; simp))
  · rcases List.eq_nil_or_concat u with rfl | ⟨u', x, rfl⟩
    · simp [h1]
    · exact absurd (hp' x (by simp [h2])) (hl x (by rw [h1]; simp))

theorem isStrip_nil {α : Type} {p : α → Prop} {l : List α} (h : ∀ x ∈ l, p x) : IsStrip p l [] := ⟨⟨l, rfl, h⟩, by simp⟩

/-- One step: the last of the first `i + 1` entries is dropped. -/
theorem isStrip_step {α : Type} {p : α → Prop} {l s : List α} {i : Nat} (hi : i < l.length) (hp : p l[i]) (h : IsStrip p (l.take i) s) :
    IsStrip p (l.take (i + 1)) s := by
  obtain ⟨⟨t, ht, hpt⟩, hl⟩ := h
  refine ⟨⟨t ++ [l[i]], ?_, ?_⟩, hl⟩
  · rw [List.take_succ_eq_append_getElem hi, ht, List.append_assoc]
  · intro x hx
    rcases List.mem_append.mp hx with hx | hx
    · exact hpt x hx
    · rw [List.mem_singleton.mp hx]; exact hp

theorem isStrip_stop {α : Type} {p : α → Prop} {l : List α} {i : Nat} (hi : i < l.length) (hp : ¬ p l[i]) :
    IsStrip p (l.take (i + 1)) (l.take (i + 1)) := by
  refine ⟨⟨[], by simp, by simp⟩, fun x hx => ?_⟩
  rw [List.take_succ_eq_append_getElem hi, List.getLast?_append] at hx
  simp only [List.getLast?_singleton, Option.some_or, Option.some.injEq] at hx
  rwa [← hx]

theorem isEq_iff (o : POrd) : o.isEq = true ↔ o = .equivalent := by cases o <;> simp [POrd.isEq]

/-- Compares equal with the one-dimensional pattern. -/
def IsOne (x : T.α) : Prop := T.cmp x T.one = .equivalent

theorem stripLoop_isStrip (xs : List T.α) (i : Nat) (hi : i ≤ xs.length) : IsStrip IsOne (xs.take i) (xs.take (stripLoop xs i)) := by
  induction i with
  | zero => exact isStrip_nil (by simp)
  | succ i ih =>
    have h := ih (by omega)
    have hg : xs.getD i T.one = xs[i]'(by omega) := by simp [List.getD, List.getElem?_eq_getElem (show i < xs.length by omega)]
    unfold stripLoop
    rw [hg]
    split_ifs with hc
    · refine isStrip_stop (by omega) ?_
      simpa [IsOne, isEq_iff, ← Bool.not_eq_true] using hc
    · refine isStrip_step (by omega) ?_ h
      simpa [IsOne, isEq_iff, ← Bool.not_eq_true] using hc

theorem stripDynFixed_isStrip (xs : List T.α) (i : Nat) (hi : i ≤ xs.length) : IsStrip IsOne (xs.take i) (stripDynFixed xs i) := by
  induction i with
  | zero => exact isStrip_nil (by simp)
  | succ i ih =>
    have h := ih (by omega)
    have hg : xs.getD i T.one = xs[i]'(by omega) := by simp [List.getD, List.getElem?_eq_getElem (show i < xs.length by omega)]
    unfold stripDynFixed
    rw [hg]
    split_ifs with hc
    · exact isStrip_step (by omega) ((isEq_iff _).mp hc) h
    · exact isStrip_stop (by omega) (fun hh => hc ((isEq_iff _).mpr hh))

theorem stripFixed_isStrip (s : T.Static POrd.isEq) (xs : List T.α) (i : Nat) (hi : i ≤ xs.length) : IsStrip IsOne (xs.take i) (stripFixed s xs i) := by
  induction i with
  | zero => exact isStrip_nil (by simp)
  | succ i ih =>
    have h := ih (by omega)
    have hg : xs.getD i T.one = xs[i]'(by omega) := by simp [List.getD, List.getElem?_eq_getElem (show i < xs.length by omega)]
    unfold stripFixed
    rw [hg]
    split
    · rename_i hk
      exact isStrip_step (by omega) ((isEq_iff _).mp (s.sound _ _ _ hk)) h
    · exact stripDynFixed_isStrip xs (i + 1) hi
    · rename_i hk
      refine isStrip_stop (by omega) (fun hh => ?_)
      have := s.sound _ _ _ hk
      rw [(isEq_iff _).mpr hh] at this
      exact absurd this (by simp)

theorem strip_isStrip (s : T.Static POrd.isEq) (c : Coll T) : IsStrip IsOne c.items (strip1DTail s c) := by
  cases c with
  | fixed xs =>
    have := stripFixed_isStrip s xs xs.length le_rfl
    rwa [List.take_length] at this
  | dyn t xs h =>
    have := stripLoop_isStrip xs xs.length le_rfl
    rwa [List.take_length] at this

/-- Agreement with padding, in terms of what is left after stripping. -/
theorem agreePadded_iff_strip {α : Type} {R : α → α → Prop} {one : α} (hrefl : ∀ a, R a a) (hsymm : ∀ a b, R a b → R b a)
    (htrans : ∀ a b c, R a b → R b c → R a c) {a b s t : List α} (hs : IsStrip (R · one) a s) (ht : IsStrip (R · one) b t) :
    AgreePadded R one a b ↔ List.Forall₂ R s t := by
  obtain ⟨⟨u, rfl, hu⟩, hls⟩ := hs
  obtain ⟨⟨v, rfl, hv⟩, hlt⟩ := ht
  have pad : ∀ (s u : List α), (∀ x ∈ u, R x one) → ∀ i, R (padded one (s ++ u) i) (padded one s i) := by
    intro s u hu i
    unfold padded
    by_cases h1 : i < s.length
    · rw [List.getD_append _ _ _ _ h1]; exact hrefl _
    · rw [List.getD_append_right _ _ _ _ (by omega), List.getD_eq_default s _ (by omega)]
      by_cases h2 : i - s.length < u.length
      · rw [List.getD_eq_getElem _ _ h2]; exact hu _ (List.getElem_mem _)
      · rw [List.getD_eq_default u _ (by omega)]; exact hrefl _
  have key : AgreePadded R one (s ++ u) (t ++ v) ↔ AgreePadded R one s t := by
    constructor
    · exact fun h i => htrans _ _ _ (hsymm _ _ (pad s u hu i)) (htrans _ _ _ (h i) (pad t v hv i))
    · exact fun h i => htrans _ _ _ (pad s u hu i) (htrans _ _ _ (h i) (hsymm _ _ (pad t v hv i)))
  rw [key]
  constructor
  · intro h
    have hlen : s.length = t.length := by
      rcases Nat.lt_trichotomy s.length t.length with hl | hl | hl
      · exfalso
        have hne : t ≠ [] := by rintro rfl; simp at hl
        have := h (t.length - 1)
        unfold padded at this
        rw [List.getD_eq_default s _ (by omega), List.getD_eq_getElem t _ (by omega)] at this
        exact hlt (t[t.length - 1]'(by omega)) (by rw [List.getLast?_eq_getElem?, List.getElem?_eq_getElem]) (hsymm _ _ this)
      · exact hl
      · exfalso
        have := h (s.length - 1)
        unfold padded at this
        rw [List.getD_eq_default t _ (by omega), List.getD_eq_getElem s _ (by omega)] at this
        exact hls (s[s.length - 1]'(by omega)) (by rw [List.getLast?_eq_getElem?, List.getElem?_eq_getElem]) this
    rw [List.forall₂_iff_get]
    refine ⟨hlen, fun i h1 h2 => ?_⟩
    have := h i
    unfold padded at this
    rwa [List.getD_eq_getElem s _ h1, List.getD_eq_getElem t _ h2] at this
  · intro h i
    rw [List.forall₂_iff_get] at h
    obtain ⟨hlen, h⟩ := h
    unfold padded
    by_cases h1 : i < s.length
    · have := h i h1 (hlen ▸ h1)
      rwa [List.getD_eq_getElem s _ h1, List.getD_eq_getElem t _ (hlen ▸ h1)]
    · rw [List.getD_eq_default s _ (by omega), List.getD_eq_default t _ (by omega)]; exact hrefl _

/-! ## Transposition -/

theorem getPattern_eq (p : List T.α) (i : Nat) : getPattern p i = padded T.one p i := by
  unfold getPattern padded
  split_ifs with h
  · rw [List.getD_eq_getElem _ _ h]
  · rw [List.getD_eq_default _ _ (by omega)]

theorem swapIdx_swapIdx (a b i : Nat) : swapIdx a b (swapIdx a b i) = i := by
  unfold swapIdx; split_ifs <;> omega

theorem swapIdx_lt {a b i n : Nat} (hab : a < b) (h : i < max n (b + 1)) : swapIdx a b i < max n (b + 1) := by
  unfold swapIdx; split_ifs <;> omega

theorem padded_transposeItems (p : List T.α) {a b : Nat} (hab : a < b) (i : Nat) :
    padded T.one (transposeItems p a b) i = padded T.one p (swapIdx a b i) := by
  have hlen : (transposeItems p a b).length = max p.length (b + 1) := by simp [transposeItems, transposeSize]
  by_cases h : i < max p.length (b + 1)
  · unfold padded
    rw [List.getD_eq_getElem _ _ (hlen ▸ h)]
    simp only [transposeItems, List.getElem_map, List.getElem_range, transposeDeref, getPattern_eq]
    rfl
  · unfold padded
    rw [List.getD_eq_default _ _ (by omega), List.getD_eq_default]
    unfold swapIdx; split_ifs <;> omega

/-! ## Largest and smallest -/

theorem largestFixed_spec (pre ds : List Nat) (mi mx : Nat)
    (h0 : mi ≤ pre.length) (hmi : mi < pre.length ∨ (mi = 0 ∧ pre = [])) (hmx : mx = pre.getD mi 0) (hge : ∀ j, pre.getD j 0 ≤ mx)
    (hlt : ∀ j, j < mi → pre.getD j 0 < mx) (hne : pre ++ ds ≠ []) : FirstMax (pre ++ ds) (largestFixed ds pre.length mi mx) := by
  induction ds generalizing pre mi mx with
  | nil =>
    simp only [List.append_nil] at hne ⊢
    rcases hmi with h | ⟨-, h⟩
    · exact ⟨h, fun j => hmx ▸ hge j, fun j hj => by show _ < pre.getD mi 0; rw [← hmx]; exact hlt j hj⟩
    · exact absurd h hne
  | cons d ds ih =>
    have e : pre ++ d :: ds = (pre ++ [d]) ++ ds := by simp
    have hl : (pre ++ [d]).length = pre.length + 1 := by simp
    have gd : ∀ j, (pre ++ [d]).getD j 0 = if j < pre.length then pre.getD j 0 else if j = pre.length then d else 0 := by
      intro j
      split_ifs with h1 h2
      · exact List.getD_append _ _ _ _ h1
      · rw [List.getD_append_right _ _ _ _ (by omega)]; simp [h2]
      · exact List.getD_eq_default _ _ (by omega)
    rw [e]
    unfold largestFixed
    rw [← hl]
    apply ih
    · split_ifs <;> omega
    · left; split_ifs with h
      · omega
      · rcases hmi with h' | ⟨h', -⟩ <;> omega
    · split_ifs with h
      · rw [gd]; simp
      · rw [gd]; split_ifs with h1 h2
        · exact hmx
        · rcases hmi with h' | ⟨h', hp⟩
          · omega
          · subst hp; simp at hmx; omega
        · rcases hmi with h' | ⟨h', hp⟩ <;> omega
    · intro j
      have := hge j
      rw [gd]
      split_ifs <;> omega
    · intro j
      have := hge j
      have hh := hlt j
      rw [gd]
      split_ifs <;> omega
    · simp

theorem maxElement_go_spec (pre ds : List Nat) (mi mx : Nat) (hmi : mi < pre.length) (hmx : mx = pre.getD mi 0) (hge : ∀ j, pre.getD j 0 ≤ mx)
    (hlt : ∀ j, j < mi → pre.getD j 0 < mx) : FirstMax (pre ++ ds) (maxElement.go ds pre.length mi mx) := by
  induction ds generalizing pre mi mx with
  | nil =>
    simp only [List.append_nil]
    exact ⟨hmi, fun j => hmx ▸ hge j, fun j hj => by show _ < pre.getD mi 0; rw [← hmx]; exact hlt j hj⟩
  | cons d ds ih =>
    have e : pre ++ d :: ds = (pre ++ [d]) ++ ds := by simp
    have hl : (pre ++ [d]).length = pre.length + 1 := by simp
    have gd : ∀ j, (pre ++ [d]).getD j 0 = if j < pre.length then pre.getD j 0 else if j = pre.length then d else 0 := by
      intro j
      split_ifs with h1 h2
      · exact List.getD_append _ _ _ _ h1
      · rw [List.getD_append_right _ _ _ _ (by omega)]; simp [h2]
      · exact List.getD_eq_default _ _ (by omega)
    rw [e]
    unfold maxElement.go
    rw [← hl]
    split_ifs with hd
    · apply ih
      · omega
      · rw [gd]; simp
      · intro j; have := hge j; rw [gd]; split_ifs <;> omega
      · intro j hj; have := hge j; rw [gd]; split_ifs <;> omega
    · apply ih
      · omega
      · rw [gd, if_pos hmi]; exact hmx
      · intro j; have := hge j; rw [gd]; split_ifs <;> omega
      · intro j hj; have := hlt j hj; rw [gd]; split_ifs <;> omega

theorem smallestFixed_spec (pre ds : List Nat) (mi mn : Nat) (hb : ∀ d ∈ pre ++ ds, d ≤ 2 ^ 64 - 1)
    (hmi : (mi < pre.length ∧ mn = pre.getD mi 0) ∨ (mi = 0 ∧ (∀ j, j < pre.length → pre.getD j 0 = mn) ∧ mn = 2 ^ 64 - 1))
    (hge : ∀ j, j < pre.length → mn ≤ pre.getD j 0)
    (hlt : ∀ j, j < mi → mn < pre.getD j 0) (hne : pre ++ ds ≠ []) : FirstMin (pre ++ ds) (smallestFixed ds pre.length mi mn) := by
  induction ds generalizing pre mi mn with
  | nil =>
    simp only [List.append_nil] at hne ⊢
    have hpos : 0 < pre.length := List.length_pos_iff.mpr hne
    rcases hmi with ⟨h, h'⟩ | ⟨h, h', -⟩
    · exact ⟨h, fun j hj => h' ▸ hge j hj, fun j hj => by show pre.getD mi 0 < _; rw [← h']; exact hlt j hj⟩
    · subst h
      refine ⟨hpos, fun j hj => ?_, fun j hj => absurd hj (by simp [smallestFixed])⟩
      show pre.getD 0 0 ≤ _
      rw [h' 0 hpos, h' j hj]
  | cons d ds ih =>
    have e : pre ++ d :: ds = (pre ++ [d]) ++ ds := by simp
    have hl : (pre ++ [d]).length = pre.length + 1 := by simp
    have gd : ∀ j, (pre ++ [d]).getD j 0 = if j < pre.length then pre.getD j 0 else if j = pre.length then d else 0 := by
      intro j
      split_ifs with h1 h2
      · exact List.getD_append _ _ _ _ h1
      · rw [List.getD_append_right _ _ _ _ (by omega)]; simp [h2]
      · exact List.getD_eq_default _ _ (by omega)
    have hd : d ≤ 2 ^ 64 - 1 := hb d (by simp)
    rw [e] at hb ⊢
    unfold smallestFixed
    rw [← hl]
    apply ih
    · exact hb
    · split_ifs with h
      · left; refine ⟨by omega, ?_⟩; rw [gd]; simp
      · rcases hmi with ⟨h1, h2⟩ | ⟨h1, h2, h3⟩
        · left; refine ⟨by omega, ?_⟩; rw [gd, if_pos h1]; exact h2
        · right; refine ⟨h1, fun j hj => ?_, h3⟩
          have := h2 j
          rw [gd]; split_ifs with h4 h5
          · exact this h4
          · omega
          · omega
    · intro j hj
      have := hge j
      rw [gd]
      split_ifs <;> omega
    · intro j hj
      have := hge j
      have hh := hlt j
      rw [gd]
      split_ifs at hj ⊢ <;> first | omega | (rcases hmi with ⟨h1, -⟩ | ⟨h1, -⟩ <;> omega)
    · simp

theorem minElement_go_spec (pre ds : List Nat) (mi mn : Nat) (hmi : mi < pre.length) (hmn : mn = pre.getD mi 0)
    (hge : ∀ j, j < pre.length → mn ≤ pre.getD j 0)
    (hlt : ∀ j, j < mi → mn < pre.getD j 0) : FirstMin (pre ++ ds) (minElement.go ds pre.length mi mn) := by
  induction ds generalizing pre mi mn with
  | nil =>
    simp only [List.append_nil]
    exact ⟨hmi, fun j hj => hmn ▸ hge j hj, fun j hj => by show pre.getD mi 0 < _; rw [← hmn]; exact hlt j hj⟩
  | cons d ds ih =>
    have e : pre ++ d :: ds = (pre ++ [d]) ++ ds := by simp
    have hl : (pre ++ [d]).length = pre.length + 1 := by simp
    have gd : ∀ j, (pre ++ [d]).getD j 0 = if j < pre.length then pre.getD j 0 else if j = pre.length then d else 0 := by
      intro j
      split_ifs with h1 h2
      · exact List.getD_append _ _ _ _ h1
      · rw [List.getD_append_right _ _ _ _ (by omega)]; simp [h2]
      · exact List.getD_eq_default _ _ (by omega)
    rw [e]
    unfold minElement.go
    rw [← hl]
    split_ifs with hd
    · apply ih
      · omega
      · rw [gd]; simp
      · intro j hj; have := hge j; rw [gd]; split_ifs <;> omega
      · intro j hj; have := hge j; rw [gd]; split_ifs <;> omega
    · apply ih
      · omega
      · rw [gd, if_pos hmi]; exact hmn
      · intro j hj; have := hge j; rw [gd]; split_ifs <;> omega
      · intro j hj; have := hlt j hj; rw [gd]; split_ifs <;> omega

end OpenKalman.PatternColl
