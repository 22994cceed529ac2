import Mathlib.Tactic.NormNum
import Mathlib.Tactic.Ring
import Mathlib.Tactic.Push
import Verif.Model.Compat

/-!
# Lemmas about the replacements for parts of the standard library
-/

namespace OpenKalman.Compat

/-! ## Integers -/

theorem conv_has {T : IntTy} (hT : T.Std) {z : ℤ} (h : T.Has z) : conv T z = z := by
  obtain ⟨s, n⟩ := T
  rcases hT with h' | h' | h' | h' <;> (simp only at h'; subst h'; cases s <;> simp only [IntTy.Has, conv, Int.bmod, reduceIte, Bool.false_eq_true] at h ⊢ <;> norm_num at h ⊢ <;> omega)

theorem std_int32 : int32.Std := Or.inr (Or.inr (Or.inl rfl))

theorem std_unsigned {T : IntTy} (hT : T.Std) : (makeUnsigned T).Std := hT

theorem common_std {T U : IntTy} (hT : T.Std) (hU : U.Std) : (common T U).Std := by
  obtain ⟨s, n⟩ := T
  obtain ⟨s', n'⟩ := U
  rcases hT with h | h | h | h <;> rcases hU with h' | h' | h' | h' <;> (simp only at h h'; subst h; subst h'; cases s <;> cases s' <;> simp [common, usual, promote, int32, IntTy.Std])

theorem common_has {T U : IntTy} (hT : T.Std) (hU : U.Std) (hs : T.signed = U.signed) {t u : ℤ} (ht : T.Has t) (hu : U.Has u) :
    (common T U).Has t ∧ (common T U).Has u := by
  obtain ⟨s, n⟩ := T
  obtain ⟨s', n'⟩ := U
  simp only at hs
  subst hs
  rcases hT with h | h | h | h <;> rcases hU with h' | h' | h' | h' <;>
    (simp only at h h'; subst h; subst h'
     cases s <;> simp [common, usual, promote, int32, IntTy.Has] at ht hu ⊢ <;> omega)

theorem builtinEq_same {T U : IntTy} (hT : T.Std) (hU : U.Std) (hs : T.signed = U.signed) {t u : ℤ} (ht : T.Has t) (hu : U.Has u) :
    builtinEq T U t u = decide (t = u) := by
  obtain ⟨a, b⟩ := common_has hT hU hs ht hu
  rw [builtinEq, conv_has (common_std hT hU) a, conv_has (common_std hT hU) b]

theorem builtinLt_same {T U : IntTy} (hT : T.Std) (hU : U.Std) (hs : T.signed = U.signed) {t u : ℤ} (ht : T.Has t) (hu : U.Has u) :
    builtinLt T U t u = decide (t < u) := by
  obtain ⟨a, b⟩ := common_has hT hU hs ht hu
  rw [builtinLt, conv_has (common_std hT hU) a, conv_has (common_std hT hU) b]

theorem has_zero32 : int32.Has 0 := by simp [IntTy.Has, int32]

theorem has_unsigned {T : IntTy} (hT : T.Std) {t : ℤ} (ht : T.Has t) (h : 0 ≤ t) : (makeUnsigned T).Has t := by
  obtain ⟨s, n⟩ := T
  rcases hT with h' | h' | h' | h' <;> (simp only at h'; subst h'; cases s <;> simp [IntTy.Has, makeUnsigned] at ht ⊢ <;> omega)

theorem has_nonneg {T : IntTy} (hs : T.signed = false) {t : ℤ} (ht : T.Has t) : 0 ≤ t := by
  simp [IntTy.Has, hs] at ht; exact ht.1

theorem cmpEqual_eq {T U : IntTy} (hT : T.Std) (hU : U.Std) {t u : ℤ} (ht : T.Has t) (hu : U.Has u) : cmpEqual T U t u = decide (t = u) := by
  unfold cmpEqual
  by_cases hs : T.signed = U.signed
  · rw [if_pos hs, builtinEq_same hT hU hs ht hu]
  · rw [if_neg hs]
    cases hTs : T.signed with
    | true =>
      have hUs : U.signed = false := by rw [hTs] at hs; simpa using hs
      have hu0 := has_nonneg hUs hu
      rw [if_pos rfl, builtinLt_same hT std_int32 hTs ht has_zero32]
      by_cases h0 : t < 0
      · rw [decide_eq_true h0, eq_comm, decide_eq_false (by omega)]; rfl
      · have := has_unsigned hT ht (by omega)
        rw [decide_eq_false h0, conv_has (std_unsigned hT) this, builtinEq_same (std_unsigned hT) hU (by rw [hUs]; rfl) this hu]; simp
    | false =>
      have hUs : U.signed = true := by rw [hTs] at hs; simpa using hs
      have ht0 := has_nonneg hTs ht
      rw [if_neg (by simp), builtinLt_same hU std_int32 hUs hu has_zero32]
      by_cases h0 : u < 0
      · rw [decide_eq_true h0, eq_comm, decide_eq_false (by omega)]; rfl
      · have := has_unsigned hU hu (by omega)
        rw [decide_eq_false h0, conv_has (std_unsigned hU) this, builtinEq_same (std_unsigned hU) hT (by rw [hTs]; rfl) this ht]; simp [eq_comm]

theorem cmpLess_eq {T U : IntTy} (hT : T.Std) (hU : U.Std) {t u : ℤ} (ht : T.Has t) (hu : U.Has u) : cmpLess T U t u = decide (t < u) := by
  unfold cmpLess
  by_cases hs : T.signed = U.signed
  · rw [if_pos hs, builtinLt_same hT hU hs ht hu]
  · rw [if_neg hs]
    cases hTs : T.signed with
    | true =>
      have hUs : U.signed = false := by rw [hTs] at hs; simpa using hs
      have hu0 := has_nonneg hUs hu
      rw [if_pos rfl, builtinLt_same hT std_int32 hTs ht has_zero32]
      by_cases h0 : t < 0
      · rw [decide_eq_true h0, eq_comm, decide_eq_true (by omega)]; rfl
      · have := has_unsigned hT ht (by omega)
        rw [decide_eq_false h0, conv_has (std_unsigned hT) this, builtinLt_same (std_unsigned hT) hU (by rw [hUs]; rfl) this hu]; simp
    | false =>
      have hUs : U.signed = true := by rw [hTs] at hs; simpa using hs
      have ht0 := has_nonneg hTs ht
      rw [if_neg (by simp), builtinLt_same hU std_int32 hUs hu has_zero32]
      by_cases h0 : u < 0
      · rw [decide_eq_true h0, eq_comm, decide_eq_false (by omega)]; rfl
      · have := has_unsigned hU hu (by omega)
        rw [decide_eq_false h0, conv_has (std_unsigned hU) this, builtinLt_same hT (std_unsigned hU) (by rw [hTs]; rfl) ht this]; simp

theorem lexCompare_result {α β : Type} (c : α → β → POrd) : ∀ (l : List α) (r : List β), LexResult c l r (lexCompare c l r)
  | [], [] => ⟨0, by simp, by simp, by simp, Or.inr (Or.inl ⟨rfl, rfl, rfl⟩)⟩
  | [], _ :: _ => ⟨0, by simp, by simp, by simp, Or.inr (Or.inr (Or.inl ⟨rfl, by simp, rfl⟩))⟩
  | _ :: _, [] => ⟨0, by simp, by simp, by simp, Or.inr (Or.inr (Or.inr ⟨by simp, rfl, rfl⟩))⟩
  | a :: l, b :: r => by
    by_cases h : c a b = .equivalent
    · obtain ⟨k, h1, h2, h3, h4⟩ := lexCompare_result c l r
      refine ⟨k + 1, ?_, by simpa using h2, by simpa using h3, ?_⟩
      · intro i x y hi hx hy
        cases i with
        | zero => simp at hx hy; subst hx; subst hy; exact h
        | succ i => simp at hx hy; exact h1 i x y (by omega) hx hy
      · simp only [lexCompare, h, ne_eq, not_true, if_false]
        simpa using h4
    · exact ⟨0, by simp, by simp, by simp, Or.inl ⟨a, b, rfl, rfl, h, by simp [lexCompare, h]⟩⟩

theorem lexResult_unique {α β : Type} {c : α → β → POrd} {l : List α} {r : List β} {o o' : POrd} (h : LexResult c l r o) (h' : LexResult c l r o') : o = o' := by
  obtain ⟨k, h1, h2, h3, h4⟩ := h
  obtain ⟨k', h1', h2', h3', h4'⟩ := h'
  rcases Nat.lt_trichotomy k k' with hk | hk | hk
  · have hl : k < l.length := by omega
    have hr : k < r.length := by omega
    rcases h4 with ⟨a, b, ha, hb, hne, _⟩ | h | h | h
    · exact absurd (h1' k a b hk ha hb) hne
    · omega
    · omega
    · omega
  · subst hk
    rcases h4 with ⟨a, b, ha, hb, _, ho⟩ | h | h | h <;> rcases h4' with ⟨a', b', ha', hb', _, ho'⟩ | h' | h' | h' <;>
      first
      | (rw [ha] at ha'; rw [hb] at hb'; cases ha'; cases hb'; rw [ho, ho'])
      | (have := (List.getElem?_eq_some_iff.mp ha).1; have := (List.getElem?_eq_some_iff.mp hb).1; omega)
      | (have := (List.getElem?_eq_some_iff.mp ha').1; have := (List.getElem?_eq_some_iff.mp hb').1; omega)
      | omega
      | (rw [h.2.2, h'.2.2])
  · have hl : k' < l.length := by omega
    have hr : k' < r.length := by omega
    rcases h4' with ⟨a, b, ha, hb, hne, _⟩ | h | h | h
    · exact absurd (h1 k' a b hk ha hb) hne
    · omega
    · omega
    · omega

/-! ## Advancing -/

theorem up_eq : ∀ (n : ℕ) (p : ℤ), up n p = p + n
  | 0, p => by simp [up]
  | n + 1, p => by rw [up, up_eq n]; push_cast; ring

theorem down_eq : ∀ (n : ℕ) (p : ℤ), down n p = p - n
  | 0, p => by simp [down]
  | n + 1, p => by rw [down, down_eq n]; push_cast; ring

theorem advance_eq (r b : Bool) (p n : ℤ) (h : r = true ∨ b = true ∨ 0 ≤ n) : advance r b p n = p + n := by
  unfold advance
  split_ifs with h1 h2
  · rfl
  · rw [down_eq, up_eq]; omega
  · rw [up_eq]; rcases h with h | h | h
    · exact absurd h h1
    · exact absurd h h2
    · omega

theorem advanceLoop_eq (b : ℤ) : ∀ (n : ℕ) (p : ℤ), b = p + n → advanceLoop b n p = some b
  | 0, p, h => by simp at h; simp [advanceLoop, h]
  | n + 1, p, h => by rw [advanceLoop, if_neg (by omega), advanceLoop_eq b n _ (by push_cast at h; omega)]

theorem upTo_eq (b : ℤ) : ∀ (n : ℕ) (p : ℤ), p ≤ b → upTo b n p = if b - p ≤ n then (b, (n - (b - p)).toNat) else (p + n, 0)
  | 0, p, h => by
    rw [upTo]; split_ifs with h1
    · have : p = b := by omega
      subst this; simp
    · simp
  | n + 1, p, h => by
    rw [upTo]
    by_cases hp : p = b
    · subst hp; rw [if_pos rfl, if_pos (by simp; omega)]; simp
    · rw [if_neg hp, upTo_eq b n _ (by omega)]
      by_cases h1 : b - p ≤ (n + 1 : ℕ)
      · rw [if_pos (by push_cast at h1; omega), if_pos h1]; congr 2; push_cast; omega
      · rw [if_neg (by push_cast at h1; omega), if_neg h1]; congr 1; push_cast; omega

theorem downTo_eq (b : ℤ) : ∀ (n : ℕ) (p : ℤ), b ≤ p → downTo b n p = if p - b ≤ n then (b, (n - (p - b)).toNat) else (p - n, 0)
  | 0, p, h => by
    rw [downTo]; split_ifs with h1
    · have : p = b := by omega
      subst this; simp
    · simp
  | n + 1, p, h => by
    rw [downTo]
    by_cases hp : p = b
    · subst hp; rw [if_pos rfl, if_pos (by simp; omega)]; simp
    · rw [if_neg hp, downTo_eq b n _ (by omega)]
      by_cases h1 : p - b ≤ (n + 1 : ℕ)
      · rw [if_pos (by push_cast at h1; omega), if_pos h1]; congr 2; push_cast; omega
      · rw [if_neg (by push_cast at h1; omega), if_neg h1]; congr 1; push_cast; omega

/-! ## Views -/

variable {α : Type}

theorem startTable_shift : ∀ (ns : List ℕ) (cur c : ℕ), (startTable ns cur)[c]? = ((startTable ns 0)[c]?).map (cur + ·)
  | [], cur, c => by simp [startTable]
  | n :: ns, cur, 0 => by simp [startTable]
  | n :: ns, cur, c + 1 => by
    simp only [startTable, List.getElem?_cons_succ]
    rw [startTable_shift ns (cur + n), startTable_shift ns (0 + n)]
    cases (startTable ns 0)[c]? <;> simp; omega

theorem tables : ∀ (L : List (List α)) (c0 i : ℕ), i < (L.map List.length).sum →
    ∃ c s l, (indexTable (L.map List.length) c0)[i]? = some (c0 + c) ∧ (startTable (L.map List.length) 0)[c]? = some s ∧ L[c]? = some l ∧
      s ≤ i ∧ i - s < l.length ∧ L.flatten[i]? = l[i - s]?
  | [], _, i, h => by simp at h
  | l :: L, c0, i, h => by
    by_cases hi : i < l.length
    · refine ⟨0, 0, l, ?_, by simp [startTable], by simp, by omega, by simpa using hi, ?_⟩
      · simp [indexTable, List.getElem?_append, hi]
      · simp [List.getElem?_append, hi]
    · simp at h
      obtain ⟨c, s, l', h1, h2, h3, h4, h5, h6⟩ := tables L (c0 + 1) (i - l.length) (by omega)
      refine ⟨c + 1, l.length + s, l', ?_, ?_, by simpa using h3, by omega, by omega, ?_⟩
      · simp only [List.map_cons, indexTable]
        rw [List.getElem?_append_right (by simp; omega)]
        simp only [List.length_replicate]
        rw [h1]; congr 1; omega
      · simp only [List.map_cons, startTable, List.getElem?_cons_succ]
        rw [startTable_shift, h2]; simp
      · rw [List.flatten_cons, List.getElem?_append_right (by omega), h6]; congr 1; omega

theorem view_spec : ∀ v : View α, v.size = v.elems.length ∧ ∀ i : ℕ, i < v.size → v.at i = v.elems[i]? := by
  intro v
  induction v using View.rec (motive_2 := fun vs => ∀ v ∈ vs, v.size = v.elems.length ∧ ∀ i : ℕ, i < v.size → v.at i = v.elems[i]?) with
  | base l => exact ⟨by simp [View.size, View.elems], fun i _ => by simp [View.at, View.elems]⟩
  | reverse v ih =>
    refine ⟨by simp [View.size, View.elems, ih.1], fun i hi => ?_⟩
    simp only [View.size] at hi
    have : ((v.size : ℤ) - i) - 1 = ((v.size - i - 1 : ℕ) : ℤ) := by omega
    rw [View.at, this, ih.2 _ (by omega), View.elems, List.getElem?_reverse (by rw [← ih.1]; exact hi)]
    congr 1
    rw [← ih.1]; omega
  | transform f v ih =>
    exact ⟨by simp [View.size, View.elems, ih.1], fun i hi => by rw [View.at, ih.2 i (by simpa [View.size] using hi), View.elems, List.getElem?_map]⟩
  | concat vs ih =>
    have hm : vs.map View.size = (vs.map View.elems).map List.length := by
      rw [List.map_map]; exact List.map_congr_left fun v hv => (ih v hv).1
    have hsz : (View.concat vs).size = ((vs.map View.elems).map List.length).sum := by rw [← hm]; simp [View.size]
    refine ⟨by rw [hsz]; simp [View.elems, List.length_flatten], fun i hi => ?_⟩
    rw [hsz] at hi
    obtain ⟨c, s, l, h1, h2, h3, h4, h5, h6⟩ := tables (vs.map View.elems) 0 i hi
    have hat : (View.concat vs).at i = concatAt (vs.map View.size) (vs.map View.at) i := by simp [View.at]
    have hel : (View.concat vs).elems = (vs.map View.elems).flatten := by simp [View.elems]
    rw [hat, hel, h6, hm]
    obtain ⟨v, hv, rfl⟩ : ∃ v, vs[c]? = some v ∧ v.elems = l := by simpa using h3
    have hmem := List.mem_of_getElem? hv
    have hlen := (ih v hmem).1
    unfold concatAt
    rw [if_neg (by omega)]
    simp only [Int.toNat_natCast, h1, Nat.zero_add, h2, List.getElem?_map, hv, Option.map_some]
    have : (i : ℤ) - s = ((i - s : ℕ) : ℤ) := by omega
    rw [this, (ih v hmem).2 _ (by omega)]
  | «repeat» x n => exact ⟨by simp [View.size, View.elems], fun i hi => by simp only [View.size] at hi; simp [View.at, View.elems, hi]⟩
  | single x =>
    refine ⟨by simp [View.size, View.elems], fun i hi => ?_⟩
    simp only [View.size] at hi
    obtain rfl : i = 0 := by omega
    simp [View.at, View.elems]
  | nil w hw => simp at hw
  | cons v vs h1 h2 w hw =>
    rcases List.mem_cons.mp hw with rfl | hw
    · exact h1
    · exact h2 w hw

/-! ## iota -/

/-- Splits into the eight types. -/
macro "eight" h:ident : tactic =>
  `(tactic| (rcases $h:ident with h' | h' | h' | h' <;> (simp only at h'; subst h')))

theorem iotaPlus_eq {W : IntTy} (hW : W.Std) {v n : ℤ} (hv : W.Has v) (hn : (iotaDiff W).Has n) (hn' : (iotaDiff W).Has (-n)) (h : W.Has (v + n)) :
    iotaPlus W v n = some (v + n) := by
  obtain ⟨s, k⟩ := W
  eight hW <;> cases s <;>
    simp [iotaPlus, iotaDiff, opAssign, negate, arith, common, usual, promote, int32, conv, Int.bmod, IntTy.Has] at hv hn hn' h ⊢ <;>
    (try split_ifs) <;> (try simp) <;> omega

theorem iotaDiff_has {W : IntTy} (hW : W.Std) {v n : ℤ} (hv : W.Has v) (h : W.Has (v + n)) (hb : |n| < 2 ^ 63) : (iotaDiff W).Has n ∧ (iotaDiff W).Has (-n) := by
  obtain ⟨s, k⟩ := W
  rw [abs_lt] at hb
  eight hW <;> cases s <;> simp [iotaDiff, promote, int32, IntTy.Has] at hv h hb ⊢ <;> omega

theorem iterDiff_has {W : IntTy} (hW : W.Std) {d : ℤ} (hb : |d| < 2 ^ (max 32 W.bits - 1)) : (iterDiff W).Has d ∧ (iterDiff W).Has (-d) := by
  obtain ⟨s, k⟩ := W
  rw [abs_lt] at hb
  eight hW <;> cases s <;> simp [iterDiff, promote, int32, IntTy.Has] at hb ⊢ <;> omega

theorem promote_has {W : IntTy} (hW : W.Std) {v : ℤ} (hv : W.Has v) (h0 : v < 0) (h : 32 ≤ W.bits → v ≠ -2 ^ (W.bits - 1)) : (promote W).Has (-v) := by
  obtain ⟨s, k⟩ := W
  eight hW <;> cases s <;> simp [promote, int32, IntTy.Has] at hv h ⊢ <;> omega

theorem iotaMinus_eq {W : IntTy} (hW : W.Std) {v n : ℤ} (hv : W.Has v) (hn : (iotaDiff W).Has n) (hn' : (iotaDiff W).Has (-n)) (h : W.Has (v - n)) :
    iotaMinus W v n = some (v - n) := by
  obtain ⟨s, k⟩ := W
  eight hW <;> cases s <;>
    simp [iotaMinus, iotaDiff, opAssign, negate, arith, common, usual, promote, int32, conv, Int.bmod, IntTy.Has] at hv hn hn' h ⊢ <;>
    (try split_ifs) <;> (try simp) <;> omega

theorem iotaAt_eq {W : IntTy} (hW : W.Std) {v n : ℤ} (hv : W.Has v) (hn : (iotaDiff W).Has n) (h : W.Has (v + n)) :
    iotaAt W v n = some (v + n) := by
  obtain ⟨s, k⟩ := W
  eight hW <;> cases s <;>
    simp [iotaAt, iotaDiff, opAssign, arith, common, usual, promote, int32, conv, Int.bmod, IntTy.Has] at hv hn h ⊢ <;>
    (try split_ifs) <;> (try simp) <;> omega

theorem iotaSub_eq {W : IntTy} (hW : W.Std) {x y : ℤ} (hx : W.Has x) (hy : W.Has y) (h : (iotaDiff W).Has (x - y)) (h' : (iotaDiff W).Has (y - x)) :
    iotaSub W x y = some (x - y) := by
  obtain ⟨s, k⟩ := W
  eight hW <;> cases s <;>
    simp [iotaSub, iotaDiff, negate, arith, builtinLt, common, usual, promote, int32, conv, Int.bmod, IntTy.Has] at hx hy h h' ⊢ <;>
    (try split_ifs) <;> (try simp) <;> omega

theorem iotaNext_eq {W : IntTy} (hW : W.Std) {v : ℤ} (hv : W.Has v) (h : W.Has (v + 1)) : iotaNext W v = some (v + 1) := by
  obtain ⟨s, k⟩ := W
  eight hW <;> cases s <;>
    simp [iotaNext, opAssign, arith, common, usual, promote, int32, conv, Int.bmod, IntTy.Has] at hv h ⊢ <;>
    (try split_ifs) <;> (try simp) <;> omega

theorem has_between {W : IntTy} {v x b : ℤ} (hv : W.Has v) (hb : W.Has b) (h1 : v ≤ x) (h2 : x ≤ b) : W.Has x := by
  unfold IntTy.Has at *
  split_ifs at * <;> omega

theorem iotaWalk_eq {W B : IntTy} (hW : W.Std) (hB : B.Std) (hs : W.signed = B.signed) {b : ℤ} (hb : W.Has b) (hb' : B.Has b) :
    ∀ (n : ℕ) (v : ℤ), W.Has v → b = v + n → iotaWalk W B b n v = some ((List.range n).map fun i : ℕ => v + (i : ℤ))
  | 0, v, hv, h => by
    rw [iotaWalk, builtinEq_same hW hB hs hv hb', if_pos (by simp at h; simp [h])]; simp
  | n + 1, v, hv, h => by
    have h1 : W.Has (v + 1) := has_between hv hb (by omega) (by push_cast at h; omega)
    rw [iotaWalk, builtinEq_same hW hB hs hv hb', if_neg (by simp; omega), iotaNext_eq hW hv h1]
    simp only [Option.bind_some]
    rw [iotaWalk_eq hW hB hs hb hb' n _ h1 (by push_cast at h; omega)]
    rw [Option.map_some, List.range_succ_eq_map, List.map_cons, List.map_map]
    refine congrArg some ?_
    refine List.cons_eq_cons.mpr ⟨by simp, List.map_congr_left fun a _ => ?_⟩
    simp only [Function.comp]; push_cast; omega

theorem builtinLt_zero {T : IntTy} (hT : T.Std) {t : ℤ} (ht : T.Has t) : builtinLt T int32 t 0 = decide (t < 0) := by
  obtain ⟨s, k⟩ := T
  eight hT <;> cases s <;>
    simp [builtinLt, common, usual, promote, int32, conv, Int.bmod, IntTy.Has] at ht ⊢ <;> omega

theorem negate_eq {T : IntTy} (hT : T.Std) {t : ℤ} (h : t < 0) (ht : T.Has t) (h' : (promote T).Has (-t)) : negate T t = some (-t) := by
  obtain ⟨s, k⟩ := T
  eight hT <;> cases s <;>
    simp [negate, arith, promote, int32, IntTy.Has] at ht h' ⊢ <;> omega

theorem conv_sizeT {z : ℤ} (h : 0 ≤ z) (h' : z < 2 ^ 64) : conv sizeT z = z := by
  simp only [conv, sizeT]; norm_num at h' ⊢; omega

theorem arith_sizeT {z : ℤ} (h : 0 ≤ z) (h' : z < 2 ^ 64) : arith sizeT z = some z := by
  simp only [arith, sizeT]; norm_num at h' ⊢; omega

theorem has_bound {T : IntTy} (hT : T.Std) {t : ℤ} (ht : T.Has t) : t < 2 ^ 64 ∧ -2 ^ 63 ≤ t := by
  obtain ⟨s, k⟩ := T
  eight hT <;> cases s <;> simp [IntTy.Has] at ht ⊢ <;> omega

theorem has_pos {T : IntTy} (hT : T.Std) (hs : T.signed = true) {t : ℤ} (ht : T.Has t) : t < 2 ^ 63 := by
  obtain ⟨s, k⟩ := T
  simp only at hs
  subst hs
  eight hT <;> simp [IntTy.Has] at ht ⊢ <;> omega

theorem iotaSize_eq {W B : IntTy} (hW : W.Std) (hB : B.Std) (hs : W.signed = B.signed) {v b : ℤ} (hv : W.Has v) (hb : B.Has b) (h : v ≤ b)
    (hv' : v < 0 → (promote W).Has (-v)) (hb' : b < 0 → (promote B).Has (-b)) : iotaSize W B v b = some (b - v) := by
  obtain ⟨a1, a2⟩ := has_bound hW hv
  obtain ⟨c1, c2⟩ := has_bound hB hb
  unfold iotaSize
  rw [builtinLt_zero hW hv, builtinLt_zero hB hb]
  by_cases h0 : v < 0
  · rw [if_pos (by simpa using h0), negate_eq hW h0 hv (hv' h0)]
    have hBs : B.signed = true := by
      by_contra hc
      rw [← hs] at hc
      have := has_nonneg (by simpa using hc) hv
      omega
    have := has_pos hB hBs hb
    norm_num at a1 a2 c1 c2 this
    by_cases h1 : b < 0
    · rw [if_pos (by simpa using h1), negate_eq hB h1 hb (hb' h1)]
      simp only [Option.bind_some]
      rw [conv_sizeT (by omega) (by norm_num; omega), conv_sizeT (by omega) (by norm_num; omega), arith_sizeT (by omega) (by norm_num; omega)]
      congr 1; omega
    · rw [if_neg (by simpa using h1)]
      simp only [Option.bind_some]
      rw [conv_sizeT (by omega) (by norm_num; omega), conv_sizeT (by omega) (by norm_num; omega), arith_sizeT (by omega) (by norm_num; omega)]
      congr 1
  · rw [if_neg (by simpa using h0)]
    norm_num at a1 a2 c1 c2
    rw [conv_sizeT (by omega) (by norm_num; omega), conv_sizeT (by omega) (by norm_num; omega), arith_sizeT (by omega) (by norm_num; omega)]

theorem iotaBoundSub_eq {W : IntTy} (hW : W.Std) {v b : ℤ} (hv : W.Has v) (hb : W.Has b) (h : (iterDiff W).Has (b - v)) (h' : (iterDiff W).Has (v - b)) :
    iotaBoundSub W W v b = some (b - v) ∧ iotaSubBound W W v b = some (v - b) := by
  obtain ⟨s, k⟩ := W
  eight hW <;> cases s <;>
    simp [iotaBoundSub, iotaSubBound, iterDiff, arith, common, usual, promote, int32, conv, Int.bmod, IntTy.Has] at hv hb h h' ⊢ <;>
    (try split_ifs) <;> (try simp) <;> omega

end OpenKalman.Compat
