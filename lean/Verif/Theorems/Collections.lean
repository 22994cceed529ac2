import Verif.Proof.Collections

/-!
# C18–C20: collection views, lexicographic comparison, index comparison
-/

namespace OpenKalman.Collections
variable {α β : Type}

/-! ## C18 -/

/-- The list a view expression stands for. -/
def View.denote : View α → List α
  | .base l => l
  | .concat vs => (List.ofFn fun i => (vs i).denote).flatten
  | .replicate v f => repeatList v.denote f
  | .slice v off ext => subList v.denote off ext
  | .reverse v => v.denote.reverse
  | .generate f n => (List.range n).map f
  | .repeat' a n => List.replicate n a

/-- Documented domain: every slice lies inside the view it is taken from. -/
def View.Valid : View α → Prop
  | .base _ => True
  | .concat vs => ∀ i, (vs i).Valid
  | .replicate v _ => v.Valid
  | .slice v off ext => v.Valid ∧ off ≤ v.denote.length ∧ ∀ e, ext = some e → off + e ≤ v.denote.length
  | .reverse v => v.Valid
  | .generate _ _ => True
  | .repeat' _ _ => True

private theorem refines_view (v : View α) (h : v.Valid) : Refines v.eval v.denote := by
  induction v with
  | base l => exact refines_base l
  | concat vs ih =>
    refine refines_concat ?_
    rw [List.forall₂_iff_get]
    refine ⟨by simp, fun i hi hj => ?_⟩
    simp only [List.length_ofFn] at hi hj
    simpa using ih ⟨i, hi⟩ (h ⟨i, hi⟩)
  | replicate v f ih => exact refines_replicate (ih h) f
  | slice v off ext ih => exact refines_slice (ih h.1) off ext h.2.1 h.2.2
  | reverse v ih => exact refines_reverse (ih h)
  | generate f n => exact refines_generate f n
  | repeat' a n => exact refines_repeat a n

/-- **C18**: every view expression, nested to any depth, has the size of the list it stands for; compile-time access, run-time access through an
iterator at any position with any offset, and iteration give the elements of that list; no in-range access leaves the stored data. -/
theorem C18_views (v : View α) (h : v.Valid) :
    v.eval.size = v.denote.length ∧
    (∀ i (hi : i < v.denote.length), v.eval.get i = some v.denote[i]) ∧
    (∀ p o (hi : p + o < v.denote.length), v.eval.at' p o = some v.denote[p + o]) ∧
    v.eval.iterate = v.denote.map some := by
  have r := refines_view v h
  refine ⟨r.size, fun i hi => ?_, fun p o hi => ?_, ?_⟩
  · rw [r.get i hi, List.getElem?_eq_getElem hi]
  · rw [r.at' p o hi, List.getElem?_eq_getElem hi]
  · apply List.ext_getElem
    · simp [Coll.iterate, r.size]
    · intro i h1 h2
      have hi : i < v.denote.length := by simpa using h2
      simp only [Coll.iterate, List.getElem_map, List.getElem_range]
      rw [r.at' i 0 (by simpa using hi)]
      simp [List.getElem?_eq_getElem hi]

/-- A slice of a reversed concatenation of a replication and a stored list. -/
example : (View.slice (.reverse (.concat (n := 2) (fun i => if i = 0 then .replicate (.base [1, 2]) 2 else .base [3]))) 1 (some 3)).Valid ∧
    (View.slice (.reverse (.concat (n := 2) (fun i => if i = 0 then .replicate (.base [1, 2]) 2 else .base [3]))) 1 (some 3)).denote = [2, 1, 2] := by
  constructor
  · refine ⟨?_, ?_, ?_⟩
    · intro i
      match i with
      | 0 => trivial
      | 1 => trivial
    · simp [View.denote, repeatList, List.replicate]
    · intro e he; cases he; simp [View.denote, repeatList, List.replicate]
  · simp [View.denote, repeatList, subList, List.replicate]

/-- **C18** (laws users rely on, as consequences): a replication by `f + g` is the concatenation of the two replications; reversing twice is the
identity; slicing a slice is one slice. -/
theorem C18_laws (v : View α) (f g off off' e e' : Nat) (h : v.Valid) (h1 : off + e ≤ v.denote.length) (h2 : off' + e' ≤ e) :
    (View.replicate v (f + g)).eval.iterate = (View.concat (n := 2) (fun i => if i = 0 then .replicate v f else .replicate v g)).eval.iterate ∧
    (View.reverse (.reverse v)).eval.iterate = v.eval.iterate ∧
    (View.slice (.slice v off (some e)) off' (some e')).eval.iterate = (View.slice v (off + off') (some e')).eval.iterate := by
  refine ⟨?_, ?_, ?_⟩
  · rw [(C18_views (.replicate v (f + g)) h).2.2.2, (C18_views (.concat _) (by
      intro i
      match i with
      | 0 => exact h
      | 1 => exact h)).2.2.2]
    simp [View.denote, repeatList, ← List.flatten_append]
  · rw [(C18_views (.reverse (.reverse v)) h).2.2.2, (C18_views v h).2.2.2]
    simp [View.denote]
  · have hl : (subList v.denote off (some e)).length = e := by simp [subList]; omega
    rw [(C18_views (.slice (.slice v off (some e)) off' (some e')) ⟨⟨h, by omega, by intro x hx; cases hx; exact h1⟩, by
        simp only [View.denote, hl]; omega, by intro x hx; cases hx; simp only [View.denote, hl]; omega⟩).2.2.2,
      (C18_views (.slice v (off + off') (some e')) ⟨h, by omega, by intro x hx; cases hx; omega⟩).2.2.2]
    simp only [View.denote, subList]
    rw [List.drop_take, List.take_take, List.drop_drop]
    congr 2
    omega

/-- **C18** (iota): element `i` of an iota view is `start + i`. -/
theorem C18_iota (start n : Nat) : (Coll.iota start n).iterate = (List.range n).map fun i => some (start + i) := by
  simp [Coll.iota, Coll.iterate, Coll.generate]

/-- **C18** (scope): a slice reaching past its base reads outside the stored data; no check is made. -/
theorem C18_slice_unchecked (l : List α) (off e : Nat) (h : l.length < off + e) (he : 0 < e) :
    (View.slice (.base l) off (some e)).eval.size = e ∧ (View.slice (.base l) off (some e)).eval.get (e - 1) = none := by
  simp [View.eval, Coll.slice, Coll.base]; omega

/-! ## C19 -/

/-- **C19** (agreement): whichever operands have compile-time sizes, the recursive and the loop implementation give the same result. -/
theorem C19_agree (cmp : α → β → POrd) (dl dr dl' dr' : Bool) (l : List α) (r : List β) :
    lexCompare cmp dl dr l r = lexCompare cmp dl' dr' l r := by
  have : ∀ dl dr, lexCompare cmp dl dr l r = loopLex cmp l r := by
    intro dl dr
    unfold lexCompare
    split
    · rename_i h
      rw [fixedLex_eq_loop cmp dl dr (by cases dl <;> cases dr <;> simp_all) l r 0 (by omega) (by omega)]; simp
    · rfl
  rw [this, this]

private theorem lex_loop (cmp : α → β → POrd) (dl dr : Bool) (l : List α) (r : List β) : lexCompare cmp dl dr l r = loopLex cmp l r :=
  C19_agree cmp dl dr true true l r

private theorem loop_eq_iff (cmp : α → β → POrd) (l : List α) (r : List β) : loopLex cmp l r = .equivalent ↔ LexEq cmp l r := by
  induction l generalizing r with
  | nil => cases r <;> simp [loopLex_nil_nil, loopLex_nil_cons, LexEq]
  | cons a l ih =>
    cases r with
    | nil => simp [loopLex_cons_nil, LexEq]
    | cons b r =>
      rw [loopLex_cons_cons]
      by_cases hc : cmp a b = .equivalent
      · simp only [hc, if_true, ih, LexEq, List.length_cons, Nat.add_right_cancel_iff]
        refine and_congr_right fun hl => ⟨fun h i h1 h2 => ?_, fun h i h1 h2 => ?_⟩
        · cases i with
          | zero => simpa using hc
          | succ i => simpa using h i (by omega) (by omega)
        · exact h (i + 1) (by simp; omega) (by simp; omega)
      · simp only [hc, if_false, false_iff]
        rintro ⟨-, h⟩
        exact hc (h 0 (by simp) (by simp))

private theorem loop_less_iff (cmp : α → β → POrd) (l : List α) (r : List β) : loopLex cmp l r = .less ↔ LexLess cmp l r := by
  induction l generalizing r with
  | nil =>
    cases r with
    | nil => simp [loopLex_nil_nil, LexLess]
    | cons b r => simp only [loopLex_nil_cons, true_iff]; exact ⟨0, by simp, Or.inl (by simp)⟩
  | cons a l ih =>
    cases r with
    | nil => simp [loopLex_cons_nil, LexLess]
    | cons b r =>
      rw [loopLex_cons_cons]
      by_cases hc : cmp a b = .equivalent
      · simp only [hc, if_true, ih]
        constructor
        · rintro ⟨k, h1, h2⟩
          refine ⟨k + 1, fun i hl hr hi => ?_, ?_⟩
          · cases i with
            | zero => simpa using hc
            | succ i => simpa using h1 i (by simpa using hl) (by simpa using hr) (by omega)
          · rcases h2 with h2 | ⟨hl, hr, h2⟩
            · exact Or.inl (by simp; omega)
            · exact Or.inr ⟨by simpa using hl, by simpa using hr, by simpa using h2⟩
        · rintro ⟨k, h1, h2⟩
          cases k with
          | zero =>
            rcases h2 with h2 | ⟨hl, hr, h2⟩
            · simp at h2
            · simp [hc] at h2
          | succ k =>
            refine ⟨k, fun i hl hr hi => ?_, ?_⟩
            · exact h1 (i + 1) (by simpa using hl) (by simpa using hr) (by omega)
            · rcases h2 with h2 | ⟨hl, hr, h2⟩
              · exact Or.inl (by simp at h2; omega)
              · exact Or.inr ⟨by simpa using hl, by simpa using hr, by simpa using h2⟩
      · simp only [hc, if_false]
        constructor
        · intro h; exact ⟨0, by simp, Or.inr ⟨by simp, by simp, by simpa using h⟩⟩
        · rintro ⟨k, h1, h2⟩
          cases k with
          | zero =>
            rcases h2 with h2 | ⟨hl, hr, h2⟩
            · simp at h2
            · simpa using h2
          | succ k => exact absurd (h1 0 (by simp) (by simp) (by omega)) hc

private theorem loop_rev (cmp : α → β → POrd) (l : List α) (r : List β) :
    loopLex (fun b a => (cmp a b).rev) r l = (loopLex cmp l r).rev := by
  induction l generalizing r with
  | nil => cases r <;> rfl
  | cons a l ih =>
    cases r with
    | nil => rfl
    | cons b r =>
      rw [loopLex_cons_cons, loopLex_cons_cons]
      by_cases h : cmp a b = .equivalent
      · rw [if_pos h, if_pos (by rw [h]; rfl), ih]
      · rw [if_neg h, if_neg (by cases h' : cmp a b <;> simp_all [POrd.rev])]

/-- **C19** (meaning): for every element comparison and every pair of sequences, the result is `equivalent`, `less`, `greater` exactly when the
lexicographic order says so (and hence `unordered` exactly when the first non-equivalent elements are). -/
theorem C19_meaning (cmp : α → β → POrd) (dl dr : Bool) (l : List α) (r : List β) :
    (lexCompare cmp dl dr l r = .equivalent ↔ LexEq cmp l r) ∧
    (lexCompare cmp dl dr l r = .less ↔ LexLess cmp l r) ∧
    (lexCompare cmp dl dr l r = .greater ↔ LexLess (fun b a => (cmp a b).rev) r l) := by
  rw [lex_loop]
  refine ⟨loop_eq_iff cmp l r, loop_less_iff cmp l r, ?_⟩
  rw [← loop_less_iff, loop_rev]
  cases loopLex cmp l r <;> simp [POrd.rev]

example : lexCompare cmpNat false true [1, 2] [1, 2, 0] = .less ∧ lexCompare cmpNat true true [1, 3] [1, 2, 7] = .greater := by
  constructor
  · rw [lex_loop]; decide
  · rw [lex_loop]; decide

private theorem lex_eq_left (cmp : α → α → POrd) (hc : OrderLaws cmp) (l m r : List α) (h : loopLex cmp l m = .equivalent) :
    loopLex cmp l r = loopLex cmp m r := by
  induction l generalizing m r with
  | nil => cases m <;> simp_all [loopLex_nil_cons]
  | cons a l ih =>
    cases m with
    | nil => simp [loopLex_cons_nil] at h
    | cons b m =>
      rw [loopLex_cons_cons] at h
      by_cases hab : cmp a b = .equivalent
      · rw [if_pos hab] at h
        cases r with
        | nil => rfl
        | cons c r => rw [loopLex_cons_cons, loopLex_cons_cons, hc.eq_left a b c hab, ih m r h]
      · rw [if_neg hab] at h; exact absurd h hab

private theorem lex_trans (cmp : α → α → POrd) (hc : OrderLaws cmp) (l m r : List α) (h1 : loopLex cmp l m = .less)
    (h2 : loopLex cmp m r = .less) : loopLex cmp l r = .less := by
  induction l generalizing m r with
  | nil =>
    cases r with
    | nil => cases m <;> simp_all [loopLex_nil_nil, loopLex_cons_nil]
    | cons c r => rfl
  | cons a l ih =>
    cases m with
    | nil => simp [loopLex_cons_nil] at h1
    | cons b m =>
      cases r with
      | nil => simp [loopLex_cons_nil] at h2
      | cons c r =>
        rw [loopLex_cons_cons] at h1 h2 ⊢
        by_cases hab : cmp a b = .equivalent
        · rw [if_pos hab] at h1
          rw [hc.eq_left a b c hab]
          by_cases hbc : cmp b c = .equivalent
          · rw [if_pos hbc] at h2 ⊢; exact ih m r h1 h2
          · rw [if_neg hbc] at h2 ⊢; exact h2
        · rw [if_neg hab] at h1
          by_cases hbc : cmp b c = .equivalent
          · have e1 : cmp c b = .equivalent := by rw [hc.rev b c, hbc]; rfl
            have e2 : cmp c a = .greater := by rw [hc.eq_left c b a e1, hc.rev a b, h1]; rfl
            have e3 : cmp a c = .less := by rw [hc.rev c a, e2]; rfl
            simp [e3]
          · rw [if_neg hbc] at h2
            have := hc.trans a b c h1 h2
            simp [this]

/-- **C19** (order laws): when the element comparison is a (partial) order up to equivalence, so is the comparison of sequences. -/
theorem C19_order (cmp : α → α → POrd) (hc : OrderLaws cmp) (dl dr : Bool) : OrderLaws (lexCompare cmp dl dr) := by
  have hsym : (fun b a => (cmp a b).rev) = cmp := by funext b a; exact (hc.rev a b).symm
  constructor
  · intro l; rw [lex_loop, loop_eq_iff]; exact ⟨rfl, fun i _ _ => hc.refl _⟩
  · intro l m
    rw [lex_loop, lex_loop, ← loop_rev cmp l m, hsym]
  · intro l m r h; rw [lex_loop] at h ⊢; rw [lex_loop]; exact lex_eq_left cmp hc l m r h
  · intro l m r h1 h2; rw [lex_loop] at *; exact lex_trans cmp hc l m r h1 h2

example : OrderLaws cmpNat := by
  constructor
  · intro a; simp [cmpNat]
  · intro a b; unfold cmpNat; split_ifs <;> first | rfl | omega
  · intro a b c h; unfold cmpNat at *; split_ifs at * <;> first | rfl | omega
  · intro a b c h1 h2; unfold cmpNat at *; split_ifs at * <;> first | rfl | omega

/-! ## C20 -/

private theorem compareLoop_iff (comp : POrd → Bool) (l r : IxColl) (sz i : Nat) :
    compareLoop comp l r sz i = true ↔ ∀ k, i ≤ k → k < sz → comp (cmpNat (l.get k) (r.get k)) = true := by
  induction hn : sz - i generalizing i with
  | zero =>
    unfold compareLoop
    rw [dif_neg (by omega)]
    simp only [true_iff]
    intro k h1 h2; omega
  | succ n ih =>
    unfold compareLoop
    rw [dif_pos (by omega)]
    by_cases hc : comp (cmpNat (l.get i) (r.get i)) = true
    · simp only [hc, Bool.not_true, Bool.false_eq_true, if_false]
      rw [ih (i + 1) (by omega)]
      constructor
      · intro h k h1 h2
        rcases Nat.lt_or_eq_of_le h1 with h1 | rfl
        · exact h k h1 h2
        · exact hc
      · intro h k h1 h2; exact h k (by omega) h2
    · simp only [hc, Bool.not_false, if_true]
      simp only [Bool.false_eq_true, false_iff]
      intro h; exact hc (h i (Nat.le_refl i) (by omega))

private theorem compareFixed_eq (comp : POrd → Bool) (l r : IxColl) (b : Bool) (fsz sz i : Nat) (hs : sz ≤ fsz) :
    compareFixed comp l r b fsz sz i = compareLoop comp l r sz i := by
  induction hn : fsz - i generalizing i with
  | zero =>
    unfold compareFixed compareLoop
    have h1 : ¬ i < sz := by omega
    rw [dif_neg (by omega), dif_neg h1]
    simp [h1]
  | succ n ih =>
    unfold compareFixed compareLoop
    rw [dif_pos (by omega), ih (i + 1) (by omega)]
    by_cases h1 : i < sz
    · have h2 : ¬ sz ≤ i := by omega
      cases b <;> cases hc : comp (cmpNat (l.get i) (r.get i)) <;> simp [h1, h2]
    · have h2 : sz ≤ i := by omega
      cases b <;> simp [h1, h2]

/-- Positions present in both collections. -/
def BothHave (l r : IxColl) (k : Nat) : Prop := (∀ n, l.size = some n → k < n) ∧ (∀ n, r.size = some n → k < n)

/-- **C20**: with at least one sized collection, whatever is known at compile time, `compare_indices` holds exactly when the relation holds at every
position both collections have. -/
theorem C20_common_prefix (comp : POrd → Bool) (l r : IxColl) (hs : l.size.isSome ∨ r.size.isSome) :
    compareIndices comp l r = true ↔ ∀ k, BothHave l r k → comp (cmpNat (l.get k) (r.get k)) = true := by
  have hb : ∀ k, BothHave l r k ↔ k < minSize l r := by
    intro k
    unfold BothHave minSize
    cases h1 : l.size <;> cases h2 : r.size <;> simp_all
  have hle : ∀ fsz, fixedSize l r = some fsz → minSize l r ≤ fsz := by
    intro fsz
    unfold fixedSize IxColl.fixedSize minSize
    cases h1 : l.size <;> cases h2 : r.size <;> cases h3 : l.fixed <;> cases h4 : r.fixed <;> simp_all
  have : compareIndices comp l r = compareLoop comp l r (minSize l r) 0 := by
    unfold compareIndices
    cases hf : fixedSize l r with
    | none => rfl
    | some fsz => exact compareFixed_eq _ _ _ _ _ _ _ (hle fsz hf)
  rw [this, compareLoop_iff]
  simp [hb]

/-- A fixed-size collection against an unbounded one, differing beyond the end of the first. -/
example : compareIndices POrd.isEq ⟨fun i => i, some 3, true⟩ ⟨fun i => if i < 3 then i else 7, none, false⟩ = true := by
  rw [C20_common_prefix _ _ _ (by simp)]
  intro k hk
  have : k < 3 := hk.1 3 rfl
  simp [this, cmpNat, POrd.isEq]

/-- The relation on indices that a comparison functor selects. -/
def Rel (comp : POrd → Bool) (a b : Nat) : Prop := comp (cmpNat a b) = true

/-- **C20** (equal lengths): the comparison is the pointwise relation, hence reflexive, symmetric or transitive when the relation is. -/
theorem C20_pointwise (comp : POrd → Bool) (n : Nat) :
    (∀ l r : IxColl, l.size = some n → r.size = some n →
      (compareIndices comp l r = true ↔ ∀ k < n, Rel comp (l.get k) (r.get k))) ∧
    ((∀ a, Rel comp a a) → ∀ l : IxColl, l.size = some n → compareIndices comp l l = true) ∧
    ((∀ a b, Rel comp a b → Rel comp b a) → ∀ l r : IxColl, l.size = some n → r.size = some n →
      compareIndices comp l r = true → compareIndices comp r l = true) ∧
    ((∀ a b c, Rel comp a b → Rel comp b c → Rel comp a c) → ∀ l m r : IxColl, l.size = some n → m.size = some n → r.size = some n →
      compareIndices comp l m = true → compareIndices comp m r = true → compareIndices comp l r = true) := by
  have key : ∀ l r : IxColl, l.size = some n → r.size = some n →
      (compareIndices comp l r = true ↔ ∀ k < n, Rel comp (l.get k) (r.get k)) := by
    intro l r hl hr
    rw [C20_common_prefix comp l r (by simp [hl])]
    simp [BothHave, hl, hr, Rel]
  refine ⟨key, fun h l hl => (key l l hl hl).mpr fun k _ => h _, fun h l r hl hr hc => ?_, fun h l m r hl hm hr h1 h2 => ?_⟩
  · rw [key r l hr hl]; rw [key l r hl hr] at hc; exact fun k hk => h _ _ (hc k hk)
  · rw [key l r hl hr]; rw [key l m hl hm] at h1; rw [key m r hm hr] at h2
    exact fun k hk => h _ _ _ (h1 k hk) (h2 k hk)

example : ∀ a b c, Rel POrd.isLteq a b → Rel POrd.isLteq b c → Rel POrd.isLteq a c := by
  have : ∀ a b, Rel POrd.isLteq a b ↔ a ≤ b := by
    intro a b; unfold Rel cmpNat
    split_ifs <;> simp [POrd.isLteq] <;> omega
  intro a b c; rw [this, this, this]; omega

/-- **C20** (unequal lengths): ignoring the tail, equality of indices is not transitive. -/
theorem C20_prefix_not_transitive : ∃ l m r : IxColl, compareIndices POrd.isEq l m = true ∧ compareIndices POrd.isEq m r = true ∧
    compareIndices POrd.isEq l r = false := by
  refine ⟨⟨fun _ => 1, some 1, false⟩, ⟨fun _ => 0, some 0, false⟩, ⟨fun _ => 2, some 1, false⟩, ?_, ?_, ?_⟩
  · rw [C20_common_prefix _ _ _ (by simp)]; rintro k ⟨-, h⟩; exact absurd (h 0 rfl) (by omega)
  · rw [C20_common_prefix _ _ _ (by simp)]; rintro k ⟨h, -⟩; exact absurd (h 0 rfl) (by omega)
  · rw [← Bool.not_eq_true, C20_common_prefix _ _ _ (by simp)]
    intro h
    have := h 0 ⟨by simp, by simp⟩
    revert this; decide

end OpenKalman.Collections
