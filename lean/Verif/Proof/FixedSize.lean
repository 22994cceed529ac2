import Verif.Model.FixedSize
import Mathlib.Tactic.Tauto

/-!
# Lemmas: claims of a `FixedSizeAdapter`
-/

namespace OpenKalman.FixedSize

@[simp] theorem claimAt_nil (i : Nat) : claimAt [] i = some 1 := by simp [claimAt]

@[simp] theorem claimAt_cons_zero (c : Option Nat) (cs : Claim) : claimAt (c :: cs) 0 = c := by
  simp [claimAt]

@[simp] theorem claimAt_cons_succ (c : Option Nat) (cs : Claim) (i : Nat) :
    claimAt (c :: cs) (i + 1) = claimAt cs i := by simp [claimAt]

@[simp] theorem size_nil (i : Nat) : size [] i = 1 := by simp [size]

@[simp] theorem size_cons_zero (c : Nat) (cs : List Nat) : size (c :: cs) 0 = c := by simp [size]

@[simp] theorem size_cons_succ (c : Nat) (cs : List Nat) (i : Nat) :
    size (c :: cs) (i + 1) = size cs i := by simp [size]

theorem claimAt_of_length_le {c : Claim} {i : Nat} (h : c.length ≤ i) : claimAt c i = some 1 := by
  simp [claimAt, List.getElem?_eq_none h]

theorem claimAt_drop (c : Claim) (k i : Nat) : claimAt (c.drop k) i = claimAt c (k + i) := by
  simp [claimAt]

theorem size_drop (c : List Nat) (k i : Nat) : size (c.drop k) i = size c (k + i) := by
  simp [size]

theorem claimAt_append_ones (c : Claim) (i : Nat) : claimAt (c ++ [some 1, some 1]) i = claimAt c i := by
  induction c generalizing i with
  | nil =>
    match i with
    | 0 => rfl
    | 1 => rfl
    | i + 2 => rfl
  | cons x c ih =>
    cases i with
    | zero => rfl
    | succ i => simpa using ih i

theorem claimAt_stripTail (c : Claim) (i : Nat) : claimAt (stripTail c) i = claimAt c i := by
  induction c generalizing i with
  | nil => rfl
  | cons x c ih =>
    unfold stripTail
    split
    · rename_i heq
      cases i with
      | zero => simp
      | succ i =>
        have := ih i
        rw [heq] at this
        simpa using this
    · cases i with
      | zero => simp
      | succ i => simpa using ih i

theorem claimAt_fixClaims (n : Claim) : ∀ (ds : Claim) (k i : Nat), i < ds.length →
    claimAt (fixClaims n k ds) i = mostFixed (claimAt n (k + i)) (claimAt ds i) := by
  intro ds
  induction ds with
  | nil => intro k i h; simp at h
  | cons d ds ih =>
    intro k i h
    cases i with
    | zero => simp [fixClaims]
    | succ i =>
      rw [fixClaims, claimAt_cons_succ, claimAt_cons_succ,
        ih (k + 1) i (by simpa using h)]
      congr 2
      omega

theorem length_fixClaims (n : Claim) : ∀ (ds : Claim) (k : Nat),
    (fixClaims n k ds).length = ds.length := by
  intro ds
  induction ds with
  | nil => intro k; rfl
  | cons d ds ih => intro k; simp [fixClaims, ih]

theorem claimAt_ownClaims (n : Claim) : ∀ (ds : Claim) (k i : Nat),
    claimAt (ownClaims n k ds) i = better (claimAt ds i) (claimAt n (k + i)) := by
  intro ds
  induction ds with
  | nil => intro k i; simp [ownClaims, better]
  | cons d ds ih =>
    intro k i
    have hk : k + 1 + (i - 1) = k + i ∨ i = 0 := by omega
    cases d with
    | none =>
      cases i with
      | zero => simp [ownClaims, better]
      | succ i =>
        rw [ownClaims, claimAt_cons_succ, claimAt_cons_succ, ih (k + 1) i]
        congr 2
        omega
    | some d =>
      cases i with
      | zero => simp [ownClaims, better]
      | succ i =>
        rw [ownClaims, claimAt_cons_succ, claimAt_cons_succ, ih (k + 1) i]
        congr 2
        omega

/-- What an adapter claims. -/
theorem claimAt_adapter (a : Adapter) (i : Nat) :
    claimAt (Obj.fixed a).claim i = better (claimAt a.desc i) (claimAt a.nested.claim i) := by
  simp [Obj.claim, claimAt_ownClaims, claimAt_stripTail]

theorem compatible_iff (c d : Claim) :
    compatible c d = true ↔ ∀ i, agree (claimAt c i) (claimAt d i) = true := by
  simp only [compatible, List.all_eq_true, List.mem_range]
  constructor
  · intro h i
    by_cases hi : i < max c.length d.length
    · exact h i hi
    · rw [claimAt_of_length_le (c := c) (by omega), claimAt_of_length_le (c := d) (by omega)]
      rfl
  · intro h i _
    exact h i

theorem lessFixed_iff (c d : Claim) :
    lessFixed c d = true ↔ ∃ i, claimAt c i = none ∧ (claimAt d i).isSome = true := by
  simp only [lessFixed, List.any_eq_true, List.mem_range, Bool.and_eq_true, Option.isNone_iff_eq_none]
  constructor
  · rintro ⟨i, _, h⟩
    exact ⟨i, h⟩
  · rintro ⟨i, h⟩
    refine ⟨i, ?_, h⟩
    by_contra hi
    rw [claimAt_of_length_le (c := c) (by omega)] at h
    simp at h

/-- Claims that are both true agree. -/
theorem agree_of_sound {c d : Claim} {n : List Nat} (hc : Sound c n) (hd : Sound d n) (i : Nat) :
    agree (claimAt c i) (claimAt d i) = true := by
  cases h1 : claimAt c i with
  | none => rfl
  | some a =>
    cases h2 : claimAt d i with
    | none => rfl
    | some b => simp [agree, ← hc i a h1, ← hd i b h2]

theorem compatible_of_sound {c d : Claim} {n : List Nat} (hc : Sound c n) (hd : Sound d n) :
    compatible c d = true := (compatible_iff c d).2 (agree_of_sound hc hd)

/-- The claims of what is made. -/
theorem makeNested_claim {d : Claim} {n : Nested} {o : Obj} (h : makeNested d n = some o) (i : Nat) :
    claimAt o.claim i = better (claimAt n.claim i) (claimAt d i) ∧ o.core = n := by
  unfold makeNested at h
  split at h
  · rename_i hc
    have hc := (compatible_iff _ _).1 hc i
    split at h
    · injection h with h
      subst h
      refine ⟨?_, rfl⟩
      rw [claimAt_adapter]
      simp only
      by_cases hi : i < (stripTail d).length
      · rw [claimAt_fixClaims _ _ _ _ hi, claimAt_stripTail, Nat.zero_add]
        cases claimAt n.claim i <;> cases claimAt d i <;> rfl
      · rw [claimAt_of_length_le (by rw [length_fixClaims]; omega)]
        have hd : claimAt d i = some 1 := by
          rw [← claimAt_stripTail]; exact claimAt_of_length_le (by omega)
        rw [hd] at hc ⊢
        cases hn : claimAt n.claim i with
        | none => rfl
        | some m =>
          rw [hn] at hc
          simp only [agree, beq_iff_eq] at hc
          subst hc
          rfl
    · rename_i hl
      injection h with h
      subst h
      refine ⟨?_, rfl⟩
      have hl : ¬ ∃ i, claimAt n.claim i = none ∧ (claimAt d i).isSome = true :=
        fun h' => hl ((lessFixed_iff _ _).2 h')
      simp only [not_exists, not_and, Bool.not_eq_true, Option.isSome_eq_false_iff,
        Option.isNone_iff_eq_none] at hl
      show claimAt n.claim i = _
      cases hn : claimAt n.claim i with
      | none => simp [better, hl i hn]
      | some m => rfl
  · exact absurd h (by simp)

theorem makeNested_sound {d : Claim} {n : Nested} (hn : Sound n.claim n.dims) (hd : Sound d n.dims) :
    ∃ o, makeNested d n = some o := by
  unfold makeNested
  rw [if_pos (compatible_of_sound hn hd)]
  split
  · exact ⟨_, rfl⟩
  · exact ⟨_, rfl⟩

theorem dims_of_core {o : Obj} {n : Nested} (h : o.core = n) : o.dims = n.dims := by
  subst h
  cases o <;> rfl

theorem better_sound {a b : Option Nat} {n : Nat} (ha : ∀ m, a = some m → n = m)
    (hb : ∀ m, b = some m → n = m) : ∀ m, better a b = some m → n = m := by
  intro m hm
  cases a with
  | none => exact hb m hm
  | some k => exact ha m hm

/-- In such an adapter the descriptors are the claims. -/
theorem WellMade.claim {a : Adapter} (h : WellMade a) (i : Nat) :
    claimAt (Obj.fixed a).claim i = claimAt a.desc i := by
  rw [claimAt_adapter]
  by_cases hi : i < a.desc.length
  · rcases h i hi with h | h
    · rw [h]; cases claimAt a.desc i <;> rfl
    · cases hd : claimAt a.desc i with
      | none => simp [hd] at h
      | some m => rfl
  · rw [claimAt_of_length_le (by omega)]; rfl

theorem claimAt_reduceDesc (along : List Nat) : ∀ (ds : Claim) (k i : Nat),
    claimAt (reduceDesc along k ds) i =
      if k + i ∈ along ∧ i < ds.length then some 1 else claimAt ds i := by
  intro ds
  induction ds with
  | nil => intro k i; simp [reduceDesc]
  | cons d ds ih =>
    intro k i
    cases i with
    | zero => simp [reduceDesc]
    | succ i =>
      rw [reduceDesc, claimAt_cons_succ, claimAt_cons_succ, ih (k + 1) i]
      simp [Nat.add_assoc, Nat.add_comm 1 i]

theorem claimAt_reduceDesc' (along : List Nat) (ds : Claim) (i : Nat) :
    claimAt (reduceDesc along 0 ds) i = if i ∈ along then some 1 else claimAt ds i := by
  rw [claimAt_reduceDesc]
  by_cases h : i ∈ along
  · by_cases hi : i < ds.length
    · simp [h, hi]
    · simp [h, hi, claimAt_of_length_le (c := ds) (by omega : ds.length ≤ i)]
  · simp [h]

theorem size_reduceSizes (along : List Nat) : ∀ (ds : List Nat) (k i : Nat),
    size (reduceSizes along k ds) i = if k + i ∈ along then 1 else size ds i := by
  intro ds
  induction ds with
  | nil => intro k i; simp [reduceSizes]
  | cons d ds ih =>
    intro k i
    cases i with
    | zero => simp [reduceSizes]
    | succ i =>
      rw [reduceSizes, size_cons_succ, size_cons_succ, ih (k + 1) i]
      simp [Nat.add_assoc, Nat.add_comm 1 i]

/-- The claims that the descriptors of a result make. -/
theorem claimAt_resultDesc (op : Op) (a : Adapter) (b : Obj) (ha : WellMade a) (i : Nat) :
    claimAt (resultDesc op a b) i = Implied op (Obj.fixed a).claim b.claim i := by
  cases op with
  | same => simp [resultDesc, Implied, ha.claim]
  | transpose =>
    match i with
    | 0 => simp [resultDesc, Implied]
    | 1 => simp [resultDesc, Implied]
    | i + 2 => simp [resultDesc, Implied]
  | contract =>
    match i with
    | 0 => simp [resultDesc, Implied]
    | 1 => simp [resultDesc, Implied]
    | i + 2 => simp [resultDesc, Implied]
  | solve =>
    match i with
    | 0 => simp [resultDesc, Implied]
    | 1 => simp [resultDesc, Implied]
    | i + 2 => simp [resultDesc, Implied]
  | reduce along => simp [resultDesc, Implied, claimAt_reduceDesc', ha.claim]
  | diagonal =>
    cases i with
    | zero =>
      simp only [resultDesc, Implied, List.cons_append, claimAt_cons_zero, smaller]
      split <;> simp_all
    | succ i =>
      simp only [resultDesc, Implied, List.cons_append, claimAt_cons_succ, claimAt_append_ones, claimAt_drop]
      congr 1
      omega

/-- Claims that follow from true claims are true. -/
theorem implied_sound (op : Op) {a b : Claim} {m n : List Nat} (ha : Sound a m) (hb : Sound b n) :
    ∀ i k, Implied op a b i = some k → size (resultSizes op m n) i = k := by
  intro i k h
  cases op with
  | same => exact ha i k h
  | transpose =>
    match i with
    | 0 => exact ha 1 k h
    | 1 => exact ha 0 k h
    | i + 2 => simpa [Implied, resultSizes] using h
  | contract =>
    match i with
    | 0 => exact ha 0 k h
    | 1 => exact hb 1 k h
    | i + 2 => simpa [Implied, resultSizes] using h
  | solve =>
    match i with
    | 0 => exact ha 1 k h
    | 1 => exact hb 1 k h
    | i + 2 => simpa [Implied, resultSizes] using h
  | reduce along =>
    simp only [Implied] at h
    simp only [resultSizes, size_reduceSizes, Nat.zero_add]
    split at h
    · rename_i hi; simp only [hi, if_true]; simpa using h
    · rename_i hi; simp only [hi, if_false]; exact ha i k h
  | diagonal =>
    cases i with
    | zero =>
      simp only [Implied] at h
      split at h
      · rename_i p q hp hq
        simp only [resultSizes, size_cons_zero, ha 0 p hp, ha 1 q hq]
        simpa using h
      · exact absurd h (by simp)
    | succ i =>
      simp only [Implied] at h
      have := ha (i + 1 + 1) k h
      simp only [resultSizes, size_cons_succ, size_drop]
      rw [← this]
      congr 1
      omega

/-- What is made is well made. -/
theorem makeNested_wellMade {d : Claim} {n : Nested} {a : Adapter} (h : makeNested d n = some (.fixed a)) :
    WellMade a := by
  unfold makeNested at h
  split at h
  · split at h
    · simp only [Option.some.injEq, Obj.fixed.injEq] at h
      subst h
      intro i hi
      simp only [length_fixClaims] at hi
      simp only [claimAt_fixClaims _ _ _ _ hi, Nat.zero_add]
      cases claimAt n.claim i with
      | none => exact Or.inl rfl
      | some m => exact Or.inr rfl
    · simp at h
  · simp at h

theorem length_stripTail_le (c : Claim) : (stripTail c).length ≤ c.length := by
  induction c with
  | nil => simp [stripTail]
  | cons x c ih =>
    unfold stripTail
    split
    · simp
    · simpa using ih

theorem length_ownClaims (n : Claim) : ∀ (ds : Claim) (k : Nat),
    (ownClaims n k ds).length = ds.length := by
  intro ds
  induction ds with
  | nil => intro k; rfl
  | cons d ds ih => intro k; cases d <;> simp [ownClaims, ih]

theorem length_claim_le (a : Adapter) : (Obj.fixed a).claim.length ≤ a.desc.length := by
  simp only [Obj.claim, length_ownClaims]
  exact length_stripTail_le _

end OpenKalman.FixedSize
