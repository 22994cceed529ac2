import Verif.Proof.FixedSize

/-!
# C159: sizes that a `FixedSizeAdapter` claims
-/

namespace OpenKalman.FixedSize

/-- **C159** An object of the library, whose claims are true, together with descriptors that are true of it,
is always accepted.  The result has the same sizes, claims whatever one of both claims and nothing
else, and all that is true. -/
theorem C159_make (d : Claim) (n : Nested) (hn : Sound n.claim n.dims) (hd : Sound d n.dims) :
    ∃ o, make d (.plain n) = some o ∧ o.dims = n.dims ∧ Sound o.claim o.dims ∧
      ∀ i, claimAt o.claim i = better (claimAt n.claim i) (claimAt d i) := by
  obtain ⟨o, ho⟩ := makeNested_sound hn hd
  have hdims : o.dims = n.dims := dims_of_core (makeNested_claim ho 0).2
  refine ⟨o, ho, hdims, ?_, fun i => (makeNested_claim ho i).1⟩
  intro i k hk
  rw [(makeNested_claim ho i).1] at hk
  rw [hdims]
  exact better_sound (hn i) (hd i) k hk

/-- **C159** Descriptors that contradict what the type of the object claims are refused. -/
theorem C159_contradiction (d : Claim) (n : Nested) (i p q : Nat) (hn : claimAt n.claim i = some p)
    (hd : claimAt d i = some q) (hpq : p ≠ q) : make d (.plain n) = none := by
  show makeNested d n = none
  unfold makeNested
  rw [if_neg]
  intro h
  have := (compatible_iff _ _).1 h i
  rw [hn, hd] at this
  simp [agree, hpq] at this

/-- **C159** Whatever the underlying library returns, as long as its own claims are true and its result has
the right sizes, an operation on an adapter is accepted, and the result claims what follows from the
claims about the arguments and what the library claims; all of it is true. -/
theorem C159_operation (op : Op) (a : Adapter) (b : Obj) (r : Nested) (hw : WellMade a)
    (ha : Sound (Obj.fixed a).claim a.nested.dims) (hb : Sound b.claim b.dims)
    (hr : Sound r.claim r.dims) (hdims : r.dims = resultSizes op a.nested.dims b.dims) :
    ∃ o, apply op (.fixed a) b r = some o ∧ o.dims = r.dims ∧ Sound o.claim o.dims ∧
      ∀ i, claimAt o.claim i = better (claimAt r.claim i) (Implied op (Obj.fixed a).claim b.claim i) := by
  have hd : Sound (resultDesc op a b) r.dims := by
    intro i k hk
    rw [claimAt_resultDesc op a b hw] at hk
    rw [hdims]
    exact implied_sound op ha hb i k hk
  obtain ⟨o, h1, h2, h3, h4⟩ := C159_make (resultDesc op a b) r hr hd
  refine ⟨o, h1, h2, h3, fun i => ?_⟩
  rw [h4 i, claimAt_resultDesc op a b hw]

/-- **C159** Products in place, from either side, claim the truth, too. -/
theorem C159_in_place (onRight : Bool) (a : Adapter) (b : Obj) (r : Nested)
    (ha : Sound (Obj.fixed a).claim a.nested.dims) (hb : Sound b.claim b.dims)
    (hr : Sound r.claim r.dims)
    (hdims : r.dims = if onRight then [size a.nested.dims 0, size b.dims 1]
      else [size b.dims 0, size a.nested.dims 1]) :
    ∃ o, contractInPlace onRight false a b r = some o ∧ o.dims = r.dims ∧ Sound o.claim o.dims := by
  cases onRight with
  | true =>
    have hd : Sound [claimAt (Obj.fixed a).claim 0, claimAt b.claim 1] r.dims := by
      rw [hdims]
      intro i k hk
      match i with
      | 0 => exact ha 0 k hk
      | 1 => exact hb 1 k hk
      | i + 2 => simpa using hk
    obtain ⟨o, h1, h2, h3, _⟩ := C159_make _ r hr hd
    exact ⟨o, by simpa [contractInPlace] using h1, h2, h3⟩
  | false =>
    have hd : Sound [claimAt b.claim 0, claimAt (Obj.fixed a).claim 1] r.dims := by
      rw [hdims]
      intro i k hk
      match i with
      | 0 => exact hb 0 k hk
      | 1 => exact ha 1 k hk
      | i + 2 => simpa using hk
    obtain ⟨o, h1, h2, h3, _⟩ := C159_make _ r hr hd
    exact ⟨o, by simpa [contractInPlace] using h1, h2, h3⟩

/-- The objects at the leaves of an expression. -/
def leaves : Expr → List Obj
  | .leaf o => [o]
  | .op _ a b => leaves a ++ leaves b

/-- The sizes of the value of an expression. -/
def sizes : Expr → List Nat
  | .leaf o => o.dims
  | .op f a b => resultSizes f (sizes a) (sizes b)

/-- An object whose claims are true and which, if it is an adapter, meets the constraints. -/
def Good (o : Obj) : Prop :=
  Sound o.claim o.dims ∧ ∀ a, o = .fixed a → WellMade a ∧ Sound a.nested.claim a.nested.dims

/-- **C159** Every expression of such operations, of any size, on objects with true claims is accepted, has the
right sizes and claims nothing that is false — for every underlying library whose own types do
not lie. -/
theorem C159_expressions (lib : Op → Nested → Obj → Claim)
    (hlib : ∀ op n b, Sound n.claim n.dims → Sound b.claim b.dims →
      Sound (lib op n b) (resultSizes op n.dims b.dims))
    (e : Expr) (hl : ∀ o ∈ leaves e, Good o) :
    ∃ o, eval lib e = some o ∧ o.dims = sizes e ∧ Good o := by
  induction e with
  | leaf o => exact ⟨o, rfl, rfl, hl o (by simp [leaves])⟩
  | op f a b iha ihb =>
    obtain ⟨x, hx, hxd, hxg⟩ := iha fun o ho => hl o (by simp [leaves, ho])
    obtain ⟨y, hy, hyd, hyg⟩ := ihb fun o ho => hl o (by simp [leaves, ho])
    have hxc : Sound x.core.claim x.core.dims := by
      cases x with
      | plain n => exact hxg.1
      | fixed a => exact (hxg.2 a rfl).2
    have hcd : x.core.dims = x.dims := by cases x <;> rfl
    have hr : Sound (lib f x.core y) (resultSizes f x.dims y.dims) := by
      have := hlib f x.core y hxc hyg.1
      rwa [hcd] at this
    simp only [eval, hx, hy, sizes]
    cases x with
    | plain n =>
      refine ⟨.plain ⟨lib f n y, resultSizes f n.dims y.dims⟩, rfl, ?_, hr, by simp⟩
      simp [Obj.dims, ← hxd, ← hyd]
    | fixed a =>
      obtain ⟨o, h1, h2, h3, _⟩ := C159_operation f a y ⟨lib f a.nested y, resultSizes f a.nested.dims y.dims⟩
        (hxg.2 a rfl).1 hxg.1 hyg.1 hr rfl
      have h1' : makeNested (resultDesc f a y)
        ⟨lib f a.nested y, resultSizes f a.nested.dims y.dims⟩ = some o := h1
      refine ⟨o, h1, ?_, h3, ?_⟩
      · rw [h2, ← hxd, ← hyd]; rfl
      · intro a' ha'
        subst ha'
        refine ⟨makeNested_wellMade h1', ?_⟩
        have := (makeNested_claim h1' 0).2
        simp only [Obj.core] at this
        rw [this]
        exact hr

/-- **C159, violated** `make_fixed_size_adapter` on an adapter takes the old adapter off and with it what the
old one claimed: with a further size, here of columns, the size of rows is forgotten. -/
theorem C159_forgets_violated :
    ∃ (a : Adapter) (d : Claim) (o : Obj), WellMade a ∧ Good (.fixed a) ∧ Sound d a.nested.dims ∧
      make d (.fixed a) = some o ∧ claimAt (Obj.fixed a).claim 0 = some 3 ∧ claimAt o.claim 0 = none := by
  refine ⟨⟨[some 3, none], ⟨[none, none], [3, 4]⟩⟩, [none, some 4],
    .fixed ⟨[none, some 4], ⟨[none, none], [3, 4]⟩⟩, ?_, ⟨?_, ?_⟩, ?_, rfl, rfl, rfl⟩
  · intro i hi
    match i, hi with
    | 0, _ => exact Or.inl rfl
    | 1, _ => exact Or.inl rfl
  · intro i k hk
    match i, hk with
    | 0, hk => have : some 3 = some k := hk; simpa [Obj.dims] using this
    | 1, hk => have : none = some k := hk; simp at this
    | i + 2, hk => have : some 1 = some k := hk; simpa [Obj.dims] using this
  · intro a ha
    injection ha with ha
    subst ha
    refine ⟨?_, ?_⟩
    · intro i hi
      match i, hi with
      | 0, _ => exact Or.inl rfl
      | 1, _ => exact Or.inl rfl
    · intro i k hk
      match i, hk with
      | 0, hk => have : none = some k := hk; simp at this
      | 1, hk => have : none = some k := hk; simp at this
      | i + 2, hk => have : some 1 = some k := hk; simpa using this
  · intro i k hk
    match i, hk with
    | 0, hk => have : none = some k := hk; simp at this
    | 1, hk => have : some 4 = some k := hk; simpa using this
    | i + 2, hk => have : some 1 = some k := hk; simpa using this

/-- **C159, violated** The descriptor with which a square adapter is asked for is not used, whatever it is: a
diagonal matrix made from a column of three has a size that its type does not know. -/
theorem C159_square_violated (first : Option Nat) (dims : List Nat) :
    ∃ o, makeSquare first [] ⟨[none, none], dims⟩ = some o ∧ claimAt o.claim 0 = none ∧
      claimAt o.claim 1 = none :=
  ⟨.plain ⟨[none, none], dims⟩, by cases first <;> rfl, rfl, rfl⟩

/-- **C159, violated** Broadcasting with fewer factors than indices: the type of the result claims that the
object has one column, whatever number it has.  With a factor other than one it is refused, if the
library knows the size of the result. -/
theorem C159_broadcast_violated :
    (∀ m n f : Nat, ∃ o, broadcast ⟨[some m, some n], ⟨[none, none], [m, n]⟩⟩ [some f]
        ⟨[none, none], broadcastSizes [f] [m, n]⟩ = some o ∧
      claimAt o.claim 1 = some 1 ∧ size o.dims 1 = n) ∧
    (∀ m n f g : Nat, 0 < m → 1 < f → broadcast ⟨[some m, some n], ⟨[none, none], [m, n]⟩⟩ [some f, some g]
        ⟨[some (f * m), none], broadcastSizes [f, g] [m, n]⟩ = none) := by
  constructor
  · intro m n f
    have hlen : (max (Obj.fixed ⟨[some m, some n], ⟨[none, none], [m, n]⟩⟩).claim.length 1) = 2 ∨
        (max (Obj.fixed ⟨[some m, some n], ⟨[none, none], [m, n]⟩⟩).claim.length 1) = 1 := by
      have := length_claim_le ⟨[some m, some n], ⟨[none, none], [m, n]⟩⟩
      simp only [List.length_cons, List.length_nil] at this
      omega
    have hdesc : broadcastDesc [none, none] [some f] 2 = [none, some 1] ∧
        broadcastDesc [none, none] [some f] 1 = [none] := ⟨rfl, rfl⟩
    have h2 : ∀ d : Claim, d = [none, some 1] ∨ d = [none] →
        ∃ o, make d (.plain ⟨[none, none], broadcastSizes [f] [m, n]⟩) = some o ∧
          claimAt o.claim 1 = some 1 ∧ size o.dims 1 = n := by
      rintro d (rfl | rfl)
      · exact ⟨.fixed ⟨[none], ⟨[none, none], [f * m, n]⟩⟩, rfl, rfl, rfl⟩
      · exact ⟨.fixed ⟨[none], ⟨[none, none], [f * m, n]⟩⟩, rfl, rfl, rfl⟩
    apply h2
    rcases hlen with h | h
    · left; simp only [List.length_singleton]; rw [h]; exact hdesc.1
    · right; simp only [List.length_singleton]; rw [h]; exact hdesc.2
  · intro m n f g hm hf
    have hpos : ∀ l : Nat, claimAt (broadcastDesc [some (f * m), none] [some f, some g] (l + 1)) 0 =
        some (f * m * f) := by
      intro l
      simp [broadcastDesc, claimAt, timesClaim]
    unfold broadcast
    have hl : ∃ l, max (Obj.fixed ⟨[some m, some n], ⟨[none, none], [m, n]⟩⟩).claim.length
        [some f, some g].length = l + 1 := ⟨_, (Nat.succ_pred_eq_of_pos
          (Nat.lt_of_lt_of_le (by simp) (Nat.le_max_right _ _))).symm⟩
    obtain ⟨l, hl⟩ := hl
    rw [hl]
    refine C159_contradiction _ _ 0 (f * m) (f * m * f) rfl (hpos l) ?_
    have : 0 < f * m := Nat.mul_pos (by omega) hm
    intro h
    have h' : f * m * 1 = f * m * f := by omega
    have := Nat.eq_of_mul_eq_mul_left this h'
    omega

/-! ## Cases -/

/-- A matrix of three rows that are known, four columns that are not. -/
def threeRows : Adapter := ⟨[some 3, none], ⟨[none, none], [3, 4]⟩⟩

/-- Its transpose knows that it has three columns. -/
example : ∃ o, apply .transpose (.fixed threeRows) (.plain ⟨[], []⟩) ⟨[none, none], [4, 3]⟩ = some o ∧
    claimAt o.claim 1 = some 3 ∧ claimAt o.claim 0 = none := ⟨_, rfl, rfl, rfl⟩

/-- The product of it and its transpose, in an expression: three rows and three columns, both known. -/
example : ∃ o, eval (fun _ _ _ => [none, none])
      (.op .contract (.leaf (.fixed threeRows))
        (.op .transpose (.leaf (.fixed threeRows)) (.leaf (.plain ⟨[], []⟩)))) = some o ∧
    claimAt o.claim 0 = some 3 ∧ claimAt o.claim 1 = some 3 ∧ o.dims = [3, 3] := ⟨_, rfl, rfl, rfl, rfl⟩

/-- A library whose types claim nothing about two indices, as in the expression above, for results that have
no more indices than two. -/
example : Sound [none, none] [4, 3] ∧ WellMade threeRows ∧ Good (.fixed threeRows) := by
  have h1 : ∀ m n : Nat, Sound [none, none] [m, n] := by
    intro m n i k hk
    match i, hk with
    | 0, hk => have : none = some k := hk; simp at this
    | 1, hk => have : none = some k := hk; simp at this
    | i + 2, hk => have : some 1 = some k := hk; simpa using this
  have h2 : WellMade threeRows := by
    intro i hi
    match i, hi with
    | 0, _ => exact Or.inl rfl
    | 1, _ => exact Or.inl rfl
  refine ⟨h1 4 3, h2, ?_, ?_⟩
  · intro i k hk
    match i, hk with
    | 0, hk => have : some 3 = some k := hk; simpa [Obj.dims, threeRows] using this
    | 1, hk => have : none = some k := hk; simp at this
    | i + 2, hk => have : some 1 = some k := hk; simpa [Obj.dims, threeRows] using this
  · intro a ha
    injection ha with ha
    subst ha
    exact ⟨h2, h1 3 4⟩

/-- A library whose types claim everything is one that `C159_expressions` is about. -/
example : ∀ op (n : Nested) (b : Obj), Sound n.claim n.dims → Sound b.claim b.dims →
    Sound ((resultSizes op n.dims b.dims).map some) (resultSizes op n.dims b.dims) := by
  intro op n b _ _ i k hk
  simp only [claimAt, List.getElem?_map] at hk
  simp only [size]
  cases h : (resultSizes op n.dims b.dims)[i]? with
  | none => rw [h] at hk; simpa using hk
  | some m => rw [h] at hk; simpa using hk

end OpenKalman.FixedSize
