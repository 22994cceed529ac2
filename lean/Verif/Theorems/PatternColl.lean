import Verif.Proof.PatternColl
import Verif.Theorems.Pattern

/-!
# C14–C17: collections of patterns

The theorems hold for any kind of pattern whose comparison obeys the laws of a partial order (C11); `listTheory` is the instance where a pattern is a
list of descriptors.
-/

namespace OpenKalman.PatternColl
open OpenKalman.Collections (OrderLaws)
open OpenKalman.Patterns (Elem Descriptor compareImpl axes)

/-- Patterns are lists of descriptors.  The type of a pattern with no type-erased descriptor determines the pattern. -/
noncomputable def listTheory : Theory where
  α := List Elem
  τ := Option (List Elem)
  ty l := if l.all (!·.erased) then some l else none
  cmp a b := compareImpl a b 0 0
  one := [⟨.dim 1, false⟩]
  dim l := (l.map (·.d.dimension)).sum

theorem listTheory_laws : OrderLaws listTheory.cmp := Patterns.C11_order_laws

/-- Comparisons between types that determine the pattern are known. -/
noncomputable def listStatic (comp : POrd → Bool) : listTheory.Static comp where
  known t t' := match (t : Option (List Elem)), (t' : Option (List Elem)) with
    | some a, some b => some (comp (compareImpl a b 0 0))
    | _, _ => none
  sound x y b h := by
    have ht : ∀ (z w : List Elem), (if z.all (!·.erased) then some z else none) = some w → z = w := by
      intro z w h
      split_ifs at h
      exact Option.some.inj h
    revert h
    show (match (if x.all (!·.erased) then some x else none), (if y.all (!·.erased) then some y else none) with
      | some a, some b => some (comp (compareImpl a b 0 0))
      | _, _ => none) = some b → _
    split
    · rename_i a c h1 h2
      rw [← ht x a h1, ← ht y c h2]
      intro h
      exact Option.some.inj h
    · simp

variable {T : Theory}

/-! ## C14 -/

/-- **C14** (comparison): the outcome is entry-by-entry comparison with the shorter collection continued by one-dimensional patterns, provided both are
of compile-time size, or both are of the same non-zero size, or the types leave the outcome open.  Missing: the cases of `C14_violated`. -/
theorem C14_compare_partial (comp : POrd → Bool) (hone : comp (T.cmp T.one T.one) = true) (s : T.Static comp) (a b : Coll T)
    (h : (∃ xs ys, a = .fixed xs ∧ b = .fixed ys) ∨ (a.items.length = b.items.length ∧ a.items ≠ []) ∨
      (staticAll comp s (· == some true) (staticPairs a b) = false ∧ staticAll comp s (· != some false) (staticPairs a b) = true)) :
    compareCollections comp s a b = true ↔ AgreePadded (fun x y => comp (T.cmp x y) = true) T.one a.items b.items := by
  rw [← agree_iff_padded comp hone]
  -- every type pair looked at is the pair of types of two entries, and all entries are covered
  have hcover : ((∃ xs ys, a = .fixed xs ∧ b = .fixed ys) ∨ (a.items.length = b.items.length ∧ a.items ≠ [])) →
      (∀ i, i < max a.items.length b.items.length → (T.ty (a.items.getD i T.one), T.ty (b.items.getD i T.one)) ∈ staticPairs a b) ∧
      (∀ p ∈ staticPairs a b, ∃ i, i < max a.items.length b.items.length ∧ p = (T.ty (a.items.getD i T.one), T.ty (b.items.getD i T.one))) := by
    intro h
    have htd : ∀ (t : T.τ) (xs : List T.α) (hx : ∀ x ∈ xs, T.ty x = t) i, i < xs.length → T.ty (xs.getD i T.one) = t := by
      intro t xs hx i hi
      rw [List.getD_eq_getElem _ _ hi]
      exact hx _ (List.getElem_mem _)
    cases a with
    | fixed xs =>
      cases b with
      | fixed ys =>
        constructor
        · intro i hi; exact List.mem_map.mpr ⟨i, List.mem_range.mpr hi, rfl⟩
        · intro p hp
          obtain ⟨i, hi, rfl⟩ := List.mem_map.mp hp
          exact ⟨i, List.mem_range.mp hi, rfl⟩
      | dyn t ys hy =>
        rcases h with ⟨_, _, -, h⟩ | ⟨h1, h2⟩
        · cases h
        · simp only [Coll.items] at h1 h2 ⊢
          constructor
          · intro i hi
            rw [htd t ys hy i (by omega), List.getD_eq_getElem _ _ (show i < xs.length by omega)]
            exact List.mem_map.mpr ⟨_, List.getElem_mem _, rfl⟩
          · intro p hp
            obtain ⟨x, hx, rfl⟩ := List.mem_map.mp hp
            obtain ⟨i, hi, rfl⟩ := List.getElem_of_mem hx
            exact ⟨i, by omega, by rw [htd t ys hy i (by omega), List.getD_eq_getElem _ _ hi]⟩
    | dyn t xs hx =>
      cases b with
      | fixed ys =>
        rcases h with ⟨_, _, h, -⟩ | ⟨h1, h2⟩
        · cases h
        · simp only [Coll.items] at h1 h2 ⊢
          constructor
          · intro i hi
            rw [htd t xs hx i (by omega), List.getD_eq_getElem _ _ (show i < ys.length by omega)]
            exact List.mem_map.mpr ⟨_, List.getElem_mem _, rfl⟩
          · intro p hp
            obtain ⟨y, hy, rfl⟩ := List.mem_map.mp hp
            obtain ⟨i, hi, rfl⟩ := List.getElem_of_mem hy
            exact ⟨i, by omega, by rw [htd t xs hx i (by omega), List.getD_eq_getElem _ _ hi]⟩
      | dyn t' ys hy =>
        rcases h with ⟨_, _, h, -⟩ | ⟨h1, h2⟩
        · cases h
        · simp only [Coll.items] at h1 h2 ⊢
          have hpos : 0 < xs.length := List.length_pos_iff.mpr h2
          constructor
          · intro i hi
            rw [htd t xs hx i (by omega), htd t' ys hy i (by omega)]
            exact List.mem_singleton.mpr rfl
          · intro p hp
            rw [List.mem_singleton.mp hp]
            exact ⟨0, by omega, by rw [htd t xs hx 0 (by omega), htd t' ys hy 0 (by omega)]⟩
  unfold compareCollections
  split_ifs with hg hn
  · refine iff_of_true rfl ?_
    rcases or_assoc.mpr h with h | h
    · obtain ⟨h1, -⟩ := hcover h
      intro i hi
      have := List.all_eq_true.mp hg _ (h1 i hi)
      simp only [beq_iff_eq] at this
      exact s.sound _ _ _ this
    · rw [hg] at h; exact absurd h.1 (by simp)
  · refine iff_of_false (by simp) ?_
    simp only [Bool.not_eq_true', ] at hn
    rcases or_assoc.mpr h with h | h
    · obtain ⟨-, h2⟩ := hcover h
      intro hA
      have : ¬ staticAll comp s (· != some false) (staticPairs a b) = true := by rw [hn]; simp
      unfold staticAll at this
      rw [List.all_eq_true] at this
      apply this
      intro p hp
      obtain ⟨i, hi, rfl⟩ := h2 p hp
      simp only [bne_iff_ne]
      intro hk
      have := s.sound _ _ _ hk
      rw [hA i hi] at this
      exact absurd this (by simp)
    · rw [hn] at h; exact absurd h.2 (by simp)
  · clear h hcover hg hn
    cases a <;> cases b
    · exact iterFixed_iff comp _ _
    · exact iterA_iff comp _ _
    · exact iterB_iff comp _ _
    · exact loopDyn_iff comp _ _

/-- A one-entry collection, and the same followed by a one-dimensional pattern: equal. -/
example : compareCollections (T := listTheory) POrd.isEq (listStatic _)
    (.fixed [[⟨.distance, false⟩]]) (.fixed [[⟨.distance, false⟩], [⟨.dim 1, false⟩]]) = true := by
  rw [C14_compare_partial _ (by rw [listTheory_laws.refl]; rfl) _ _ _ (Or.inl ⟨_, _, rfl, rfl⟩)]
  intro i
  have e : ∀ l : listTheory.α, (listTheory.cmp l l).isEq = true := fun l => by rw [listTheory_laws.refl]; rfl
  match i with
  | 0 => exact e _
  | 1 => exact e _
  | _ + 2 => exact e _

/-- **C14** violated by the compile-time shortcuts: (1) dynamic collections of two and three distances are equal; (2) the empty fixed-size collection
equals any dynamic collection; (3) empty dynamic collections of distances and of two-dimensional patterns are different. -/
theorem C14_violated :
    let dist : List Elem := [⟨.distance, false⟩]
    let two : List Elem := [⟨.dim 2, false⟩]
    let cmp := compareCollections (T := listTheory) POrd.isEq (listStatic _)
    let dyn (n : Nat) (l : List Elem) : Coll listTheory := .dyn (listTheory.ty l) (List.replicate n l) fun x hx => by rw [(List.mem_replicate.mp hx).2]
    (cmp (dyn 2 dist) (dyn 3 dist) = true ∧ listTheory.cmp listTheory.one dist = .unordered) ∧
    (cmp (.fixed []) (dyn 1 dist) = true) ∧
    (cmp (dyn 0 dist) (dyn 0 two) = false) := by
  intro dist two cmp dyn
  have hk : (listStatic POrd.isEq).known (listTheory.ty dist) (listTheory.ty dist) = some true := by
    show some (POrd.isEq (compareImpl dist dist 0 0)) = some true
    have : compareImpl dist dist 0 0 = .equivalent := listTheory_laws.refl dist
    rw [this]; rfl
  have hk2 : (listStatic POrd.isEq).known (listTheory.ty dist) (listTheory.ty two) = some false := by
    show some (POrd.isEq (compareImpl dist two 0 0)) = some false
    simp [dist, two, compareImpl, Descriptor.isEuclidean, Descriptor.dimension, POrd.isEq]
  refine ⟨⟨?_, ?_⟩, ?_, ?_⟩
  · show compareCollections _ _ _ _ = true
    unfold compareCollections
    rw [if_pos]
    simp [dyn, staticAll, staticPairs, hk]
  · show compareImpl _ _ 0 0 = _
    simp [listTheory, dist, compareImpl, Descriptor.isEuclidean, Descriptor.dimension]
  · show compareCollections _ _ _ _ = true
    unfold compareCollections
    rw [if_pos]
    simp [dyn, staticAll, staticPairs]
  · show compareCollections _ _ _ _ = false
    unfold compareCollections
    rw [if_neg, if_pos]
    · simp [dyn, staticAll, staticPairs, hk2]
    · simp [dyn, staticAll, staticPairs, hk2]

/-- **C14** (stripping): exactly the trailing one-dimensional patterns are removed, whatever is known at compile time; the result is unique, and
stripping again removes nothing. -/
theorem C14_strip (s : T.Static POrd.isEq) (c : Coll T) :
    IsStrip (fun x => T.cmp x T.one = .equivalent) c.items (strip1DTail s c) ∧
    (∀ r, IsStrip (fun x => T.cmp x T.one = .equivalent) c.items r → r = strip1DTail s c) ∧
    (∀ c' : Coll T, c'.items = strip1DTail s c → strip1DTail s c' = c'.items) := by
  refine ⟨strip_isStrip s c, fun r hr => isStrip_unique hr (strip_isStrip s c), fun c' hc' => ?_⟩
  refine isStrip_unique (strip_isStrip s c') ⟨⟨[], by simp, by simp⟩, ?_⟩
  rw [hc']
  exact (strip_isStrip s c).2

/-- **C14** (versions): compile-time recursion, recursion with run-time comparisons, and loop agree. -/
theorem C14_strip_versions (s : T.Static POrd.isEq) (xs : List T.α) :
    stripFixed s xs xs.length = xs.take (stripLoop xs xs.length) ∧ stripDynFixed xs xs.length = xs.take (stripLoop xs xs.length) :=
  ⟨isStrip_unique (stripFixed_isStrip s xs _ le_rfl) (stripLoop_isStrip xs _ le_rfl),
    isStrip_unique (stripDynFixed_isStrip xs _ le_rfl) (stripLoop_isStrip xs _ le_rfl)⟩

/-- **C14** (equality): two collections agree iff they agree after removing trailing one-dimensional patterns. -/
theorem C14_equal_iff_strip (h : OrderLaws T.cmp) (s : T.Static POrd.isEq) (a b : Coll T) :
    AgreePadded (fun x y => T.cmp x y = .equivalent) T.one a.items b.items ↔
      List.Forall₂ (fun x y => T.cmp x y = .equivalent) (strip1DTail s a) (strip1DTail s b) :=
  agreePadded_iff_strip h.refl (fun a b hab => by rw [h.rev, hab]; rfl) (fun a b c hab hbc => by rw [h.eq_left a b c hab, hbc])
    (strip_isStrip s a) (strip_isStrip s b)

/-- **C14** (equivalence relation). -/
theorem C14_equivalence (h : OrderLaws T.cmp) : Equivalence (AgreePadded (fun x y => T.cmp x y = .equivalent) T.one) :=
  ⟨fun a i => h.refl _, fun hab i => (h.rev _ _).trans (by rw [hab i]; rfl), fun hab hbc i => (h.eq_left _ _ _ (hab i)).trans (hbc i)⟩

/-! ## C15 -/

/-- **C15** (compile-time access and iteration): entry `i` of the view is entry `swap i` of the collection, missing entries being one-dimensional. -/
theorem C15_access (p : List T.α) (a b i : Nat) (hab : a < b) :
    transposeGet p a b i = padded T.one p (swapIdx a b i) ∧ transposeDeref p a b i = padded T.one p (swapIdx a b i) ∧
    (transposeItems p a b).length = max p.length (b + 1) ∧ padded T.one (transposeItems p a b) i = padded T.one p (swapIdx a b i) :=
  ⟨getPattern_eq p _, getPattern_eq p _, by simp [transposeItems, transposeSize], padded_transposeItems p hab i⟩

example : (transposeItems (T := listTheory) [[⟨.distance, false⟩]] 0 2).length = 3 := (C15_access (T := listTheory) _ 0 2 0 (by omega)).2.2.1

/-- **C15** (twice): transposing twice restores the collection up to trailing one-dimensional patterns. -/
theorem C15_involution (p : List T.α) (a b : Nat) (hab : a < b) (i : Nat) :
    padded T.one (transposeItems (transposeItems p a b) a b) i = padded T.one p i := by
  rw [padded_transposeItems _ hab, padded_transposeItems _ hab, swapIdx_swapIdx]

/-- **C15** (closure): where `views::transpose` returns its argument unchanged, it agrees with the transposed view. -/
theorem C15_closure (h : OrderLaws T.cmp) (s : T.Static POrd.isEq) (c : Coll T) (a b : Nat) (hab : a < b)
    (hc : ∀ t xs hx, c = .dyn t xs hx → b < xs.length) :
    AgreePadded (fun x y => T.cmp x y = .equivalent) T.one (transposeClosure s c a b) (transposeItems c.items a b) := by
  unfold transposeClosure
  simp only []
  split_ifs with hk
  · intro i
    rw [padded_transposeItems _ hab]
    have hab' : T.cmp (padded T.one c.items a) (padded T.one c.items b) = .equivalent := by
      rcases Bool.or_eq_true _ _ ▸ hk with h0 | h1
      · cases c with
        | fixed xs =>
          have : xs = [] := by simpa using h0
          subst this
          exact h.refl _
        | dyn t xs hx => simp at h0
      · have h1 := beq_iff_eq.mp h1
        rw [← isEq_iff]
        cases c with
        | fixed xs =>
          have := s.sound _ _ _ h1
          rwa [getPattern_eq, getPattern_eq] at this
        | dyn t xs hx =>
          have hb := hc t xs hx rfl
          apply s.sound
          unfold padded Coll.items
          simp only []
          rw [List.getD_eq_getElem _ _ hb, List.getD_eq_getElem _ _ (show a < xs.length by omega), hx _ (List.getElem_mem _), hx _ (List.getElem_mem _)]
          exact h1
    unfold swapIdx
    split_ifs with h1 h2
    · subst h1; exact hab'
    · subst h2; rw [h.rev, hab']; rfl
    · exact h.refl _
  · exact fun i => h.refl _

/-- **C15** (subscripts): subscripting an iterator adds the offset after exchanging; it is right exactly when that makes no difference. -/
theorem C15_subscript_partial (p : List T.α) (a b cur off : Nat) (h : swapIdx a b cur + off = swapIdx a b (cur + off)) :
    transposeSubscript p a b cur off = padded T.one p (swapIdx a b (cur + off)) := by
  rw [← h]
  exact getPattern_eq p _

example (p : List T.α) : transposeSubscript p 0 1 2 3 = padded T.one p 5 := C15_subscript_partial p 0 1 2 3 rfl

/-- **C15** violated: run-time element access (`begin()[i]`) of a transposed pair of patterns reads past the second pattern. -/
theorem C15_subscript_violated :
    let p : List listTheory.α := [[⟨.distance, false⟩], [⟨.dim 2, false⟩]]
    transposeSubscript p 0 1 0 1 = listTheory.one ∧ transposeGet p 0 1 1 = [⟨.distance, false⟩] :=
  ⟨rfl, rfl⟩

/-! ## C16 -/

/-- **C16** (shape): with two patterns or more, the first two are replaced by the lesser; if they are not comparable the function throws. -/
theorem C16_diagonal_of (h : OrderLaws T.cmp) (f : Bool) (x y : T.α) (rest : List T.α) :
    ((T.cmp x y = .less ∨ T.cmp x y = .equivalent) → diagonalOf f (x :: y :: rest) = .ok (x :: rest)) ∧
    (T.cmp y x = .less → diagonalOf f (x :: y :: rest) = .ok (y :: rest)) ∧
    (T.cmp x y = .unordered → diagonalOf f (x :: y :: rest) = .throws) := by
  refine ⟨?_, ?_, ?_⟩
  · rintro (e | e) <;> simp [diagonalOf, e, POrd.isLteq]
  · intro e
    have : T.cmp x y = .greater := by rw [h.rev, e]; rfl
    simp [diagonalOf, this, POrd.isLteq, POrd.isGt]
  · intro e; simp [diagonalOf, e, POrd.isLteq, POrd.isGt]

/-- **C16** (inverse): the diagonal pattern of a diagonal matrix is the pattern it was made from. -/
theorem C16_round_trip (h : OrderLaws T.cmp) (f : Bool) (p : List T.α) (hp : p ≠ []) : diagonalOf f (toDiagonal f p) = .ok p := by
  cases p with
  | nil => exact absurd rfl hp
  | cons x rest =>
    have : toDiagonal f (x :: rest) = x :: x :: rest := by simp [toDiagonal, getPattern]
    rw [this]
    exact (C16_diagonal_of h f x x rest).1 (Or.inr (h.refl x))

/-- **C16** (empty collections): nothing happens to an empty fixed-size collection; a dynamic one becomes a single one-dimensional pattern, and then its
diagonal is undefined, as for every dynamic collection of fewer than two patterns. -/
theorem C16_short : diagonalOf true (toDiagonal true ([] : List T.α)) = .ok [] ∧ toDiagonal false ([] : List T.α) = [T.one] ∧
    (∀ x : T.α, diagonalOf false [x] = .undefined) ∧ diagonalOf false ([] : List T.α) = .undefined ∧
    (∀ x : T.α, diagonalOf true [x] = diagonalOf true [x, T.one]) :=
  ⟨rfl, rfl, fun _ => rfl, rfl, fun _ => rfl⟩

theorem dim_of_prefix (n : Nat → Nat) (es : List Elem) (hn : ∀ e ∈ es, e.d.isEuclidean = false → n e.d.hash = e.d.dimension) :
    (es.map (·.d.dimension)).sum = ((axes es).map fun x => match x with | .plain => 1 | .special k => n k).sum := by
  induction es with
  | nil => rfl
  | cons e es ih =>
    have := ih fun e' h' => hn e' (by simp [h'])
    unfold axes at this ⊢
    rw [List.map_cons, List.map_cons, Patterns.axesOf_cons, List.map_append, List.sum_append, ← this, List.sum_cons]
    congr 1
    cases he : e.d.isEuclidean
    · simp [Patterns.Part.axes, hn e (by simp) he]
    · simp [Patterns.Part.axes]

/-- **C16** (dimension): the dimension of the diagonal is the lesser of the two dimensions.  `n` gives the dimension of a non-Euclidean descriptor from its
hash code; for colliding hash codes (C13) there may be none. -/
theorem C16_dimension (n : Nat → Nat) (f : Bool) (x y : List Elem) (rest r : List (List Elem))
    (hn : ∀ e ∈ x ++ y, e.d.isEuclidean = false → n e.d.hash = e.d.dimension)
    (h : diagonalOf (T := listTheory) f (x :: y :: rest) = .ok r) : ∃ z, r = z :: rest ∧ listTheory.dim z = min (listTheory.dim x) (listTheory.dim y) := by
  have hx := dim_of_prefix n x fun e he => hn e (by simp [he])
  have hy := dim_of_prefix n y fun e he => hn e (by simp [he])
  have mono : ∀ {l r : List (Patterns.Axis Nat)}, l <+: r →
      (l.map fun x => match x with | .plain => 1 | .special k => n k).sum ≤ (r.map fun x => match x with | .plain => 1 | .special k => n k).sum := by
    rintro l r ⟨t, rfl⟩; simp
  have hspec := Patterns.C11_prefix x y
  show ∃ z, r = z :: rest ∧ (z.map (·.d.dimension)).sum = min (x.map (·.d.dimension)).sum (y.map (·.d.dimension)).sum
  rw [hx, hy]
  have hle : ((listTheory.cmp x y).isLteq = true → axes x <+: axes y) ∧ ((listTheory.cmp x y).isGt = true → axes y <+: axes x) := by
    show ((compareImpl x y 0 0).isLteq = true → _) ∧ ((compareImpl x y 0 0).isGt = true → _)
    cases hc : compareImpl x y 0 0
    · exact ⟨fun _ => (hspec.2.1.mp hc).1, by simp [POrd.isGt]⟩
    · exact ⟨fun _ => (hspec.1.mp hc) ▸ List.prefix_rfl, by simp [POrd.isGt]⟩
    · exact ⟨by simp [POrd.isLteq], fun _ => (hspec.2.2.1.mp hc).1⟩
    · exact ⟨by simp [POrd.isLteq], by simp [POrd.isGt]⟩
  have h : (if (listTheory.cmp x y).isLteq = true then Res.ok (x :: rest)
      else if (listTheory.cmp x y).isGt = true then Res.ok (y :: rest) else Res.throws) = Res.ok r := by
    cases f <;> exact h
  split_ifs at h with h1 h2
  · exact ⟨x, (Res.ok.inj h).symm, by rw [hx]; exact (min_eq_left (mono (hle.1 h1))).symm⟩
  · exact ⟨y, (Res.ok.inj h).symm, by rw [hy]; exact (min_eq_right (mono (hle.2 h2))).symm⟩

example : diagonalOf (T := listTheory) true [[⟨.dim 2, false⟩], [⟨.dim 2, false⟩, ⟨.distance, false⟩]] = .ok [[⟨.dim 2, false⟩]] := by
  refine (C16_diagonal_of listTheory_laws true _ _ []).1 (Or.inl ?_)
  show compareImpl _ _ 0 0 = _
  simp [compareImpl, Descriptor.isEuclidean, Descriptor.dimension]

/-! ## C17 -/

/-- **C17** (largest): recursion and standard algorithm both return the first position of a largest dimension. -/
theorem C17_largest (f : Bool) (ds : List Nat) (h : ds ≠ []) : FirstMax ds (largestPattern f ds) := by
  unfold largestPattern
  split_ifs
  · exact largestFixed_spec [] ds 0 0 (by simp) (Or.inr ⟨rfl, rfl⟩) rfl (by simp) (by simp) h
  · cases ds with
    | nil => exact absurd rfl h
    | cons d ds =>
      refine maxElement_go_spec [d] ds 0 d (by simp) rfl (fun j => ?_) (by simp)
      cases j <;> simp

/-- **C17** (smallest), for dimensions that fit in `std::size_t`. -/
theorem C17_smallest (f : Bool) (ds : List Nat) (h : ds ≠ []) (hb : ∀ d ∈ ds, d ≤ 2 ^ 64 - 1) : FirstMin ds (smallestPattern f ds) := by
  unfold smallestPattern
  split_ifs
  · exact smallestFixed_spec [] ds 0 _ hb (Or.inr ⟨rfl, by simp, rfl⟩) (by simp) (by simp) h
  · cases ds with
    | nil => exact absurd rfl h
    | cons d ds =>
      refine minElement_go_spec [d] ds 0 d (by simp) rfl (fun j hj => ?_) (by simp)
      have : j = 0 := by simpa using hj
      subst this; simp

/-- **C17** (versions): hence recursion and standard algorithm agree. -/
theorem C17_versions (ds : List Nat) (h : ds ≠ []) (hb : ∀ d ∈ ds, d ≤ 2 ^ 64 - 1) :
    largestPattern true ds = largestPattern false ds ∧ smallestPattern true ds = smallestPattern false ds := by
  constructor
  · obtain ⟨a1, a2, a3⟩ := C17_largest true ds h
    obtain ⟨b1, b2, b3⟩ := C17_largest false ds h
    rcases Nat.lt_trichotomy (largestPattern true ds) (largestPattern false ds) with hl | hl | hl
    · have := b3 _ hl; have := a2 (largestPattern false ds); omega
    · exact hl
    · have := a3 _ hl; have := b2 (largestPattern true ds); omega
  · obtain ⟨a1, a2, a3⟩ := C17_smallest true ds h hb
    obtain ⟨b1, b2, b3⟩ := C17_smallest false ds h hb
    rcases Nat.lt_trichotomy (smallestPattern true ds) (smallestPattern false ds) with hl | hl | hl
    · have := b3 _ hl; have := a2 _ b1; omega
    · exact hl
    · have := a3 _ hl; have := b2 _ a1; omega

example : largestPattern true [0, 3, 1, 3] = 1 ∧ smallestPattern false [2, 1, 1] = 1 := by decide

end OpenKalman.PatternColl

namespace OpenKalman.Patterns

theorem eqElem_iff (x y : Elem) (hh : x.d.isEuclidean ≠ y.d.isEuclidean → x.d.hash ≠ y.d.hash) : eqElem x y = true ↔ x.part = y.part := by
  unfold eqElem compareThreeWay Elem.part
  cases ex : x.d.isEuclidean <;> cases ey : y.d.isEuclidean
  · by_cases he : x.d.hash = y.d.hash <;> simp [Pat.staticEuclidean, Elem.staticEuclidean, ex, ey, he, POrd.isEq]
  · have := hh (by rw [ex, ey]; simp)
    simp [Pat.staticEuclidean, Elem.staticEuclidean, ex, ey, this, POrd.isEq]
  · have := hh (by rw [ex, ey]; simp)
    simp [Pat.staticEuclidean, Elem.staticEuclidean, ex, ey, this, POrd.isEq]
  · have : ∀ m n, (Collections.cmpNat m n).isEq = true ↔ m = n := by
      intro m n; unfold Collections.cmpNat; split_ifs <;> simp [POrd.isEq] <;> omega
    simp [Pat.staticEuclidean, Elem.staticEuclidean, ex, ey, Pat.getDim, this]

theorem repeat_iff {α : Type} (c : α) (l : List α) : (∃ n, l = (List.replicate n [c]).flatten) ↔ ∀ x ∈ l, x = c := by
  constructor
  · rintro ⟨n, rfl⟩ x hx
    obtain ⟨t, ht, hx⟩ := List.mem_flatten.mp hx
    rw [(List.mem_replicate.mp ht).2] at hx
    exact List.mem_singleton.mp hx
  · intro h
    exact ⟨l.length, by rw [List.flatten_replicate_singleton]; exact List.eq_replicate_iff.mpr ⟨rfl, h⟩⟩

theorem mem_axes (x : Axis Nat) (es : List Elem) : x ∈ axes es ↔ ∃ e ∈ es, x ∈ e.part.axes := by
  rw [axes_eq]
  simp [axesOf]

/-- The axis of a one-dimensional descriptor. -/
theorem axes_one (a : Elem) (ha : a.d.dimension = 1) : ∃ c, axes [a] = [c] ∧ a.part.axes = [c] ∧
    c = if a.d.isEuclidean then .plain else .special a.d.hash := by
  rw [axes_eq]
  cases he : a.d.isEuclidean <;> simp [axesOf, Elem.part, Part.axes, he, ha]

/-- **C17** (is a uniform component): a one-dimensional descriptor is reported as a uniform component of a dynamic range of descriptors exactly if the
range is a repetition of it.  No dimension may have the hash code of another descriptor.  Missing: ranges without axes, for which the answer depends on
the descriptor (`C17_uniform_violated`). -/
theorem C17_is_uniform_partial (a : Elem) (ds : List Descriptor) (h0 : axes (ds.map (⟨·, true⟩)) ≠ [])
    (hz : ∀ d ∈ ds, d.isEuclidean = false → d.dimension ≠ 0) (hh : ∀ d ∈ ds, a.d.isEuclidean ≠ d.isEuclidean → a.d.hash ≠ d.hash) :
    isUniformComponentOf a ds = true ↔ a.d.dimension = 1 ∧ ∃ n, axes (ds.map (⟨·, true⟩)) = (List.replicate n (axes [a])).flatten := by
  unfold isUniformComponentOf
  split_ifs with ha he
  · simp [ha]
  · push Not at ha
    have hall := (C10_euclidean_partial (.dynAny ds) (by simp)).mp he
    simp only [Pat.elems] at hall
    obtain ⟨c, hc, -, hc'⟩ := axes_one a ha
    rw [hc, repeat_iff]
    rw [axes_all_euclidean _ hall] at h0 ⊢
    have h0' : ((ds.map fun d => (⟨d, true⟩ : Elem)).map fun e => e.d.dimension).sum ≠ 0 := fun h => h0 (by rw [h]; rfl)
    cases hae : a.d.isEuclidean
    · simp only [hae, Bool.false_eq_true, if_false] at hc'
      simp only [Bool.false_eq_true, false_iff, not_and, not_forall]
      exact fun _ => ⟨.plain, List.mem_replicate.mpr ⟨h0', rfl⟩, by rw [hc']; simp⟩
    · simp only [hae, if_true] at hc'
      simp only [true_iff]
      exact ⟨ha, fun x hx => by rw [(List.mem_replicate.mp hx).2, hc']⟩
  · push Not at ha
    obtain ⟨c, hc, hc2, hc'⟩ := axes_one a ha
    rw [hc, repeat_iff, List.all_eq_true]
    have key : ∀ d ∈ ds, ((if d.dimension = 0 then true else if d.isEuclidean && a.d.isEuclidean then true else eqElem a ⟨d, true⟩) = true ↔
        ∀ x ∈ (Elem.part ⟨d, true⟩).axes, x = c) := by
      intro d hd
      split_ifs with h1 h2
      · have he : d.isEuclidean = true := by
          by_contra hne
          exact hz d hd (by simpa using hne) h1
        simp [Elem.part, he, h1, Part.axes]
      · simp only [Bool.and_eq_true] at h2
        simp [Elem.part, h2.1, Part.axes, hc', h2.2]
      · rw [eqElem_iff a ⟨d, true⟩ (hh d hd)]
        simp only [Bool.and_eq_true, not_and, Bool.not_eq_true] at h2
        constructor
        · intro e x hx
          rw [← e, hc2] at hx
          exact List.mem_singleton.mp hx
        · intro h
          unfold Elem.part at h ⊢
          cases hde : d.isEuclidean
          · have := h (.special d.hash) (by simp [hde, Part.axes])
            rw [hc'] at this
            cases hae : a.d.isEuclidean
            · simp [hae] at this ⊢; exact this.symm
            · simp [hae] at this
          · have := h .plain (by simp [hde, Part.axes, h1])
            rw [hc'] at this
            simp [h2 hde] at this
    simp only [mem_axes, List.mem_map]
    constructor
    · intro h
      refine ⟨ha, ?_⟩
      rintro x ⟨e, ⟨d, hd, rfl⟩, hx⟩
      exact (key d hd).mp (h d hd) x hx
    · intro h d hd
      exact (key d hd).mpr fun x hx => h.2 x ⟨_, ⟨d, hd, rfl⟩, hx⟩

theorem adjacentEqual_spec (x : Elem) (l : List Elem) (hh : ∀ y ∈ x :: l, ∀ z ∈ x :: l, y.d.isEuclidean ≠ z.d.isEuclidean → y.d.hash ≠ z.d.hash)
    (h : adjacentEqual (x :: l) = true) : ∀ y ∈ l, y.part = x.part := by
  induction l generalizing x with
  | nil => simp
  | cons y l ih =>
    simp only [adjacentEqual, Bool.and_eq_true] at h
    have hxy := (eqElem_iff x y (hh x (by simp) y (by simp))).mp h.1
    intro z hz
    rcases List.mem_cons.mp hz with rfl | hz
    · exact hxy.symm
    · rw [hxy]
      exact ih y (fun u hu v hv => hh u (by simp [List.mem_cons.mp hu]) v (by simp [List.mem_cons.mp hv])) h.2 z hz

/-- **C17** (uniform component): if the component reported is one-dimensional, the pattern is a repetition of it.  `common` is the common type of the
elements of a fixed-size collection, where they have one.  Missing: that the component is one-dimensional, and that one is reported whenever there is one
(`C17_uniform_violated`). -/
theorem C17_uniform_partial (common : Option Descriptor) (p : Pat) (d : Descriptor) (h : getUniform common p = some d) (hd : d.dimension = 1)
    (hcom : ∀ es d', p = .fixed es → common = some d' → ∀ e ∈ es, (e.d.isEuclidean = true ∧ e.d.dimension = 0) ∨ e.d = d')
    (hh : ∀ y ∈ p.elems, ∀ z ∈ p.elems, y.d.isEuclidean ≠ z.d.isEuclidean → y.d.hash ≠ z.d.hash) :
    ∃ n, axes p.elems = (List.replicate n (axes [⟨d, false⟩])).flatten := by
  obtain ⟨c, hc, hc2, hc'⟩ := axes_one ⟨d, false⟩ hd
  simp only [] at hc'
  rw [hc, repeat_iff]
  have hplain : (∀ e ∈ p.elems, e.d.isEuclidean = true) → d = .dim 1 → ∀ x ∈ axes p.elems, x = c := by
    intro he hd1 x hx
    rw [axes_all_euclidean _ he] at hx
    rw [(List.mem_replicate.mp hx).2, hc', hd1]
    rfl
  have hsame : (∀ e ∈ p.elems, (e.d.isEuclidean = true ∧ e.d.dimension = 0) ∨ e.part = (Elem.part ⟨d, false⟩)) → ∀ x ∈ axes p.elems, x = c := by
    intro he x hx
    obtain ⟨e, hem, hx⟩ := (mem_axes _ _).mp hx
    rcases he e hem with ⟨h1, h2⟩ | h1
    · simp [Elem.part, h1, h2, Part.axes] at hx
    · rw [h1, hc2] at hx
      exact List.mem_singleton.mp hx
  unfold getUniform at h
  by_cases hs : p.staticEuclidean = true
  · rw [if_pos hs] at h
    have hd1 : d = .dim 1 := (Option.some.inj h).symm
    refine hplain ?_ hd1
    cases p with
    | single e => simpa [Pat.staticEuclidean, Elem.staticEuclidean, Pat.elems] using (Bool.and_eq_true _ _ ▸ hs).1
    | fixed es =>
      intro e he
      have := List.all_eq_true.mp hs e he
      exact (Bool.and_eq_true _ _ ▸ this).1
    | dynAny ds => simp [Pat.staticEuclidean] at hs
    | dynSame d' n =>
      intro e he
      rw [(List.mem_replicate.mp he).2]
      exact hs
    | dynDims ns =>
      intro e he
      obtain ⟨n, -, rfl⟩ := List.mem_map.mp he
      rfl
  · rw [if_neg hs] at h
    cases p with
    | single e =>
      simp only [] at h
      split_ifs at h with h1
      have : e.d = d := Option.some.inj h
      refine hsame fun e' he' => Or.inr ?_
      rw [List.mem_singleton.mp he']
      simp [Elem.part, this]
    | fixed es =>
      cases common with
      | some d' =>
        simp only [] at h
        split_ifs at h with h1
        have : d' = d := Option.some.inj h
        refine hsame fun e' he' => (hcom es d' rfl rfl e' he').imp id fun e => ?_
        simp [Elem.part, e, this]
      | none =>
        cases es with
        | nil => simp at h
        | cons e es =>
          simp only [] at h
          split_ifs at h with h1
          have hed : e.d = d := Option.some.inj h
          refine hsame fun e' he' => Or.inr ?_
          rcases List.mem_cons.mp he' with rfl | he''
          · simp [Elem.part, hed]
          · have := (eqElem_iff e e' (hh e (by simp [Pat.elems]) e' he')).mp (List.all_eq_true.mp h1 e' he'')
            rw [← this]
            simp [Elem.part, hed]
    | dynAny ds =>
      simp only [] at h
      split_ifs at h with h1 h2
      · exact hplain ((C10_euclidean_partial (.dynAny ds) (by simp)).mp h1) (Option.some.inj h).symm
      · cases ds with
        | nil => simp at h
        | cons d' ds =>
          have hdd : d' = d := by simpa using h
          have := adjacentEqual_spec ⟨d', true⟩ (ds.map (⟨·, true⟩)) hh h2
          refine hsame fun e' he' => Or.inr ?_
          rcases List.mem_cons.mp he' with rfl | he''
          · simp [Elem.part, hdd]
          · rw [this e' he'']
            simp [Elem.part, hdd]
    | dynSame d' n =>
      simp only [] at h
      split_ifs at h with h1
      have : d' = d := Option.some.inj h
      refine hsame fun e' he' => Or.inr ?_
      rw [(List.mem_replicate.mp he').2]
      simp [Elem.part, this]
    | dynDims ns =>
      refine hplain ?_ (Option.some.inj h).symm
      intro e he
      obtain ⟨n, -, rfl⟩ := List.mem_map.mp he
      rfl

/-- A range of two erased distances has the uniform component distance. -/
example : getUniform none (.dynAny [.distance, .distance]) = some .distance ∧ Descriptor.distance.dimension = 1 := by
  have : eqElem ⟨.distance, true⟩ ⟨.distance, true⟩ = true := (eqElem_iff _ _ (by simp)).mpr rfl
  refine ⟨?_, rfl⟩
  simp [getUniform, Pat.staticEuclidean, Pat.getIsEuclidean, Descriptor.isEuclidean, adjacentEqual, this]

/-- **C17** violated: (1) two polar descriptors have a two-dimensional "uniform component"; (2) an erased distance has none; (3) nor has a distance after
an empty dimension, although it is accepted as a uniform component; (4) of the empty range, a dimension is a uniform component but a distance is not. -/
theorem C17_uniform_violated (L : AngleLim) :
    (getUniform none (.dynAny [.polar false L, .polar false L]) = some (.polar false L) ∧ (Descriptor.polar false L).dimension = 2) ∧
    getUniform none (.single ⟨.distance, true⟩) = none ∧
    (getUniform none (.dynAny [.dim 0, .distance]) = none ∧ isUniformComponentOf ⟨.distance, false⟩ [.dim 0, .distance] = true) ∧
    (isUniformComponentOf ⟨.dim 1, false⟩ [] = true ∧ isUniformComponentOf ⟨.distance, false⟩ [] = false) := by
  have h1 : eqElem ⟨.polar false L, true⟩ ⟨.polar false L, true⟩ = true := (eqElem_iff _ _ (by simp)).mpr rfl
  have h2 : eqElem ⟨.distance, false⟩ ⟨.distance, true⟩ = true := (eqElem_iff _ _ (by simp)).mpr rfl
  have h3 : eqElem ⟨.dim 0, true⟩ ⟨.distance, true⟩ = false := by
    rw [← Bool.not_eq_true, eqElem_iff _ _ (by simp [Descriptor.hash])]
    simp [Elem.part, Descriptor.isEuclidean]
  refine ⟨⟨?_, rfl⟩, ?_, ⟨?_, ?_⟩, ?_, ?_⟩
  · simp [getUniform, Pat.staticEuclidean, Pat.getIsEuclidean, Descriptor.isEuclidean, adjacentEqual, h1]
  · simp [getUniform, Pat.staticEuclidean, Elem.staticEuclidean, Descriptor.isEuclidean]
  · simp [getUniform, Pat.staticEuclidean, Pat.getIsEuclidean, Descriptor.isEuclidean, adjacentEqual, h3]
  · simp [isUniformComponentOf, Pat.getIsEuclidean, Descriptor.isEuclidean, Descriptor.dimension, h2]
  · simp [isUniformComponentOf, Pat.getIsEuclidean, Descriptor.isEuclidean, Descriptor.dimension]
  · simp [isUniformComponentOf, Pat.getIsEuclidean, Descriptor.isEuclidean, Descriptor.dimension]

end OpenKalman.Patterns
