import Verif.Proof.Layout
import Mathlib.Data.Complex.Basic
import Mathlib.Data.Set.Card
import Mathlib.Algebra.BigOperators.Intervals
import Mathlib.Data.Finset.Sigma

/-!
# C21–C26: storage layouts and accessors
-/

namespace OpenKalman.Layout

/-! ## C21: packed triangle -/

private theorem stored_card (n : Nat) : {p : Nat × Nat | p.1 < n ∧ p.2 ≤ p.1}.ncard = n * (n + 1) / 2 := by
  have h : {p : Nat × Nat | p.1 < n ∧ p.2 ≤ p.1} = ↑(((Finset.range n).sigma fun r => Finset.range (r + 1)).image fun p => (p.1, p.2)) := by
    ext ⟨r, c⟩
    simp
  rw [h, Set.ncard_coe_finset, Finset.card_image_of_injOn]
  · rw [Finset.card_sigma]
    simp only [Finset.card_range]
    have := Finset.sum_range_id_mul_two (n + 1)
    rw [Finset.sum_range_succ'] at this
    simp only [Nat.add_zero, Nat.add_sub_cancel] at this
    rw [Nat.mul_comm n]
    omega
  · rintro ⟨a, b⟩ _ ⟨c, d⟩ _ h
    simp only [Prod.mk.injEq] at h
    obtain ⟨rfl, rfl⟩ := h
    rfl

/-- **C21** (span): for square extents the declared span is the number of stored entries. -/
theorem C21_span (t : Triangle) (o : Order) (n : Nat) :
    packedSpan (large t o) n n = {p : Nat × Nat | Stored n t p.1 p.2}.ncard ∧ packedSpan (large t o) n n = n * (n + 1) / 2 := by
  have h : packedSpan (large t o) n n = n * (n + 1) / 2 := by simp [packedSpan]
  refine ⟨?_, h⟩
  rw [h]
  cases t with
  | lower => exact (stored_card n).symm
  | upper =>
    rw [← stored_card n]
    refine Set.ncard_congr (fun p _ => (p.2, p.1)) (fun p hp => hp) ?_ ?_
    · rintro ⟨a, b⟩ ⟨c, d⟩ _ _ h
      simpa [and_comm] using h
    · rintro ⟨a, b⟩ hb
      exact ⟨(b, a), hb, rfl⟩

example : packedSpan (large .upper .rowMajor) 4 4 = 10 := (C21_span ..).2

/-- **C21** (in span and order): every index pair of the square, stored or mirrored, lands inside the span, and stored entries follow one
another strictly in the requested row- or column-major order. -/
theorem C21_in_span_ordered (t : Triangle) (o : Order) (n : Nat) :
    StaysInSpan [n, n] (packedMap (large t o) n n) (packedSpan (large t o) n n) ∧
    (∀ r c r' c', Stored n t r c → Stored n t r' c' → Before o r c r' c' →
      packedMap (large t o) n n [r, c] < packedMap (large t o) n n [r', c']) := by
  rw [(C21_span t o n).2]
  constructor
  · intro idx h
    match idx, h with
    | [r, c], h =>
      simp only [inRange_cons] at h
      rcases Nat.le_total r c with hrc | hrc
      · rw [packedMap_le _ _ _ hrc]
        cases large t o
        · exact body_small_lt hrc (by omega)
        · exact body_large_lt hrc (by omega)
      · rw [packedMap_ge _ _ _ hrc]
        cases large t o
        · exact body_small_lt hrc (by omega)
        · exact body_large_lt hrc (by omega)
    | [], h => simp at h
    | [_], h => simp at h
    | _ :: _ :: _ :: _, h => simp at h
  · intro r c r' c' s s' b
    cases t <;> cases o <;> simp only [Stored, Before, large] at *
    · rw [packedMap_ge _ _ _ s.2, packedMap_ge _ _ _ s'.2]; exact body_small_mono s.2 s.1 s'.2 s'.1 b
    · rw [packedMap_ge _ _ _ s.2, packedMap_ge _ _ _ s'.2]; exact body_large_mono s.2 s.1 s'.2 s'.1 b
    · rw [packedMap_le _ _ _ s.2, packedMap_le _ _ _ s'.2]; exact body_large_mono s.2 s.1 s'.2 s'.1 b
    · rw [packedMap_le _ _ _ s.2, packedMap_le _ _ _ s'.2]; exact body_small_mono s.2 s.1 s'.2 s'.1 b

example : packedMap (large .lower .columnMajor) 4 4 [2, 1] = 5 ∧ packedMap (large .lower .rowMajor) 4 4 [2, 1] = 4 := by decide

/-- **C21** (bijection): the stored triangle is mapped one-to-one onto `0 … n(n+1)/2 − 1`, and the mirrored entry shares the location. -/
theorem C21_bijection (t : Triangle) (o : Order) (n : Nat) :
    (∀ r c r' c', Stored n t r c → Stored n t r' c' →
      packedMap (large t o) n n [r, c] = packedMap (large t o) n n [r', c'] → r = r' ∧ c = c') ∧
    (∀ k < n * (n + 1) / 2, ∃ r c, Stored n t r c ∧ packedMap (large t o) n n [r, c] = k) ∧
    (∀ r c, packedMap (large t o) n n [r, c] = packedMap (large t o) n n [c, r]) := by
  refine ⟨?_, ?_, ?_⟩
  · intro r c r' c' s s' e
    have key := (C21_in_span_ordered t o n).2
    by_contra hne
    have hb : Before o r c r' c' ∨ Before o r' c' r c := by cases o <;> simp only [Before] <;> omega
    rcases hb with hb | hb
    · have := key _ _ _ _ s s' hb; omega
    · have := key _ _ _ _ s' s hb; omega
  · intro k hk
    have hs : ∃ i j, i ≤ j ∧ j < n ∧ packedBody (large t o) n n i j = k := by
      cases large t o
      · exact body_small_surj_aux n n (Nat.le_refl n) k hk
      · exact body_large_surj_aux n n (Nat.le_refl n) k (by rw [rowStart_n]; exact hk)
    obtain ⟨i, j, hij, hj, e⟩ := hs
    cases t
    · exact ⟨j, i, ⟨hj, hij⟩, by rw [packedMap_ge _ _ _ hij]; exact e⟩
    · exact ⟨i, j, ⟨hj, hij⟩, by rw [packedMap_le _ _ _ hij]; exact e⟩
  · intro r c
    rcases Nat.le_total r c with h | h
    · rw [packedMap_le _ _ _ h, packedMap_ge _ _ _ h]
    · rw [packedMap_ge _ _ _ h, packedMap_le _ _ _ h]

example : ∃ r c, Stored 5 .upper r c ∧ packedMap (large .upper .columnMajor) 5 5 [r, c] = 11 := ⟨1, 4, by simp [Stored], by decide⟩

/-- **C21** (scope): the property is claimed for square matrices only; outside them it fails.  With extents 2 × 4 two distinct entries
of the upper triangle share an offset. -/
theorem C21_nonsquare_collision :
    packedMap (large .upper .columnMajor) 2 4 [0, 3] = packedMap (large .upper .columnMajor) 2 4 [1, 1] := by decide

/-- **C21** (scope): nor does it extend to stacks of matrices, as the trailing indices are dropped. -/
theorem C21_stack_collision (t : Triangle) (o : Order) (n i j k k' : Nat) :
    packedMap (large t o) n n [i, j, k] = packedMap (large t o) n n [i, j, k'] := by simp [packedMap]

/-! ## C22: triangle partition -/

/-- **C22** (zones): over any nested mapping that stays in its span, for square matrices (and stacks of them), diagonal entries are in the first
partition at the nested location, stored entries in the second at the nested location, other entries in the third at the location of the mirror
image. -/
theorem C22_zones (t : Tri) (m : Mapping) (n : Nat) (es : List Nat) (he : m.extents = n :: n :: es)
    (hs : StaysInSpan m.extents m.map m.span) (i j : Nat) (is : List Nat) (h : InRange m.extents (i :: j :: is)) :
    (i = j → (partition t m).map (i :: j :: is) = m.map (i :: j :: is) ∧ m.map (i :: j :: is) < m.span) ∧
    (t.strict i j → (partition t m).map (i :: j :: is) = m.span + m.map (i :: j :: is) ∧ m.map (i :: j :: is) < m.span) ∧
    (¬ t.closed i j → t ≠ .diagonal →
      (partition t m).map (i :: j :: is) = 2 * m.span + m.map (j :: i :: is) ∧ m.map (j :: i :: is) < m.span) ∧
    (i ≠ j → t = .diagonal →
      (partition t m).map (i :: j :: is) = 2 * m.span + m.map (i :: j :: is) ∧ m.map (i :: j :: is) < m.span) := by
  have h1 := hs _ h
  have h2 : m.map (j :: i :: is) < m.span := hs _ (inRange_mirror he h)
  refine ⟨?_, ?_, ?_, ?_⟩
  · rintro rfl; simp [partition, partitionMap, h1]
  · intro hst
    cases t with
    | lower =>
      simp only [Tri.strict] at hst
      have : i ≠ j := by omega
      simp [partition, partitionMap, this, hst, h1, Nat.add_comm]
    | upper =>
      simp only [Tri.strict] at hst
      have : i ≠ j := by omega
      simp [partition, partitionMap, this, hst, h1, Nat.add_comm]
    | diagonal => simp [Tri.strict] at hst
  · intro hc hd
    simp only [Tri.closed, not_or] at hc
    obtain ⟨hc1, hc2⟩ := hc
    cases t with
    | lower => simp only [Tri.strict] at hc2; simp [partition, partitionMap, hc1, hc2, h2, Nat.add_comm]
    | upper => simp only [Tri.strict] at hc2; simp [partition, partitionMap, hc1, hc2, h2, Nat.add_comm]
    | diagonal => simp at hd
  · rintro hc rfl
    simp [partition, partitionMap, hc, h1, Nat.add_comm]

/-- The hypotheses are met by every row-major stack of square matrices. -/
example (n k : Nat) : StaysInSpan (layoutRight [n, n, k]).extents (layoutRight [n, n, k]).map (layoutRight [n, n, k]).span :=
  right_in_span _

/-- **C22** (span): the partition layout stays in its declared span of three copies. -/
theorem C22_in_span (t : Tri) (m : Mapping) (n : Nat) (es : List Nat) (he : m.extents = n :: n :: es)
    (hs : StaysInSpan m.extents m.map m.span) :
    StaysInSpan (partition t m).extents (partition t m).map (partition t m).span := by
  intro idx h
  change InRange m.extents idx at h
  match idx, h with
  | [], h => rw [he] at h; simp at h
  | [_], h => rw [he] at h; simp at h
  | i :: j :: is, h =>
    obtain ⟨z1, z2, z3, z4⟩ := C22_zones t m n es he hs i j is h
    change (partition t m).map (i :: j :: is) < 3 * m.span
    by_cases hc : t.closed i j
    · rcases hc with hc | hc
      · have := z1 hc; omega
      · have := z2 hc; omega
    · by_cases hd : t = .diagonal
      · have := z4 (fun e => hc (Or.inl e)) hd; omega
      · have := z3 hc hd; omega

/-- **C22** (uniqueness): it is injective whenever the nested mapping is. -/
theorem C22_unique (t : Tri) (m : Mapping) (n : Nat) (es : List Nat) (he : m.extents = n :: n :: es)
    (hs : StaysInSpan m.extents m.map m.span) (hu : Unique m.extents m.map) :
    Unique (partition t m).extents (partition t m).map := by
  intro x y hx hy hxy
  change InRange m.extents x at hx
  change InRange m.extents y at hy
  match x, hx with
  | [], h => rw [he] at h; simp at h
  | [_], h => rw [he] at h; simp at h
  | i :: j :: is, hx =>
    match y, hy with
    | [], h => rw [he] at h; simp at h
    | [_], h => rw [he] at h; simp at h
    | i' :: j' :: is', hy =>
      obtain ⟨z1, z2, z3, z4⟩ := C22_zones t m n es he hs i j is hx
      obtain ⟨w1, w2, w3, w4⟩ := C22_zones t m n es he hs i' j' is' hy
      have mx : InRange m.extents (j :: i :: is) := inRange_mirror he hx
      have my : InRange m.extents (j' :: i' :: is') := inRange_mirror he hy
      have fin : m.map (i :: j :: is) = m.map (i' :: j' :: is') → i :: j :: is = i' :: j' :: is' := hu _ _ hx hy
      have fin' : m.map (j :: i :: is) = m.map (j' :: i' :: is') → i :: j :: is = i' :: j' :: is' := by
        intro e
        have := hu _ _ mx my e
        simp only [List.cons.injEq] at this ⊢
        exact ⟨this.2.1, this.1, this.2.2⟩
      by_cases hd : t = .diagonal
      · subst hd
        by_cases e1 : i = j <;> by_cases e2 : i' = j'
        · have := z1 e1; have := w1 e2; exact fin (by omega)
        · have := z1 e1; have := w4 e2 rfl; omega
        · have := z4 e1 rfl; have := w1 e2; omega
        · have := z4 e1 rfl; have := w4 e2 rfl; exact fin (by omega)
      · by_cases c1 : t.closed i j <;> by_cases c2 : t.closed i' j'
        · rcases c1 with c1 | c1 <;> rcases c2 with c2 | c2
          · have := z1 c1; have := w1 c2; exact fin (by omega)
          · have := z1 c1; have := w2 c2; omega
          · have := z2 c1; have := w1 c2; omega
          · have := z2 c1; have := w2 c2; exact fin (by omega)
        · have := w3 c2 hd
          rcases c1 with c1 | c1
          · have := z1 c1; omega
          · have := z2 c1; omega
        · have := z3 c1 hd
          rcases c2 with c2 | c2
          · have := w1 c2; omega
          · have := w2 c2; omega
        · have := z3 c1 hd; have := w3 c2 hd; exact fin' (by omega)

example (n k : Nat) (t : Tri) : Unique [n, n, k] (partition t (layoutLeft [n, n, k])).map :=
  C22_unique t (layoutLeft [n, n, k]) n [k] rfl (left_in_span _) (left_unique _)

/-- **C22** (vectors): a rank-1 object is a column; its head is the diagonal, its tail is in the stored triangle only for a lower triangle. -/
theorem C22_rank1 (t : Tri) (m : Mapping) (n : Nat) (he : m.extents = [n]) (hs : StaysInSpan m.extents m.map m.span) (i : Nat)
    (h : i < n) : (partition t m).map [i] < 3 * m.span ∧
      (partition t m).map [i] = m.map [i] + (if i = 0 then 0 else if t = .lower then m.span else 2 * m.span) := by
  have h1 : m.map [i] < m.span := hs _ (by rw [he]; simpa using h)
  by_cases h0 : i = 0
  · simp only [partition, partitionMap, h0, if_true] at *; omega
  · cases t <;> simp [partition, partitionMap, h0] <;> omega

/-- **C22** (scope): for a non-square matrix the layout can leave its declared span (the mirror image is not an entry of the matrix). -/
theorem C22_nonsquare_out_of_span :
    ¬ StaysInSpan [2, 3] (partition .lower (layoutRight [2, 3])).map (partition .lower (layoutRight [2, 3])).span := by
  intro h
  have := h [0, 2] (by simp)
  revert this; decide

/-- **C22** (scope): and two entries can collide although the layout reports the nested mapping's uniqueness
(layout_triangle_partition.hpp:162-166). -/
theorem C22_nonsquare_collision :
    Unique [3, 6] (layoutLeft [3, 6]).map ∧ ¬ Unique [3, 6] (partition .lower (layoutLeft [3, 6])).map := by
  refine ⟨left_unique _, fun h => ?_⟩
  have := h [0, 5] [1, 2] (by simp) (by simp) (by decide)
  revert this; decide

/-! ## C23: triangular and Hermitian reads -/

/-- **C23** (triangular): element `(i, j, …)` of a triangular adapter is the nested element inside the triangle and zero outside, for every
shape (square or not), every nested layout and content. -/
theorem C23_triangular {α : Type} [Zero α] (t : Tri) (m : Mapping) (nested : Nat → Option α)
    (hs : StaysInSpan m.extents m.map m.span) (i j : Nat) (is : List Nat) (h : InRange m.extents (i :: j :: is)) :
    (t.closed i j → triangularRead t m nested (i :: j :: is) = nested (m.map (i :: j :: is))) ∧
    (¬ t.closed i j → triangularRead t m nested (i :: j :: is) = some 0) := by
  have h1 := hs _ h
  have far : ∀ x, triangularAccess (⟨nested, m.span⟩ : Handle α) (x + 2 * m.span) = some 0 := by
    intro x
    have a1 : ¬ x + 2 * m.span < m.span := by omega
    have a2 : ¬ x + 2 * m.span - m.span < m.span := by omega
    simp only [triangularAccess, a1, a2, if_false]
  have mid : triangularAccess (⟨nested, m.span⟩ : Handle α) (m.map (i :: j :: is) + m.span) = nested (m.map (i :: j :: is)) := by
    have a1 : ¬ m.map (i :: j :: is) + m.span < m.span := by omega
    simp [triangularAccess, h1]
  constructor
  · rintro (rfl | hst)
    · simp [triangularRead, partition, partitionMap, triangularAccess, h1]
    · cases t with
      | lower =>
        simp only [Tri.strict] at hst
        have hne : i ≠ j := by omega
        simpa [triangularRead, partition, partitionMap, hne, hst] using mid
      | upper =>
        simp only [Tri.strict] at hst
        have hne : i ≠ j := by omega
        simpa [triangularRead, partition, partitionMap, hne, hst] using mid
      | diagonal => simp [Tri.strict] at hst
  · intro hc
    simp only [Tri.closed, not_or] at hc
    obtain ⟨hc1, hc2⟩ := hc
    cases t with
    | lower =>
      simp only [Tri.strict] at hc2
      simpa [triangularRead, partition, partitionMap, hc1, hc2] using far _
    | upper =>
      simp only [Tri.strict] at hc2
      simpa [triangularRead, partition, partitionMap, hc1, hc2] using far _
    | diagonal => simpa [triangularRead, partition, partitionMap, hc1] using far _

example : triangularRead .lower (layoutRight [2, 3]) (fun k => [1, 2, 3, 4, 5, 6][k]?) [1, 0] = some 4 ∧
    triangularRead .lower (layoutRight [2, 3]) (fun k => [1, 2, 3, 4, 5, 6][k]?) [0, 2] = some 0 := by decide

/-- **C23** (Hermitian): element `(i, j, …)` of a Hermitian adapter (stored triangle lower or upper, square matrix) is the nested element in the
stored triangle, the conjugate of the mirrored element in the other, and the real part on the diagonal. -/
theorem C23_hermitian {α : Type} (re cj : α → α) (t : Tri) (ht : t ≠ .diagonal) (m : Mapping) (nested : Nat → Option α) (n : Nat)
    (es : List Nat) (he : m.extents = n :: n :: es) (hs : StaysInSpan m.extents m.map m.span) (i j : Nat) (is : List Nat)
    (h : InRange m.extents (i :: j :: is)) :
    (i = j → hermitianRead re cj t m nested (i :: j :: is) = (nested (m.map (i :: j :: is))).map re) ∧
    (t.strict i j → hermitianRead re cj t m nested (i :: j :: is) = nested (m.map (i :: j :: is))) ∧
    (¬ t.closed i j → hermitianRead re cj t m nested (i :: j :: is) = (nested (m.map (j :: i :: is))).map cj) := by
  obtain ⟨z1, z2, z3, -⟩ := C22_zones t m n es he hs i j is h
  refine ⟨fun e => ?_, fun e => ?_, fun e => ?_⟩
  · obtain ⟨a, b⟩ := z1 e
    simp [hermitianRead, a, hermitianAccess, b]
  · obtain ⟨a, b⟩ := z2 e
    simp [hermitianRead, a, hermitianAccess, b]
  · obtain ⟨a, b⟩ := z3 e ht
    have a1 : ¬ 2 * m.span + m.map (j :: i :: is) < m.span := by omega
    have a2 : ¬ 2 * m.span + m.map (j :: i :: is) - m.span < m.span := by omega
    have a3 : 2 * m.span + m.map (j :: i :: is) - m.span - m.span = m.map (j :: i :: is) := by omega
    simp only [hermitianRead, a, hermitianAccess, a1, a2, a3, if_false]

/-- **C23** (self-adjoint): whatever the nested matrix contains, the adapter reads as a Hermitian matrix. -/
theorem C23_hermitian_selfadjoint {α : Type} (re cj : α → α) (hcj : ∀ x, cj (cj x) = x) (hre : ∀ x, cj (re x) = re x) (t : Tri)
    (ht : t ≠ .diagonal) (m : Mapping) (nested : Nat → Option α) (n : Nat) (es : List Nat) (he : m.extents = n :: n :: es)
    (hs : StaysInSpan m.extents m.map m.span) (i j : Nat) (is : List Nat) (h : InRange m.extents (i :: j :: is)) :
    hermitianRead re cj t m nested (j :: i :: is) = (hermitianRead re cj t m nested (i :: j :: is)).map cj := by
  have h' : InRange m.extents (j :: i :: is) := inRange_mirror he h
  obtain ⟨a1, a2, a3⟩ := C23_hermitian re cj t ht m nested n es he hs i j is h
  obtain ⟨b1, b2, b3⟩ := C23_hermitian re cj t ht m nested n es he hs j i is h'
  by_cases hij : i = j
  · subst hij
    rw [a1 rfl, Option.map_map]
    congr 1
    funext x; exact (hre x).symm
  · have hcases : (t.strict i j ∧ ¬ t.closed j i) ∨ (t.strict j i ∧ ¬ t.closed i j) := by
      cases t <;> simp only [Tri.closed, Tri.strict, ne_eq, not_true_eq_false] at * <;> omega
    rcases hcases with ⟨c1, c2⟩ | ⟨c1, c2⟩
    · rw [a2 c1, b3 c2]
    · rw [b2 c1, a3 c2, Option.map_map]
      have : cj ∘ cj = id := funext hcj
      simp [this]

/-- Complex instance: the hypotheses on `real` and `conj` hold, with non-Hermitian nested content. -/
example (nested : Nat → Option ℂ) (n i j : Nat) (hi : i < n) (hj : j < n) :
    hermitianRead (fun z => (z.re : ℂ)) (starRingEnd ℂ) .lower (layoutRight [n, n]) nested [j, i] =
      (hermitianRead (fun z => (z.re : ℂ)) (starRingEnd ℂ) .lower (layoutRight [n, n]) nested [i, j]).map (starRingEnd ℂ) :=
  C23_hermitian_selfadjoint _ _ (fun x => Complex.conj_conj x) (fun x => Complex.conj_ofReal _) .lower (by simp) _ nested n [] rfl
    (right_in_span _) i j [] (by simp [layoutRight, hi, hj])

/-! ## C24: accessor offset law -/

/-- The part of the element space a partitioned handle covers: three partitions, `size_t` arithmetic without overflow. -/
def HandleValid {α : Type} (p : Handle α) (i : Nat) : Prop := i < 3 * p.P ∧ 3 * p.P < 2 ^ 64

/-- **C24**, full statement for the three partition accessors. -/
def C24_statement : Prop :=
  OffsetLaw (triangularAccess (α := Int)) Handle.offset HandleValid ∧
  OffsetLaw (hermitianAccess (α := Int) id id) Handle.offset HandleValid ∧
  OffsetLaw (toDiagonalAccess (α := Int)) Handle.offset HandleValid

/-- **C24**, refuted for every offset that is not 0: with at least two elements, for every `0 < i < P` each of the accessors reads
element 0 instead of element `i` through the offset handle. -/
theorem C24_violated (P i : Nat) (h0 : 0 < i) (hi : i < P) (hP : P < 2 ^ 64) :
    let p : Handle Int := ⟨fun k => some k, P⟩
    triangularAccess (p.offset i) 0 = some 0 ∧ triangularAccess p (i + 0) = some (i : Int) ∧
    hermitianAccess id id (p.offset i) 0 = some 0 ∧ hermitianAccess id id p (i + 0) = some (i : Int) ∧
    toDiagonalAccess (p.offset i) 0 = some 0 ∧ toDiagonalAccess p (i + 0) = some (i : Int) := by
  have e : (P + 2 ^ 64 - i) % 2 ^ 64 = P - i := by omega
  have hne : i ≠ 0 := by omega
  have hpos : 0 < P - i := by omega
  simp only [Handle.offset, hne, if_false, e]
  simp [triangularAccess, hermitianAccess, toDiagonalAccess, hpos, hi]

theorem C24_statement_false : ¬ C24_statement := by
  intro h
  have h1 := h.1 ⟨fun k => some k, 2⟩ 1 0 (by simp [HandleValid])
  obtain ⟨a, b, -⟩ := C24_violated 2 1 (by omega) (by omega) (by omega)
  rw [a, b] at h1
  simp at h1

/-- **C24**: offsetting past the first partition wraps the partition size around; the triangular accessor then reads the nested object where
it should return zero (and the nested index `j` may lie outside its storage). -/
theorem C24_offset_past_partition {α : Type} [Zero α] (p : Handle α) (i j : Nat) (h1 : p.P < i) (h2 : i < 2 ^ 64)
    (hj : j < 2 ^ 64 - (i - p.P)) : triangularAccess (p.offset i) j = p.nested j := by
  have hne : i ≠ 0 := by omega
  have e : (p.P + 2 ^ 64 - i) % 2 ^ 64 = 2 ^ 64 - (i - p.P) := by omega
  simp only [Handle.offset, hne, if_false, e]
  simp only [triangularAccess, hj, if_true]

/-- **C24** (what holds): the law at offset 0 for the three partition accessors. -/
theorem C24_zero_partial {α : Type} [Zero α] (re cj : α → α) (p : Handle α) (j : Nat) :
    triangularAccess (p.offset 0) j = triangularAccess p (0 + j) ∧
    hermitianAccess re cj (p.offset 0) j = hermitianAccess re cj p (0 + j) ∧
    toDiagonalAccess (p.offset 0) j = toDiagonalAccess p (0 + j) := by simp [Handle.offset]

/-- **C24** (constant accessor): the law holds for every offset. -/
theorem C24_constant {α : Type} : OffsetLaw (constantAccess (α := α)) constantOffset (fun _ _ => True) := fun _ _ _ _ => rfl

/-! ## C25: diagonal layouts -/

private theorem padded_full {m : Mapping} {is : List Nat} (h : m.extents.length ≤ is.length) : padded m is = m.map is := by
  have : m.extents.length - is.length = 0 := by omega
  simp [padded, this]

/-- **C25** (`diagonal_of`): index `(i, is…)` reads the nested `(i, i, is…)`, in range, stays in the declared span and is injective if the
nested mapping is. -/
theorem C25_diagonal_of (m : Mapping) (n0 n1 : Nat) (es : List Nat) (he : m.extents = n0 :: n1 :: es) :
    let d := diagonalOf m (min n0 n1 :: es)
    (∀ i is, InRange d.extents (i :: is) → InRange m.extents (i :: i :: is) ∧ d.map (i :: is) = m.map (i :: i :: is)) ∧
    (StaysInSpan m.extents m.map m.span → StaysInSpan d.extents d.map d.span) ∧
    (Unique m.extents m.map → Unique d.extents d.map) := by
  have key : ∀ i is, InRange (min n0 n1 :: es) (i :: is) →
      InRange m.extents (i :: i :: is) ∧ diagonalOfMap m (i :: is) = m.map (i :: i :: is) := by
    intro i is h
    rw [inRange_cons] at h
    refine ⟨by rw [he]; simp only [inRange_cons]; exact ⟨by omega, by omega, h.2⟩, padded_full ?_⟩
    have := inRange_length h.2
    rw [he]; simp [this]
  refine ⟨key, ?_, ?_⟩
  · intro hs idx h
    cases idx with
    | nil => simp [diagonalOf] at h
    | cons i is =>
      obtain ⟨a, b⟩ := key i is h
      change diagonalOfMap m (i :: is) < m.span
      rw [b]; exact hs _ a
  · intro hu x y hx hy hxy
    cases x with
    | nil => simp [diagonalOf] at hx
    | cons i is =>
      cases y with
      | nil => simp [diagonalOf] at hy
      | cons j js =>
        obtain ⟨a, b⟩ := key i is hx
        obtain ⟨c, d⟩ := key j js hy
        change diagonalOfMap m (i :: is) = diagonalOfMap m (j :: js) at hxy
        have := hu _ _ a c (by rw [← b, ← d]; exact hxy)
        simp only [List.cons.injEq] at this ⊢
        exact ⟨this.1, this.2.2⟩

example : (diagonalOf (layoutRight [3, 4, 2]) [3, 2]).map [2, 1] = 21 := by decide

/-- **C25** (`to_diagonal`): a diagonal entry is at the nested location of the vector entry, an off-diagonal one just past the nested span. -/
theorem C25_to_diagonal_map (m : Mapping) (n e0 e1 : Nat) (es : List Nat) (he : m.extents = n :: es) (hn : min e0 e1 ≤ n) (i j : Nat)
    (is : List Nat) (h : InRange (e0 :: e1 :: es) (i :: j :: is)) :
    (i = j → InRange m.extents (i :: is) ∧ (toDiagonal m (e0 :: e1 :: es)).map (i :: j :: is) = m.map (i :: is)) ∧
    (i ≠ j → (toDiagonal m (e0 :: e1 :: es)).map (i :: j :: is) = m.span) := by
  simp only [inRange_cons] at h
  constructor
  · rintro rfl
    refine ⟨by rw [he, inRange_cons]; exact ⟨by omega, h.2.2⟩, ?_⟩
    have := inRange_length h.2.2
    change toDiagonalMap m (i :: i :: is) = _
    simp only [toDiagonalMap, if_true]
    exact padded_full (by rw [he]; simp [this])
  · intro hne
    change toDiagonalMap m (i :: j :: is) = _
    simp [toDiagonalMap, hne]

/-- **C25** (`to_diagonal`, reads): through the adapter's accessor a diagonal entry reads the vector's entry and an off-diagonal one zero. -/
theorem C25_to_diagonal_read {α : Type} [Zero α] (m : Mapping) (n e0 e1 : Nat) (es : List Nat) (he : m.extents = n :: es)
    (hn : min e0 e1 ≤ n) (hs : StaysInSpan m.extents m.map m.span) (nested : Nat → Option α) (i j : Nat) (is : List Nat)
    (h : InRange (e0 :: e1 :: es) (i :: j :: is)) :
    toDiagonalRead m (e0 :: e1 :: es) nested (i :: j :: is) = if i = j then nested (m.map (i :: is)) else some 0 := by
  obtain ⟨a, b⟩ := C25_to_diagonal_map m n e0 e1 es he hn i j is h
  by_cases hij : i = j
  · obtain ⟨c, d⟩ := a hij
    have := hs _ c
    rw [if_pos hij]
    simp only [toDiagonalRead, d, toDiagonalAccess, this, if_true]
  · simp [toDiagonalRead, b hij, toDiagonalAccess, hij]

/-- **C25** (round trip): `diagonal_of(to_diagonal(v))` reads `v`, for vectors and stacks of vectors. -/
theorem C25_diagonal_of_to_diagonal {α : Type} [Zero α] (m : Mapping) (n : Nat) (es : List Nat) (he : m.extents = n :: es)
    (hs : StaysInSpan m.extents m.map m.span) (nested : Nat → Option α) (i : Nat) (is : List Nat) (h : InRange m.extents (i :: is)) :
    diagonalOfRead (toDiagonal m (n :: n :: es)) (n :: es) (toDiagonalAccess ⟨nested, m.span⟩) (i :: is)
      = nested (m.map (i :: is)) := by
  have hd := (C25_diagonal_of (toDiagonal m (n :: n :: es)) n n es rfl).1 i is (by
    rw [he] at h; simpa [diagonalOf] using h)
  rw [min_self] at hd
  have := C25_to_diagonal_read m n n n es he (by simp) hs nested i i is hd.1
  simp only [if_true] at this
  rw [← this]
  simp only [diagonalOfRead, hd.2, toDiagonalRead]

example : diagonalOfRead (toDiagonal (layoutRight [3]) [3, 3]) [3] (toDiagonalAccess ⟨fun k => [7, 8, 9][k]?, 3⟩) [2] = some 9 := by decide

/-- **C25** (`to_diagonal`, span): the declared span covers every index when the nested span is at least 2, or there are no off-diagonal
entries.  Missing from the full claim: nested spans of 1 with off-diagonal entries, where it fails (next theorem). -/
theorem C25_to_diagonal_span_partial (m : Mapping) (n e0 e1 : Nat) (es : List Nat) (he : m.extents = n :: es) (hn : min e0 e1 ≤ n)
    (hs : StaysInSpan m.extents m.map m.span) (h2 : 2 ≤ m.span ∨ (e0 ≤ 1 ∧ e1 ≤ 1)) :
    let d := toDiagonal m (e0 :: e1 :: es)
    StaysInSpan d.extents d.map d.span := by
  intro d idx h
  match idx, h with
  | [], h => simp [d, toDiagonal] at h
  | [_], h => simp [d, toDiagonal] at h
  | i :: j :: is, h =>
    obtain ⟨a, b⟩ := C25_to_diagonal_map m n e0 e1 es he hn i j is h
    have hd : d.span = if m.span ≤ 1 then m.span else m.span + 1 := rfl
    by_cases hij : i = j
    · obtain ⟨c, e⟩ := a hij
      have := hs _ c
      rw [show d.map (i :: j :: is) = _ from e, hd]
      split <;> omega
    · have hr : InRange (e0 :: e1 :: es) (i :: j :: is) := h
      simp only [inRange_cons] at hr
      rw [show d.map (i :: j :: is) = _ from b hij, hd]
      split <;> omega

example : 2 ≤ (layoutRight [3, 2]).span := by decide

/-- **C25** (`to_diagonal`, span): for a constant vector (nested span 1) of length 2 the off-diagonal offset lies outside the declared span. -/
theorem C25_to_diagonal_span_violated :
    StaysInSpan [2] (layoutConstant [2]).map (layoutConstant [2]).span ∧
    ¬ StaysInSpan [2, 2] (toDiagonal (layoutConstant [2]) [2, 2]).map (toDiagonal (layoutConstant [2]) [2, 2]).span := by
  constructor
  · intro idx _; simp [layoutConstant]
  · intro h
    have := h [0, 1] (by simp)
    revert this; decide

/-- **C25** (`to_diagonal`, uniqueness): `is_unique()` answers true for a 2 × 1 × 2 object in which two off-diagonal entries share an offset. -/
theorem C25_to_diagonal_unique_violated :
    Unique [1, 2] (layoutRight [1, 2]).map ∧ toDiagonalIsUnique true [2, 1, 2] = true ∧
    ¬ Unique [2, 1, 2] (toDiagonal (layoutRight [1, 2]) [2, 1, 2]).map := by
  refine ⟨right_unique _, rfl, fun h => ?_⟩
  have := h [1, 0, 0] [1, 0, 1] (by simp) (by simp) (by decide)
  revert this; decide

/-- **C25** (`to_diagonal`, uniqueness): for matrices (rank 2), when `is_unique()` answers true the mapping is injective. -/
theorem C25_to_diagonal_unique_partial (m : Mapping) (n e0 e1 : Nat) (he : m.extents = [n]) (hn : min e0 e1 ≤ n)
    (hs : StaysInSpan m.extents m.map m.span) (hu : Unique m.extents m.map) (h : toDiagonalIsUnique true [e0, e1] = true) :
    Unique [e0, e1] (toDiagonal m [e0, e1]).map := by
  simp only [toDiagonalIsUnique, Bool.true_and, Bool.and_eq_true, Bool.or_eq_true, decide_eq_true_eq] at h
  intro x y hx hy hxy
  match x, hx with
  | [], h => simp at h
  | [_], h => simp at h
  | _ :: _ :: _ :: _, h => simp at h
  | [i, j], hx =>
    match y, hy with
    | [], h => simp at h
    | [_], h => simp at h
    | _ :: _ :: _ :: _, h => simp at h
    | [i', j'], hy =>
      obtain ⟨a, b⟩ := C25_to_diagonal_map m n e0 e1 [] he hn i j [] hx
      obtain ⟨c, d⟩ := C25_to_diagonal_map m n e0 e1 [] he hn i' j' [] hy
      simp only [inRange_cons, inRange_nil, and_true] at hx hy
      simp only [List.cons.injEq, and_true]
      by_cases e1 : i = j <;> by_cases e2 : i' = j'
      · have := hu _ _ (a e1).1 (c e2).1 (by rw [← (a e1).2, ← (c e2).2]; exact hxy)
        simp only [List.cons.injEq, and_true] at this
        omega
      · have := hs _ (a e1).1
        rw [(a e1).2, d e2] at hxy; omega
      · have := hs _ (c e2).1
        rw [(c e2).2, b e1] at hxy; omega
      · omega

/-- **C25** (strides of `diagonal_of`): for matrices the reported stride is right whenever the nested strides are.  Missing from the full
claim: ranks above 2, where it fails (next theorem). -/
theorem C25_diagonal_of_stride_partial (m : Mapping) (n0 n1 : Nat) (he : m.extents = [n0, n1])
    (hst : StridesCorrect m.extents m.map m.stride) :
    let d := diagonalOf m [min n0 n1]
    StridesCorrect d.extents d.map d.stride := by
  intro d r hr
  have hr0 : r = 0 := by simp [d, diagonalOf] at hr; exact hr
  subst hr0
  obtain ⟨s0, a0, b0⟩ := hst 0 (by simp [he])
  obtain ⟨s1, a1, b1⟩ := hst 1 (by simp [he])
  refine ⟨s0 + s1, by simp [d, diagonalOf, a0, a1], ?_⟩
  have key := (C25_diagonal_of m n0 n1 [] he).1
  intro idx h h'
  match idx, h with
  | [], h => simp [d, diagonalOf] at h
  | _ :: _ :: _, h => simp [d, diagonalOf] at h
  | [i], h =>
    have k1 := key i [] h
    have k2 := key (i + 1) [] h'
    have g0 := b0 [i, i] k1.1 (by have := k2.1; rw [he] at this ⊢; simp at this ⊢; omega)
    have g1 := b1 [i + 1, i] (by have := k2.1; rw [he] at this ⊢; simp at this ⊢; omega) k2.1
    simp only [bump_zero, bump_succ] at g0 g1
    change diagonalOfMap m [i + 1] = diagonalOfMap m [i] + (s0 + s1)
    have e1 : diagonalOfMap m [i] = m.map [i, i] := k1.2
    have e2 : diagonalOfMap m [i + 1] = m.map [i + 1, i + 1] := k2.2
    rw [e1, e2, g1, g0]; omega

example (n0 n1 : Nat) : StridesCorrect [n0, n1] (layoutRight [n0, n1]).map (layoutRight [n0, n1]).stride := by
  intro r hr
  exact ⟨_, if_pos hr, right_stride _ r hr⟩

/-- **C25** (strides of `diagonal_of`): with trailing indices the code reports the stride of the wrong nested index. -/
theorem C25_diagonal_of_stride_violated :
    StridesCorrect [2, 2, 3] (layoutRight [2, 2, 3]).map (layoutRight [2, 2, 3]).stride ∧
    ¬ StridesCorrect [2, 3] (diagonalOf (layoutRight [2, 2, 3]) [2, 3]).map (diagonalOf (layoutRight [2, 2, 3]) [2, 3]).stride := by
  refine ⟨fun r hr => ⟨_, if_pos hr, right_stride _ r hr⟩, fun h => ?_⟩
  obtain ⟨s, a, b⟩ := h 1 (by simp)
  have e : s = 6 := by
    have : (diagonalOf (layoutRight [2, 2, 3]) [2, 3]).stride 1 = some 6 := by decide
    rw [this] at a; simpa using a.symm
  subst e
  have := b [0, 0] (by simp) (by simp [bump])
  revert this; decide

/-! ## C26: transposed layout -/

/-- **C26** (reads): the transposed layout reads the nested element whose indices `a` and `b` are exchanged, and that element exists. -/
theorem C26_reads (m : Mapping) (a b : Nat) (hab : a < b) (e : List Nat) (he : ExtentsSwapped a b m.extents e) (ix : List Nat)
    (h : InRange e ix) : ∃ y, InRange m.extents y ∧ IndexSwapped a b ix y ∧ (transposed m a b e).map ix = m.map y :=
  ⟨adjust m.extents.length a b ix, adjust_inRange hab he h, adjust_swapped hab (by rw [inRange_length h, he.1]), rfl⟩

/-- Transposing a vector (nested rank 1) to a row: extents `[5]` become `[1, 5]`. -/
example : ExtentsSwapped 0 1 [5] [1, 5] ∧ (transposed (layoutRight [5]) 0 1 [1, 5]).map [0, 3] = 3 := by
  refine ⟨⟨rfl, ?_⟩, by decide⟩
  intro i hi
  match i, hi with
  | 0, _ => simp
  | 1, _ => simp

/-- **C26** (span and uniqueness): preserved. -/
theorem C26_span_unique (m : Mapping) (a b : Nat) (hab : a < b) (e : List Nat) (he : ExtentsSwapped a b m.extents e) :
    (StaysInSpan m.extents m.map m.span → StaysInSpan e (transposed m a b e).map (transposed m a b e).span) ∧
    (Unique m.extents m.map → Unique e (transposed m a b e).map) :=
  ⟨fun hs _ h => hs _ (adjust_inRange hab he h),
   fun hu _ _ hx hy hxy => adjust_inj hab he hx hy (hu _ _ (adjust_inRange hab he hx) (adjust_inRange hab he hy) hxy)⟩

/-- **C26** (involution): transposing twice reads the original element. -/
theorem C26_involution (m : Mapping) (a b : Nat) (hab : a < b) (e e' : List Nat) (he : ExtentsSwapped a b m.extents e)
    (he' : ExtentsSwapped a b e e') (ix : List Nat) (h : InRange e' ix) :
    (transposed (transposed m a b e) a b e').map ix = m.map (ix.take m.extents.length) := by
  have l1 : e.length = max m.extents.length (b + 1) := he.1
  have l2 : e'.length = max e.length (b + 1) := he'.1
  have l3 := inRange_length h
  change m.map (adjust m.extents.length a b (adjust e.length a b ix)) = _
  congr 1
  refine ext_getD (by simp [adjust_length]; omega) fun i hi => ?_
  rw [adjust_length] at hi
  have hs : Equiv.swap a b i < e.length := swap_lt (by omega) (by omega) (by omega)
  rw [adjust_getD hab (by rw [adjust_length]; omega) hi, adjust_getD hab (by omega) hs, Equiv.swap_apply_self,
    List.getD_eq_getElem _ _ (by omega), List.getD_eq_getElem _ _ (by simp; omega)]
  simp

example : (transposed (transposed (layoutRight [2, 3, 4]) 0 2 [4, 3, 2]) 0 2 [2, 3, 4]).map [1, 2, 3] = 23 := by decide

/-- **C26** (strides): when both indices exist in the nested object, the strides are the nested ones exchanged and correct. -/
theorem C26_strides_partial (m : Mapping) (a b : Nat) (hab : a < b) (hb : b < m.extents.length) (e : List Nat)
    (he : ExtentsSwapped a b m.extents e) (hst : StridesCorrect m.extents m.map m.stride) :
    StridesCorrect e (transposed m a b e).map (transposed m a b e).stride := by
  intro r hr
  have hl : e.length = m.extents.length := by rw [he.1]; omega
  have hs : Equiv.swap a b r < m.extents.length := swap_lt (by omega) hb (by omega)
  obtain ⟨s, s1, s2⟩ := hst _ hs
  refine ⟨s, ?_, ?_⟩
  · rw [Equiv.swap_apply_def] at s1; exact s1
  · intro idx h h'
    change m.map (adjust _ a b (bump r idx)) = m.map (adjust _ a b idx) + s
    rw [adjust_bump hab he h hr]
    have h'' := adjust_inRange hab he h'
    rw [adjust_bump hab he h hr] at h''
    exact s2 _ (adjust_inRange hab he h) h''

/-- **C26** (strides): when index `b` is one of the implicit trailing ones (e.g. transposing a rank-1 object), asking for the stride of index `a`
asks the nested mapping for a stride it does not have — a precondition violation although `a` is a valid index. -/
theorem C26_strides_violated :
    StridesCorrect [5] (layoutRight [5]).map (layoutRight [5]).stride ∧
    ¬ StridesCorrect [1, 5] (transposed (layoutRight [5]) 0 1 [1, 5]).map (transposed (layoutRight [5]) 0 1 [1, 5]).stride := by
  refine ⟨fun r hr => ⟨_, if_pos hr, right_stride _ r hr⟩, fun h => ?_⟩
  obtain ⟨s, a, -⟩ := h 0 (by simp)
  revert a; simp [transposed, layoutRight]

end OpenKalman.Layout
