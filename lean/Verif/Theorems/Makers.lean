import Verif.Proof.Makers
import Verif.Theorems.Comma

/-! # C165: objects made from lists of components -/

namespace OpenKalman.Makers

open Comma

variable {α : Type}

/-! ## Which lists are accepted -/

/-- An object is made from a list exactly if the number of components determines its shape. -/
def C165_accepts_statement : Prop := ∀ (ds : List (Option ℕ)) (N : ℕ), inferAccepts ds N = true ↔ Determined ds N

/-- Eight components are accepted for a matrix with two rows and two columns. -/
theorem C165_accepts_violated : ¬ C165_accepts_statement := by
  intro h
  obtain ⟨ss, ⟨h1, h2⟩, -⟩ := (h [some 2, some 2] 8).1 rfl
  rw [(fits_fixed (by simp)).1 h1] at h2
  simp at h2

/-- No components are not accepted for a matrix with two columns, although it must then have no rows. -/
theorem C165_empty_violated : ¬ C165_accepts_statement := by
  intro h
  have := (h [none, some 2] 0).2 ⟨[0, 2], (fits_open (as := []) (bs := [some 2]) (by simp) (by simp)).2 ⟨0, rfl, rfl⟩, fun ss' h' => by
    obtain ⟨s, rfl, hs⟩ := (fits_open (as := []) (bs := [some 2]) (by simp) (by simp)).1 h'
    simp [fixedSize] at hs
    simp [hs]⟩
  revert this
  decide

/-- With exactly one open extent and at least one component, an object is made exactly if the number of components determines its shape. -/
theorem C165_accepts_partial (ds : List (Option ℕ)) (N : ℕ) (hN : 0 < N) (hd : ds.countP (fun d => d.isNone) = 1) : inferAccepts ds N = true ↔ Determined ds N := by
  obtain ⟨as, bs, rfl, h1, h2⟩ := split_open hd
  have hz : zeroCount (as ++ none :: bs) = 0 ∨ fixedSize (as ++ none :: bs) = 0 := by
    by_cases h : (as ++ none :: bs).any (fun d => d == some 0) = true
    · right
      obtain ⟨d, hd, h0⟩ := List.any_eq_true.1 h
      have h0 : d = some 0 := by simpa using h0
      rw [fixedSize, List.prod_eq_zero_iff]
      exact List.mem_map.2 ⟨d, hd, by rw [h0]; rfl⟩
    · left
      rw [zeroCount, if_neg h]
  constructor
  · intro h
    rw [inferAccepts, Bool.and_eq_true] at h
    have hm := h.1
    rw [mayHold, if_neg (by omega)] at hm
    by_cases hf : fixedSize (as ++ none :: bs) = 0
    · rw [if_pos hf] at hm
      cases hm
    · rw [if_neg hf] at hm
      have hm : N % fixedSize (as ++ none :: bs) = 0 := by simpa using hm
      have e : fixedSize (as ++ none :: bs) * (N / fixedSize (as ++ none :: bs)) = N := Nat.mul_div_cancel' (Nat.dvd_of_mod_eq_zero hm)
      refine ⟨_, (fits_open h1 h2).2 ⟨_, rfl, e⟩, fun ss' h' => ?_⟩
      obtain ⟨s, rfl, hs⟩ := (fits_open h1 h2).1 h'
      have : s = N / fixedSize (as ++ none :: bs) := (Nat.div_eq_of_eq_mul_right (Nat.pos_of_ne_zero hf) hs.symm).symm
      rw [this]
  · rintro ⟨ss, h, -⟩
    obtain ⟨s, rfl, hs⟩ := (fits_open h1 h2).1 h
    have hf : fixedSize (as ++ none :: bs) ≠ 0 := fun h0 => by
      rw [h0, Nat.zero_mul] at hs
      omega
    rw [inferAccepts, Bool.and_eq_true]
    refine ⟨?_, ?_⟩
    · rw [mayHold, if_neg (by omega), if_neg hf]
      simp [← hs]
    · rcases hz with hz | hz
      · rw [hz, hd]
        rfl
      · exact absurd hz hf

/-- With two open extents or more, no list of components is accepted. -/
theorem C165_open (ds : List (Option ℕ)) (N : ℕ) (hd : 2 ≤ ds.countP (fun d => d.isNone)) : inferAccepts ds N = false := by
  refine Bool.eq_false_iff.2 fun h => ?_
  rw [inferAccepts, Bool.and_eq_true, decide_eq_true_iff] at h
  omega

/-- Rightly so: two components or more do not determine the shape of a matrix with no fixed extent. -/
theorem C165_open_matrix (N : ℕ) (hN : 2 ≤ N) : inferAccepts [none, none] N = true ↔ Determined [none, none] N := by
  rw [C165_open _ _ (by decide)]
  refine ⟨fun h => (Bool.false_ne_true h).elim, ?_⟩
  rintro ⟨ss, -, h⟩
  have f : ∀ a b : ℕ, a * b = N → Fits [none, none] N [a, b] := fun a b e =>
    ⟨.cons (fun _ h => by cases h) (.cons (fun _ h => by cases h) .nil), by simpa using e⟩
  have := (h _ (f 1 N (by simp))).trans (h _ (f N 1 (by simp))).symm
  simp only [List.cons.injEq] at this
  omega

/-- With an extent of zero and an open one, an object is made exactly if its shape is determined, which it never is: no components fit every extent, and some fit none. -/
theorem C165_zero (ds : List (Option ℕ)) (N : ℕ) (h0 : some 0 ∈ ds) (hd : ds.countP (fun d => d.isNone) = 1) : inferAccepts ds N = false ∧ ¬ Determined ds N := by
  constructor
  · refine Bool.eq_false_iff.2 fun h => ?_
    have hz : zeroCount ds = 1 := by
      rw [zeroCount, if_pos (List.any_eq_true.2 ⟨some 0, h0, by simp⟩)]
    rw [inferAccepts, Bool.and_eq_true, decide_eq_true_iff] at h
    omega
  · have hf : fixedSize ds = 0 := by
      rw [fixedSize, List.prod_eq_zero_iff]
      exact List.mem_map.2 ⟨some 0, h0, rfl⟩
    obtain ⟨as, bs, rfl, h1, h2⟩ := split_open hd
    rintro ⟨ss, hs, hu⟩
    obtain ⟨s, rfl, e⟩ := (fits_open h1 h2).1 hs
    rw [hf, Nat.zero_mul] at e
    have := hu _ ((fits_open h1 h2).2 ⟨s + 1, rfl, by rw [hf, Nat.zero_mul]; exact e⟩)
    simp at this

/-- No components do not tell how many rows a matrix without columns has. -/
example : inferAccepts [none, some 0] 0 = false ∧ ¬ Determined [none, some 0] 0 := C165_zero _ _ (by simp) (by decide)

/-- Six components may be two rows or three. -/
example : inferAccepts [none, none] 6 = false ∧ ¬ Determined [none, none] 6 :=
  ⟨rfl, fun h => Bool.false_ne_true ((C165_open_matrix 6 (by decide)).2 h)⟩

/-- Six components make a matrix with two columns, and then it has three rows; five do not. -/
example : inferAccepts [none, some 2] 6 = true ∧ inferAccepts [none, some 2] 5 = false ∧ inferred [none, some 2] 6 = [3, 2] := by decide

/-- The extents are those for which there are as many components, if one extent at most is open. -/
theorem C165_extents (ds : List (Option ℕ)) (N : ℕ) (ss : List ℕ) (hN : 0 < N) (hd : ds.countP (fun d => d.isNone) ≤ 1) (h : Fits ds N ss) : inferAccepts ds N = true ∧ inferred ds N = ss := by
  rcases Nat.eq_zero_or_pos (ds.countP fun d => d.isNone) with h0 | h0
  · have hs : ∀ d ∈ ds, d.isNone = false := fun d hd => by
      have := List.countP_eq_zero.1 h0 d hd
      cases d with
      | none => exact absurd rfl this
      | some k => rfl
    obtain ⟨h1, h2⟩ := h
    rw [fits_fixed hs] at h1
    subst h1
    have e : fixedSize ds = N := h2
    have hz : zeroCount ds = 0 := by
      rw [zeroCount, if_neg]
      intro h
      obtain ⟨d, hd, h0⟩ := List.any_eq_true.1 h
      have h0 : d = some 0 := by simpa using h0
      have : fixedSize ds = 0 := by
        rw [fixedSize, List.prod_eq_zero_iff]
        exact List.mem_map.2 ⟨d, hd, by rw [h0]; rfl⟩
      omega
    refine ⟨?_, List.map_congr_left fun d hd => ?_⟩
    · rw [inferAccepts, mayHold, if_neg (by omega), if_neg (by omega), e, h0, hz]
      simp
    · cases d with
      | none => exact absurd (hs none hd) (by simp)
      | some k => rfl
  · have h1 : ds.countP (fun d => d.isNone) = 1 := by omega
    have hacc : Determined ds N := by
      obtain ⟨as, bs, rfl, k1, k2⟩ := split_open h1
      obtain ⟨s, rfl, hs⟩ := (fits_open k1 k2).1 h
      refine ⟨_, h, fun ss' h' => ?_⟩
      obtain ⟨s', rfl, hs'⟩ := (fits_open k1 k2).1 h'
      have hf : 0 < fixedSize (as ++ none :: bs) := Nat.pos_of_ne_zero fun h0 => by
        rw [h0, Nat.zero_mul] at hs
        omega
      rw [Nat.eq_of_mul_eq_mul_left hf (hs'.trans hs.symm)]
    refine ⟨(C165_accepts_partial ds N hN h1).2 hacc, ?_⟩
    obtain ⟨as, bs, rfl, k1, k2⟩ := split_open h1
    obtain ⟨s, rfl, hs⟩ := (fits_open k1 k2).1 h
    have hf : fixedSize (as ++ none :: bs) ≠ 0 := fun h0 => by
      rw [h0, Nat.zero_mul] at hs
      omega
    have hsome : ∀ (l : List (Option ℕ)) (f : Option ℕ → ℕ), (∀ d ∈ l, d.isNone = false) → (∀ k, f (some k) = k) → l.map f = l.map fun d => d.getD 1 := by
      intro l f hl hf
      refine List.map_congr_left fun d hd => ?_
      cases d with
      | none => exact absurd (hl none hd) (by simp)
      | some k => exact hf k
    rw [inferred, List.map_append, List.map_cons, hsome as _ k1 fun _ => rfl, hsome bs _ k2 fun _ => rfl]
    simp only [if_neg hf]
    rw [Nat.div_eq_of_eq_mul_right (Nat.pos_of_ne_zero hf) hs.symm]

/-! ## Components -/

/-- The components of an object with two indices are those of the list, in the order of the layout, if the library can make such an object. -/
theorem C165_components_partial (mk : Default) (l : Layout) (d0 d1 : Option ℕ) (r c : ℕ) (M : ℕ → ℕ → α) (args : List α) (h0 : 0 < args.length) (hd : d0 ≠ none ∨ d1 ≠ none)
    (hf : Fits [d0, d1] args.length [r, c]) (hmk : mk l (some r) (some c) = true) :
    ∃ N, denseLike mk l d0 d1 M args = .ok ([r, c], N) ∧ ∀ i j, i < r → j < c → some (N i j) = match l with | .right => byRows c args i j | .left => byColumns r args i j := by
  obtain ⟨e1, e2⟩ := C165_extents [d0, d1] args.length [r, c] h0 (by
    rcases hd with h | h
    · cases d0 with
      | none => exact absurd rfl h
      | some k => cases d1 <;> simp
    · cases d1 with
      | none => exact absurd rfl h
      | some k => cases d0 <;> simp) hf
  have hn : args.length = r * c := by
    have := hf.2
    simpa using this.symm
  have hrc : r ≠ 0 ∧ c ≠ 0 := ⟨fun h => by rw [h, Nat.zero_mul] at hn; omega, fun h => by rw [h, Nat.mul_zero] at hn; omega⟩
  have hacc : fromAccepts [some r, some c] args.length = true := by
    rw [fromAccepts, if_neg (by simp [hrc.1, hrc.2]), hn]
    simp [fixedSize]
  rw [denseLike, if_pos e1, e2]
  simp only [denseFrom, if_pos hacc, if_pos hmk]
  cases args with
  | nil => simp at h0
  | cons x xs =>
    cases l with
    | right =>
      obtain ⟨N, k1, k2⟩ := fill_nums M x xs hn
      exact ⟨N, by simp [fillComponents, k1, Except.mapError, Except.map], k2⟩
    | left =>
      obtain ⟨N, k1, k2⟩ := fill_nums (flip M) x xs (hn.trans (Nat.mul_comm r c))
      exact ⟨flip N, by simp [fillComponents, k1, Except.mapError, Except.map], fun i j hi hj => k2 j i hj hi⟩

/-- Two rows from six components, by columns. -/
example (M : ℕ → ℕ → ℕ) : ∃ N, denseLike eigenDefault .left (some 2) none M [1, 2, 3, 4, 5, 6] = .ok ([2, 3], N) ∧ N 0 0 = 1 ∧ N 1 0 = 2 ∧ N 0 1 = 3 := by
  obtain ⟨N, h1, h2⟩ := C165_components_partial eigenDefault .left (some 2) none 2 3 M [1, 2, 3, 4, 5, 6] (by simp) (by simp)
    ((fits_open (as := [some 2]) (bs := []) (by simp) (by simp)).2 ⟨3, rfl, rfl⟩) rfl
  exact ⟨N, h1, Option.some_injective _ (h2 0 0 (by omega) (by omega)), Option.some_injective _ (h2 1 0 (by omega) (by omega)), Option.some_injective _ (h2 0 1 (by omega) (by omega))⟩

/-- No object is made from too many or too few components: an assertion of Eigen fails even where the list is accepted. -/
theorem C165_count (mk : Default) (l : Layout) (r c : ℕ) (M : ℕ → ℕ → α) (args : List α) (p : List ℕ × (ℕ → ℕ → α)) (h : denseLike mk l (some r) (some c) M args = .ok p) :
    args.length = r * c ∧ p.1 = [r, c] := by
  rw [denseLike] at h
  split at h
  · rename_i hacc
    simp only [inferred, List.map_cons, List.map_nil] at h
    rw [denseFrom.eq_def] at h
    split at h
    · split at h
      · cases args with
        | nil =>
          simp only [Except.map] at h
          cases h
          refine ⟨?_, rfl⟩
          rw [inferAccepts, Bool.and_eq_true] at hacc
          have := hacc.1
          simp [mayHold, fixedSize] at this
          simp
          omega
        | cons x xs =>
          simp only [fillComponents] at h
          cases l with
          | right =>
            cases hf : Comma.fill r c M (Block.num x) (xs.map Block.num) with
            | error e => simp [hf, Except.mapError, Except.map] at h
            | ok N =>
              simp only [hf, Except.mapError, Except.map] at h
              cases h
              exact ⟨fill_nums_only hf, rfl⟩
          | left =>
            cases hf : Comma.fill c r (flip M) (Block.num x) (xs.map Block.num) with
            | error e => simp [hf, Except.mapError, Except.map] at h
            | ok N =>
              simp only [hf, Except.mapError, Except.map] at h
              cases h
              exact ⟨(fill_nums_only hf).trans (Nat.mul_comm c r), rfl⟩
      · cases h
    · cases h
  · cases h

/-- Eight components for two rows and two columns: accepted, and then an assertion fails. -/
example (M : ℕ → ℕ → ℕ) : denseLike eigenDefault .right (some 2) (some 2) M [1, 2, 3, 4, 5, 6, 7, 8] = .error .assertion := rfl

/-! ## Matrices and means -/

/-- A list of components makes a column. -/
def C165_column_statement : Prop := ∀ (M : ℕ → ℕ → ℕ) (args : List ℕ), args ≠ [] → ∃ p, makeColumn eigenDefault M args = .ok p

/-- Components are listed by rows by default, and Eigen has no columns stored by rows. -/
theorem C165_column_violated : ¬ C165_column_statement := by
  intro h
  obtain ⟨p, hp⟩ := h (fun _ _ => 0) [1, 2] (by simp)
  have : makeColumn eigenDefault (fun _ _ => 0) [1, 2] = .error .staticAssert := rfl
  rw [this] at hp
  cases hp

/-- A row cannot be made from components listed by columns, although they are as many as its columns. -/
theorem C165_row_violated (n : ℕ) (hn : 2 ≤ n) (M : ℕ → ℕ → α) (args : List α) (h : args.length = n) :
    denseLike eigenDefault .left (some 1) none M args = .error .staticAssert ∧ Determined [some 1, none] args.length := by
  have hd := (C165_accepts_partial [some 1, none] args.length (by omega) (by decide)).1
  have ha : inferAccepts [some 1, none] args.length = true := by
    rw [inferAccepts, Bool.and_eq_true]
    refine ⟨?_, by decide⟩
    rw [mayHold, if_neg (by omega), if_neg (by decide)]
    simp [fixedSize, Nat.mod_one]
  refine ⟨?_, hd ha⟩
  have e : inferred [some 1, none] args.length = [1, args.length] := by simp [inferred, fixedSize]
  have hn1 : args.length ≠ 1 := by omega
  simp [denseLike, ha, denseFrom, fromAccepts, fixedSize, eigenDefault, e]
  rw [if_neg hn1]
  rfl

theorem fits_pair (r c : ℕ) : Fits [some r, some c] (r * c) [r, c] := ⟨(fits_fixed (by simp)).2 rfl, by simp⟩

/-- A matrix has the components listed by rows, if the library can make it. -/
theorem C165_matrix_partial (mk : Default) (r c : ℕ) (M : ℕ → ℕ → α) (args : List α) (h0 : 0 < args.length) (hn : args.length = r * c) (hmk : mk .right (some r) (some c) = true) :
    ∃ N, makeMatrix mk r c M args = .ok ([r, c], N) ∧ ∀ i j, i < r → j < c → some (N i j) = byRows c args i j := by
  obtain ⟨N, h1, h2⟩ := C165_components_partial mk .right (some r) (some c) r c M args h0 (by simp) (hn ▸ fits_pair r c) hmk
  exact ⟨N, by rw [makeMatrix, if_pos ⟨h0, hn.symm⟩, h1], h2⟩

/-- Eigen can make it, unless it is a column of several rows. -/
theorem C165_eigen (r c : ℕ) : eigenDefault .right (some r) (some c) = true ↔ r = 1 ∨ c ≠ 1 := by
  simp [eigenDefault]

/-- A mean has the columns listed by rows, wrapped. -/
theorem C165_mean_partial (mk : Default) (wrap : (ℕ → ℕ → α) → ℕ → ℕ → α) (dim cols : ℕ) (M : ℕ → ℕ → α) (args : List α) (h0 : 0 < args.length) (hn : args.length = dim * cols)
    (hmk : mk .right (some dim) (some cols) = true) :
    ∃ N, makeMean mk wrap dim M args = .ok ([dim, cols], wrap N) ∧ ∀ i j, i < dim → j < cols → some (N i j) = byRows cols args i j := by
  have hd : 0 < dim := Nat.pos_of_ne_zero fun h => by rw [h, Nat.zero_mul] at hn; omega
  have hc : args.length / dim = cols := Nat.div_eq_of_eq_mul_right hd hn
  obtain ⟨N, h1, h2⟩ := C165_components_partial mk .right (some dim) (some cols) dim cols M args h0 (by simp) (hn ▸ fits_pair dim cols) hmk
  exact ⟨N, by rw [makeMean, if_pos ⟨h0, hd, by rw [hn, Nat.mul_mod_right]⟩, hc, h1]; rfl, h2⟩

/-- Means that are not whole columns are not made. -/
theorem C165_mean_whole (mk : Default) (wrap : (ℕ → ℕ → α) → ℕ → ℕ → α) (dim : ℕ) (M : ℕ → ℕ → α) (args : List α) (p : List ℕ × (ℕ → ℕ → α)) (h : makeMean mk wrap dim M args = .ok p) :
    ∃ cols, args.length = dim * cols ∧ p.1 = [dim, cols] := by
  rw [makeMean] at h
  split at h
  · rename_i hc
    cases hl : denseLike mk .right (some dim) (some (args.length / dim)) M args with
    | error e => simp [hl, Except.map] at h
    | ok q =>
      simp only [hl, Except.map] at h
      cases h
      exact ⟨_, C165_count mk .right dim _ M args q hl⟩
  · cases h

/-- Components modulo three, as an example of wrapping. -/
def mod3 (N : ℕ → ℕ → ℕ) (i j : ℕ) : ℕ := N i j % 3

/-- Two columns of two components, wrapped modulo three. -/
example (M : ℕ → ℕ → ℕ) : ∃ N, makeMean eigenDefault mod3 2 M [1, 2, 3, 4] = .ok ([2, 2], N) ∧ N 0 0 = 1 ∧ N 0 1 = 2 ∧ N 1 0 = 0 ∧ N 1 1 = 1 := by
  obtain ⟨N, h1, h2⟩ := C165_mean_partial eigenDefault mod3 2 2 M [1, 2, 3, 4] (by simp) rfl rfl
  refine ⟨_, h1, ?_, ?_, ?_, ?_⟩
  · rw [mod3, Option.some_injective _ (h2 0 0 (by omega) (by omega) : _ = some 1)]
  · rw [mod3, Option.some_injective _ (h2 0 1 (by omega) (by omega) : _ = some 2)]
  · rw [mod3, Option.some_injective _ (h2 1 0 (by omega) (by omega) : _ = some 3)]
  · rw [mod3, Option.some_injective _ (h2 1 1 (by omega) (by omega) : _ = some 4)]

/-! ## Covariances -/

/-- The lists accepted without a descriptor are those whose length is the square of a positive number, and that number is the dimension. -/
theorem C165_square (N : ℕ) : (squareAccepts N ↔ 0 < N ∧ IsSquare N) ∧ side (N * N) = N := by
  refine ⟨⟨fun h => ⟨h.1, side N, h.2⟩, ?_⟩, side_sq N⟩
  rintro ⟨h, n, rfl⟩
  exact ⟨h, by rw [side_sq]⟩

/-- Nine components make a covariance, eight do not. -/
example : squareAccepts 9 ∧ ¬ squareAccepts 8 := by
  refine ⟨(C165_square 9).1.2 ⟨by omega, 3, rfl⟩, fun h => ?_⟩
  obtain ⟨-, n, hn⟩ := (C165_square 8).1.1 h
  have : n ≤ 8 := by nlinarith
  interval_cases n <;> omega

open CovArith Matrix
open scoped ComplexOrder

variable {𝕜 : Type} [RCLike 𝕜]

/-- The list is the matrix `P`, by rows. -/
def Lists {n : ℕ} (args : List 𝕜) (P : Mat 𝕜 n) : Prop := args.length = n * n ∧ ∀ i j : Fin n, byRows n args i j = some (P i j)

theorem eigen_square (n : ℕ) : eigenDefault .right (some n) (some n) = true := by
  rw [C165_eigen]
  omega

omit [RCLike 𝕜] in
theorem denseLike_square {n : ℕ} (hn : 0 < n) (M : ℕ → ℕ → 𝕜) {args : List 𝕜} {P : Mat 𝕜 n} (h : Lists args P) :
    ∃ N, denseLike eigenDefault .right (some n) (some n) M args = .ok ([n, n], N) ∧ toMat n N = P := by
  obtain ⟨N, h1, h2⟩ := C165_components_partial eigenDefault .right (some n) (some n) n n M args (by rw [h.1]; positivity) (by simp) (h.1 ▸ fits_pair n n) (eigen_square n)
  exact ⟨N, h1, by
    ext i j
    exact Option.some_injective _ ((h2 i j i.2 j.2).trans (h.2 i j))⟩

/-- A covariance made from a list is the matrix listed, if that is Hermitian, and positive definite if a factor is asked for. -/
theorem C165_covariance {n : ℕ} (hn : 0 < n) {lib : CovArith.Lib 𝕜} (hl : lib.Ok) (tri : Option Bool) (M : ℕ → ℕ → 𝕜) (args : List 𝕜) (P : Mat 𝕜 n) (h : Lists args P) (hP : P.IsHermitian)
    (hpd : tri ≠ none → P.PosDef) : ∃ c, makeCovariance lib eigenDefault n tri M args = .ok c ∧ c.Represents P := by
  obtain ⟨N, h1, h2⟩ := denseLike_square hn M h
  rw [makeCovariance, if_pos ⟨by rw [h.1]; positivity, h.1⟩, h1]
  refine ⟨_, rfl, ?_⟩
  cases tri with
  | some up =>
    show P = gram up (lib.chol up (selfAdjoint up (toMat n N)))
    rw [h2, selfAdjoint_of_isHermitian up hP]
    exact (hl.chol P up (hpd (by simp))).2.1.symm
  | none =>
    show P = selfAdjoint true (toMat n N)
    rw [h2, selfAdjoint_of_isHermitian true hP]

/-- And so without a descriptor. -/
theorem C165_covariance_axes {n : ℕ} (hn : 0 < n) {lib : CovArith.Lib 𝕜} (hl : lib.Ok) (tri : Option Bool) (M : ℕ → ℕ → 𝕜) (args : List 𝕜) (P : Mat 𝕜 n) (h : Lists args P) (hP : P.IsHermitian)
    (hpd : tri ≠ none → P.PosDef) : ∃ c : Cov 𝕜 n, makeCovarianceAxes lib eigenDefault tri M args = .ok ⟨n, c⟩ ∧ c.Represents P := by
  obtain ⟨c, h1, h2⟩ := C165_covariance hn hl tri M args P h hP hpd
  have e : side args.length = n := by rw [h.1, side_sq]
  have hs : squareAccepts args.length := ⟨by rw [h.1]; positivity, by rw [e]; exact h.1⟩
  refine ⟨c, ?_, h2⟩
  rw [makeCovarianceAxes, if_pos hs]
  subst e
  rw [h1]
  rfl

/-- Only the lower triangle of the list counts, as said beside the constructor (Covariance.hpp:175-176). -/
def C165_lower_statement : Prop := ∀ (n : ℕ) (M : ℕ → ℕ → ℝ) (args args' : List ℝ) (P P' : Mat ℝ n), Lists args P → Lists args' P' → (∀ i j, j ≤ i → P i j = P' i j) →
    covarianceOf eigenDefault n M args = covarianceOf eigenDefault n M args'

/-- The matrix of a list of four numbers. -/
def square2 (a b c d : ℝ) : Mat ℝ 2 := Matrix.of ![![a, b], ![c, d]]

theorem square2_lists (a b c d : ℝ) : Lists [a, b, c, d] (square2 a b c d) := by
  refine ⟨rfl, fun i j => ?_⟩
  fin_cases i <;> fin_cases j <;> rfl

theorem C165_lower_violated : ¬ C165_lower_statement := by
  intro h
  have := h 2 (fun _ _ => 0) [1, 5, 0, 1] [1, 7, 0, 1] (square2 1 5 0 1) (square2 1 7 0 1) (square2_lists 1 5 0 1) (square2_lists 1 7 0 1) (fun i j hij => by
    fin_cases i <;> fin_cases j <;> first | rfl | exact absurd hij (by decide))
  obtain ⟨N, h1, h2⟩ := denseLike_square (n := 2) (by omega) (fun _ _ => (0 : ℝ)) (square2_lists 1 5 0 1)
  obtain ⟨N', h1', h2'⟩ := denseLike_square (n := 2) (by omega) (fun _ _ => (0 : ℝ)) (square2_lists 1 7 0 1)
  rw [covarianceOf, covarianceOf, if_pos (by simp), if_pos (by simp), h1, h1'] at this
  simp only [Except.map, h2, h2'] at this
  have e := congrArg Cov.nested (Except.ok.inj this)
  have := congrFun (congrFun e 0) 1
  simp [Comma.selfAdjoint, square2] at this

/-- It is the upper triangle that counts. -/
theorem C165_lower_partial {n : ℕ} (hn : 0 < n) (M : ℕ → ℕ → 𝕜) (args args' : List 𝕜) (P P' : Mat 𝕜 n) (h : Lists args P) (h' : Lists args' P') (hu : ∀ i j, i ≤ j → P i j = P' i j) :
    covarianceOf eigenDefault n M args = covarianceOf eigenDefault n M args' := by
  obtain ⟨N, h1, h2⟩ := denseLike_square hn M h
  obtain ⟨N', h1', h2'⟩ := denseLike_square hn M h'
  rw [covarianceOf, covarianceOf, if_pos (by rw [h.1]; positivity), if_pos (by rw [h'.1]; positivity), h1, h1']
  simp only [Except.map, h2, h2']
  have : selfAdjoint true P = selfAdjoint true P' := by
    ext i j
    simp only [Comma.selfAdjoint, Matrix.of_apply, if_true]
    split
    · exact hu i j ‹_›
    · rw [hu j i (by omega)]
  rw [this]

/-- The constructor makes the covariance that is listed; it is not a square root. -/
theorem C165_constructor {n : ℕ} (hn : 0 < n) (M : ℕ → ℕ → 𝕜) (args : List 𝕜) (P : Mat 𝕜 n) (h : Lists args P) (hP : P.IsHermitian) :
    ∃ c, covarianceOf eigenDefault n M args = .ok c ∧ c.Represents P ∧ c.root = false := by
  obtain ⟨N, h1, h2⟩ := denseLike_square hn M h
  rw [covarianceOf, if_pos (by rw [h.1]; positivity), h1]
  refine ⟨_, rfl, ?_, rfl⟩
  show P = selfAdjoint true (toMat n N)
  rw [h2, selfAdjoint_of_isHermitian true hP]

example (M : ℕ → ℕ → ℝ) : ∃ c, covarianceOf eigenDefault 2 M [2, 1, 1, 3] = .ok c ∧ c.Represents (square2 2 1 1 3) ∧ c.root = false :=
  C165_constructor (by omega) M _ _ (square2_lists 2 1 1 3) (by ext i j; fin_cases i <;> fin_cases j <;> rfl)

/-- The same covariance from two lists. -/
example (M : ℕ → ℕ → ℝ) : covarianceOf eigenDefault 2 M [2, 1, 1, 3] = covarianceOf eigenDefault 2 M [2, 1, 0, 3] :=
  C165_lower_partial (by omega) M _ _ _ _ (square2_lists 2 1 1 3) (square2_lists 2 1 0 3) (fun i j hij => by
    fin_cases i <;> fin_cases j <;> first | rfl | exact absurd hij (by decide))

/-- A list of components makes a square-root covariance. -/
def C165_root_statement : Prop := ∀ (n : ℕ) (up : Bool) (M : ℕ → ℕ → ℝ) (args : List ℝ) (L : Mat ℝ n), 0 < n → Lists args L → IsTri up L →
    ∃ c, makeSquareRoot false eigenDefault n up M args = .ok c ∧ c.Represents L

/-- A variable has the name of a template parameter. -/
theorem C165_root_violated : ¬ C165_root_statement := by
  intro h
  obtain ⟨c, h1, -⟩ := h 2 false (fun _ _ => 0) [1, 0, 2, 1] (square2 1 0 2 1) (by omega) (square2_lists 1 0 2 1) (fun i j hij => by
    fin_cases i <;> fin_cases j <;> first | rfl | exact absurd hij (by decide))
  have : (makeSquareRoot false eigenDefault 2 false (fun _ _ => (0 : ℝ)) [1, 0, 2, 1]) = .error .illFormed := rfl
  rw [this] at h1
  cases h1

/-- With another name it would have the components listed. -/
theorem C165_root_partial {n : ℕ} (hn : 0 < n) (up : Bool) (M : ℕ → ℕ → 𝕜) (args : List 𝕜) (L : Mat 𝕜 n) (h : Lists args L) (hL : IsTri up L) :
    ∃ c, makeSquareRoot true eigenDefault n up M args = .ok c ∧ c.Represents L := by
  obtain ⟨N, h1, h2⟩ := denseLike_square hn M h
  rw [makeSquareRoot, if_pos rfl, if_pos ⟨by rw [h.1]; positivity, h.1⟩, h1]
  refine ⟨_, rfl, ?_⟩
  show L = triPart up (toMat n N)
  rw [h2, triPart_of_isTri hL]

/-- A lower triangular matrix. -/
example : ∃ c, makeSquareRoot true eigenDefault 2 false (fun _ _ => (0 : ℝ)) [1, 0, 2, 1] = .ok c ∧ c.Represents (square2 1 0 2 1) :=
  C165_root_partial (by omega) false _ _ _ (square2_lists 1 0 2 1) (fun i j hij => by
    fin_cases i <;> fin_cases j <;> first | rfl | exact absurd hij (by decide))

/-- Uninitialised objects have the scalar type asked for: covariances do, square-root covariances do not. -/
theorem C165_scalar_violated : (∀ s, covarianceScalar s = s) ∧ ¬ ∀ s, squareRootScalar s = s :=
  ⟨fun _ => rfl, fun h => absurd (h .float) (by decide)⟩

end OpenKalman.Makers
