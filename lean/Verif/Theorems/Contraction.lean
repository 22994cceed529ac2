import Verif.Proof.Contraction
import Mathlib.Data.Complex.Basic
import Mathlib.Tactic.NormNum

/-! # C106: constants of contractions, C107: Hermitian contractions -/

namespace OpenKalman.Contraction

variable {𝕜 : Type}

/-- C106: a contraction with a tensor known to be zero is reported to be zero, and is so, for all ranks and pairs of indices. -/
theorem C106_zero [CommSemiring 𝕜] [Star 𝕜] {a b : Ten 𝕜} {ka kb : Claims 𝕜} {ps : List (ℕ × ℕ)} (h : Contractible a b ps) (ha : Truthful a ka) (hb : Truthful b kb)
    (h0 : ka.zero = true ∨ kb.zero = true) : getConstant ka kb (contract a b ps).dims ps = .value 0 ∧ (contract a b ps).Const 0 := by
  constructor
  · unfold getConstant
    obtain h0 | h0 := h0
    · rw [if_pos h0]
    · rw [if_pos h0]; simp
  · exact contract_zero h (h0.imp ha.zero hb.zero)

/-- C106: the constant reported of a contraction of constants is right, for all ranks and pairs of indices, if the contraction has at each
contracted index of the left operand the extent that the left operand has there.
What is missing: all other extents; see `C106_constant_violated` and `C106_undefined_violated`. -/
theorem C106_constant_partial [CommSemiring 𝕜] [Star 𝕜] {a b : Ten 𝕜} {ka kb : Claims 𝕜} {ps : List (ℕ × ℕ)} (h : Contractible a b ps)
    (ha : Truthful a ka) (hb : Truthful b kb) (hd : ka.diag = none ∧ kb.diag = none)
    (hdims : ∀ p ∈ ps, (contract a b ps).dims[p.1]? = some (a.dim p.1)) {c : 𝕜} (hc : getConstant ka kb (contract a b ps).dims ps = .value c) :
    (contract a b ps).Const c := by
  unfold getConstant at hc
  by_cases h1 : ka.zero = true
  · obtain rfl : (0 : 𝕜) = c := by simpa [h1] using hc
    exact contract_zero h (.inl (ha.zero h1))
  by_cases h2 : kb.zero = true
  · obtain rfl : (0 : 𝕜) = c := by simpa [h1, h2] using hc
    exact contract_zero h (.inr (hb.zero h2))
  · rw [if_neg h1, if_neg h2, hd.1, hd.2] at hc
    cases hk : kb.const with
    | none => rw [hk] at hc; cases hx : ka.const <;> simp [hx] at hc
    | some k =>
      cases hx : ka.const with
      | none => simp [hk, hx] at hc
      | some x =>
        simp only [hk, hx, factor_eq hdims, Report.scaled, one_mul, Report.value.injEq] at hc
        rw [← hc]
        exact contract_const h (ha.const x hx) (hb.const k hk)

/-- Threes in a cube of side 2. -/
def threes : Ten ℤ := ⟨[2, 2, 2], fun _ => 3⟩

/-- The contraction of two cubes along two pairs of indices: reported, rightly, as 2 · 2 · 9. -/
example : Contractible threes threes [(1, 0), (0, 2)] ∧ Truthful threes ⟨false, some 3, none, false⟩ ∧
    (contract threes threes [(1, 0), (0, 2)]).dims = [2, 2] ∧
    getConstant (𝕜 := ℤ) ⟨false, some 3, none, false⟩ ⟨false, some 3, none, false⟩ [2, 2] [(1, 0), (0, 2)] = .value 36 := by
  refine ⟨⟨by decide, by decide, by decide, by decide, by decide⟩, ⟨by simp, ?_, by simp, by simp⟩, by decide, by decide⟩
  intro c hc x _
  obtain rfl : (3 : ℤ) = c := by simpa using hc
  rfl

/-- Ones in a matrix. -/
def ones (m n : ℕ) : Ten ℤ := ⟨[m, n], fun _ => 1⟩

theorem ones_truthful (m n : ℕ) : Truthful (ones m n) ⟨false, some 1, none, false⟩ := by
  refine ⟨by simp, ?_, by simp, by simp⟩
  intro c hc x _
  obtain rfl : (1 : ℤ) = c := by simpa using hc
  rfl

/-- C106: the matrix product of two-by-three and three-by-four ones is reported to be constant 4, the number of columns of the product; it is constant 3. -/
theorem C106_constant_violated : Truthful (ones 2 3) ⟨false, some 1, none, false⟩ ∧ Truthful (ones 3 4) ⟨false, some 1, none, false⟩ ∧
    Contractible (ones 2 3) (ones 3 4) [(1, 0)] ∧
    getConstant (𝕜 := ℤ) ⟨false, some 1, none, false⟩ ⟨false, some 1, none, false⟩ (contract (ones 2 3) (ones 3 4) [(1, 0)]).dims [(1, 0)] = .value 4 ∧
    (contract (ones 2 3) (ones 3 4) [(1, 0)]).Const 3 ∧ ¬ (contract (ones 2 3) (ones 3 4) [(1, 0)]).Const 4 := by
  have h : Contractible (ones 2 3) (ones 3 4) [(1, 0)] := ⟨by decide, by decide, by decide, by decide, by decide⟩
  have h3 : (contract (ones 2 3) (ones 3 4) [(1, 0)]).Const 3 := by
    have := contract_const h (c := 1) (k := 1) (fun _ _ => rfl) (fun _ _ => rfl)
    simpa [ones, Ten.dim] using this
  refine ⟨ones_truthful _ _, ones_truthful _ _, h, by decide, h3, fun h4 => ?_⟩
  have hr : InRange (contract (ones 2 3) (ones 3 4) [(1, 0)]).dims [0, 0] := mem_positions.mp (by decide)
  have := (h3 _ hr).symm.trans (h4 _ hr)
  simp at this

/-- C106: for the inner product of two vectors, which has rank 0, an extent that does not exist is read. -/
theorem C106_undefined_violated (n : ℕ) : Contractible (⟨[n], fun _ => 1⟩ : Ten ℤ) ⟨[n], fun _ => 1⟩ [(0, 0)] ∧
    getConstant (𝕜 := ℤ) ⟨false, some 1, none, false⟩ ⟨false, some 1, none, false⟩ (contract (⟨[n], fun _ => 1⟩ : Ten ℤ) ⟨[n], fun _ => 1⟩ [(0, 0)]).dims [(0, 0)] =
      .undefined := by
  refine ⟨⟨by decide, by decide, by simp [Ten.rank], by simp [Ten.rank], by simp [Ten.dim]⟩, ?_⟩
  simp [getConstant, contract, free, Ten.rank, factor, Report.scaled]

/-- C106: a square diagonal matrix with a constant diagonal contracted along one pair of indices with a constant tensor of any rank, from either side: the
product of the constants is reported, and right.  What is missing: matrices that are not square; see `C106_diagonal_violated`. -/
theorem C106_diagonal_partial [CommSemiring 𝕜] [Star 𝕜] {a b : Ten 𝕜} {ka kb : Claims 𝕜} {p q : ℕ} (h : Contractible a b [(p, q)])
    (ha : Truthful a ka) (hb : Truthful b kb) (h0 : ka.zero = false ∧ kb.zero = false) {n : ℕ} :
    (∀ c k, a.dims = [n, n] → ka.diag = some c → kb.const = some k →
      getConstant ka kb (contract a b [(p, q)]).dims [(p, q)] = .value (c * k) ∧ (contract a b [(p, q)]).Const (c * k)) ∧
    (∀ c k, b.dims = [n, n] → ka.diag = none → ka.const = some k → kb.diag = some c →
      getConstant ka kb (contract a b [(p, q)]).dims [(p, q)] = .value (k * c) ∧ (contract a b [(p, q)]).Const (k * c)) := by
  have hp := h.lt₁ (p, q) (by simp)
  have hq := h.lt₂ (p, q) (by simp)
  have hpq := h.dims (p, q) (by simp)
  simp only at hp hq hpq
  refine ⟨fun c k hn hc hk => ⟨?_, ?_⟩, fun c k hn hx hk hc => ⟨?_, ?_⟩⟩
  · unfold getConstant; simp [h0, hc, hk]
  · intro z hz
    have hr : a.rank = 2 := by simp [Ten.rank, hn]
    rw [hr] at hp
    have hdim : a.dim p = n := by
      unfold Ten.dim; rw [hn]
      obtain rfl | rfl : p = 0 ∨ p = 1 := by omega
      all_goals rfl
    have hreads := fun x hx => reads_inRange h hz (k := x) hx
    obtain ⟨i, hzi, hi⟩ : ∃ i, z.take 1 = [i] ∧ i < n := by
      have ht := hz.take
      rw [show ([(p, q)].map Prod.fst) = [p] from rfl, hr, free_two hp] at ht
      simp only [List.map_cons, List.map_nil, List.length_singleton] at ht
      have hd1 : a.dim (1 - p) = n := by
        unfold Ten.dim; rw [hn]
        obtain rfl | rfl : p = 0 ∨ p = 1 := by omega
        all_goals rfl
      rw [hd1] at ht
      revert ht
      generalize z.take 1 = y
      intro ht
      cases ht with
      | cons h1 h2 => cases h2; exact ⟨_, rfl, h1⟩
    obtain ⟨m, m', hmm, hg⟩ := ha.diag c hc
    rw [hn] at hmm
    simp only [List.cons.injEq, and_true] at hmm
    obtain ⟨rfl, rfl⟩ := hmm
    show ((positions _).map _).sum = _
    simp only [List.map_cons, List.map_nil] at hreads ⊢
    rw [hdim, positions_one] at hreads ⊢
    rw [List.map_map, List.map_congr_left (g := fun x => if i = x then c * k else 0)]
    · exact sum_range_ite hi fun _ => c * k
    · intro x hx
      have hb' := hb.const k hk _ (hreads [x] (List.mem_map.mpr ⟨x, hx, rfl⟩)).2
      simp only [Function.comp]
      rw [hb', hr, free_two hp, List.length_singleton, hzi, place_two hp]
      have hx := List.mem_range.mp hx
      split
      · rw [hg x hx i hi]
        by_cases he : x = i
        · simp [he]
        · rw [if_neg he, if_neg (Ne.symm he), zero_mul]
      · rw [hg i hi x hx]
        by_cases he : i = x
        · simp [he]
        · rw [if_neg he, if_neg he, zero_mul]
  · unfold getConstant; simp [h0, hx, hk, hc]
  · intro z hz
    have hr : b.rank = 2 := by simp [Ten.rank, hn]
    rw [hr] at hq
    have hdim : a.dim p = n := by
      rw [hpq]
      unfold Ten.dim; rw [hn]
      obtain rfl | rfl : q = 0 ∨ q = 1 := by omega
      all_goals rfl
    have hreads := fun x hx => reads_inRange h hz (k := x) hx
    obtain ⟨i, hzi, hi⟩ : ∃ i, z.drop (free a.rank [p]).length = [i] ∧ i < n := by
      have ht := hz.drop
      rw [show ([(p, q)].map Prod.snd) = [q] from rfl, hr, free_two hq] at ht
      simp only [List.map_cons, List.map_nil, List.length_map] at ht
      have hd1 : b.dim (1 - q) = n := by
        unfold Ten.dim; rw [hn]
        obtain rfl | rfl : q = 0 ∨ q = 1 := by omega
        all_goals rfl
      rw [hd1] at ht
      revert ht
      generalize z.drop (free a.rank [p]).length = y
      intro ht
      cases ht with
      | cons h1 h2 => cases h2; exact ⟨_, rfl, h1⟩
    obtain ⟨m, m', hmm, hg⟩ := hb.diag c hc
    rw [hn] at hmm
    simp only [List.cons.injEq, and_true] at hmm
    obtain ⟨rfl, rfl⟩ := hmm
    show ((positions _).map _).sum = _
    simp only [List.map_cons, List.map_nil] at hreads ⊢
    rw [hdim, positions_one] at hreads ⊢
    rw [List.map_map, List.map_congr_left (g := fun x => if i = x then k * c else 0)]
    · exact sum_range_ite hi fun _ => k * c
    · intro x hx
      have ha' := ha.const k hk _ (hreads [x] (List.mem_map.mpr ⟨x, hx, rfl⟩)).1
      simp only [Function.comp]
      rw [ha', hr, hzi, place_two hq]
      have hx := List.mem_range.mp hx
      split
      · rw [hg x hx i hi]
        by_cases he : x = i
        · simp [he]
        · rw [if_neg he, if_neg (Ne.symm he), mul_zero]
      · rw [hg i hi x hx]
        by_cases he : i = x
        · simp [he]
        · rw [if_neg he, if_neg he, mul_zero]

/-- An identity that need not be square. -/
def eye (m n : ℕ) : Ten ℤ := ⟨[m, n], fun x => if x.getD 0 0 = x.getD 1 0 then 1 else 0⟩

theorem eye_truthful (m n : ℕ) : Truthful (eye m n) ⟨false, none, some 1, false⟩ := by
  refine ⟨by simp, by simp, ?_, by simp⟩
  intro c hc
  obtain rfl : (1 : ℤ) = c := by simpa using hc
  exact ⟨m, n, rfl, fun i _ j _ => rfl⟩

example : Contractible (eye 2 2) threes [(1, 2)] ∧ getConstant (𝕜 := ℤ) ⟨false, none, some 1, false⟩ ⟨false, some 3, none, false⟩ [2, 2, 2] [(1, 2)] = .value 3 :=
  ⟨⟨by decide, by decide, by decide, by decide, by decide⟩, by decide⟩

/-- C106: a square diagonal matrix with a constant diagonal contracted along both its indices with a constant tensor of any rank, from either side: the product of
the constants, times the extent of the diagonal, is reported, and right, if the contraction has that extent at the left operand's second contracted index.
What is missing: all other extents; see `C106_pairs_violated`. -/
theorem C106_pairs_partial [CommSemiring 𝕜] [Star 𝕜] {a b : Ten 𝕜} {ka kb : Claims 𝕜} {p q p' q' : ℕ} (h : Contractible a b [(p, q), (p', q')])
    (ha : Truthful a ka) (hb : Truthful b kb) (h0 : ka.zero = false ∧ kb.zero = false) {n : ℕ} (hdims : (contract a b [(p, q), (p', q')]).dims[p']? = some n) :
    (∀ c k, a.dims = [n, n] → ka.diag = some c → kb.const = some k →
      getConstant ka kb (contract a b [(p, q), (p', q')]).dims [(p, q), (p', q')] = .value (n * (c * k)) ∧ (contract a b [(p, q), (p', q')]).Const (n * (c * k))) ∧
    (∀ c k, b.dims = [n, n] → ka.diag = none → ka.const = some k → kb.diag = some c →
      getConstant ka kb (contract a b [(p, q), (p', q')]).dims [(p, q), (p', q')] = .value (n * (k * c)) ∧ (contract a b [(p, q), (p', q')]).Const (n * (k * c))) := by
  have hp := h.lt₁ (p, q) (by simp)
  have hp' := h.lt₁ (p', q') (by simp)
  have hq := h.lt₂ (p, q) (by simp)
  have hq' := h.lt₂ (p', q') (by simp)
  have hne : p ≠ p' := by simpa using h.nodup₁
  have hne' : q ≠ q' := by simpa using h.nodup₂
  have hpq := h.dims (p, q) (by simp)
  have hpq' := h.dims (p', q') (by simp)
  simp only at hp hp' hq hq' hpq hpq'
  refine ⟨fun c k hn hc hk => ⟨?_, ?_⟩, fun c k hn hx hk hc => ⟨?_, ?_⟩⟩
  · unfold getConstant; simp [h0, hc, hk, factor, hdims, Report.scaled]
  · intro z hz
    have hr : a.rank = 2 := by simp [Ten.rank, hn]
    rw [hr] at hp hp'
    have hdim : ∀ i < 2, a.dim i = n := by
      intro i hi; unfold Ten.dim; rw [hn]
      obtain rfl | rfl : i = 0 ∨ i = 1 := by omega
      all_goals rfl
    have hreads := fun x hx => reads_inRange h hz (k := x) hx
    obtain ⟨m, m', hmm, hg⟩ := ha.diag c hc
    rw [hn] at hmm
    simp only [List.cons.injEq, and_true] at hmm
    obtain ⟨rfl, rfl⟩ := hmm
    show ((positions _).map _).sum = _
    simp only [List.map_cons, List.map_nil] at hreads ⊢
    rw [hdim p hp, hdim p' hp'] at hreads ⊢
    refine sum_diagonal _ _ fun i hi j hj => ?_
    have hmem : [i, j] ∈ positions [_, _] := mem_positions.mpr (List.Forall₂.cons hi (List.Forall₂.cons hj .nil))
    rw [hb.const k hk _ (hreads [i, j] hmem).2, hr, place_both hp hp' hne]
    by_cases he : i = j
    · subst he; simp [hg i hi i hi]
    · split
      · rw [hg i hi j hj, if_neg he, zero_mul]
      · rw [hg j hj i hi, if_neg (Ne.symm he), zero_mul]
  · unfold getConstant; simp [h0, hx, hk, hc, factor, hdims, Report.scaled]
  · intro z hz
    have hr : b.rank = 2 := by simp [Ten.rank, hn]
    rw [hr] at hq hq'
    have hdim : ∀ i < 2, b.dim i = n := by
      intro i hi; unfold Ten.dim; rw [hn]
      obtain rfl | rfl : i = 0 ∨ i = 1 := by omega
      all_goals rfl
    have hreads := fun x hx => reads_inRange h hz (k := x) hx
    obtain ⟨m, m', hmm, hg⟩ := hb.diag c hc
    rw [hn] at hmm
    simp only [List.cons.injEq, and_true] at hmm
    obtain ⟨rfl, rfl⟩ := hmm
    show ((positions _).map _).sum = _
    simp only [List.map_cons, List.map_nil] at hreads ⊢
    rw [hpq, hpq', hdim q hq, hdim q' hq'] at hreads ⊢
    refine sum_diagonal _ _ fun i hi j hj => ?_
    have hmem : [i, j] ∈ positions [_, _] := mem_positions.mpr (List.Forall₂.cons hi (List.Forall₂.cons hj .nil))
    rw [ha.const k hk _ (hreads [i, j] hmem).1, hr, place_both hq hq' hne']
    by_cases he : i = j
    · subst he; simp [hg i hi i hi]
    · split
      · rw [hg i hi j hj, if_neg he, mul_zero]
      · rw [hg j hj i hi, if_neg (Ne.symm he), mul_zero]

/-- Ones in a tensor of rank 4. -/
def ones4 (m n : ℕ) : Ten ℤ := ⟨[m, m, n, n], fun _ => 1⟩

/-- The identity contracted with ones of rank 4, along two pairs: reported, rightly, as 2 · 1. -/
example : Contractible (eye 2 2) (ones4 2 2) [(0, 1), (1, 0)] ∧ (contract (eye 2 2) (ones4 2 2) [(0, 1), (1, 0)]).dims[1]? = some 2 ∧
    getConstant (𝕜 := ℤ) ⟨false, none, some 1, false⟩ ⟨false, some 1, none, false⟩ (contract (eye 2 2) (ones4 2 2) [(0, 1), (1, 0)]).dims [(0, 1), (1, 0)] = .value 2 :=
  ⟨⟨by decide, by decide, by decide, by decide, by decide⟩, by decide, by decide⟩

/-- C106: the two-by-two identity contracted along both indices with ones of extents 2, 2, 3, 3 is reported to be constant 3; it is constant 2. -/
theorem C106_pairs_violated : Truthful (eye 2 2) ⟨false, none, some 1, false⟩ ∧ (ones4 2 3).Const 1 ∧ Contractible (eye 2 2) (ones4 2 3) [(0, 0), (1, 1)] ∧
    getConstant (𝕜 := ℤ) ⟨false, none, some 1, false⟩ ⟨false, some 1, none, false⟩ (contract (eye 2 2) (ones4 2 3) [(0, 0), (1, 1)]).dims [(0, 0), (1, 1)] = .value 3 ∧
    (contract (eye 2 2) (ones4 2 3) [(0, 0), (1, 1)]).get [0, 0] = 2 ∧ ¬ (contract (eye 2 2) (ones4 2 3) [(0, 0), (1, 1)]).Const 3 := by
  refine ⟨eye_truthful _ _, fun _ _ => rfl, ⟨by decide, by decide, by decide, by decide, by decide⟩, by decide, by decide, fun h => ?_⟩
  have := h [0, 0] (mem_positions.mp (by decide))
  exact absurd this (by decide)

/-- C106: the two-by-one identity times a one-by-three matrix of ones is reported to be constant 1, but its second row is zero. -/
theorem C106_diagonal_violated : Truthful (eye 2 1) ⟨false, none, some 1, false⟩ ∧ Truthful (ones 1 3) ⟨false, some 1, none, false⟩ ∧
    Contractible (eye 2 1) (ones 1 3) [(1, 0)] ∧
    getConstant (𝕜 := ℤ) ⟨false, none, some 1, false⟩ ⟨false, some 1, none, false⟩ (contract (eye 2 1) (ones 1 3) [(1, 0)]).dims [(1, 0)] = .value 1 ∧
    ¬ (contract (eye 2 1) (ones 1 3) [(1, 0)]).Const 1 := by
  refine ⟨eye_truthful _ _, ones_truthful _ _, ⟨by decide, by decide, by decide, by decide, by decide⟩, by decide, fun h => ?_⟩
  have := h [1, 0] (mem_positions.mp (by decide))
  exact absurd this (by decide)

/-- C107: a contraction along one pair of indices that is reported to be Hermitian is so, if the constant on the diagonal of the diagonal operand is real (equal
to its conjugate) and that operand is square.  What is missing: complex constants; see `C107_hermitian_violated`. -/
theorem C107_hermitian_partial [CommSemiring 𝕜] [StarRing 𝕜] {a b : Ten 𝕜} {ka kb : Claims 𝕜} {ps : List (ℕ × ℕ)} (h : Contractible a b ps)
    (ha : Truthful a ka) (hb : Truthful b kb) {n : ℕ} (hna : a.dims = [n, n]) (hnb : b.dims = [n, n])
    (hra : ∀ c, ka.diag = some c → star c = c) (hrb : ∀ c, kb.diag = some c → star c = c) (hh : isHermitian ka kb ps = true) : (contract a b ps).Herm := by
  obtain ⟨h1, hor⟩ : ps.length = 1 ∧ ((ka.diag.isSome = true ∧ kb.herm = true) ∨ (kb.diag.isSome = true ∧ ka.herm = true)) := by
    simpa only [isHermitian, Bool.and_eq_true, Bool.or_eq_true, beq_iff_eq] using hh
  obtain ⟨⟨p, q⟩, rfl⟩ := List.length_eq_one_iff.mp h1
  have hp := h.lt₁ (p, q) (by simp)
  have hq := h.lt₂ (p, q) (by simp)
  have hra' : a.rank = 2 := by simp [Ten.rank, hna]
  have hrb' : b.rank = 2 := by simp [Ten.rank, hnb]
  simp only [hra', hrb'] at hp hq
  have hda : ∀ i < 2, a.dim i = n := by
    intro i hi; unfold Ten.dim; rw [hna]
    obtain rfl | rfl : i = 0 ∨ i = 1 := by omega
    all_goals rfl
  have hdb : ∀ i < 2, b.dim i = n := by
    intro i hi; unfold Ten.dim; rw [hnb]
    obtain rfl | rfl : i = 0 ∨ i = 1 := by omega
    all_goals rfl
  have hget : ∀ i j, (contract a b [(p, q)]).get [i, j] = ((List.range n).map fun k =>
      a.get (if p = 0 then [k, i] else [i, k]) * b.get (if q = 0 then [k, j] else [j, k])).sum := by
    intro i j
    show ((positions _).map _).sum = _
    simp only [List.map_cons, List.map_nil]
    rw [hda p hp, positions_one, List.map_map]
    congr 1
    refine List.map_congr_left fun k _ => ?_
    simp only [Function.comp, hra', hrb', free_two hp, List.length_singleton]
    rw [show [i, j].take 1 = [i] from rfl, show [i, j].drop 1 = [j] from rfl, place_two hp, place_two hq]
  refine ⟨n, ?_, ?_⟩
  · show (free a.rank [p]).map a.dim ++ (free b.rank [q]).map b.dim = _
    rw [hra', hrb', free_two hp, free_two hq]
    simp [hda (1 - p) (by omega), hdb (1 - q) (by omega)]
  · intro i hi j hj
    obtain ⟨hd, hH⟩ | ⟨hd, hH⟩ := hor
    · obtain ⟨c, hc⟩ := Option.isSome_iff_exists.mp hd
      obtain ⟨m, m', hmm, hg⟩ := ha.diag c hc
      rw [hna] at hmm
      simp only [List.cons.injEq, and_true] at hmm
      obtain ⟨rfl, rfl⟩ := hmm
      obtain ⟨m, hmm, hB⟩ := hb.herm hH
      rw [hnb] at hmm
      simp only [List.cons.injEq, and_true] at hmm
      obtain ⟨rfl, _⟩ := hmm
      have key : ∀ i < n, ∀ j, (contract a b [(p, q)]).get [i, j] = c * b.get (if q = 0 then [i, j] else [j, i]) := by
        intro i hi j
        rw [hget, List.map_congr_left (g := fun k => if i = k then c * b.get (if q = 0 then [k, j] else [j, k]) else 0)]
        · exact sum_range_ite hi fun k => c * b.get (if q = 0 then [k, j] else [j, k])
        · intro k hk
          have hk := List.mem_range.mp hk
          by_cases he : i = k
          · subst he; rw [if_pos rfl, ite_self, hg i hi i hi, if_pos rfl]
          · rw [if_neg he]
            split
            · rw [hg k hk i hi, if_neg (Ne.symm he), zero_mul]
            · rw [hg i hi k hk, if_neg he, zero_mul]
      rw [key i hi j, key j hj i, star_mul, hra c hc, mul_comm]
      by_cases hq0 : q = 0
      · simp only [hq0, if_true]; rw [hB i hi j hj]
      · simp only [hq0, if_false]; rw [hB j hj i hi]
    · obtain ⟨c, hc⟩ := Option.isSome_iff_exists.mp hd
      obtain ⟨m, m', hmm, hg⟩ := hb.diag c hc
      rw [hnb] at hmm
      simp only [List.cons.injEq, and_true] at hmm
      obtain ⟨rfl, rfl⟩ := hmm
      obtain ⟨m, hmm, hA⟩ := ha.herm hH
      rw [hna] at hmm
      simp only [List.cons.injEq, and_true] at hmm
      obtain ⟨rfl, _⟩ := hmm
      have key : ∀ i, ∀ j < n, (contract a b [(p, q)]).get [i, j] = a.get (if p = 0 then [j, i] else [i, j]) * c := by
        intro i j hj
        rw [hget, List.map_congr_left (g := fun k => if j = k then a.get (if p = 0 then [k, i] else [i, k]) * c else 0)]
        · exact sum_range_ite hj fun k => a.get (if p = 0 then [k, i] else [i, k]) * c
        · intro k hk
          have hk := List.mem_range.mp hk
          by_cases he : j = k
          · subst he; rw [if_pos rfl, ite_self, hg j hj j hj, if_pos rfl]
          · rw [if_neg he]
            by_cases hq0 : q = 0
            · rw [if_pos hq0, hg k hk j hj, if_neg (Ne.symm he), mul_zero]
            · rw [if_neg hq0, hg j hj k hk, if_neg he, mul_zero]
      rw [key i j hj, key j i hi, star_mul, hrb c hc, mul_comm]
      by_cases hp0 : p = 0
      · simp only [hp0, if_true]; rw [hA j hj i hi]
      · simp only [hp0, if_false]; rw [hA i hi j hj]

/-- Twice the identity of the plane, contracted with a symmetric matrix along the first index of one and the second of the other. -/
example : Contractible (⟨[2, 2], fun x => if x.getD 0 0 = x.getD 1 0 then 2 else 0⟩ : Ten ℤ) ⟨[2, 2], fun x => x.sum⟩ [(0, 1)] ∧
    isHermitian (𝕜 := ℤ) ⟨false, none, some 2, false⟩ ⟨false, none, none, true⟩ [(0, 1)] = true :=
  ⟨⟨by decide, by decide, by decide, by decide, by decide⟩, rfl⟩

/-- C107: `i` times the identity, contracted with the identity, is reported to be Hermitian. -/
theorem C107_hermitian_violated : ∃ a b : Ten ℂ, Truthful a ⟨false, none, some Complex.I, false⟩ ∧ Truthful b ⟨false, none, none, true⟩ ∧
    Contractible a b [(1, 0)] ∧ isHermitian (𝕜 := ℂ) ⟨false, none, some Complex.I, false⟩ ⟨false, none, none, true⟩ [(1, 0)] = true ∧
    ¬ (contract a b [(1, 0)]).Herm := by
  refine ⟨⟨[1, 1], fun _ => Complex.I⟩, ⟨[1, 1], fun _ => 1⟩, ⟨by simp, by simp, ?_, by simp⟩, ⟨by simp, by simp, by simp, ?_⟩,
    ⟨by decide, by decide, by simp [Ten.rank], by simp [Ten.rank], by simp [Ten.dim]⟩, rfl, ?_⟩
  · intro c hc
    obtain rfl : Complex.I = c := by simpa using hc
    exact ⟨1, 1, rfl, fun i hi j hj => by rw [if_pos (by omega)]⟩
  · intro _
    exact ⟨1, rfl, fun i _ j _ => by simp⟩
  · rintro ⟨n, hn, h⟩
    have hn' : n = 1 := by
      have : (contract (⟨[1, 1], fun _ => Complex.I⟩ : Ten ℂ) ⟨[1, 1], fun _ => 1⟩ [(1, 0)]).dims = [1, 1] := by decide
      rw [this] at hn
      simp at hn
      exact hn.symm
    subst hn'
    have h := h 0 (by omega) 0 (by omega)
    have hv : (contract (⟨[1, 1], fun _ => Complex.I⟩ : Ten ℂ) ⟨[1, 1], fun _ => 1⟩ [(1, 0)]).get [0, 0] = Complex.I := by
      simp [contract, positions, Ten.dim]
    rw [hv] at h
    have := congrArg Complex.im h
    have h1 : (1 : ℝ) = -1 := by simpa using this
    norm_num at h1

end OpenKalman.Contraction
