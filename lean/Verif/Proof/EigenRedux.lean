import Verif.Proof.EigenStruct

/-! # Truth of the reports of reductions, and the induction over expressions -/

namespace OpenKalman.EigenTraits
open Classical RCLike Claims

variable {𝕜 : Type*} [RCLike 𝕜] {S : Scalar 𝕜} {a b c : Arr 𝕜} {k k₁ k₂ k₃ : Claims 𝕜}

/-! ## Lines of equal numbers -/

theorem bit_congr {p q : Prop} (h : p ↔ q) : (bit p : 𝕜) = bit q := by rw [propext h]

theorem lpnorm_const {p : ℕ} (hp : p ≠ 0) (n : ℕ) (x : ℝ) (hx : 0 ≤ x) : ((n : ℝ) * x ^ p) ^ (1 / (p : ℝ)) = (n : ℝ) ^ (1 / (p : ℝ)) * x := by
  rw [Real.mul_rpow (Nat.cast_nonneg n) (pow_nonneg hx p), one_div, Real.pow_rpow_inv_natCast hx hp]

theorem reduxConst_norm {p n m : ℕ} {x : 𝕜} {v : 𝕜} (h : reduxConst (.lpnorm p) x n m = some v) :
    p ≠ 0 ∧ v = (((((n * m : ℕ) : ℝ) ^ (1 / (p : ℝ)) * ‖x‖ : ℝ)) : 𝕜) := by
  simp only [reduxConst] at h
  by_cases h0 : p = 0
  · rw [if_pos h0] at h; exact absurd h (by simp)
  rw [if_neg h0] at h
  refine ⟨h0, ?_⟩
  by_cases h1 : p = 1
  · rw [if_pos h1] at h
    rw [← Option.some.inj h, h1]
    simp
  rw [if_neg h1] at h
  by_cases h2 : p = 2
  · rw [if_pos h2] at h
    rw [← Option.some.inj h, h2, Real.sqrt_eq_rpow]
    norm_num
  rw [if_neg h2] at h
  exact (Option.some.inj h).symm

theorem reduce_const {op : Red} {n m : ℕ} (hn : 0 < n * m) {f : ℕ → 𝕜} {x : 𝕜} (hf : ∀ k < n * m, f k = x) (hre : op = .min ∨ op = .max → ((re x : ℝ) : 𝕜) = x) {v : 𝕜}
    (h : reduxConst op x n m = some v) : reduceLine op (n * m) f = v := by
  have hne : (Finset.range (n * m)).Nonempty := Finset.nonempty_range_iff.mpr hn.ne'
  have hm : ∀ k ∈ Finset.range (n * m), f k = x := fun k hk => hf k (Finset.mem_range.mp hk)
  cases op with
  | lpnorm p =>
    obtain ⟨hp, hv⟩ := reduxConst_norm h
    simp only [reduceLine]
    rw [Finset.sum_congr rfl fun k hk => by rw [hm k hk], Finset.sum_const, Finset.card_range, nsmul_eq_mul, lpnorm_const hp _ _ (norm_nonneg _), hv]
  | lpInf =>
    simp only [reduxConst, Option.some.injEq] at h
    simp only [reduceLine, dif_pos hne]
    rw [← h, Finset.sup'_congr hne rfl fun k hk => by rw [hm k hk], Finset.sup'_const]
  | sum =>
    simp only [reduxConst, Option.some.injEq] at h
    simp only [reduceLine]
    rw [Finset.sum_congr rfl hm, Finset.sum_const, Finset.card_range, nsmul_eq_mul, ← h]
    push_cast; ring
  | prod =>
    simp only [reduxConst, Option.some.injEq] at h
    simp only [reduceLine]
    rw [Finset.prod_congr rfl hm, Finset.prod_const, Finset.card_range, h]
  | min =>
    simp only [reduxConst, Option.some.injEq] at h
    simp only [reduceLine, dif_pos hne]
    rw [Finset.inf'_congr hne rfl fun k hk => by rw [hm k hk], Finset.inf'_const, hre (Or.inl rfl), h]
  | max =>
    simp only [reduxConst, Option.some.injEq] at h
    simp only [reduceLine, dif_pos hne]
    rw [Finset.sup'_congr hne rfl fun k hk => by rw [hm k hk], Finset.sup'_const, hre (Or.inr rfl), h]
  | all =>
    simp only [reduxConst, Option.some.injEq] at h
    simp only [reduceLine]
    rw [← h]
    exact bit_congr ⟨fun h => by rw [← hf 0 hn]; exact h 0 hn, fun h k hk => by rw [hf k hk]; exact h⟩
  | any =>
    simp only [reduxConst, Option.some.injEq] at h
    simp only [reduceLine]
    rw [← h]
    exact bit_congr ⟨fun ⟨k, hk, h⟩ => by rw [← hf k hk]; exact h, fun h => ⟨0, hn, by rw [hf 0 hn]; exact h⟩⟩
  | count =>
    simp only [reduxConst, Option.some.injEq] at h
    simp only [reduceLine]
    rw [← h]
    by_cases hx : x = 0
    · rw [Finset.filter_false_of_mem fun k hk => by rw [hm k hk]; simpa using hx, if_neg (by simpa using hx)]
      simp
    · rw [Finset.filter_true_of_mem fun k hk => by rw [hm k hk]; exact hx, if_pos hx, Finset.card_range, Nat.mul_comm]

/-! ## Copies of a line with at most one number -/

theorem sum_mod {M : Type*} [AddCommMonoid M] (n m : ℕ) (f : ℕ → M) : ∑ k ∈ Finset.range (n * m), f (k % m) = n • ∑ k ∈ Finset.range m, f k := by
  induction n with
  | zero => simp
  | succ n ih =>
    rw [Nat.succ_mul, Finset.sum_range_add, ih, succ_nsmul]
    congr 1
    apply Finset.sum_congr rfl
    intro x hx
    rw [Nat.mul_comm, Nat.mul_add_mod, Nat.mod_eq_of_lt (Finset.mem_range.mp hx)]

theorem reduce_diag {op : Red} {als : Bool} {n m l : ℕ} (hn : 0 < n) (hm : 0 < m) (hals : als = true → l < m) {f : ℕ → 𝕜} {x : Val 𝕜}
    (hf : ∀ k < n * m, f k = if k % m = l then x.v else 0) (hre : op = .min ∨ op = .max → ((re x.v : ℝ) : 𝕜) = x.v)
    (hap : op = .all ∨ op = .prod → 2 ≤ m) (hmm : op = .min ∨ op = .max → 2 ≤ m ∨ als = true) {v : 𝕜} (h : reduxDiag op als x n m = some v) :
    reduceLine op (n * m) f = v := by
  have hpos : 0 < n * m := Nat.mul_pos hn hm
  have hne : (Finset.range (n * m)).Nonempty := Finset.nonempty_range_iff.mpr hpos.ne'
  have hle : m ≤ n * m := Nat.le_mul_of_pos_left m hn
  have hzero : 2 ≤ m → ∃ k < n * m, f k = 0 := by
    intro h2
    by_cases hl : l = 0
    · exact ⟨1, by omega, by rw [hf 1 (by omega), Nat.mod_eq_of_lt (by omega), if_neg (by omega)]⟩
    · exact ⟨0, by omega, by rw [hf 0 (by omega), Nat.mod_eq_of_lt (by omega), if_neg (by omega)]⟩
  have hx : l < m → f l = x.v := fun hl => by rw [hf l (by omega), Nat.mod_eq_of_lt hl, if_pos rfl]
  have hz0 : x.v = 0 → ∀ k < n * m, f k = 0 := fun h0 k hk => by rw [hf k hk, h0, ite_self]
  have hsum : ∀ {M : Type} [AddCommMonoid M] (g : 𝕜 → M), g 0 = 0 → l < m → ∑ k ∈ Finset.range (n * m), g (f k) = n • g x.v := by
    intro M _ g g0 hl
    have e1 : ∀ k ∈ Finset.range (n * m), g (f k) = (fun y => if y = l then g x.v else 0) (k % m) := by
      intro k hk
      rw [hf k (Finset.mem_range.mp hk)]
      by_cases c : k % m = l
      · simp [c]
      · simp [c, g0]
    rw [Finset.sum_congr rfl e1, sum_mod n m (fun y => if y = l then g x.v else 0), Finset.sum_ite_eq' (Finset.range m) l (fun _ => g x.v), if_pos (Finset.mem_range.mpr hl)]
  cases op with
  | lpnorm p =>
    simp only [reduxDiag] at h
    by_cases h0 : p = 0
    · rw [if_pos h0] at h; exact absurd h (by simp)
    rw [if_neg h0] at h
    simp only [reduceLine]
    by_cases h1 : x.fixed = true ∧ x.v = 0
    · rw [if_pos h1] at h
      rw [Finset.sum_eq_zero fun k hk => by rw [hz0 h1.2 k (Finset.mem_range.mp hk), norm_zero, zero_pow h0], Real.zero_rpow (by positivity), ← Option.some.inj h]
      simp
    rw [if_neg h1] at h
    by_cases h2 : als = false
    · rw [if_pos h2] at h; exact absurd h (by simp)
    rw [if_neg h2] at h
    obtain ⟨_, hv⟩ := reduxConst_norm h
    rw [hsum (fun y => ‖y‖ ^ p) (by simp [h0]) (hals (by simpa using h2)), nsmul_eq_mul, lpnorm_const h0 _ _ (norm_nonneg _), hv, Nat.mul_one]
  | lpInf =>
    simp only [reduxDiag] at h
    simp only [reduceLine, dif_pos hne]
    by_cases h1 : x.fixed = true ∧ x.v = 0
    · rw [if_pos h1] at h
      rw [Finset.sup'_congr hne rfl fun k hk => by rw [hz0 h1.2 k (Finset.mem_range.mp hk), norm_zero], Finset.sup'_const, ← Option.some.inj h]
      simp
    rw [if_neg h1] at h
    by_cases h2 : als = false
    · rw [if_pos h2] at h; exact absurd h (by simp)
    rw [if_neg h2, Option.some.injEq] at h
    have hl := hals (by simpa using h2)
    rw [← h]
    congr 1
    apply le_antisymm
    · apply Finset.sup'_le
      intro k hk
      rw [hf k (Finset.mem_range.mp hk)]
      split
      · exact le_rfl
      · rw [norm_zero]; exact norm_nonneg _
    · rw [← hx hl]
      exact Finset.le_sup' (fun k => ‖f k‖) (Finset.mem_range.mpr (by omega))
  | sum =>
    simp only [reduxDiag] at h
    simp only [reduceLine]
    by_cases h1 : x.fixed = true ∧ x.v = 0
    · rw [if_pos h1] at h
      rw [← Option.some.inj h]
      exact Finset.sum_eq_zero fun k hk => hz0 h1.2 k (Finset.mem_range.mp hk)
    rw [if_neg h1] at h
    by_cases h2 : als = true
    · rw [if_pos h2] at h
      have hl := hals h2
      have e1 : ∀ k ∈ Finset.range (n * m), f k = (fun y => if y = l then x.v else 0) (k % m) := fun k hk => hf k (Finset.mem_range.mp hk)
      rw [Finset.sum_congr rfl e1, sum_mod n m (fun y => if y = l then x.v else 0), Finset.sum_ite_eq' (Finset.range m) l (fun _ => x.v), if_pos (Finset.mem_range.mpr hl),
        nsmul_eq_mul, mul_comm, ← Option.some.inj h]
    · rw [if_neg h2] at h; exact absurd h (by simp)
  | prod =>
    simp only [reduxDiag, Option.some.injEq] at h
    simp only [reduceLine]
    obtain ⟨k, hk, h0⟩ := hzero (hap (Or.inr rfl))
    rw [← h]
    exact Finset.prod_eq_zero (Finset.mem_range.mpr hk) h0
  | all =>
    simp only [reduxDiag, Option.some.injEq] at h
    simp only [reduceLine]
    obtain ⟨k, hk, h0⟩ := hzero (hap (Or.inl rfl))
    rw [← h]
    unfold bit
    rw [if_neg fun hh => hh k hk h0]
  | any =>
    simp only [reduxDiag] at h
    by_cases h2 : als = true
    · rw [if_pos h2, Option.some.injEq] at h
      have hl := hals h2
      simp only [reduceLine]
      rw [← h]
      refine bit_congr ⟨fun ⟨k, hk, hh⟩ => ?_, fun hh => ⟨l, by omega, by rw [hx hl]; exact hh⟩⟩
      rw [hf k hk] at hh
      split at hh
      · exact hh
      · exact absurd rfl hh
    · rw [if_neg h2] at h; exact absurd h (by simp)
  | count =>
    simp only [reduxDiag] at h
    by_cases h2 : als = true
    · rw [if_pos h2, Option.some.injEq] at h
      have hl := hals h2
      simp only [reduceLine]
      rw [← h, Finset.card_filter, hsum (fun y => if y ≠ 0 then 1 else 0) (by simp) hl]
      by_cases hxx : x.v = 0
      · rw [if_neg (by simpa using hxx), if_neg (by simpa using hxx)]; simp
      · rw [if_pos hxx, if_pos hxx]; simp
    · rw [if_neg h2] at h; exact absurd h (by simp)
  | min =>
    simp only [reduxDiag] at h
    simp only [reduceLine, dif_pos hne]
    have lo : ∀ {r : ℝ}, r ≤ re x.v → r ≤ 0 → r ≤ (Finset.range (n * m)).inf' hne fun k => re (f k) := by
      intro r h1 h2
      apply Finset.le_inf'
      intro k hk
      rw [hf k (Finset.mem_range.mp hk)]
      split
      · exact h1
      · rw [re_zero_eq]; exact h2
    have hi : ∀ {k : ℕ}, k < n * m → (Finset.range (n * m)).inf' hne (fun k => re (f k)) ≤ re (f k) := fun hk =>
      Finset.inf'_le (fun k => re (f k)) (Finset.mem_range.mpr hk)
    by_cases h2 : als = true
    · rw [if_pos h2, Option.some.injEq] at h
      have hl := hals h2
      have hxl := hi (k := l) (by omega)
      rw [hx hl] at hxl
      by_cases h3 : 1 < m
      · rw [if_pos h3] at h
        rw [← h]
        congr 1
        apply le_antisymm
        · obtain ⟨k, hk, h0⟩ := hzero h3
          have := hi hk
          rw [h0, re_zero_eq] at this
          exact le_min hxl this
        · exact lo (min_le_left _ _) (min_le_right _ _)
      · rw [if_neg h3] at h
        rw [← h]
        have hm1 : m = 1 := by omega
        have : (Finset.range (n * m)).inf' hne (fun k => re (f k)) = re x.v := by
          rw [Finset.inf'_congr hne (g := fun _ => re x.v) rfl fun k hk => by
            rw [hf k (Finset.mem_range.mp hk), if_pos (by rw [hm1] at hl ⊢; omega)], Finset.inf'_const]
        rw [this, hre (Or.inl rfl)]
    · rw [if_neg h2] at h
      have h3 : 2 ≤ m := (hmm (Or.inl rfl)).resolve_right h2
      by_cases h4 : x.fixed = true
      · rw [if_pos h4] at h
        by_cases h5 : re x.v < 0
        · rw [if_pos h5] at h; exact absurd h (by simp)
        · rw [if_neg h5, Option.some.injEq] at h
          rw [← h]
          have : (Finset.range (n * m)).inf' hne (fun k => re (f k)) = 0 := by
            apply le_antisymm
            · obtain ⟨k, hk, h0⟩ := hzero h3
              have := hi hk
              rwa [h0, re_zero_eq] at this
            · exact lo (not_lt.mp h5) le_rfl
          rw [this]; simp
      · rw [if_neg h4] at h; exact absurd h (by simp)
  | max =>
    simp only [reduxDiag] at h
    simp only [reduceLine, dif_pos hne]
    have lo : ∀ {r : ℝ}, re x.v ≤ r → 0 ≤ r → ((Finset.range (n * m)).sup' hne fun k => re (f k)) ≤ r := by
      intro r h1 h2
      apply Finset.sup'_le
      intro k hk
      rw [hf k (Finset.mem_range.mp hk)]
      split
      · exact h1
      · rw [re_zero_eq]; exact h2
    have hi : ∀ {k : ℕ}, k < n * m → re (f k) ≤ (Finset.range (n * m)).sup' hne (fun k => re (f k)) := fun hk =>
      Finset.le_sup' (fun k => re (f k)) (Finset.mem_range.mpr hk)
    by_cases h2 : als = true
    · rw [if_pos h2, Option.some.injEq] at h
      have hl := hals h2
      have hxl := hi (k := l) (by omega)
      rw [hx hl] at hxl
      by_cases h3 : 1 < m
      · rw [if_pos h3] at h
        rw [← h]
        congr 1
        apply le_antisymm
        · exact lo (le_max_left _ _) (le_max_right _ _)
        · obtain ⟨k, hk, h0⟩ := hzero h3
          have := hi hk
          rw [h0, re_zero_eq] at this
          exact max_le hxl this
      · rw [if_neg h3] at h
        rw [← h]
        have hm1 : m = 1 := by omega
        have : (Finset.range (n * m)).sup' hne (fun k => re (f k)) = re x.v := by
          rw [Finset.sup'_congr hne (g := fun _ => re x.v) rfl fun k hk => by
            rw [hf k (Finset.mem_range.mp hk), if_pos (by rw [hm1] at hl ⊢; omega)], Finset.sup'_const]
        rw [this, hre (Or.inr rfl)]
    · rw [if_neg h2] at h
      have h3 : 2 ≤ m := (hmm (Or.inr rfl)).resolve_right h2
      by_cases h4 : x.fixed = true
      · rw [if_pos h4] at h
        by_cases h5 : re x.v > 0
        · rw [if_pos h5] at h; exact absurd h (by simp)
        · rw [if_neg h5, Option.some.injEq] at h
          rw [← h]
          have : (Finset.range (n * m)).sup' hne (fun k => re (f k)) = 0 := by
            apply le_antisymm
            · exact lo (not_lt.mp h5) le_rfl
            · obtain ⟨k, hk, h0⟩ := hzero h3
              have := hi hk
              rwa [h0, re_zero_eq] at this
          rw [this]; simp
      · rw [if_neg h4] at h; exact absurd h (by simp)

/-! ## Lines of a matrix -/

/-- Number of components in a line, number of lines, and a line: rows if `hz`, columns otherwise. -/
def Arr.len (hz : Bool) (a : Arr 𝕜) : ℕ := if hz then a.cols else a.rows

def Arr.lines (hz : Bool) (a : Arr 𝕜) : ℕ := if hz then a.rows else a.cols

def Arr.line (hz : Bool) (a : Arr 𝕜) (l x : ℕ) : 𝕜 := if hz then a.get l x else a.get x l

theorem line_const {v : 𝕜} (h : a.Const v) {hz : Bool} {l x : ℕ} (hl : l < a.lines hz) (hx : x < a.len hz) : a.line hz l x = v := by
  cases hz
  · exact h x hx l hl
  · exact h l hl x hx

theorem line_diag {v : 𝕜} (h : a.ConstDiag v) {hz : Bool} {l x : ℕ} (hl : l < a.lines hz) (hx : x < a.len hz) : a.line hz l x = if x = l then v else 0 := by
  cases hz
  · exact h x hx l hl
  · have := h l hl x hx
    show a.get l x = _
    rw [this]
    simp only [eq_comm]

theorem line_all {p : 𝕜 → Prop} (h : a.All p) {hz : Bool} {l x : ℕ} (hl : l < a.lines hz) (hx : x < a.len hz) : p (a.line hz l x) := by
  cases hz
  · exact h x hx l hl
  · exact h l hl x hx

theorem atLeastSquare_true (h : Truthful a k) {hz : Bool} (e : atLeastSquare hz k = true) : a.lines hz ≤ a.len hz := by
  unfold atLeastSquare at e
  split at e
  · rename_i d o hd ho
    cases hz
    · have := h.sr _ hd
      have := h.sc _ ho
      simp only [Arr.lines, Arr.len, decide_eq_true_eq] at e ⊢
      simp; omega
    · have := h.sc _ hd
      have := h.sr _ ho
      simp only [Arr.lines, Arr.len, decide_eq_true_eq] at e ⊢
      simp; omega
  · exact absurd e (by simp)

/-- When the report of a reduction is true: if it is based on a constant diagonal, the functors passed on the way must keep zero, and a line must not consist of the diagonal component only. -/
structure LeafOk (op : Red) (hz : Bool) (len : ℕ) (g : 𝕜 → 𝕜) (k : Claims 𝕜) : Prop where
  zero : k.constVal = none → k.diagVal.isSome → g 0 = 0
  all : op = .all ∨ op = .prod → k.constVal = none → k.diagVal.isSome → 2 ≤ len
  ext : op = .min ∨ op = .max → k.constVal = none → k.diagVal.isSome → 2 ≤ len ∨ atLeastSquare hz k = true

theorem reduxLeaf_true {op : Red} {hz : Bool} {n : ℕ} {func : 𝕜 → Option 𝕜} {g : 𝕜 → 𝕜} (h : Truthful a k) (hreal : op = .min ∨ op = .max → ∀ x : 𝕜, ((re x : ℝ) : 𝕜) = x)
    (hok : LeafOk op hz (a.len hz) g k) (hg : a.All fun x => ∀ w, func x = some w → w = g x) (hn : 0 < n) (hlen : 0 < a.len hz) {l : ℕ} (hl : l < a.lines hz) {v : Val 𝕜}
    (e : reduxLeaf op hz (a.len hz) n func k = some v) : reduceLine op (n * a.len hz) (fun x => g (a.line hz l (x % a.len hz))) = v.v := by
  unfold reduxLeaf at e
  split at e
  · rename_i w hw
    split at e
    · rename_i x hx
      obtain ⟨y, hy, rfl⟩ := Option.map_eq_some_iff.mp e
      obtain ⟨z, hz', hf, _⟩ := operation₁_some hx
      have C := constVal_true h hz'
      apply reduce_const (Nat.mul_pos hn hlen) _ (fun hc => hreal hc _) hy
      intro q _
      rw [line_const C hl (Nat.mod_lt _ hlen)]
      have := line_all hg hl hlen
      rw [line_const C hl hlen] at this
      exact (this _ hf).symm
    · exact absurd e (by simp)
  · rename_i hnone
    split at e
    · rename_i x hx
      obtain ⟨y, hy, rfl⟩ := Option.map_eq_some_iff.mp e
      obtain ⟨z, hz', hf, _⟩ := operation₁_some hx
      have D := diagVal_true h hz'
      have hsome : k.diagVal.isSome := by rw [hz']; rfl
      have g0 := hok.zero hnone hsome
      have hxv : 0 < a.rows → 0 < a.cols → x.v = g z.v := by
        intro h1 h2
        have := hg 0 h1 0 h2
        rw [D 0 h1 0 h2, if_pos rfl] at this
        exact this _ hf
      have hxv : x.v = g z.v := by
        have hl0 : 0 < a.lines hz := by omega
        cases hz
        · exact hxv hlen hl0
        · exact hxv hl0 hlen
      apply reduce_diag (l := l) hn hlen (fun ha => lt_of_lt_of_le hl (atLeastSquare_true h ha)) _ (fun hc => hreal hc _) (fun hc => hok.all hc hnone hsome)
        (fun hc => hok.ext hc hnone hsome) hy
      intro q _
      rw [line_diag D hl (Nat.mod_lt _ hlen), hxv]
      by_cases hq : q % a.len hz = l
      · rw [if_pos hq, if_pos hq]
      · rw [if_neg hq, if_neg hq, g0]
    · exact absurd e (by simp)

/-! ## Expressions -/

/-- The expression makes sense: shapes fit, functors are defined on the components they are applied to, and what is reported about the leaves is true. -/
def Expr.WF (S : Scalar 𝕜) : Expr 𝕜 → Prop
  | .leaf a k => Truthful a k
  | .const m n sr sc _ => (∀ r, sr = some r → m = r) ∧ (∀ r, sc = some r → n = r)
  | .identity m n sr sc => (∀ r, sr = some r → m = r) ∧ (∀ r, sc = some r → n = r)
  | .unary op x => x.WF S ∧ (x.eval S).All (S.dom op)
  | .bind1 op c x => x.WF S ∧ (x.eval S).All (S.bdom op c)
  | .bind2 op x c => x.WF S ∧ (x.eval S).All (S.bdom op · c)
  | .binary op x y => x.WF S ∧ y.WF S ∧ (y.eval S).rows = (x.eval S).rows ∧ (y.eval S).cols = (x.eval S).cols ∧ (x.eval S).All₂ (y.eval S) (S.bdom op)
  | .transpose x => x.WF S
  | .replicate _ _ _ _ x => x.WF S
  | .reverse _ _ x => x.WF S
  | .product x y => x.WF S ∧ y.WF S ∧ (y.eval S).rows = (x.eval S).cols
  | .triView _ _ x => x.WF S
  | .selfAdjointView _ x => x.WF S ∧ (x.eval S).rows = (x.eval S).cols
  | .select c t e => c.WF S ∧ t.WF S ∧ e.WF S ∧ (t.eval S).rows = (c.eval S).rows ∧ (t.eval S).cols = (c.eval S).cols ∧ (e.eval S).rows = (c.eval S).rows ∧
      (e.eval S).cols = (c.eval S).cols
  | .redux op hz x => x.WF S ∧ 0 < (x.eval S).len hz ∧ (op = .min ∨ op = .max → S.cplx = false)

/-- `LeafOk` at the innermost expression, with the functors on the way. -/
def Expr.ReduxOk (S : Scalar 𝕜) (op : Red) (hz : Bool) : (𝕜 → 𝕜) → Expr 𝕜 → Prop
  | g, .unary u x => x.ReduxOk S op hz (fun v => g (S.un u v))
  | g, .bind1 b c x => x.ReduxOk S op hz (fun v => g (S.bin b c v))
  | g, .bind2 b x c => x.ReduxOk S op hz (fun v => g (S.bin b v c))
  | g, .replicate _ _ _ _ x => x.ReduxOk S op hz g
  | g, e => LeafOk op hz ((e.eval S).len hz) g (e.claims S)

/-- None of the cases in which the code reports something false occurs. -/
def Expr.Good (S : Scalar 𝕜) : Expr 𝕜 → Prop
  | .leaf _ _ => True
  | .const _ _ _ _ _ => True
  | .identity _ _ _ _ => True
  | .unary op x => x.Good S ∧ ((unaryClaims S op (x.claims S)).herm = true → (x.eval S).All (hermDom S op))
  | .bind1 op c x => x.Good S ∧ BinOk S op (Arr.const (x.eval S).rows (x.eval S).cols c) (x.eval S) (constClaims S.cplx c (x.claims S).sr (x.claims S).sc) (x.claims S) ∧
      ((bind1Claims S op c (x.claims S)).herm = true → S.cplx = true → op ≠ .pow ∧ star c = c)
  | .bind2 op x c => x.Good S ∧ BinOk S op (x.eval S) (Arr.const (x.eval S).rows (x.eval S).cols c) (x.claims S) (constClaims S.cplx c (x.claims S).sr (x.claims S).sc) ∧
      ((bind2Claims S op (x.claims S) c).herm = true → S.cplx = true → op ≠ .pow ∧ star c = c)
  | .binary op x y => x.Good S ∧ y.Good S ∧ BinOk S op (x.eval S) (y.eval S) (x.claims S) (y.claims S) ∧
      ((binaryClaims S op (x.claims S) (y.claims S)).herm = true → S.cplx = true → op ≠ .pow)
  | .transpose x => x.Good S
  | .replicate r c rs cs x => x.Good S ∧ ReplicateOk S.cplx (if rs then some r else none) (if cs then some c else none) (x.eval S) (x.claims S)
  | .reverse v h x => x.Good S ∧ ReverseOk v h (x.eval S) (x.claims S)
  | .product x y => x.Good S ∧ y.Good S ∧ ProductOk S.cplx (x.eval S) (y.eval S) (x.claims S) (y.claims S)
  | .triView _ d x => x.Good S ∧ TriViewOk d (x.claims S)
  | .selfAdjointView _ x => x.Good S
  | .select c t e => c.Good S ∧ t.Good S ∧ e.Good S
  | .redux op hz x => x.Good S ∧ x.ReduxOk S op hz id

/-- What is proved of a reduction by induction. -/
def ReduxTrue (S : Scalar 𝕜) (e : Expr 𝕜) : Prop :=
  ∀ (op : Red) (hz : Bool) (n : ℕ) (func : 𝕜 → Option 𝕜) (g : 𝕜 → 𝕜) (l : ℕ) (v : Val 𝕜), (op = .min ∨ op = .max → S.cplx = false) → e.ReduxOk S op hz g →
    ((e.eval S).All fun x => ∀ w, func x = some w → w = g x) → 0 < n → 0 < (e.eval S).len hz → l < (e.eval S).lines hz → e.reduxVal S op hz n func = some v →
    reduceLine op (n * (e.eval S).len hz) (fun x => g ((e.eval S).line hz l (x % (e.eval S).len hz))) = v.v

theorem real_re (hS : S.Ok) (h : S.cplx = false) (x : 𝕜) : ((re x : ℝ) : 𝕜) = x := RCLike.conj_eq_iff_re.mp (hS.real h x)

theorem reduxTrue_leaf (hS : S.Ok) {e : Expr 𝕜} (hT : Truthful (e.eval S) (e.claims S))
    (h1 : ∀ op hz n func, e.reduxVal S op hz n func = reduxLeaf op hz ((e.eval S).len hz) n func (e.claims S))
    (h2 : ∀ op hz g, e.ReduxOk S op hz g → LeafOk op hz ((e.eval S).len hz) g (e.claims S)) : ReduxTrue S e := by
  intro op hz n func g l v hr hok hg hn hlen hl he
  rw [h1] at he
  exact reduxLeaf_true hT (fun hc x => real_re hS (hr hc) x) (h2 _ _ _ hok) hg hn hlen hl he

theorem reduce_true (hS : S.Ok) {op : Red} {hz : Bool} {e : Expr 𝕜} (hT : Truthful (e.eval S) (e.claims S)) (hR : ReduxTrue S e) (hlen : 0 < (e.eval S).len hz)
    (hr : op = .min ∨ op = .max → S.cplx = false) (hok : e.ReduxOk S op hz id) : Truthful ((Expr.redux op hz e).eval S) ((Expr.redux op hz e).claims S) where
  const v he := by
    have key : ∀ l < (e.eval S).lines hz, reduceLine op ((e.eval S).len hz) (fun x => (e.eval S).line hz l (x % (e.eval S).len hz)) = v.v := by
      intro l hl
      have := hR op hz 1 some id l v hr hok (fun i _ j _ w hw => (Option.some.inj hw).symm) Nat.one_pos hlen hl (by simpa only [Expr.claims] using he)
      rwa [Nat.one_mul] at this
    have congr : ∀ (n : ℕ) (f f' : ℕ → 𝕜), (∀ x < n, f x = f' x) → reduceLine op n f = reduceLine op n f' := by
      intro n f f' hff
      have hm : ∀ x ∈ Finset.range n, f x = f' x := fun x hx => hff x (Finset.mem_range.mp hx)
      cases op <;> simp only [reduceLine]
      · rw [Finset.sum_congr rfl fun x hx => by rw [hm x hx]]
      · split
        · rw [Finset.sup'_congr _ rfl fun x hx => by rw [hm x hx]]
        · rfl
      · exact Finset.sum_congr rfl hm
      · exact Finset.prod_congr rfl hm
      · split
        · rw [Finset.inf'_congr _ rfl fun x hx => by rw [hm x hx]]
        · rfl
      · split
        · rw [Finset.sup'_congr _ rfl fun x hx => by rw [hm x hx]]
        · rfl
      · exact bit_congr ⟨fun h x hx => by rw [← hff x hx]; exact h x hx, fun h x hx => by rw [hff x hx]; exact h x hx⟩
      · exact bit_congr ⟨fun ⟨x, hx, h⟩ => ⟨x, hx, by rw [← hff x hx]; exact h⟩, fun ⟨x, hx, h⟩ => ⟨x, hx, by rw [hff x hx]; exact h⟩⟩
      · rw [Finset.filter_congr fun x hx => by rw [hm x hx]]
    intro i hi j hj
    cases hz
    · simp only [Expr.eval, Arr.reduce, Bool.false_eq_true, if_false] at hi hj ⊢
      rw [← key j hj]
      apply congr
      intro x hx
      rw [Nat.mod_eq_of_lt (show x < (e.eval S).len false from hx)]; rfl
    · simp only [Expr.eval, Arr.reduce, if_true] at hi hj ⊢
      rw [← key i hi]
      apply congr
      intro x hx
      rw [Nat.mod_eq_of_lt (show x < (e.eval S).len true from hx)]; rfl
  diag v he := by simp [Expr.claims] at he
  tri := by simp [Expr.claims, Arr.IsTri]
  herm he := by simp [Expr.claims] at he
  sr n he := by
    cases hz
    · simp only [Expr.claims, Expr.eval, Arr.reduce, Bool.false_eq_true, if_false, Option.some.injEq] at he ⊢
      exact he
    · simp only [Expr.claims, Expr.eval, Arr.reduce, if_true] at he ⊢
      exact hT.sr n he
  sc n he := by
    cases hz
    · simp only [Expr.claims, Expr.eval, Arr.reduce, Bool.false_eq_true, if_false] at he ⊢
      exact hT.sc n he
    · simp only [Expr.claims, Expr.eval, Arr.reduce, if_true, Option.some.injEq] at he ⊢
      exact he

theorem line_map {f : 𝕜 → 𝕜} {hz : Bool} {l x : ℕ} : (a.map f).line hz l x = f (a.line hz l x) := by cases hz <;> rfl

theorem len_map {f : 𝕜 → 𝕜} {hz : Bool} : (a.map f).len hz = a.len hz := rfl

theorem lines_map {f : 𝕜 → 𝕜} {hz : Bool} : (a.map f).lines hz = a.lines hz := rfl

theorem redux_unary (hS : S.Ok) {op : Un} {x : Expr 𝕜} (hd : (x.eval S).All (S.dom op)) (hR : ReduxTrue S x) : ReduxTrue S (.unary op x) := by
  intro o hz n func g l v hr hok hg hn hlen hl he
  simp only [Expr.reduxVal] at he
  simp only [Expr.ReduxOk] at hok
  simp only [Expr.eval, len_map, lines_map, line_map] at hlen hl ⊢
  refine hR o hz n (fun v => (constUn S op v).bind func) (fun v => g (S.un op v)) l v hr hok ?_ hn hlen hl he
  intro i hi j hj w hw
  obtain ⟨y, hy, hf⟩ := Option.bind_eq_some_iff.mp hw
  have := hS.constUn _ _ _ (hd i hi j hj) hy
  subst this
  exact hg i hi j hj w hf

theorem redux_bind1 {op : Bin} {c : 𝕜} {x : Expr 𝕜} (hR : ReduxTrue S x) : ReduxTrue S (.bind1 op c x) := by
  intro o hz n func g l v hr hok hg hn hlen hl he
  simp only [Expr.reduxVal] at he
  simp only [Expr.ReduxOk] at hok
  simp only [Expr.eval, len_map, lines_map, line_map] at hlen hl ⊢
  exact hR o hz n (fun v => func (S.bin op c v)) (fun v => g (S.bin op c v)) l v hr hok (fun i hi j hj w hw => hg i hi j hj w hw) hn hlen hl he

theorem redux_bind2 {op : Bin} {c : 𝕜} {x : Expr 𝕜} (hR : ReduxTrue S x) : ReduxTrue S (.bind2 op x c) := by
  intro o hz n func g l v hr hok hg hn hlen hl he
  simp only [Expr.reduxVal] at he
  simp only [Expr.ReduxOk] at hok
  simp only [Expr.eval, len_map, lines_map, line_map] at hlen hl ⊢
  exact hR o hz n (fun v => func (S.bin op v c)) (fun v => g (S.bin op v c)) l v hr hok (fun i hi j hj w hw => hg i hi j hj w hw) hn hlen hl he

theorem redux_replicate {r q : ℕ} {rs qs : Bool} {x : Expr 𝕜} (hR : ReduxTrue S x) : ReduxTrue S (.replicate r q rs qs x) := by
  intro o hz n func g l v hr hok hg hn hlen hl he
  simp only [Expr.reduxVal] at he
  simp only [Expr.ReduxOk] at hok
  have hall : 0 < r → 0 < q → (x.eval S).All fun y => ∀ w, func y = some w → w = g y := by
    intro h1 h2 i hi j hj
    have := hg i (lt_of_lt_of_le hi (Nat.le_mul_of_pos_left _ h1)) j (lt_of_lt_of_le hj (Nat.le_mul_of_pos_left _ h2))
    simp only [Expr.eval, Arr.replicate] at this
    rwa [Nat.mod_eq_of_lt hi, Nat.mod_eq_of_lt hj] at this
  cases hz
  · have hlen' : 0 < r * (x.eval S).rows := hlen
    have hl' : l < q * (x.eval S).cols := hl
    have h1 : 0 < r := Nat.pos_of_mul_pos_right hlen'
    have h2 : 0 < (x.eval S).rows := Nat.pos_of_mul_pos_left hlen'
    have h3 : 0 < q := by rcases Nat.eq_zero_or_pos q with h | h; (· subst h; simp at hl'); exact h
    have := hR o false (n * r) func g (l % (x.eval S).cols) v hr hok (hall h1 h3) (Nat.mul_pos hn h1) h2 (mod_lt_of_lt_mul hl') (by simpa using he)
    rw [← this]
    show reduceLine o (n * (r * (x.eval S).rows)) _ = reduceLine o (n * r * (x.eval S).rows) _
    rw [Nat.mul_assoc]
    congr 1
    funext y
    show g ((x.eval S).get (y % (r * (x.eval S).rows) % (x.eval S).rows) (l % (x.eval S).cols)) = g ((x.eval S).get (y % (x.eval S).rows) (l % (x.eval S).cols))
    rw [Nat.mod_mul_left_mod]
  · have hlen' : 0 < q * (x.eval S).cols := hlen
    have hl' : l < r * (x.eval S).rows := hl
    have h1 : 0 < q := Nat.pos_of_mul_pos_right hlen'
    have h2 : 0 < (x.eval S).cols := Nat.pos_of_mul_pos_left hlen'
    have h3 : 0 < r := by rcases Nat.eq_zero_or_pos r with h | h; (· subst h; simp at hl'); exact h
    have := hR o true (n * q) func g (l % (x.eval S).rows) v hr hok (hall h3 h1) (Nat.mul_pos hn h1) h2 (mod_lt_of_lt_mul hl') (by simpa using he)
    rw [← this]
    show reduceLine o (n * (q * (x.eval S).cols)) _ = reduceLine o (n * q * (x.eval S).cols) _
    rw [Nat.mul_assoc]
    congr 1
    funext y
    show g ((x.eval S).get (l % (x.eval S).rows) (y % (q * (x.eval S).cols) % (x.eval S).cols)) = g ((x.eval S).get (l % (x.eval S).rows) (y % (x.eval S).cols))
    rw [Nat.mod_mul_left_mod]

theorem ite_some {b : Bool} {r n : ℕ} (h : (if b = true then some r else none) = some n) : r = n := by
  cases b
  · simp at h
  · simpa using h

/-- By induction over the expression: everything reported is true. -/
theorem claims_true (hS : S.Ok) (e : Expr 𝕜) : e.WF S → e.Good S → Truthful (e.eval S) (e.claims S) ∧ ReduxTrue S e := by
  induction e with
  | leaf a k => 
    intro w _
    exact ⟨w, reduxTrue_leaf hS w (fun op hz n f => by cases hz <;> rfl) (fun op hz g h => h)⟩
  | const m n sr sc c =>
    intro w _
    have T : Truthful ((Expr.const m n sr sc c).eval S) ((Expr.const m n sr sc c).claims S) := constClaims_true hS w.1 w.2
    exact ⟨T, reduxTrue_leaf hS T (fun op hz n f => by cases hz <;> rfl) (fun op hz g h => h)⟩
  | identity m n sr sc =>
    intro w _
    have T : Truthful ((Expr.identity m n sr sc).eval S) ((Expr.identity m n sr sc).claims S) := identityClaims_true w.1 w.2
    exact ⟨T, reduxTrue_leaf hS T (fun op hz n f => by cases hz <;> rfl) (fun op hz g h => h)⟩
  | unary op x ih =>
    intro w g
    obtain ⟨T, R⟩ := ih w.1 g.1
    exact ⟨unary_true hS T w.2 g.2, redux_unary hS w.2 R⟩
  | bind1 op c x ih =>
    intro w g
    obtain ⟨T, R⟩ := ih w.1 g.1
    exact ⟨bind1_true hS T w.2 g.2.1 g.2.2, redux_bind1 R⟩
  | bind2 op x c ih =>
    intro w g
    obtain ⟨T, R⟩ := ih w.1 g.1
    exact ⟨bind2_true hS T w.2 g.2.1 g.2.2, redux_bind2 R⟩
  | binary op x y ihx ihy =>
    intro w g
    have T : Truthful ((Expr.binary op x y).eval S) ((Expr.binary op x y).claims S) :=
      binary_true hS (ihx w.1 g.1).1 (ihy w.2.1 g.2.1).1 w.2.2.1 w.2.2.2.1 w.2.2.2.2 g.2.2.1 g.2.2.2
    exact ⟨T, reduxTrue_leaf hS T (fun op hz n f => by cases hz <;> rfl) (fun op hz g h => h)⟩
  | transpose x ih =>
    intro w g
    have T : Truthful ((Expr.transpose x).eval S) ((Expr.transpose x).claims S) := transpose_true hS (ih w g).1
    exact ⟨T, reduxTrue_leaf hS T (fun op hz n f => by cases hz <;> rfl) (fun op hz g h => h)⟩
  | replicate r c rs cs x ih =>
    intro w g
    obtain ⟨T, R⟩ := ih w g.1
    exact ⟨replicate_true hS (fun n h => ite_some h) (fun n h => ite_some h) T g.2, redux_replicate R⟩
  | reverse v h x ih =>
    intro w g
    have T : Truthful ((Expr.reverse v h x).eval S) ((Expr.reverse v h x).claims S) := reverse_true hS (ih w g.1).1 g.2
    exact ⟨T, reduxTrue_leaf hS T (fun op hz n f => by cases hz <;> rfl) (fun op hz g h => h)⟩
  | product x y ihx ihy =>
    intro w g
    have T : Truthful ((Expr.product x y).eval S) ((Expr.product x y).claims S) := product_true hS (ihx w.1 g.1).1 (ihy w.2.1 g.2.1).1 w.2.2 g.2.2
    exact ⟨T, reduxTrue_leaf hS T (fun op hz n f => by cases hz <;> rfl) (fun op hz g h => h)⟩
  | triView up d x ih =>
    intro w g
    have T : Truthful ((Expr.triView up d x).eval S) ((Expr.triView up d x).claims S) := triView_true hS (ih w g.1).1 g.2
    exact ⟨T, reduxTrue_leaf hS T (fun op hz n f => by cases hz <;> rfl) (fun op hz g h => h)⟩
  | selfAdjointView up x ih =>
    intro w g
    have T : Truthful ((Expr.selfAdjointView up x).eval S) ((Expr.selfAdjointView up x).claims S) := selfAdjoint_true hS w.2 (ih w.1 g).1
    exact ⟨T, reduxTrue_leaf hS T (fun op hz n f => by cases hz <;> rfl) (fun op hz g h => h)⟩
  | select c t e ihc iht ihe =>
    intro w g
    have T : Truthful ((Expr.select c t e).eval S) ((Expr.select c t e).claims S) :=
      select_true hS (ihc w.1 g.1).1 (iht w.2.1 g.2.1).1 (ihe w.2.2.1 g.2.2).1 w.2.2.2.1 w.2.2.2.2.1 w.2.2.2.2.2.1 w.2.2.2.2.2.2
    exact ⟨T, reduxTrue_leaf hS T (fun op hz n f => by cases hz <;> rfl) (fun op hz g h => h)⟩
  | redux op hz x ih =>
    intro w g
    obtain ⟨T, R⟩ := ih w.1 g.1
    have T' := reduce_true hS T R w.2.1 w.2.2 g.2
    refine ⟨T', reduxTrue_leaf hS T' (fun op' hz' n f => ?_) (fun op hz g h => h)⟩
    cases hz <;> cases hz' <;> rfl

end OpenKalman.EigenTraits
