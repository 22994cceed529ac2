import Verif.Proof.EigenTraitsScalar

/-! # Truth of the reports, node by node -/

namespace OpenKalman.EigenTraits
open Classical RCLike Claims

variable {𝕜 : Type*} [RCLike 𝕜] {S : Scalar 𝕜} {a b c : Arr 𝕜} {k k₁ k₂ : Claims 𝕜}

/-! ## Closures -/

theorem Zero.const (h : Truthful a k) (hz : k.Zero) : a.Const 0 := h.const _ hz

theorem OneDim.rows (h : Truthful a k) (ho : k.OneDim) : a.rows = 1 := h.sr _ ho.1

theorem OneDim.cols (h : Truthful a k) (ho : k.OneDim) : a.cols = 1 := h.sc _ ho.2

theorem constVal_true (h : Truthful a k) {v : Val 𝕜} (e : k.constVal = some v) : a.Const v.v := by
  unfold constVal at e
  split at e
  · rename_i w hw
    cases e
    exact h.const _ hw
  · by_cases ho : k.OneDim
    · rw [if_pos ho] at e
      intro i hi j hj
      rw [OneDim.rows h ho] at hi
      rw [OneDim.cols h ho] at hj
      have := h.diag _ e i (by rw [OneDim.rows h ho]; exact hi) j (by rw [OneDim.cols h ho]; exact hj)
      rw [if_pos (by omega)] at this
      exact this
    · rw [if_neg ho] at e
      exact absurd e (by simp)

theorem diagVal_true (h : Truthful a k) {v : Val 𝕜} (e : k.diagVal = some v) : a.ConstDiag v.v := by
  unfold diagVal at e
  split at e
  · rename_i w hw
    cases e
    exact h.diag _ hw
  · by_cases ho : k.Zero ∨ k.OneDim
    · rw [if_pos ho] at e
      intro i hi j hj
      have hc := h.const _ e i hi j hj
      rcases ho with ho | ho
      · have := Option.some.inj (e.symm.trans ho)
        subst this
        rw [hc]; simp
      · rw [OneDim.rows h ho] at hi
        rw [OneDim.cols h ho] at hj
        rw [hc, if_pos (by omega)]
    · rw [if_neg ho] at e
      exact absurd e (by simp)

theorem constDiag_lower {v : 𝕜} (h : a.ConstDiag v) : a.Lower := fun i hi j hj hij => by rw [h i hi j hj, if_neg (by omega)]

theorem constDiag_upper {v : 𝕜} (h : a.ConstDiag v) : a.Upper := fun i hi j hj hij => by rw [h i hi j hj, if_neg (by omega)]

theorem triOf_true (h : Truthful a k) : a.IsTri k.triOf := by
  unfold triOf
  by_cases hd : k.Zero ∨ k.OneDim ∨ k.tri = .diagonal
  · rw [if_pos hd]
    rcases hd with hz | ho | ht
    · exact ⟨fun i hi j hj _ => h.const _ hz i hi j hj, fun i hi j hj _ => h.const _ hz i hi j hj⟩
    · refine ⟨fun i hi j hj hij => ?_, fun i hi j hj hij => ?_⟩ <;> (rw [OneDim.rows h ho] at hi; rw [OneDim.cols h ho] at hj; omega)
    · have := h.tri
      rw [ht] at this
      exact this
  · rw [if_neg hd]
    by_cases h1 : k.sc = some 1
    · rw [if_pos h1]
      intro i hi j hj hij
      rw [h.sc _ h1] at hj
      omega
    · rw [if_neg h1]
      by_cases h2 : k.sr = some 1
      · rw [if_pos h2]
        intro i hi j hj hij
        rw [h.sr _ h2] at hi
        omega
      · rw [if_neg h2]
        exact h.tri

theorem triOf_lower (h : Truthful a k) (ht : k.triOf = .lower ∨ k.triOf = .diagonal) : a.Lower := by
  have := triOf_true h
  rcases ht with ht | ht <;> rw [ht] at this
  · exact this
  · exact this.1

theorem triOf_upper (h : Truthful a k) (ht : k.triOf = .upper ∨ k.triOf = .diagonal) : a.Upper := by
  have := triOf_true h
  rcases ht with ht | ht <;> rw [ht] at this
  · exact this
  · exact this.2

theorem const_herm {v : 𝕜} (h : a.Const v) (hs : star v = v) : a.Herm := fun he i hi j hj => by
  rw [h i hi j hj, h j (he ▸ hj) i (he ▸ hi), hs]

theorem diag_real_herm (hl : a.Lower) (hu : a.Upper) (hs : ∀ i < a.rows, i < a.cols → star (a.get i i) = a.get i i) : a.Herm := fun he i hi j hj => by
  rcases lt_trichotomy i j with h | h | h
  · rw [hl i hi j hj h, hu j (he ▸ hj) i (he ▸ hi) h, star_zero]
  · subst h; exact (hs i hi hj).symm
  · rw [hu i hi j hj h, hl j (he ▸ hj) i (he ▸ hi) h, star_zero]

theorem isHerm_true (hS : S.Ok) (h : Truthful a k) (e : k.isHerm S.cplx = true) : a.Herm := by
  unfold isHerm at e
  simp only [Bool.and_eq_true, Bool.or_eq_true, decide_eq_true_eq, Bool.not_eq_true'] at e
  rcases e.2 with e | ⟨e, hr⟩
  · exact h.herm e
  · rcases e with e | e
    · obtain ⟨v, hv⟩ := Option.isSome_iff_exists.mp e
      exact const_herm (constVal_true h hv) (hS.real hr _)
    · exact diag_real_herm (triOf_lower h (Or.inr e)) (triOf_upper h (Or.inr e)) fun i _ _ => hS.real hr _

theorem notComplex_star (hS : S.Ok) {o : Option (Val 𝕜)} {v : Val 𝕜} (ho : o = some v) (h : notComplex S.cplx o = true) : star v.v = v.v := by
  subst ho
  simp only [notComplex, Bool.or_eq_true, Bool.and_eq_true, Bool.not_eq_true', decide_eq_true_eq] at h
  rcases h with h | ⟨_, h⟩
  · exact hS.real h _
  · exact RCLike.conj_eq_iff_im.mpr h

theorem operation_some {f : 𝕜 → 𝕜 → 𝕜} {o₁ o₂ : Option (Val 𝕜)} {v : Val 𝕜} (h : operation f o₁ o₂ = some v) :
    ∃ x y, o₁ = some x ∧ o₂ = some y ∧ v.v = f x.v y.v := by
  unfold operation at h
  split at h
  · cases h
    exact ⟨_, _, rfl, rfl, rfl⟩
  · exact absurd h (by simp)

theorem operation₁_some {f : 𝕜 → Option 𝕜} {o : Option (Val 𝕜)} {v : Val 𝕜} (h : operation₁ f o = some v) :
    ∃ x, o = some x ∧ f x.v = some v.v ∧ v.fixed = x.fixed := by
  unfold operation₁ at h
  split at h
  · rename_i x
    obtain ⟨w, hw, e⟩ := Option.map_eq_some_iff.mp h
    subst e
    exact ⟨x, rfl, hw, rfl⟩
  · exact absurd h (by simp)

/-! ## Coefficient-wise nodes -/

/-- Every entry has the property. -/
def Arr.All (a : Arr 𝕜) (p : 𝕜 → Prop) : Prop := ∀ i < a.rows, ∀ j < a.cols, p (a.get i j)

/-- Every pair of corresponding entries has the property. -/
def Arr.All₂ (a b : Arr 𝕜) (p : 𝕜 → 𝕜 → Prop) : Prop := ∀ i < a.rows, ∀ j < a.cols, p (a.get i j) (b.get i j)

theorem isTri_map {f : 𝕜 → 𝕜} (h0 : f 0 = 0) {t : Tri} (h : a.IsTri t) : (a.map f).IsTri t := by
  cases t
  · trivial
  · intro i hi j hj hij
    show f _ = 0
    rw [h i hi j hj hij, h0]
  · intro i hi j hj hij
    show f _ = 0
    rw [h i hi j hj hij, h0]
  · constructor
    · intro i hi j hj hij
      show f _ = 0
      rw [h.1 i hi j hj hij, h0]
    · intro i hi j hj hij
      show f _ = 0
      rw [h.2 i hi j hj hij, h0]

theorem unary_true (hS : S.Ok) {op : Un} (h : Truthful a k) (hd : a.All (S.dom op)) (hh : (unaryClaims S op k).herm = true → a.All (hermDom S op)) :
    Truthful (a.map (S.un op)) (unaryClaims S op k) where
  const v e := by
    obtain ⟨x, hx, hf, _⟩ := operation₁_some e
    intro i hi j hj
    have hc := constVal_true h hx i hi j hj
    have := hd i hi j hj
    show S.un op _ = _
    rw [hc] at this ⊢
    exact (hS.constUn _ _ _ this hf).symm
  diag v e := by
    simp only [unaryClaims] at e
    by_cases hp : presTri op = true
    · rw [if_pos hp] at e
      obtain ⟨x, hx, hf, _⟩ := operation₁_some e
      intro i hi j hj
      have hc := diagVal_true h hx i hi j hj
      have := hd i hi j hj
      show S.un op _ = _
      by_cases hij : i = j
      · rw [if_pos hij] at hc ⊢
        rw [hc] at this ⊢
        exact (hS.constUn _ _ _ this hf).symm
      · rw [if_neg hij] at hc ⊢
        rw [hc, hS.un0 _ hp]
    · rw [if_neg hp] at e
      exact absurd e (by simp)
  tri := by
    simp only [unaryClaims]
    by_cases hp : presTri op = true
    · rw [if_pos hp]
      exact isTri_map (hS.un0 _ hp) (triOf_true h)
    · rw [if_neg hp]; trivial
  herm e := by
    have hh := hh e
    simp only [unaryClaims, Bool.and_eq_true] at e
    have hH := isHerm_true hS h e.2
    intro he i hi j hj
    show S.un op _ = star (S.un op _)
    rw [hH he i hi j hj]
    exact hS.unHerm op _ e.1 (hh j (he ▸ hj) i (he ▸ hi))
  sr := h.sr
  sc := h.sc

/-- When the reports of a binary node are true: the cases in which the code is wrong are left out. -/
structure BinOk (S : Scalar 𝕜) (op : Bin) (a b : Arr 𝕜) (k₁ k₂ : Claims 𝕜) : Prop where
  /-- the difference with a zero minuend is not reported as the subtrahend -/
  diff : op = .diff → ¬ k₁.Zero
  /-- nor other functors that zero is not neutral for -/
  neutral : op = .notEqualTo ∨ op = .greater ∨ op = .less ∨ op = .hypot ∨ op = .absDiff → ¬ k₁.Zero ∧ ¬ k₂.Zero
  /-- two constants do not make a diagonal -/
  consts : op = .prod ∨ op = .conjProd ∨ op = .and → k₁.constVal.isSome → k₂.constVal.isSome → k₁.Zero ∨ k₂.Zero ∨ (a.rows = 1 ∧ a.cols = 1)
  /-- truth values are zero or one -/
  bool : op = .or → a.All (fun x => x = 0 ∨ x = 1) ∧ b.All (fun x => x = 0 ∨ x = 1)

theorem kind_product {op : Bin} (h : kind op = .product) : op = .prod ∨ op = .conjProd ∨ op = .and := by cases op <;> simp_all [kind]

theorem bit_of_bool {x : 𝕜} (h : x = 0 ∨ x = 1) : (bit (x ≠ 0) : 𝕜) = x := by
  rcases h with rfl | rfl <;> simp [bit]

theorem zero_or_false {x : 𝕜} : (bit (x ≠ 0 ∨ (0 : 𝕜) ≠ 0) : 𝕜) = bit (x ≠ 0) := by simp

theorem orConst_true (hS : S.Ok) (h₁ : Truthful a k₁) (h₂ : Truthful b k₂) (hr : b.rows = a.rows) (hc : b.cols = a.cols)
    (hb : a.All (fun x => x = 0 ∨ x = 1) ∧ b.All (fun x => x = 0 ∨ x = 1)) {v : Val 𝕜} (e : orConst k₁ k₂ = some v) : (a.map₂ (S.bin .or) b).Const v.v := by
  intro i hi j hj
  show S.bin .or (a.get i j) (b.get i j) = v.v
  have ba := hb.1 i hi j hj
  have bb := hb.2 i (hr ▸ hi) j (hc ▸ hj)
  rw [hS.or]
  unfold orConst at e
  split at e
  · rename_i w hw
    have := constVal_true h₂ hw i (hr ▸ hi) j (hc ▸ hj)
    simp only at this
    by_cases h1 : w = 1
    · rw [if_pos h1] at e
      cases e
      rw [this, h1]; simp [bit]
    · rw [if_neg h1] at e
      have h0 : b.get i j = 0 := by
        rcases bb with h | h
        · exact h
        · exact absurd (this.symm.trans h) h1
      have := constVal_true h₁ e i hi j hj
      rw [h0, zero_or_false, bit_of_bool ba, this]
  · split at e
    · rename_i w hw
      have := constVal_true h₁ hw i hi j hj
      simp only at this
      by_cases h1 : w = 1
      · rw [if_pos h1] at e
        cases e
        rw [this, h1]; simp [bit]
      · rw [if_neg h1] at e
        have h0 : a.get i j = 0 := by
          rcases ba with h | h
          · exact h
          · exact absurd (this.symm.trans h) h1
        have := constVal_true h₂ e i (hr ▸ hi) j (hc ▸ hj)
        rw [h0, or_comm, zero_or_false, bit_of_bool bb, this]
    · exact absurd e (by simp)

theorem isTri_diag_off (h : a.IsTri .diagonal) {i j : ℕ} (hi : i < a.rows) (hj : j < a.cols) (hij : i ≠ j) : a.get i j = 0 := by
  rcases Nat.lt_or_gt_of_ne hij with l | g
  · exact h.1 i hi j hj l
  · exact h.2 i hi j hj g

theorem orDiag_true (hS : S.Ok) (h₁ : Truthful a k₁) (h₂ : Truthful b k₂) (hr : b.rows = a.rows) (hc : b.cols = a.cols)
    (hb : a.All (fun x => x = 0 ∨ x = 1) ∧ b.All (fun x => x = 0 ∨ x = 1)) {v : Val 𝕜} (e : orDiag k₁ k₂ = some v) : (a.map₂ (S.bin .or) b).ConstDiag v.v := by
  intro i hi j hj
  show S.bin .or (a.get i j) (b.get i j) = _
  have ba := hb.1 i hi j hj
  have bb := hb.2 i (hr ▸ hi) j (hc ▸ hj)
  rw [hS.or]
  unfold orDiag at e
  split at e
  · rename_i w hw
    have := diagVal_true h₂ hw i (hr ▸ hi) j (hc ▸ hj)
    simp only at this
    by_cases h1 : w = 1 ∧ k₁.triOf = .diagonal
    · rw [if_pos h1] at e
      cases e
      have ht := triOf_true h₁
      rw [h1.2] at ht
      by_cases hij : i = j
      · rw [if_pos hij] at this ⊢
        rw [this, h1.1]; simp [bit]
      · rw [if_neg hij] at this ⊢
        rw [this, isTri_diag_off ht hi hj hij]; simp [bit]
    · rw [if_neg h1] at e
      by_cases h0 : w = 0
      · rw [if_pos h0] at e
        have hb0 : b.get i j = 0 := by rw [this, h0]; simp
        rw [hb0, zero_or_false, bit_of_bool ba]
        exact diagVal_true h₁ e i hi j hj
      · rw [if_neg h0] at e
        exact absurd e (by simp)
  · split at e
    · rename_i w hw
      have := diagVal_true h₁ hw i hi j hj
      simp only at this
      by_cases h1 : w = 1 ∧ k₂.triOf = .diagonal
      · rw [if_pos h1] at e
        cases e
        have ht := triOf_true h₂
        rw [h1.2] at ht
        by_cases hij : i = j
        · rw [if_pos hij] at this ⊢
          rw [this, h1.1]; simp [bit]
        · rw [if_neg hij] at this ⊢
          rw [this, isTri_diag_off ht (hr ▸ hi) (hc ▸ hj) hij]; simp [bit]
      · rw [if_neg h1] at e
        by_cases h0 : w = 0
        · rw [if_pos h0] at e
          have hb0 : a.get i j = 0 := by rw [this, h0]; simp
          rw [hb0, or_comm, zero_or_false, bit_of_bool bb]
          exact diagVal_true h₂ e i (hr ▸ hi) j (hc ▸ hj)
        · rw [if_neg h0] at e
          exact absurd e (by simp)
    · exact absurd e (by simp)

/-- What the proofs about `min` and `max` share: `lt c d` makes the functor pick `c`. -/
structure Picks (S : Scalar 𝕜) (op : Bin) (lt : ℝ → ℝ → Prop) : Prop where
  left : ∀ x y, S.bdom op x y → lt (re x) (re y) → S.bin op x y = x
  right : ∀ x y, S.bdom op x y → lt (re y) (re x) → S.bin op x y = y

theorem min_picks (hS : S.Ok) : Picks S .min (· < ·) where
  left x y hd h := by
    obtain ⟨hx, hy, e⟩ := hS.min x y hd
    rw [e, min_eq_left (le_of_lt h), hx]
  right x y hd h := by
    obtain ⟨hx, hy, e⟩ := hS.min x y hd
    rw [e, min_eq_right (le_of_lt h), hy]

theorem max_picks (hS : S.Ok) : Picks S .max (· > ·) where
  left x y hd h := by
    obtain ⟨hx, hy, e⟩ := hS.max x y hd
    rw [e, max_eq_left (le_of_lt h), hx]
  right x y hd h := by
    obtain ⟨hx, hy, e⟩ := hS.max x y hd
    rw [e, max_eq_right (le_of_lt h), hy]

theorem re_zero_eq : re (0 : 𝕜) = 0 := map_zero _

theorem extConst_true (hS : S.Ok) {op : Bin} {lt : ℝ → ℝ → Prop} (hp : Picks S op lt) (h₁ : Truthful a k₁) (h₂ : Truthful b k₂) (hr : b.rows = a.rows) (hc : b.cols = a.cols)
    (hd : a.All₂ b (S.bdom op)) {v : Val 𝕜} (e : extConst lt (constBin S op) k₁ k₂ = some v) : (a.map₂ (S.bin op) b).Const v.v := by
  intro i hi j hj
  show S.bin op (a.get i j) (b.get i j) = v.v
  have hd := hd i hi j hj
  unfold extConst at e
  split at e
  · rename_i x y hx hy
    by_cases hl : lt (re x) 0 ∧ lt (re x) (re y)
    · rw [if_pos hl] at e
      cases e
      have ex := constVal_true h₁ hx i hi j hj
      have ey := diagVal_true h₂ hy i (hr ▸ hi) j (hc ▸ hj)
      simp only at ex ey
      rw [← ex]
      apply hp.left _ _ hd
      rw [ex, ey]
      split
      · exact hl.2
      · rw [re_zero_eq]; exact hl.1
    · rw [if_neg hl] at e
      exact absurd e (by simp)
  · split at e
    · rename_i y x hy hx
      by_cases hl : lt (re x) 0 ∧ lt (re x) (re y)
      · rw [if_pos hl] at e
        cases e
        have ex := constVal_true h₂ hx i (hr ▸ hi) j (hc ▸ hj)
        have ey := diagVal_true h₁ hy i hi j hj
        simp only at ex ey
        rw [← ex]
        apply hp.right _ _ hd
        rw [ex, ey]
        split
        · exact hl.2
        · rw [re_zero_eq]; exact hl.1
      · rw [if_neg hl] at e
        exact absurd e (by simp)
    · obtain ⟨x, y, hx, hy, hv⟩ := operation_some e
      have ex := constVal_true h₁ hx i hi j hj
      have ey := constVal_true h₂ hy i (hr ▸ hi) j (hc ▸ hj)
      rw [hv, ← hS.constBin _ _ _ hd, ex, ey]

theorem extDiag_true (hS : S.Ok) {op : Bin} {lt : ℝ → ℝ → Prop} (h0 : S.bin op 0 0 = 0) (hp : Picks S op lt) (h₁ : Truthful a k₁) (h₂ : Truthful b k₂) (hr : b.rows = a.rows)
    (hc : b.cols = a.cols) (hd : a.All₂ b (S.bdom op)) {v : Val 𝕜} (e : extDiag lt (constBin S op) k₁ k₂ = some v) : (a.map₂ (S.bin op) b).ConstDiag v.v := by
  intro i hi j hj
  show S.bin op (a.get i j) (b.get i j) = _
  have hd := hd i hi j hj
  unfold extDiag at e
  split at e
  · rename_i x y hx hy
    by_cases hl : lt 0 (re x) ∧ lt (re y) (re x)
    · rw [if_pos hl] at e
      cases e
      have ex := constVal_true h₁ hx i hi j hj
      have ey := diagVal_true h₂ hy i (hr ▸ hi) j (hc ▸ hj)
      simp only at ex ey ⊢
      rw [← ey]
      apply hp.right _ _ hd
      rw [ex, ey]
      split
      · exact hl.2
      · rw [re_zero_eq]; exact hl.1
    · rw [if_neg hl] at e
      exact absurd e (by simp)
  · split at e
    · rename_i y x hy hx
      by_cases hl : lt 0 (re x) ∧ lt (re y) (re x)
      · rw [if_pos hl] at e
        cases e
        have ex := constVal_true h₂ hx i (hr ▸ hi) j (hc ▸ hj)
        have ey := diagVal_true h₁ hy i hi j hj
        simp only at ex ey ⊢
        rw [← ey]
        apply hp.left _ _ hd
        rw [ex, ey]
        split
        · exact hl.2
        · rw [re_zero_eq]; exact hl.1
      · rw [if_neg hl] at e
        exact absurd e (by simp)
    · obtain ⟨x, y, hx, hy, hv⟩ := operation_some e
      have ex := diagVal_true h₁ hx i hi j hj
      have ey := diagVal_true h₂ hy i (hr ▸ hi) j (hc ▸ hj)
      by_cases hij : i = j
      · rw [if_pos hij] at ex ey ⊢
        rw [hv, ← hS.constBin _ _ _ hd, ex, ey]
      · rw [if_neg hij] at ex ey ⊢
        rw [ex, ey, h0]

/-- Functors with the general rules: not `or`, `min` or `max`. -/
def Plain (op : Bin) : Prop := op ≠ .or ∧ op ≠ .min ∧ op ≠ .max

theorem sum_left_zero (hS : S.Ok) {op : Bin} (hk : kind op = .sum) (hp : Plain op) (ho : BinOk S op a b k₁ k₂) (hz : k₁.Zero) (y : 𝕜) : S.bin op 0 y = y := by
  have hn := ho.neutral
  have hdf := ho.diff
  obtain ⟨p1, p2, p3⟩ := hp
  cases op <;> simp_all [kind]
  exact hS.sumL y

theorem sum_right_zero (hS : S.Ok) {op : Bin} (hk : kind op = .sum) (hp : Plain op) (ho : BinOk S op a b k₁ k₂) (hz : k₂.Zero) (x : 𝕜) : S.bin op x 0 = x := by
  have hn := ho.neutral
  obtain ⟨p1, p2, p3⟩ := hp
  cases op <;> simp_all [kind]
  · exact hS.sumR x
  · exact hS.diffR x

theorem binaryConst_plain {op : Bin} (hp : Plain op) : binaryConst S op k₁ k₂ =
    if kind op = .sum ∧ k₁.Zero then k₂.constVal
    else if kind op = .sum ∧ k₂.Zero then k₁.constVal
    else if kind op = .product ∧ k₁.Zero then k₁.constVal
    else if kind op = .product ∧ k₂.Zero then k₂.constVal
    else operation (constBin S op) k₁.constVal k₂.constVal := by
  obtain ⟨p1, p2, p3⟩ := hp
  cases op <;> first | rfl | contradiction

theorem binaryDiag_plain {op : Bin} (hp : Plain op) : binaryDiag S op k₁ k₂ =
    if kind op = .sum ∧ k₁.Zero then k₂.diagVal
    else if kind op = .sum ∧ k₂.Zero then k₁.diagVal
    else if kind op = .product ∧ k₁.Zero then k₁.constVal
    else if kind op = .product ∧ k₂.Zero then k₂.constVal
    else if kind op = .product then
      operation (constBin S op) (if k₁.constVal.isSome then k₁.constVal else k₁.diagVal) (if k₂.constVal.isSome then k₂.constVal else k₂.diagVal)
    else if kind op = .sum ∨ presDiag op then operation (constBin S op) k₁.diagVal k₂.diagVal
    else none := by
  obtain ⟨p1, p2, p3⟩ := hp
  cases op <;> first | rfl | contradiction

theorem binaryConst_true (hS : S.Ok) {op : Bin} (h₁ : Truthful a k₁) (h₂ : Truthful b k₂) (hr : b.rows = a.rows) (hc : b.cols = a.cols)
    (hd : a.All₂ b (S.bdom op)) (ho : BinOk S op a b k₁ k₂) {v : Val 𝕜} (e : binaryConst S op k₁ k₂ = some v) : (a.map₂ (S.bin op) b).Const v.v := by
  by_cases p1 : op = .or
  · subst p1; exact orConst_true hS h₁ h₂ hr hc (ho.bool rfl) e
  by_cases p2 : op = .min
  · subst p2; exact extConst_true hS (min_picks hS) h₁ h₂ hr hc hd e
  by_cases p3 : op = .max
  · subst p3; exact extConst_true hS (max_picks hS) h₁ h₂ hr hc hd e
  have hp : Plain op := ⟨p1, p2, p3⟩
  rw [binaryConst_plain hp] at e
  intro i hi j hj
  have hi' := hr ▸ hi
  have hj' := hc ▸ hj
  show S.bin op (a.get i j) (b.get i j) = v.v
  by_cases c1 : kind op = .sum ∧ k₁.Zero
  · rw [if_pos c1] at e
    rw [Zero.const h₁ c1.2 i hi j hj, sum_left_zero hS c1.1 hp ho c1.2]
    exact constVal_true h₂ e i hi' j hj'
  rw [if_neg c1] at e
  by_cases c2 : kind op = .sum ∧ k₂.Zero
  · rw [if_pos c2] at e
    rw [Zero.const h₂ c2.2 i hi' j hj', sum_right_zero hS c2.1 hp ho c2.2]
    exact constVal_true h₁ e i hi j hj
  rw [if_neg c2] at e
  by_cases c3 : kind op = .product ∧ k₁.Zero
  · rw [if_pos c3] at e
    rw [← constVal_true h₁ e i hi j hj, Zero.const h₁ c3.2 i hi j hj, hS.mulL _ _ c3.1]
  rw [if_neg c3] at e
  by_cases c4 : kind op = .product ∧ k₂.Zero
  · rw [if_pos c4] at e
    rw [← constVal_true h₂ e i hi' j hj', Zero.const h₂ c4.2 i hi' j hj', hS.mulR _ _ c4.1]
  rw [if_neg c4] at e
  obtain ⟨x, y, hx, hy, hv⟩ := operation_some e
  rw [hv, ← hS.constBin _ _ _ (hd i hi j hj), constVal_true h₁ hx i hi j hj, constVal_true h₂ hy i hi' j hj']

theorem zero_constVal (hz : k.Zero) : k.constVal = some ⟨true, 0⟩ := by
  unfold constVal
  rw [hz]

theorem binaryDiag_true (hS : S.Ok) {op : Bin} (h₁ : Truthful a k₁) (h₂ : Truthful b k₂) (hr : b.rows = a.rows) (hc : b.cols = a.cols)
    (hd : a.All₂ b (S.bdom op)) (ho : BinOk S op a b k₁ k₂) {v : Val 𝕜} (e : binaryDiag S op k₁ k₂ = some v) : (a.map₂ (S.bin op) b).ConstDiag v.v := by
  by_cases p1 : op = .or
  · subst p1; exact orDiag_true hS h₁ h₂ hr hc (ho.bool rfl) e
  by_cases p2 : op = .min
  · subst p2; exact extDiag_true hS (hS.bin0 _ (Or.inl rfl)) (min_picks hS) h₁ h₂ hr hc hd e
  by_cases p3 : op = .max
  · subst p3; exact extDiag_true hS (hS.bin0 _ (Or.inl rfl)) (max_picks hS) h₁ h₂ hr hc hd e
  have hp : Plain op := ⟨p1, p2, p3⟩
  rw [binaryDiag_plain hp] at e
  intro i hi j hj
  have hi' := hr ▸ hi
  have hj' := hc ▸ hj
  have hdd := hd i hi j hj
  show S.bin op (a.get i j) (b.get i j) = _
  by_cases c1 : kind op = .sum ∧ k₁.Zero
  · rw [if_pos c1] at e
    rw [Zero.const h₁ c1.2 i hi j hj, sum_left_zero hS c1.1 hp ho c1.2]
    exact diagVal_true h₂ e i hi' j hj'
  rw [if_neg c1] at e
  by_cases c2 : kind op = .sum ∧ k₂.Zero
  · rw [if_pos c2] at e
    rw [Zero.const h₂ c2.2 i hi' j hj', sum_right_zero hS c2.1 hp ho c2.2]
    exact diagVal_true h₁ e i hi j hj
  rw [if_neg c2] at e
  by_cases c3 : kind op = .product ∧ k₁.Zero
  · rw [if_pos c3, zero_constVal c3.2] at e
    cases e
    rw [Zero.const h₁ c3.2 i hi j hj, hS.mulL _ _ c3.1]; simp
  rw [if_neg c3] at e
  by_cases c4 : kind op = .product ∧ k₂.Zero
  · rw [if_pos c4, zero_constVal c4.2] at e
    cases e
    rw [Zero.const h₂ c4.2 i hi' j hj', hS.mulR _ _ c4.1]; simp
  rw [if_neg c4] at e
  by_cases c5 : kind op = .product
  · rw [if_pos c5] at e
    obtain ⟨x, y, hx, hy, hv⟩ := operation_some e
    by_cases q1 : k₁.constVal.isSome
    · rw [if_pos q1] at hx
      have ex := constVal_true h₁ hx i hi j hj
      by_cases q2 : k₂.constVal.isSome
      · rw [if_pos q2] at hy
        have ey := constVal_true h₂ hy i hi' j hj'
        rcases ho.consts (kind_product c5) q1 q2 with z | z | ⟨z1, z2⟩
        · exact absurd ⟨c5, z⟩ c3
        · exact absurd ⟨c5, z⟩ c4
        · rw [if_pos (by omega), hv, ← hS.constBin _ _ _ hdd, ex, ey]
      · rw [if_neg q2] at hy
        have ey := diagVal_true h₂ hy i hi' j hj'
        by_cases hij : i = j
        · rw [if_pos hij] at ey ⊢
          rw [hv, ← hS.constBin _ _ _ hdd, ex, ey]
        · rw [if_neg hij] at ey ⊢
          rw [ey, hS.mulR _ _ c5]
    · rw [if_neg q1] at hx
      have ex := diagVal_true h₁ hx i hi j hj
      by_cases hij : i = j
      · rw [if_pos hij] at ex ⊢
        have ey : b.get i j = y.v := by
          by_cases q2 : k₂.constVal.isSome
          · rw [if_pos q2] at hy
            exact constVal_true h₂ hy i hi' j hj'
          · rw [if_neg q2] at hy
            have := diagVal_true h₂ hy i hi' j hj'
            rwa [if_pos hij] at this
        rw [hv, ← hS.constBin _ _ _ hdd, ex, ey]
      · rw [if_neg hij] at ex ⊢
        rw [ex, hS.mulL _ _ c5]
  rw [if_neg c5] at e
  by_cases c6 : kind op = .sum ∨ presDiag op = true
  · rw [if_pos c6] at e
    obtain ⟨x, y, hx, hy, hv⟩ := operation_some e
    have ex := diagVal_true h₁ hx i hi j hj
    have ey := diagVal_true h₂ hy i hi' j hj'
    by_cases hij : i = j
    · rw [if_pos hij] at ex ey ⊢
      rw [hv, ← hS.constBin _ _ _ hdd, ex, ey]
    · rw [if_neg hij] at ex ey ⊢
      rw [ex, ey, hS.bin0 _ c6]
  · rw [if_neg c6] at e
    exact absurd e (by simp)

theorem tri_add_true {f : 𝕜 → 𝕜 → 𝕜} (h0 : f 0 0 = 0) (hr : b.rows = a.rows) (hc : b.cols = a.cols) {s t : Tri} (hs : a.IsTri s) (ht : b.IsTri t) :
    (a.map₂ f b).IsTri (Tri.add s t) := by
  have low : a.Lower → b.Lower → (a.map₂ f b).Lower := fun p q i hi j hj hij => by
    show f _ _ = 0
    rw [p i hi j hj hij, q i (hr ▸ hi) j (hc ▸ hj) hij, h0]
  have upp : a.Upper → b.Upper → (a.map₂ f b).Upper := fun p q i hi j hj hij => by
    show f _ _ = 0
    rw [p i hi j hj hij, q i (hr ▸ hi) j (hc ▸ hj) hij, h0]
  cases s <;> cases t <;> simp [Tri.add, Arr.IsTri] at hs ht ⊢
  · exact low hs ht
  · exact low hs ht.1
  · exact upp hs ht
  · exact upp hs ht.2
  · exact low hs.1 ht
  · exact upp hs.2 ht
  · exact ⟨low hs.1 ht.1, upp hs.2 ht.2⟩

theorem tri_mul_true {f : 𝕜 → 𝕜 → 𝕜} (hl : ∀ y, f 0 y = 0) (hR : ∀ x, f x 0 = 0) (hr : b.rows = a.rows) (hc : b.cols = a.cols) {s t : Tri} (hs : a.IsTri s) (ht : b.IsTri t) :
    (a.map₂ f b).IsTri (Tri.mul s t) := by
  have l1 : a.Lower → (a.map₂ f b).Lower := fun p i hi j hj hij => by
    show f _ _ = 0
    rw [p i hi j hj hij, hl]
  have l2 : b.Lower → (a.map₂ f b).Lower := fun p i hi j hj hij => by
    show f _ _ = 0
    rw [p i (hr ▸ hi) j (hc ▸ hj) hij, hR]
  have u1 : a.Upper → (a.map₂ f b).Upper := fun p i hi j hj hij => by
    show f _ _ = 0
    rw [p i hi j hj hij, hl]
  have u2 : b.Upper → (a.map₂ f b).Upper := fun p i hi j hj hij => by
    show f _ _ = 0
    rw [p i (hr ▸ hi) j (hc ▸ hj) hij, hR]
  cases s <;> cases t <;> simp [Tri.mul, Arr.IsTri] at hs ht ⊢ <;> tauto

/-- The extents agree with what is known of them. -/
theorem orElse_true {o₁ o₂ : Option ℕ} {r : ℕ} (h₁ : ∀ n, o₁ = some n → r = n) (h₂ : ∀ n, o₂ = some n → r = n) : ∀ n, (o₁ <|> o₂) = some n → r = n := by
  intro n hn
  cases o₁ with
  | none => exact h₂ n (by simpa using hn)
  | some m => exact h₁ n (by simpa using hn)

theorem binary_true' (hS : S.Ok) {op : Bin} (h₁ : Truthful a k₁) (h₂ : Truthful b k₂) (hr : b.rows = a.rows) (hc : b.cols = a.cols)
    (hd : a.All₂ b (S.bdom op)) (ho : BinOk S op a b k₁ k₂) : Truthful (a.map₂ (S.bin op) b) {binaryClaims S op k₁ k₂ with herm := false} where
  const _ e := binaryConst_true hS h₁ h₂ hr hc hd ho e
  diag _ e := binaryDiag_true hS h₁ h₂ hr hc hd ho e
  tri := by
    simp only [binaryClaims]
    cases hk : kind op
    · trivial
    · exact tri_add_true (hS.bin0 _ (Or.inl hk)) hr hc (triOf_true h₁) (triOf_true h₂)
    · exact tri_mul_true (fun y => hS.mulL _ y hk) (fun x => hS.mulR _ x hk) hr hc (triOf_true h₁) (triOf_true h₂)
  herm e := by simp at e
  sr := orElse_true h₁.sr (fun n hn => by rw [← h₂.sr n hn]; exact hr.symm)
  sc := orElse_true h₁.sc (fun n hn => by rw [← h₂.sc n hn]; exact hc.symm)

theorem binary_true (hS : S.Ok) {op : Bin} (h₁ : Truthful a k₁) (h₂ : Truthful b k₂) (hr : b.rows = a.rows) (hc : b.cols = a.cols)
    (hd : a.All₂ b (S.bdom op)) (ho : BinOk S op a b k₁ k₂) (hp : (binaryClaims S op k₁ k₂).herm = true → S.cplx = true → op ≠ .pow) :
    Truthful (a.map₂ (S.bin op) b) (binaryClaims S op k₁ k₂) :=
  { binary_true' hS h₁ h₂ hr hc hd ho with
    herm := by
      intro e
      have hp := hp e
      simp only [binaryClaims, Bool.and_eq_true] at e
      have H₁ := isHerm_true hS h₁ e.1.2
      have H₂ := isHerm_true hS h₂ e.2
      intro he i hi j hj
      have he' : a.rows = a.cols := he
      have hj2 : j < a.rows := he' ▸ hj
      have hi2 : i < a.cols := he' ▸ hi
      show S.bin op _ _ = star (S.bin op _ _)
      rw [H₁ he i hi j hj, H₂ (by rw [hr, hc]; exact he) i (hr ▸ hi) j (hc ▸ hj)]
      exact hS.binHerm op _ _ (hd j hj2 i hi2) hp }

theorem constClaims_true (hS : S.Ok) {m n : ℕ} {sr sc : Option ℕ} {x : 𝕜} (h1 : ∀ r, sr = some r → m = r) (h2 : ∀ r, sc = some r → n = r) :
    Truthful (Arr.const m n x) (constClaims S.cplx x sr sc) where
  const v e := by
    cases e
    intro i _ j _
    rfl
  diag v e := by simp [constClaims] at e
  tri := trivial
  herm e := by
    intro _ i _ j _
    exact (hS.real (by simpa [constClaims] using e) x).symm
  sr := h1
  sc := h2

theorem identityClaims_true {m n : ℕ} {sr sc : Option ℕ} (h1 : ∀ r, sr = some r → m = r) (h2 : ∀ r, sc = some r → n = r) :
    Truthful (Arr.identity m n : Arr 𝕜) (identityClaims sr sc) where
  const v e := by simp [identityClaims] at e
  diag v e := by
    cases e
    intro i _ j _
    rfl
  tri := ⟨fun i _ j _ hij => if_neg (by omega), fun i _ j _ hij => if_neg (by omega)⟩
  herm _ := by
    intro _ i _ j _
    show (if i = j then (1 : 𝕜) else 0) = star (if j = i then (1 : 𝕜) else 0)
    by_cases h : i = j
    · rw [if_pos h, if_pos h.symm, star_one]
    · rw [if_neg h, if_neg (Ne.symm h), star_zero]
  sr := h1
  sc := h2

theorem bind1_true (hS : S.Ok) {op : Bin} {x : 𝕜} (h : Truthful a k) (hd : a.All (S.bdom op x))
    (ho : BinOk S op (Arr.const a.rows a.cols x) a (constClaims S.cplx x k.sr k.sc) k) (hp : (bind1Claims S op x k).herm = true → S.cplx = true → op ≠ .pow ∧ star x = x) :
    Truthful (a.map (S.bin op x)) (bind1Claims S op x k) := by
  have hb : Truthful ((Arr.const a.rows a.cols x).map₂ (S.bin op) a) {binaryClaims S op (constClaims S.cplx x k.sr k.sc) k with herm := false} :=
    binary_true' hS (constClaims_true hS h.sr h.sc) h rfl rfl hd ho
  exact
    { const := fun v e => constVal_true hb e
      diag := fun v e => diagVal_true hb e
      tri := by
        simp only [bind1Claims]
        by_cases hk : kind op = .product
        · rw [if_pos hk]; exact isTri_map (hS.mulR _ _ hk) (triOf_true h)
        · rw [if_neg hk]; trivial
      herm := by
        intro e
        have hp := hp e
        have hx : star x = x := by
          cases hc : S.cplx
          · exact hS.real hc x
          · exact (hp hc).2
        simp only [bind1Claims, Bool.and_eq_true] at e
        have hH := isHerm_true hS h e.2
        intro he i hi j hj
        have he' : a.rows = a.cols := he
        show S.bin op x _ = star (S.bin op x _)
        rw [hH he i hi j hj]
        have := hS.binHerm op x (a.get j i) (hd j (he' ▸ hj) i (he' ▸ hi)) fun hc => (hp hc).1
        rwa [hx] at this
      sr := h.sr
      sc := h.sc }

theorem bind2_true (hS : S.Ok) {op : Bin} {x : 𝕜} (h : Truthful a k) (hd : a.All (S.bdom op · x))
    (ho : BinOk S op a (Arr.const a.rows a.cols x) k (constClaims S.cplx x k.sr k.sc)) (hp : (bind2Claims S op k x).herm = true → S.cplx = true → op ≠ .pow ∧ star x = x) :
    Truthful (a.map (S.bin op · x)) (bind2Claims S op k x) := by
  have hb : Truthful (a.map₂ (S.bin op) (Arr.const a.rows a.cols x)) {binaryClaims S op k (constClaims S.cplx x k.sr k.sc) with herm := false} :=
    binary_true' hS h (constClaims_true hS h.sr h.sc) rfl rfl hd ho
  exact
    { const := fun v e => constVal_true hb e
      diag := fun v e => diagVal_true hb e
      tri := by
        simp only [bind2Claims]
        by_cases hk : kind op = .product
        · rw [if_pos hk]; exact isTri_map (f := fun y => S.bin op y x) (hS.mulL _ _ hk) (triOf_true h)
        · rw [if_neg hk]; trivial
      herm := by
        intro e
        have hp := hp e
        have hx : star x = x := by
          cases hc : S.cplx
          · exact hS.real hc x
          · exact (hp hc).2
        simp only [bind2Claims, Bool.and_eq_true] at e
        have hH := isHerm_true hS h e.2
        intro he i hi j hj
        have he' : a.rows = a.cols := he
        show S.bin op _ x = star (S.bin op _ x)
        rw [hH he i hi j hj]
        have := hS.binHerm op (a.get j i) x (hd j (he' ▸ hj) i (he' ▸ hi)) fun hc => (hp hc).1
        rwa [hx] at this
      sr := h.sr
      sc := h.sc }

end OpenKalman.EigenTraits
