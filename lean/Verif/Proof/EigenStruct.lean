import Verif.Proof.EigenTraits

/-! # Truth of the reports of structural expressions -/

namespace OpenKalman.EigenTraits
open Classical RCLike Claims

variable {𝕜 : Type*} [RCLike 𝕜] {S : Scalar 𝕜} {a b c : Arr 𝕜} {k k₁ k₂ k₃ : Claims 𝕜}

theorem transpose_true (hS : S.Ok) (h : Truthful a k) : Truthful a.transpose (transposeClaims S.cplx k) where
  const v e := fun i hi j hj => constVal_true h e j hj i hi
  diag v e := fun i hi j hj => by
    have := diagVal_true h e j hj i hi
    show a.get j i = _
    rw [this]
    simp only [eq_comm]
  tri := by
    have ht := triOf_true h
    simp only [transposeClaims]
    cases hk : k.triOf <;> rw [hk] at ht <;> simp only
    · trivial
    · exact fun i hi j hj hij => ht j hj i hi hij
    · exact fun i hi j hj hij => ht j hj i hi hij
    · exact ⟨fun i hi j hj hij => ht.2 j hj i hi hij, fun i hi j hj hij => ht.1 j hj i hi hij⟩
  herm e := by
    have hH := isHerm_true hS h e
    intro he i hi j hj
    have he' : a.cols = a.rows := he
    exact hH he'.symm j hj i hi
  sr := h.sc
  sc := h.sr

/-- When the reports of a replication are true. -/
structure ReplicateOk (cplx : Bool) (rf cf : Option ℕ) (a : Arr 𝕜) (k : Claims 𝕜) : Prop where
  /-- the code reports stacked copies of a lower triangle as upper -/
  lower : k.triOf = .lower → cf ≠ some 1
  diagonal : k.triOf = .diagonal → cf = some 1 → rf = some 1
  /-- copies of an object that is only Hermitian because it is not square can make up a square -/
  square : k.isHerm cplx = true → a.rows = a.cols ∨ (rf = some 1 ∧ cf = some 1) ∨ (k.constVal.isSome ∧ cplx = false)

theorem mod_lt_of_lt_mul {i r m : ℕ} (h : i < r * m) : i % m < m := Nat.mod_lt _ (by
  rcases Nat.eq_zero_or_pos m with hm | hm
  · rw [hm, Nat.mul_zero] at h; omega
  · exact hm)

theorem replicate_true (hS : S.Ok) {r q : ℕ} {rf cf : Option ℕ} (hrf : ∀ n, rf = some n → r = n) (hcf : ∀ n, cf = some n → q = n) (h : Truthful a k)
    (ho : ReplicateOk S.cplx rf cf a k) : Truthful (a.replicate r q) (replicateClaims S.cplx rf cf k) where
  const v e := fun i hi j hj => constVal_true h e _ (mod_lt_of_lt_mul hi) _ (mod_lt_of_lt_mul hj)
  diag v e := by
    simp only [replicateClaims] at e
    by_cases h1 : rf = some 1 ∧ cf = some 1
    · rw [if_pos h1] at e
      intro i hi j hj
      have hi' : i < a.rows := by have := hrf 1 h1.1; subst this; simpa [Arr.replicate] using hi
      have hj' : j < a.cols := by have := hcf 1 h1.2; subst this; simpa [Arr.replicate] using hj
      have := diagVal_true h e i hi' j hj'
      show a.get (i % a.rows) (j % a.cols) = _
      rwa [Nat.mod_eq_of_lt hi', Nat.mod_eq_of_lt hj']
    · rw [if_neg h1] at e
      exact absurd e (by simp)
  tri := by
    simp only [replicateClaims]
    have upp : (k.triOf = .upper ∨ k.triOf = .diagonal) → rf = some 1 → (a.replicate r q).Upper := by
      intro ht h1 i hi j hj hij
      have hi' : i < a.rows := by have := hrf 1 h1; subst this; simpa [Arr.replicate] using hi
      show a.get (i % a.rows) (j % a.cols) = 0
      rw [Nat.mod_eq_of_lt hi']
      exact triOf_upper h ht i hi' _ (mod_lt_of_lt_mul hj) (lt_of_le_of_lt (Nat.mod_le _ _) hij)
    by_cases c1 : k.triOf = .diagonal ∧ rf = some 1 ∧ cf = some 1
    · rw [if_pos c1]
      refine ⟨?_, upp (Or.inr c1.1) c1.2.1⟩
      intro i hi j hj hij
      have hj' : j < a.cols := by have := hcf 1 c1.2.2; subst this; simpa [Arr.replicate] using hj
      show a.get (i % a.rows) (j % a.cols) = 0
      rw [Nat.mod_eq_of_lt hj']
      exact triOf_lower h (Or.inr c1.1) _ (mod_lt_of_lt_mul hi) j hj' (lt_of_le_of_lt (Nat.mod_le _ _) hij)
    rw [if_neg c1]
    by_cases c2 : (k.triOf = .upper ∨ k.triOf = .diagonal) ∧ rf = some 1
    · rw [if_pos c2]; exact upp c2.1 c2.2
    rw [if_neg c2]
    by_cases c3 : (k.triOf = .lower ∨ k.triOf = .diagonal) ∧ cf = some 1
    · exfalso
      rcases c3.1 with hl | hd
      · exact ho.lower hl c3.2
      · exact c1 ⟨hd, ho.diagonal hd c3.2, c3.2⟩
    · rw [if_neg c3]; trivial
  herm e := by
    simp only [replicateClaims, Bool.and_eq_true] at e
    have hH := isHerm_true hS h e.1
    intro he i hi j hj
    have he' : r * a.rows = q * a.cols := he
    show a.get _ _ = star (a.get _ _)
    have sq : a.rows = a.cols → a.get (i % a.rows) (j % a.cols) = star (a.get (j % a.rows) (i % a.cols)) := by
      intro hs
      have := hH hs (i % a.rows) (mod_lt_of_lt_mul hi) (j % a.cols) (mod_lt_of_lt_mul hj)
      rw [this, hs]
    rcases ho.square e.1 with hs | hs | ⟨hc, hr⟩
    · exact sq hs
    · have e1 := hrf 1 hs.1
      have e2 := hcf 1 hs.2
      subst e1 e2
      exact sq (by simpa using he')
    · obtain ⟨v, hv⟩ := Option.isSome_iff_exists.mp hc
      have hC := constVal_true h hv
      rw [hC _ (mod_lt_of_lt_mul hi) _ (mod_lt_of_lt_mul hj), hC _ (mod_lt_of_lt_mul (r := r) (by rw [he']; exact hj)) _ (mod_lt_of_lt_mul (r := q) (by rw [← he']; exact hi)), hS.real hr]
  sr n e := by
    simp only [replicateClaims] at e
    split at e
    · rename_i x y hy
      cases e
      show r * a.rows = _
      rw [h.sr _ hy, hrf _ rfl]
    · exact absurd e (by simp)
  sc n e := by
    simp only [replicateClaims] at e
    split at e
    · rename_i x y hy
      cases e
      show q * a.cols = _
      rw [h.sc _ hy, hcf _ rfl]
    · exact absurd e (by simp)

/-- When the reports of a reversal are true: reversing both directions moves the diagonal unless the object is square, and reversing the single row or column of a vector changes nothing. -/
structure ReverseOk (v h : Bool) (a : Arr 𝕜) (k : Claims 𝕜) : Prop where
  both : v = true → h = true → k.diagVal.isSome ∨ k.triOf ≠ .none → a.rows = a.cols
  single : (v = false ∧ h = true ∧ k.sc = some 1) ∨ (v = true ∧ h = false ∧ k.sr = some 1) → k.triOf = .diagonal

theorem reverse_get_lt {v : Bool} {n i : ℕ} (hi : i < n) : (if v then n - 1 - i else i) < n := by
  split <;> omega

theorem reverse_true (hS : S.Ok) {v h : Bool} (ht : Truthful a k) (ho : ReverseOk v h a k) : Truthful (a.reverse v h) (reverseClaims S.cplx v h k) where
  const w e := fun i hi j hj => constVal_true ht e _ (reverse_get_lt hi) _ (reverse_get_lt hj)
  diag w e := by
    simp only [reverseClaims] at e
    by_cases hb : (v && h) = true
    · rw [if_pos hb] at e
      simp only [Bool.and_eq_true] at hb
      obtain ⟨rfl, rfl⟩ := hb
      have hs := ho.both rfl rfl (Or.inl (by rw [e]; rfl))
      intro i hi j hj
      have hi' : i < a.rows := hi
      have hj' : j < a.cols := hj
      have := diagVal_true ht e (a.rows - 1 - i) (by omega) (a.cols - 1 - j) (by omega)
      show a.get (if true = true then a.rows - 1 - i else i) (if true = true then a.cols - 1 - j else j) = _
      rw [if_pos rfl, if_pos rfl, this]
      congr 1
      rw [hs]
      simp only [eq_iff_iff]
      omega
    · rw [if_neg hb] at e
      exact absurd e (by simp)
  tri := by
    simp only [reverseClaims]
    have T := triOf_true ht
    by_cases hb : v = true ∧ h = true
    · obtain ⟨rfl, rfl⟩ := hb
      rw [if_pos (by simp)]
      cases hk : k.triOf <;> rw [hk] at T <;> simp only
      · trivial
      · have hs := ho.both rfl rfl (Or.inr (by rw [hk]; simp))
        intro i hi j hj hij
        have hi' : i < a.rows := hi
        have hj' : j < a.cols := hj
        exact T (a.rows - 1 - i) (by omega) (a.cols - 1 - j) (by omega) (by omega)
      · have hs := ho.both rfl rfl (Or.inr (by rw [hk]; simp))
        intro i hi j hj hij
        have hi' : i < a.rows := hi
        have hj' : j < a.cols := hj
        exact T (a.rows - 1 - i) (by omega) (a.cols - 1 - j) (by omega) (by omega)
      · have hs := ho.both rfl rfl (Or.inr (by rw [hk]; simp))
        constructor
        · intro i hi j hj hij
          have hi' : i < a.rows := hi
          have hj' : j < a.cols := hj
          exact T.2 (a.rows - 1 - i) (by omega) (a.cols - 1 - j) (by omega) (by omega)
        · intro i hi j hj hij
          have hi' : i < a.rows := hi
          have hj' : j < a.cols := hj
          exact T.1 (a.rows - 1 - i) (by omega) (a.cols - 1 - j) (by omega) (by omega)
    · by_cases hs : (v = false ∧ h = true ∧ k.sc = some 1) ∨ (v = true ∧ h = false ∧ k.sr = some 1)
      · have hd := ho.single hs
        rw [hd] at T ⊢
        have key : ∀ i < a.rows, ∀ j < a.cols, i ≠ j → (a.reverse v h).get i j = 0 := by
          intro i hi j hj hij
          rcases hs with ⟨rfl, rfl, hc⟩ | ⟨rfl, rfl, hc⟩
          · have := ht.sc _ hc
            show a.get i (a.cols - 1 - j) = 0
            exact isTri_diag_off T hi (by omega) (by omega)
          · have := ht.sr _ hc
            show a.get (a.rows - 1 - i) j = 0
            exact isTri_diag_off T (by omega) hj (by omega)
        split
        · exact ⟨fun i hi j hj hij => key i hi j hj (by omega), fun i hi j hj hij => key i hi j hj (by omega)⟩
        · trivial
      · rw [if_neg]
        · trivial
        · intro hc
          apply hs
          simp only [Bool.or_eq_true, Bool.and_eq_true, Bool.not_eq_true', decide_eq_true_eq] at hc
          rcases hc with (hc | hc) | hc
          · exact absurd hc hb
          · exact Or.inl ⟨hc.1.1, hc.1.2, hc.2⟩
          · exact Or.inr ⟨hc.1.1, hc.1.2, hc.2⟩
  herm e := by
    simp only [reverseClaims, Bool.and_eq_true, Bool.or_eq_true, decide_eq_true_eq] at e
    have hH := isHerm_true hS ht e.1
    intro he i hi j hj
    have he' : a.rows = a.cols := he
    have hi' : i < a.rows := hi
    have hj' : j < a.cols := hj
    rcases e.2 with (⟨rfl, rfl⟩ | hc) | hc
    · show a.get (a.rows - 1 - i) (a.cols - 1 - j) = star (a.get (a.rows - 1 - j) (a.cols - 1 - i))
      rw [hH he' (a.rows - 1 - i) (by omega) (a.cols - 1 - j) (by omega), he']
    all_goals
      have h1 : a.rows = 1 ∧ a.cols = 1 := by
        first
          | exact ⟨he'.trans (ht.sc _ hc), ht.sc _ hc⟩
          | exact ⟨ht.sr _ hc, he'.symm.trans (ht.sr _ hc)⟩
      have hi0 : i = 0 := by omega
      have hj0 : j = 0 := by omega
      subst hi0 hj0
      have e1 : ∀ b : Bool, (if b = true then 1 - 1 - 0 else 0) = 0 := by intro b; cases b <;> rfl
      simp only [Arr.reverse, h1.1, h1.2, e1]
      exact hH he' 0 (by omega) 0 (by omega)
  sr := ht.sr
  sc := ht.sc

/-- When the reports of a matrix product are true: a rectangular diagonal factor must not lose rows or columns. -/
structure ProductOk (cplx : Bool) (a b : Arr 𝕜) (k₁ k₂ : Claims 𝕜) : Prop where
  left : k₁.diagVal.isSome → k₂.constVal.isSome → ¬ k₁.Zero → ¬ k₂.Zero → a.rows ≤ a.cols
  right : k₁.constVal.isSome → k₂.diagVal.isSome → ¬ k₁.Zero → ¬ k₂.Zero → ¬ (k₁.diagVal.isSome ∧ k₂.constVal.isSome) → b.cols ≤ a.cols
  diags : k₁.diagVal.isSome → k₂.diagVal.isSome → a.rows ≤ a.cols ∨ b.cols ≤ a.cols
  herm : (productClaims cplx a.cols k₁ k₂).herm = true → a.rows = b.cols → a.rows = a.cols

theorem sum_diag_left {d : 𝕜} (hd : a.ConstDiag d) {i : ℕ} (hi : i < a.rows) (f : ℕ → 𝕜) :
    ∑ x ∈ Finset.range a.cols, a.get i x * f x = if i < a.cols then d * f i else 0 := by
  have : ∀ x ∈ Finset.range a.cols, a.get i x * f x = if x = i then d * f i else 0 := by
    intro x hx
    rw [hd i hi x (Finset.mem_range.mp hx)]
    by_cases h : i = x
    · subst h; simp
    · rw [if_neg h, if_neg (Ne.symm h), zero_mul]
  rw [Finset.sum_congr rfl this, Finset.sum_ite_eq']
  simp only [Finset.mem_range]

theorem sum_diag_right {d : 𝕜} (hd : b.ConstDiag d) {n : ℕ} (hn : b.rows = n) {j : ℕ} (hj : j < b.cols) (f : ℕ → 𝕜) :
    ∑ x ∈ Finset.range n, f x * b.get x j = if j < n then f j * d else 0 := by
  have : ∀ x ∈ Finset.range n, f x * b.get x j = if x = j then f j * d else 0 := by
    intro x hx
    rw [hd x (hn ▸ Finset.mem_range.mp hx) j hj]
    by_cases h : x = j
    · subst h; simp
    · rw [if_neg h, if_neg h, mul_zero]
  rw [Finset.sum_congr rfl this, Finset.sum_ite_eq']
  simp only [Finset.mem_range]

theorem productConst_true (h₁ : Truthful a k₁) (h₂ : Truthful b k₂) (hin : b.rows = a.cols) (ho : ProductOk S.cplx a b k₁ k₂) {v : Val 𝕜}
    (e : productConst a.cols k₁ k₂ = some v) : (a.mul b).Const v.v := by
  intro i hi j hj
  show ∑ x ∈ Finset.range a.cols, a.get i x * b.get x j = v.v
  unfold productConst at e
  by_cases c1 : k₁.Zero
  · rw [if_pos c1, zero_constVal c1] at e
    cases e
    exact Finset.sum_eq_zero fun x hx => by rw [Zero.const h₁ c1 i hi x (Finset.mem_range.mp hx), zero_mul]
  rw [if_neg c1] at e
  by_cases c2 : k₂.Zero
  · rw [if_pos c2, zero_constVal c2] at e
    cases e
    exact Finset.sum_eq_zero fun x hx => by rw [Zero.const h₂ c2 x (hin ▸ Finset.mem_range.mp hx) j hj, mul_zero]
  rw [if_neg c2] at e
  by_cases c3 : k₁.diagVal.isSome ∧ k₂.constVal.isSome
  · rw [if_pos c3] at e
    obtain ⟨x, y, hx, hy, hv⟩ := operation_some e
    rw [sum_diag_left (diagVal_true h₁ hx) hi (fun x => b.get x j)]
    have hle := ho.left c3.1 c3.2 c1 c2
    have hi' : i < a.rows := hi
    rw [if_pos (by omega), constVal_true h₂ hy i (by omega) j hj, hv]
  rw [if_neg c3] at e
  by_cases c4 : k₁.constVal.isSome ∧ k₂.diagVal.isSome
  · rw [if_pos c4] at e
    obtain ⟨x, y, hx, hy, hv⟩ := operation_some e
    rw [sum_diag_right (diagVal_true h₂ hy) hin hj (fun x => a.get i x)]
    have hle := ho.right c4.1 c4.2 c1 c2 c3
    have hj' : j < b.cols := hj
    rw [if_pos (by omega), constVal_true h₁ hx i hi j (by omega), hv]
  rw [if_neg c4] at e
  have hsum : ∀ x y : Val 𝕜, k₁.constVal = some x → k₂.constVal = some y → ∑ z ∈ Finset.range a.cols, a.get i z * b.get z j = (a.cols : 𝕜) * x.v * y.v := by
    intro x y hx hy
    rw [Finset.sum_congr rfl fun z hz => by
      rw [constVal_true h₁ hx i hi z (Finset.mem_range.mp hz), constVal_true h₂ hy z (hin ▸ Finset.mem_range.mp hz) j hj]]
    rw [Finset.sum_const, Finset.card_range, nsmul_eq_mul, mul_assoc]
  split at e
  · obtain ⟨w, hw, rfl⟩ := Option.map_eq_some_iff.mp e
    obtain ⟨x, y, hx, hy, hv⟩ := operation_some hw
    rw [hsum x y hx hy]
    show _ = (a.cols : 𝕜) * w.v
    rw [hv, mul_assoc]
  · rename_i n hn
    obtain ⟨x, y, hx, hy, hv⟩ := operation_some e
    have : a.cols = n := orElse_true h₁.sc (fun m hm => by rw [← hin, h₂.sr m hm]) n hn
    rw [hsum x y hx hy, hv, this]

theorem mul_lower (ha : a.Lower) (hb : b.Lower) (hin : b.rows = a.cols) : (a.mul b).Lower := fun i hi j hj hij =>
  Finset.sum_eq_zero (s := Finset.range a.cols) (f := fun x => a.get i x * b.get x j) fun x hx => by
    have hx := Finset.mem_range.mp hx
    by_cases h : i < x
    · rw [ha i hi x hx h, zero_mul]
    · rw [hb x (hin ▸ hx) j hj (by omega), mul_zero]

theorem mul_upper (ha : a.Upper) (hb : b.Upper) (hin : b.rows = a.cols) : (a.mul b).Upper := fun i hi j hj hij =>
  Finset.sum_eq_zero (s := Finset.range a.cols) (f := fun x => a.get i x * b.get x j) fun x hx => by
    have hx := Finset.mem_range.mp hx
    by_cases h : x < i
    · rw [ha i hi x hx h, zero_mul]
    · rw [hb x (hin ▸ hx) j hj (by omega), mul_zero]

theorem product_true (hS : S.Ok) (h₁ : Truthful a k₁) (h₂ : Truthful b k₂) (hin : b.rows = a.cols) (ho : ProductOk S.cplx a b k₁ k₂) :
    Truthful (a.mul b) (productClaims S.cplx a.cols k₁ k₂) where
  const v e := productConst_true h₁ h₂ hin ho e
  diag v e := by
    obtain ⟨x, y, hx, hy, hv⟩ := operation_some e
    have hle := ho.diags (by rw [hx]; rfl) (by rw [hy]; rfl)
    intro i hi j hj
    have hi' : i < a.rows := hi
    have hj' : j < b.cols := hj
    show ∑ x ∈ Finset.range a.cols, a.get i x * b.get x j = _
    rw [sum_diag_left (diagVal_true h₁ hx) hi (fun x => b.get x j)]
    by_cases hc : i < a.cols
    · rw [if_pos hc, diagVal_true h₂ hy i (by omega) j hj, hv]
      by_cases hij : i = j
      · rw [if_pos hij, if_pos hij]
      · rw [if_neg hij, if_neg hij, mul_zero]
    · rw [if_neg hc, if_neg (by omega)]
  tri := by
    simp only [productClaims]
    by_cases c1 : k₁.triOf = .diagonal ∧ k₂.triOf = .diagonal
    · rw [if_pos c1]
      exact ⟨mul_lower (triOf_lower h₁ (Or.inr c1.1)) (triOf_lower h₂ (Or.inr c1.2)) hin, mul_upper (triOf_upper h₁ (Or.inr c1.1)) (triOf_upper h₂ (Or.inr c1.2)) hin⟩
    rw [if_neg c1]
    by_cases c2 : (k₁.triOf = .lower ∨ k₁.triOf = .diagonal) ∧ (k₂.triOf = .lower ∨ k₂.triOf = .diagonal)
    · rw [if_pos c2]; exact mul_lower (triOf_lower h₁ c2.1) (triOf_lower h₂ c2.2) hin
    rw [if_neg c2]
    by_cases c3 : (k₁.triOf = .upper ∨ k₁.triOf = .diagonal) ∧ (k₂.triOf = .upper ∨ k₂.triOf = .diagonal)
    · rw [if_pos c3]; exact mul_upper (triOf_upper h₁ c3.1) (triOf_upper h₂ c3.2) hin
    · rw [if_neg c3]; trivial
  herm e := by
    have hsq := ho.herm e
    simp only [productClaims, Bool.and_eq_true, Bool.or_eq_true, Bool.not_eq_true'] at e
    intro he i hi j hj
    have he' : a.rows = b.cols := he
    have hs := hsq he'
    have hi' : i < a.rows := hi
    have hj' : j < b.cols := hj
    show ∑ x ∈ Finset.range a.cols, a.get i x * b.get x j = star (∑ x ∈ Finset.range a.cols, a.get j x * b.get x i)
    have st : ∀ (o : Option (Val 𝕜)) (x : Val 𝕜), o = some x → (S.cplx = false ∨ notComplex S.cplx o = true) → star x.v = x.v := by
      intro o x hx hc
      rcases hc with hc | hc
      · exact hS.real hc _
      · exact notComplex_star hS hx hc
    rcases e with ⟨⟨hd, hc⟩, hH⟩ | ⟨⟨hd, hc⟩, hH⟩
    · obtain ⟨x, hx⟩ := Option.isSome_iff_exists.mp hd
      have D := diagVal_true h₁ hx
      rw [sum_diag_left D hi (fun z => b.get z j), sum_diag_left D (i := j) (by omega) (fun z => b.get z i), if_pos (by omega), if_pos (by omega), star_mul, st _ _ hx hc,
        isHerm_true hS h₂ hH (by omega) i (by omega) j hj, mul_comm]
    · obtain ⟨x, hx⟩ := Option.isSome_iff_exists.mp hd
      have D := diagVal_true h₂ hx
      rw [sum_diag_right D hin hj (fun z => a.get i z), sum_diag_right D hin (j := i) (by omega) (fun z => a.get j z), if_pos (by omega), if_pos (by omega), star_mul, st _ _ hx hc,
        isHerm_true hS h₁ hH (by omega) i hi j (by omega), mul_comm]
  sr := h₁.sr
  sc := h₂.sc

/-- When the reports of a triangular view are true: a zero matrix with a unit diagonal is not zero, and a constant diagonal must be known to be a diagonal for its opposite triangle to be noticed. -/
structure TriViewOk (d : Arr.DiagMode) (k : Claims 𝕜) : Prop where
  zero : k.Zero → d ≠ .unit
  diag : k.diagVal.isSome → k.triOf = .diagonal ∨ d = .own

theorem triView_get_diag (up : Bool) (d : Arr.DiagMode) (i : ℕ) : (a.triView up d).get i i = match d with | .own => a.get i i | .unit => 1 | .zero => 0 := by
  simp only [Arr.triView]
  rw [if_pos trivial]
  cases d <;> rfl

theorem triView_get_off (up : Bool) (d : Arr.DiagMode) {i j : ℕ} (h : i ≠ j) : (a.triView up d).get i j = if (if up then i < j else j < i) then a.get i j else 0 := by
  simp only [Arr.triView]
  rw [if_neg h]

theorem triView_off_zero (up : Bool) (d : Arr.DiagMode) (hl : up = true → a.Lower) (hu : up = false → a.Upper) {i j : ℕ} (hi : i < a.rows) (hj : j < a.cols) (h : i ≠ j) :
    (a.triView up d).get i j = 0 := by
  rw [triView_get_off up d h]
  cases up
  · simp only [Bool.false_eq_true, if_false]
    by_cases hc : j < i
    · rw [if_pos hc]; exact hu rfl i hi j hj hc
    · rw [if_neg hc]
  · simp only [if_true]
    by_cases hc : i < j
    · rw [if_pos hc]; exact hl rfl i hi j hj hc
    · rw [if_neg hc]

theorem triView_true (hS : S.Ok) {up : Bool} {d : Arr.DiagMode} (h : Truthful a k) (ho : TriViewOk d k) : Truthful (a.triView up d) (triViewClaims S.cplx up d k) where
  const v e := by
    simp only [triViewClaims] at e
    by_cases c : k.Zero ∨ (d = .zero ∧ k.triOf = .diagonal)
    · rw [if_pos c] at e
      cases e
      have hT : k.triOf = .diagonal := by
        rcases c with c | c
        · unfold triOf; rw [if_pos (Or.inl c)]
        · exact c.2
      intro i hi j hj
      have hi' : i < a.rows := hi
      have hj' : j < a.cols := hj
      by_cases hij : i = j
      · subst hij
        rw [triView_get_diag]
        rcases c with c | c
        · cases d
          · exact Zero.const h c i hi' i hj'
          · exact absurd rfl (ho.zero c)
          · rfl
        · rw [c.1]
      · exact triView_off_zero up d (fun _ => triOf_lower h (Or.inr hT)) (fun _ => triOf_upper h (Or.inr hT)) hi' hj' hij
    · rw [if_neg c] at e
      exact absurd e (by simp)
  diag v e := by
    simp only [triViewClaims] at e
    intro i hi j hj
    have hi' : i < a.rows := hi
    have hj' : j < a.cols := hj
    have off : (if up = true then k.triOf = .lower ∨ k.triOf = .diagonal else k.triOf = .upper ∨ k.triOf = .diagonal) → i ≠ j → (a.triView up d).get i j = 0 := by
      intro ho hij
      apply triView_off_zero up d _ _ hi' hj' hij
      · rintro rfl; exact triOf_lower h (by simpa using ho)
      · rintro rfl; exact triOf_upper h (by simpa using ho)
    by_cases c1 : d = .unit ∧ (if up = true then k.triOf = .lower ∨ k.triOf = .diagonal else k.triOf = .upper ∨ k.triOf = .diagonal)
    · rw [if_pos c1] at e
      cases e
      by_cases hij : i = j
      · subst hij
        rw [triView_get_diag, c1.1, if_pos rfl]
      · rw [if_neg hij]; exact off c1.2 hij
    rw [if_neg c1] at e
    by_cases c2 : d = .zero ∧ (if up = true then k.triOf = .lower ∨ k.triOf = .diagonal else k.triOf = .upper ∨ k.triOf = .diagonal)
    · rw [if_pos c2] at e
      cases e
      by_cases hij : i = j
      · subst hij
        rw [triView_get_diag, c2.1, if_pos rfl]
      · rw [if_neg hij]; exact off c2.2 hij
    rw [if_neg c2] at e
    have D := diagVal_true h e
    have hd : d = .own := by
      rcases ho.diag (by rw [e]; rfl) with ht | ht
      · cases d
        · rfl
        · exact absurd ⟨rfl, by cases up <;> simp [ht]⟩ c1
        · exact absurd ⟨rfl, by cases up <;> simp [ht]⟩ c2
      · exact ht
    by_cases hij : i = j
    · subst hij
      rw [triView_get_diag, hd, if_pos rfl]
      have := D i hi' i hj'
      rwa [if_pos rfl] at this
    · rw [if_neg hij]
      exact triView_off_zero up d (fun _ => constDiag_lower D) (fun _ => constDiag_upper D) hi' hj' hij
  tri := by
    simp only [triViewClaims]
    have T := triOf_true h
    have own : (a.triView up d).IsTri (if up then .upper else .lower) := by
      cases up
      · intro i hi j hj hij
        rw [triView_get_off _ _ (by omega)]
        simp only [Bool.false_eq_true, if_false]
        rw [if_neg (by omega)]
      · intro i hi j hj hij
        rw [triView_get_off _ _ (by omega)]
        simp only [if_true]
        rw [if_neg (by omega)]
    have low : a.Lower → (a.triView up d).Lower := fun p i hi j hj hij => by
      rw [triView_get_off _ _ (by omega), p i hi j hj hij, ite_self]
    have upp : a.Upper → (a.triView up d).Upper := fun p i hi j hj hij => by
      rw [triView_get_off _ _ (by omega), p i hi j hj hij, ite_self]
    cases up <;> cases hk : k.triOf <;> rw [hk] at T <;> simp [Tri.mul, Arr.IsTri] at own T ⊢ <;> tauto
  herm e := by
    simp only [triViewClaims, Bool.and_eq_true, Bool.or_eq_true, Bool.not_eq_true', decide_eq_true_eq] at e
    have hl := triOf_lower h (Or.inr e.1)
    have hu := triOf_upper h (Or.inr e.1)
    have off : ∀ i < a.rows, ∀ j < a.cols, i ≠ j → (a.triView up d).get i j = 0 := fun i hi j hj hij =>
      triView_off_zero up d (fun _ => hl) (fun _ => hu) hi hj hij
    apply diag_real_herm (a := a.triView up d) (fun i hi j hj hij => off i hi j hj (by omega)) (fun i hi j hj hij => off i hi j hj (by omega))
    intro i hi hj
    rw [triView_get_diag]
    have hi' : i < a.rows := hi
    have hj' : i < a.cols := hj
    cases d
    · show star (a.get i i) = a.get i i
      rcases e.2 with (hr | hr) | hr
      · exact hS.real hr _
      · cases ho : k.constVal with
        | none => rw [ho] at hr; simp [notComplex] at hr
        | some v => rw [constVal_true h ho i hi' i hj']; exact notComplex_star hS ho hr
      · cases ho : k.diagVal with
        | none => rw [ho] at hr; simp [notComplex] at hr
        | some v =>
          have := diagVal_true h ho i hi' i hj'
          rw [if_pos rfl] at this
          rw [this]; exact notComplex_star hS ho hr
    · exact star_one _
    · exact star_zero _
  sr := h.sr
  sc := h.sc

theorem selfAdjoint_true (hS : S.Ok) {up : Bool} (hsq : a.rows = a.cols) (h : Truthful a k) : Truthful (a.selfAdjointView up) (selfAdjointClaims S.cplx k) := by
  have get : ∀ i j, (a.selfAdjointView up).get i j = a.get i j ∨ (a.selfAdjointView up).get i j = star (a.get j i) ∧ i ≠ j := by
    intro i j
    simp only [Arr.selfAdjointView]
    by_cases c : i = j ∨ (if up = true then i < j else j < i)
    · rw [if_pos c]; exact Or.inl rfl
    · rw [if_neg c]; exact Or.inr ⟨rfl, fun h => c (Or.inl h)⟩
  have constT : ∀ v : 𝕜, a.Const v → star v = v → (a.selfAdjointView up).Const v := by
    intro v hv hs i hi j hj
    have hi' : i < a.rows := hi
    have hj' : j < a.cols := hj
    rcases get i j with e | ⟨e, _⟩
    · rw [e]; exact hv i hi j hj
    · rw [e, hv j (by omega) i (by omega), hs]
  have diagT : ∀ v : 𝕜, a.ConstDiag v → (a.selfAdjointView up).ConstDiag v := by
    intro v hv i hi j hj
    have hi' : i < a.rows := hi
    have hj' : j < a.cols := hj
    rcases get i j with e | ⟨e, hij⟩
    · rw [e]; exact hv i hi j hj
    · rw [e, hv j (by omega) i (by omega), if_neg hij, if_neg (Ne.symm hij), star_zero]
  refine { const := ?_, diag := fun v e => diagT v.v (diagVal_true h e), tri := ?_, herm := ?_, sr := h.sr, sc := h.sc }
  · intro v e
    simp only [selfAdjointClaims] at e
    by_cases c : S.cplx = false
    · rw [if_pos c] at e
      exact constT _ (constVal_true h e) (hS.real c _)
    · rw [if_neg c] at e
      split at e
      · rename_i w hw
        by_cases him : im w = 0
        · rw [if_pos him] at e
          cases e
          exact constT _ (constVal_true h hw) (RCLike.conj_eq_iff_im.mpr him)
        · rw [if_neg him] at e
          exact absurd e (by simp)
      · exact absurd e (by simp)
  · simp only [selfAdjointClaims]
    by_cases c : k.triOf = .diagonal
    · rw [if_pos c]
      have T := triOf_true h
      rw [c] at T
      have off : ∀ i < a.rows, ∀ j < a.cols, i ≠ j → (a.selfAdjointView up).get i j = 0 := by
        intro i hi j hj hij
        rcases get i j with e | ⟨e, _⟩
        · rw [e]; exact isTri_diag_off T hi hj hij
        · rw [e, isTri_diag_off T (by omega) (by omega) (Ne.symm hij), star_zero]
      exact ⟨fun i hi j hj hij => off i hi j hj (by omega), fun i hi j hj hij => off i hi j hj (by omega)⟩
    · rw [if_neg c]; trivial
  · intro e
    simp only [selfAdjointClaims, Bool.or_eq_true, Bool.not_eq_true'] at e
    rcases e with (hr | hr) | hr
    · intro _ i hi j hj
      simp only [Arr.selfAdjointView, hS.real hr]
      rcases lt_trichotomy i j with l | l | l
      · cases up
        · rw [if_neg (by simp; omega), if_pos (by simp; omega)]
        · rw [if_pos (by simp; omega), if_neg (by simp; omega)]
      · subst l; rfl
      · cases up
        · rw [if_pos (by simp; omega), if_neg (by simp; omega)]
        · rw [if_neg (by simp; omega), if_pos (by simp; omega)]
    · cases ho : k.constVal with
      | none => rw [ho] at hr; simp [notComplex] at hr
      | some v =>
        have hs := notComplex_star hS ho hr
        exact const_herm (constT _ (constVal_true h ho) hs) hs
    · cases ho : k.diagVal with
      | none => rw [ho] at hr; simp [notComplex] at hr
      | some v =>
        have hs := notComplex_star hS ho hr
        have D := diagT _ (diagVal_true h ho)
        refine diag_real_herm (constDiag_lower D) (constDiag_upper D) fun i hi hj => ?_
        rw [D i hi i hj, if_pos rfl, hs]

theorem select_get (i j : ℕ) : (c.select a b).get i j = if c.get i j ≠ 0 then a.get i j else b.get i j := by
  simp only [Arr.select]
  congr

theorem select_true (hS : S.Ok) (h₁ : Truthful c k₁) (h₂ : Truthful a k₂) (h₃ : Truthful b k₃) (hr : a.rows = c.rows) (hc : a.cols = c.cols) (hr' : b.rows = c.rows)
    (hc' : b.cols = c.cols) : Truthful (c.select a b) (selectClaims S.cplx k₁ k₂ k₃) := by
  have pick : ∀ v : 𝕜, c.Const v → ∀ i < c.rows, ∀ j < c.cols, (c.select a b).get i j = if v ≠ 0 then a.get i j else b.get i j := by
    intro v hv i hi j hj
    rw [select_get, hv i hi j hj]
  refine { const := ?_, diag := ?_, tri := ?_, herm := ?_, sr := ?_, sc := ?_ }
  · intro v e
    simp only [selectClaims] at e
    split at e
    · rename_i w hw
      have C := constVal_true h₁ hw
      intro i hi j hj
      rw [pick _ C i hi j hj]
      simp only
      by_cases c0 : w ≠ 0
      · rw [if_pos c0] at e ⊢; exact constVal_true h₂ e i (hr ▸ hi) j (hc ▸ hj)
      · rw [if_neg c0] at e ⊢; exact constVal_true h₃ e i (hr' ▸ hi) j (hc' ▸ hj)
    · exact absurd e (by simp)
    · split at e
      · rename_i x y hx hy
        by_cases hxy : x = y
        · rw [if_pos hxy] at e
          cases e
          intro i hi j hj
          rw [select_get, constVal_true h₂ hx i (hr ▸ hi) j (hc ▸ hj), constVal_true h₃ hy i (hr' ▸ hi) j (hc' ▸ hj)]
          simp [hxy]
        · rw [if_neg hxy] at e
          exact absurd e (by simp)
      · exact absurd e (by simp)
  · intro v e
    simp only [selectClaims] at e
    split at e
    · rename_i w hw
      have C := constVal_true h₁ hw
      intro i hi j hj
      rw [pick _ C i hi j hj]
      simp only
      by_cases c0 : w ≠ 0
      · rw [if_pos c0] at e ⊢; exact diagVal_true h₂ e i (hr ▸ hi) j (hc ▸ hj)
      · rw [if_neg c0] at e ⊢; exact diagVal_true h₃ e i (hr' ▸ hi) j (hc' ▸ hj)
    · exact absurd e (by simp)
    · split at e
      · rename_i x y hx hy
        by_cases hxy : x = y
        · rw [if_pos hxy] at e
          cases e
          intro i hi j hj
          rw [select_get, diagVal_true h₂ hx i (hr ▸ hi) j (hc ▸ hj), diagVal_true h₃ hy i (hr' ▸ hi) j (hc' ▸ hj)]
          simp [hxy]
        · rw [if_neg hxy] at e
          exact absurd e (by simp)
      · exact absurd e (by simp)
  · simp only [selectClaims]
    split
    · rename_i w hw
      have C := constVal_true h₁ hw
      have key : ∀ {x : Arr 𝕜} {t : Tri}, x.rows = c.rows → x.cols = c.cols → (∀ i < c.rows, ∀ j < c.cols, (c.select a b).get i j = x.get i j) → x.IsTri t → (c.select a b).IsTri t := by
        intro x t e1 e2 eg ht
        cases t
        · trivial
        · exact fun i hi j hj hij => (eg i hi j hj).trans (ht i (e1 ▸ hi) j (e2 ▸ hj) hij)
        · exact fun i hi j hj hij => (eg i hi j hj).trans (ht i (e1 ▸ hi) j (e2 ▸ hj) hij)
        · exact ⟨fun i hi j hj hij => (eg i hi j hj).trans (ht.1 i (e1 ▸ hi) j (e2 ▸ hj) hij), fun i hi j hj hij => (eg i hi j hj).trans (ht.2 i (e1 ▸ hi) j (e2 ▸ hj) hij)⟩
      by_cases c0 : w ≠ 0
      · rw [if_pos c0]
        exact key hr hc (fun i hi j hj => by rw [pick _ C i hi j hj]; simp only; rw [if_pos c0]) (triOf_true h₂)
      · rw [if_neg c0]
        exact key hr' hc' (fun i hi j hj => by rw [pick _ C i hi j hj]; simp only; rw [if_neg c0]) (triOf_true h₃)
    · trivial
  · intro e
    simp only [selectClaims] at e
    intro he i hi j hj
    have he' : c.rows = c.cols := he
    have hi' : i < c.rows := hi
    have hj' : j < c.cols := hj
    split at e
    · rename_i w hw
      have C := constVal_true h₁ hw
      rw [pick _ C i hi j hj, pick _ C j (by omega) i (by omega)]
      simp only
      by_cases c0 : w ≠ 0
      · rw [if_pos c0] at e
        rw [if_pos c0, if_pos c0]
        exact isHerm_true hS h₂ e (by omega) i (by omega) j (by omega)
      · rw [if_neg c0] at e
        rw [if_neg c0, if_neg c0]
        exact isHerm_true hS h₃ e (by omega) i (by omega) j (by omega)
    · simp only [Bool.and_eq_true] at e
      have e1 := isHerm_true hS h₁ e.1.1 he' i hi j hj
      have e2 := isHerm_true hS h₂ e.1.2 (by omega) i (by omega) j (by omega)
      have e3 := isHerm_true hS h₃ e.2 (by omega) i (by omega) j (by omega)
      rw [select_get, select_get, e1, e2, e3]
      by_cases c0 : c.get j i = 0
      · simp [c0]
      · rw [if_pos (by simpa using c0), if_pos c0]
  · exact orElse_true h₁.sr (orElse_true (fun n hn => by rw [← h₂.sr n hn]; exact hr.symm) (fun n hn => by rw [← h₃.sr n hn]; exact hr'.symm))
  · exact orElse_true h₁.sc (orElse_true (fun n hn => by rw [← h₂.sc n hn]; exact hc.symm) (fun n hn => by rw [← h₃.sc n hn]; exact hc'.symm))

theorem diagonal_true {idx : ℤ} {static : Bool} (h : Truthful a k) (hlo : -(a.rows : ℤ) < idx) (hhi : idx < a.cols) {v : Val 𝕜}
    (e : diagonalConst a.rows a.cols idx static k = .ok (some v)) : (a.diagonal idx).Const v.v := by
  intro i hi j hj
  have hi' : i < min (a.rows - (-idx).toNat) (a.cols - idx.toNat) := hi
  have hr : i + (-idx).toNat < a.rows := by omega
  have hc : i + idx.toNat < a.cols := by omega
  show a.get (i + (-idx).toNat) (i + idx.toNat) = v.v
  have diag0 : ∀ w : Val 𝕜, k.diagVal = some w → idx = 0 → a.get (i + (-idx).toNat) (i + idx.toNat) = w.v := by
    intro w hw h0
    rw [diagVal_true h hw _ hr _ hc, if_pos (by omega)]
  have diagN : k.diagVal.isSome → idx ≠ 0 → a.get (i + (-idx).toNat) (i + idx.toNat) = 0 := by
    intro hs h0
    obtain ⟨w, hw⟩ := Option.isSome_iff_exists.mp hs
    rw [diagVal_true h hw _ hr _ hc, if_neg (by omega)]
  simp only [diagonalConst] at e
  have ds : static = true → (if static = true then idx else 0xffffff) = idx := fun hst => if_pos hst
  have dn : static = false → (if static = true then idx else 0xffffff) ≠ 0 := fun hst => by rw [hst]; norm_num
  generalize (if static = true then idx else 0xffffff) = d at e ds dn
  by_cases c1 : k.diagVal.isSome ∧ d = 0
  · rw [if_pos c1] at e
    cases static
    · exact absurd c1.2 (dn rfl)
    · exact diag0 v (Except.ok.inj e) ((ds rfl).symm.trans c1.2)
  rw [if_neg c1] at e
  split at e
  · rename_i c2
    have hv : v.v = 0 := by
      split at e
      · split at e
        · exact absurd e (by simp)
        · cases e; rfl
      · split at e
        · split at e
          · exact absurd e (by simp)
          · cases e; rfl
        · cases e; rfl
    rw [hv]
    rcases c2 with z | ⟨hs, hst, hcond⟩
    · exact Zero.const h z _ hr _ hc
    · apply diagN hs
      rw [ds hst] at hcond
      rcases hcond with ⟨l, _⟩ | ⟨l, _⟩ <;> omega
  · split at e
    · rename_i c3
      by_cases h0 : idx = 0
      · rw [if_pos h0] at e
        obtain ⟨w, hw, rfl⟩ := Option.map_eq_some_iff.mp (Except.ok.inj e)
        exact diag0 w hw h0
      · rw [if_neg h0, if_pos ⟨hlo, hhi⟩] at e
        cases e
        exact diagN c3.1 h0
    · exact constVal_true h (Except.ok.inj e) _ hr _ hc

end OpenKalman.EigenTraits
