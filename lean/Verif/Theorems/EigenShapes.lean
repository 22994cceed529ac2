import Verif.Proof.EigenShapes
import Mathlib.Tactic.IntervalCases

/-! # C116, C117: what the traits say about reshaped and about diagonal Eigen objects -/

namespace OpenKalman.EigenShapes
open OpenKalman.EigenTraits

variable {𝕜 : Type*}

/-! ## C116: reshaped matrices -/

/-- **C116** (dimensions): a dimension inferred at compile time is that of the object. -/
theorem C116_dimension (t : Reshaped) (a : Arr 𝕜) (r c : ℕ) (h : t.Fits a r c) : Knows (t.pattern 0) r ∧ Knows (t.pattern 1) c := by
  constructor
  · exact dimension_sound t a r c t.rows t.cols h.rows h.cols h.xprRows h.xprCols h.swap h.size
  · exact dimension_sound t a c r t.cols t.rows h.cols h.rows h.xprRows h.xprCols h.swap (by rw [Nat.mul_comm]; exact h.size)

/-- **C116** (dimensions): if the number of components and one extent other than zero are known, so is the other extent. -/
theorem C116_dimension_complete (t : Reshaped) (a : Arr 𝕜) (r c : ℕ) (h : t.Fits a r c) (hm : t.xprRows = some a.rows) (hn : t.xprCols = some a.cols)
    (hk : t.rows = some r ∧ r ≠ 0 ∨ t.cols = some c ∧ c ≠ 0) : t.pattern 0 = some r ∧ t.pattern 1 = some c := by
  have hs := h.size
  have key : ∀ (x y : ℕ) (d : Option ℕ), Knows d x → y ≠ 0 → x * y = a.rows * a.cols → t.dimension d (some y) = some x := by
    intro x y d hd hy hxy
    cases d with
    | some d => rw [hd d rfl]; rfl
    | none =>
      have hpos := Nat.pos_of_ne_zero hy
      simp only [Reshaped.dimension]
      rw [if_neg hy, hm, hn]
      by_cases h1 : a.rows = y
      · rw [if_pos (by rw [h1])]
        rw [h1, Nat.mul_comm] at hxy
        rw [Nat.eq_of_mul_eq_mul_left hpos hxy]
      · rw [if_neg (by simpa using h1)]
        by_cases h2 : a.cols = y
        · rw [if_pos (by rw [h2])]
          rw [h2] at hxy
          rw [Nat.eq_of_mul_eq_mul_right hpos hxy]
        · rw [if_neg (by simpa using h2)]
          simp only [Reshaped.components, hm, hn]
          rw [← hxy, if_pos (Nat.mul_mod_left _ _), Nat.mul_div_cancel _ hpos]
  have stat : ∀ (x : ℕ) (o : Option ℕ), t.dimension (some x) o = some x := fun _ _ => rfl
  show t.dimension t.rows t.cols = _ ∧ t.dimension t.cols t.rows = _
  rcases hk with ⟨e, h0⟩ | ⟨e, h0⟩
  · rw [e]
    exact ⟨stat _ _, key c r t.cols h.cols h0 (by rw [Nat.mul_comm]; exact hs)⟩
  · rw [e]
    exact ⟨key r c t.rows h.rows h0 hs, stat _ _⟩

/-- **C116** (constants): a constant stays the constant, whatever the extents and the order. -/
theorem C116_constant (t : Reshaped) (a : Arr 𝕜) (r c : ℕ) (h : t.Fits a r c) (byRows : Bool) (nested : Option 𝕜) (hn : ∀ x ∈ nested, a.Const x) :
    ∀ x ∈ t.constant nested, (reshape byRows r c a).Const x := by
  intro x hx i hi j hj
  obtain ⟨i', hi', j', hj', e⟩ := reshape_mem byRows r c a h.size (i := i) (j := j) hi hj
  rw [e]
  exact hn x hx i' hi' j' hj'

/-- **C116** (diagonals): what is reported as a constant diagonal is one. -/
theorem C116_constant_diagonal [Zero 𝕜] (t : Reshaped) (a : Arr 𝕜) (r c : ℕ) (h : t.Fits a r c) (byRows : Bool) (nested : Option 𝕜)
    (hn : ∀ x ∈ nested, a.ConstDiag x) : ∀ x ∈ t.constantDiagonal nested, (reshape byRows r c a).ConstDiag x := by
  intro x hx i hi j hj
  have hi : i < r := hi
  have hj : j < c := hj
  unfold Reshaped.constantDiagonal at hx
  cases hk : t.keeps with
  | false => rw [hk] at hx; cases hx
  | true =>
    rw [hk] at hx
    obtain ⟨rfl, rfl⟩ := keeps_extents h hk (Nat.mul_pos (Nat.zero_lt_of_lt hi) (Nat.zero_lt_of_lt hj))
    rw [reshape_same byRows a hi hj]
    exact hn x hx i hi j hj

/-- **C116** (triangles): what is reported as lower or upper triangular is. -/
theorem C116_triangle [Zero 𝕜] (t : Reshaped) (a : Arr 𝕜) (r c : ℕ) (h : t.Fits a r c) (byRows : Bool) (nested : Bool) (ht : t.triangle nested = true) :
    ((nested = true → a.Lower) → (reshape byRows r c a).Lower) ∧ ((nested = true → a.Upper) → (reshape byRows r c a).Upper) := by
  obtain ⟨hn, hk⟩ : nested = true ∧ t.keeps = true := by simpa [Reshaped.triangle] using ht
  have key : ∀ i < r, ∀ j < c, i < a.rows ∧ j < a.cols ∧ (reshape byRows r c a).get i j = a.get i j := by
    intro i hi j hj
    obtain ⟨rfl, rfl⟩ := keeps_extents h hk (Nat.mul_pos (Nat.zero_lt_of_lt hi) (Nat.zero_lt_of_lt hj))
    exact ⟨hi, hj, reshape_same byRows a hi hj⟩
  constructor
  · intro hl i hi j hj hij
    obtain ⟨h1, h2, e⟩ := key i hi j hj
    rw [e]
    exact hl hn i h1 j h2 hij
  · intro hl i hi j hj hij
    obtain ⟨h1, h2, e⟩ := key i hi j hj
    rw [e]
    exact hl hn i h1 j h2 hij

/-- **C116** (one component): if the reports for the nested object are right, so are those for the reshaped one: what is guaranteed to have one component
does, and what has one component is permitted to. -/
theorem C116_one_dimensional (t : Reshaped) (a : Arr 𝕜) (r c : ℕ) (h : t.Fits a r c) (permitted guaranteed : Bool)
    (hp : a.rows = 1 ∧ a.cols = 1 → permitted = true) (hg : guaranteed = true → a.rows = 1 ∧ a.cols = 1) :
    (t.oneDimensional permitted guaranteed = true → r = 1 ∧ c = 1) ∧ (r = 1 ∧ c = 1 → t.oneDimensional permitted permitted = true) := by
  have hs := h.size
  constructor
  · intro ht
    simp only [Reshaped.oneDimensional, Bool.or_eq_true, Bool.and_eq_true, beq_iff_eq] at ht
    rcases ht with ⟨⟨h1, h2⟩, _⟩ | ⟨_, h3⟩
    · exact ⟨(h.rows 1 h1).symm, (h.cols 1 h2).symm⟩
    · obtain ⟨e1, e2⟩ := hg h3
      rw [e1, e2] at hs
      exact ⟨Nat.eq_one_of_mul_eq_one_right hs, Nat.eq_one_of_mul_eq_one_left hs⟩
  · rintro ⟨rfl, rfl⟩
    have e1 : a.rows = 1 := Nat.eq_one_of_mul_eq_one_right hs.symm
    have e2 : a.cols = 1 := Nat.eq_one_of_mul_eq_one_left hs.symm
    have hp := hp ⟨e1, e2⟩
    subst hp
    have k1 : t.rows = some 1 ∨ t.rows = none := by
      cases hr : t.rows with
      | none => exact .inr rfl
      | some k => rw [h.rows k hr]; exact .inl rfl
    have k2 : t.cols = some 1 ∨ t.cols = none := by
      cases hr : t.cols with
      | none => exact .inr rfl
      | some k => rw [h.cols k hr]; exact .inl rfl
    rcases k1 with k1 | k1 <;> rcases k2 with k2 | k2 <;> simp [Reshaped.oneDimensional, k1, k2]

/-- **C116** (squares, partial): what is guaranteed to be square is, if the number of rows is known and there are components.  Missing: an unknown number of
rows, see below. -/
theorem C116_square_partial (t : Reshaped) (a : Arr 𝕜) (r c : ℕ) (h : t.Fits a r c) (near : ℕ → Bool) (hr : t.rows = some r) (hpos : 0 < r * c)
    (hg : t.isSquare near true = some true) : r = c := by
  simp only [Reshaped.isSquare, andThen_true] at hg
  obtain ⟨h1, h2, h3, -⟩ := hg
  cases hc : t.cols with
  | some k =>
    have hk := h.cols k hc
    subst hk
    rw [hr, hc] at h2
    simpa using h2
  | none =>
    rw [hr, hc] at h1
    simp only [Bool.not_true, Option.isSome_some, Option.isSome_none, Bool.and_false, Bool.or_false, Bool.false_or, Bool.true_and,
      Bool.and_eq_true, Option.isSome_iff_exists] at h1
    obtain ⟨⟨m, hm⟩, ⟨n, hn⟩⟩ := h1
    simp only [Reshaped.components, hm, hn, hr, Bool.and_eq_true, beq_iff_eq] at h3
    have e1 := h.xprRows m hm
    have e2 := h.xprCols n hn
    rw [e1, e2, ← h.size] at h3
    exact Nat.eq_of_mul_eq_mul_left (Nat.pos_of_mul_pos_right hpos) h3.2

/-- **C116** violated: a 4 × 4 matrix reshaped to 8 columns and an unknown number of rows is guaranteed to be square, though it has 2 rows. -/
theorem C116_square_violated :
    let t : Reshaped := ⟨some 4, some 4, none, some 8⟩
    let a : Arr ℤ := ⟨4, 4, fun i j => i + j⟩
    t.Fits a 2 8 ∧ ∀ near : ℕ → Bool, (∀ k, near (k * k) = true) → t.isSquare near true = some true := by
  constructor
  · constructor <;> simp [Knows]
  · intro near hn
    have : near 16 = true := hn 4
    simp [Reshaped.isSquare, Reshaped.components, Reshaped.largest, divides, andThen, this]

/-- **C116** (squares): what is square and has components is permitted to be. -/
theorem C116_square_permitted (t : Reshaped) (a : Arr 𝕜) (r c : ℕ) (h : t.Fits a r c) (near : ℕ → Bool) (hn : ∀ k, near (k * k) = true) (hpos : 0 < r * c)
    (hs : r = c) : t.isSquare near false = some true := by
  subst hs
  have hsz := h.size
  have hl : ∀ q, t.largest = some q → q ≠ 0 ∧ a.rows * a.cols % q = 0 := fun q hq => largest_dvd h.xprRows h.xprCols (by rw [← hsz]; exact hpos) hq
  simp only [Reshaped.isSquare, andThen_true]
  refine ⟨rfl, ?_, ?_, ?_⟩
  · cases h1 : t.rows with
    | none => rfl
    | some p =>
      cases h2 : t.cols with
      | none => rfl
      | some q => rw [h.rows p h1, h.cols q h2]; simp
  · cases hm : t.components with
    | none => rfl
    | some m =>
      have e := h.swap m hm
      rw [← hsz] at e
      subst e
      simp only [hn, Bool.true_and]
      cases h1 : t.rows with
      | none => rfl
      | some p => rw [h.rows p h1]; simp
  · rw [divides_ok h.rows hl hsz]
    exact (andThen_true (a := true)).mpr ⟨rfl, divides_ok h.cols hl hsz⟩

/-- **C116** violated: whether a 0 × 0 matrix (which counts as square) reshaped as 0 × 0 is square, is ill-formed, because a remainder by zero is taken. -/
theorem C116_empty_violated :
    let t : Reshaped := ⟨some 0, some 0, some 0, some 0⟩
    let a : Arr ℤ := ⟨0, 0, fun _ _ => 0⟩
    t.Fits a 0 0 ∧ ∀ near : ℕ → Bool, (∀ k, near (k * k) = true) → ∀ g, t.isSquare near g = none := by
  constructor
  · constructor <;> simp [Knows]
  · intro near hn g
    have : near 0 = true := hn 0
    simp [Reshaped.isSquare, Reshaped.components, Reshaped.largest, divides, andThen, this]

/-- **C116** (Hermitian, partial): a square Hermitian matrix, reshaped to a square one, is Hermitian, whatever is reported; and what is reported is so.
Missing: nested matrices that are Hermitian only in the sense that they are not square, see below. -/
theorem C116_hermitian_partial [Star 𝕜] (t : Reshaped) (a : Arr 𝕜) (r c : ℕ) (h : t.Fits a r c) (byRows nested : Bool) (hsq : a.rows = a.cols)
    (hn : nested = true → a.Herm) (ht : t.isHermitian nested = true) : (reshape byRows r c a).Herm := by
  intro hs i hi j hj
  have hs : r = c := hs
  have hi : i < r := hi
  have hj : j < c := hj
  subst hs
  have hsz := h.size
  have e : r = a.rows := by
    rw [← hsq] at hsz
    exact Nat.mul_self_inj.mp hsz
  have e2 : r = a.cols := e.trans hsq
  have hg : ∀ {p q}, p < r → q < r → (reshape byRows r r a).get p q = a.get p q := by
    intro p q hp hq
    have := reshape_same byRows a (i := p) (j := q) (by omega) (by omega)
    rw [← e, ← e2] at this
    exact this
  rw [hg hi hj, hg hj hi]
  have hnt : nested = true := by
    cases nested with
    | true => rfl
    | false => simp [Reshaped.isHermitian] at ht
  exact hn hnt hsq i (by omega) j (by omega)

/-- **C116** (Hermitian): if a square matrix is reported Hermitian and reshaped to a square one, that is reported Hermitian, too. -/
theorem C116_hermitian_complete (t : Reshaped) (a : Arr 𝕜) (r c : ℕ) (h : t.Fits a r c) (hsq : a.rows = a.cols) (hs : r = c)
    (hx : t.xprRows.isSome = t.xprCols.isSome) : t.isHermitian true = true := by
  subst hs
  have hsz := h.size
  have e : r = a.rows := by
    rw [← hsq] at hsz
    exact Nat.mul_self_inj.mp hsz
  cases h1 : t.xprRows with
  | none =>
    rw [h1] at hx
    have h2 : t.xprCols = none := by simpa using hx.symm
    simp [Reshaped.isHermitian, h1, h2]
  | some m =>
    rw [h1] at hx
    obtain ⟨n, h2⟩ := Option.isSome_iff_exists.mp hx.symm
    have hm := h.xprRows m h1
    have hn := h.xprCols n h2
    have k1 : t.rows = some m ∨ t.rows = none := by
      cases hr : t.rows with
      | none => exact .inr rfl
      | some k => rw [h.rows k hr, hm, e]; exact .inl rfl
    have k2 : t.cols = some n ∨ t.cols = none := by
      cases hr : t.cols with
      | none => exact .inr rfl
      | some k => rw [h.cols k hr, hn, e, hsq]; exact .inl rfl
    rcases k1 with k1 | k1 <;> rcases k2 with k2 | k2 <;> simp [Reshaped.isHermitian, h1, h2, k1, k2]

/-- **C116** violated: a 2 × 8 diagonal matrix of dynamic extents would be Hermitian if it were square; reshaped by columns to 4 × 4, it is square and not
symmetric, but reported Hermitian. -/
theorem C116_hermitian_violated :
    let t : Reshaped := ⟨none, none, some 4, some 4⟩
    let a : Arr ℝ := Arr.identity 2 8
    t.Fits a 4 4 ∧ a.Herm ∧ t.isHermitian true = true ∧ ¬ (reshape false 4 4 a).Herm := by
  refine ⟨?_, ?_, rfl, ?_⟩
  · constructor <;> simp [Knows, Arr.identity]
  · intro h; simp [Arr.identity] at h
  · intro h
    have := h rfl 3 (by simp [reshape]) 0 (by simp [reshape])
    simp [reshape, Arr.identity] at this

/-! ## C117: diagonal objects -/

/-- **C117** (dimensions): the dimension known at compile time is that of the diagonal matrix. -/
theorem C117_dimension [Zero 𝕜] (r c : Option ℕ) (v : Arr 𝕜) (hr : Knows r v.rows) (hc : Knows c v.cols) :
    Knows (wrapperDimension r c) (diagonalOf v).rows ∧ Knows (wrapperDimension r c) (diagonalOf v).cols := by
  have : Knows (wrapperDimension r c) (v.rows * v.cols) := by
    intro k e
    cases r with
    | none => cases e
    | some p =>
      cases c with
      | none => cases e
      | some q => rw [← hr p rfl, ← hc q rfl]; exact (Option.some.inj e).symm
  exact ⟨this, this⟩

/-- **C117** (diagonals): the reported constant diagonal of a wrapped vector is one; and a diagonal object is lower and upper triangular and square. -/
theorem C117_diagonal [Zero 𝕜] (v : Arr 𝕜) (hv : v.rows = 1 ∨ v.cols = 1) (vector : Option 𝕜) (hx : ∀ x ∈ vector, v.Const x) :
    (∀ x ∈ wrapperConstantDiagonal vector, (diagonalOf v).ConstDiag x) ∧ (diagonalOf v).Lower ∧ (diagonalOf v).Upper ∧
      (diagonalOf v).rows = (diagonalOf v).cols := by
  refine ⟨?_, ?_, ?_, rfl⟩
  · intro x hm i hi j hj
    have hi : i < v.rows * v.cols := hi
    show (if i = j then (if v.cols = 1 then v.get i 0 else v.get 0 i) else 0) = _
    by_cases hij : i = j
    · rw [if_pos hij, if_pos hij]
      by_cases h1 : v.cols = 1
      · rw [if_pos h1]
        exact hx x hm i (by rw [h1, Nat.mul_one] at hi; exact hi) 0 (by omega)
      · rw [if_neg h1]
        have h2 := hv.resolve_right h1
        exact hx x hm 0 (by omega) i (by rw [h2, Nat.one_mul] at hi; exact hi)
    · rw [if_neg hij, if_neg hij]
  · intro i _ j _ hij
    exact if_neg (by omega)
  · intro i _ j _ hij
    exact if_neg (by omega)

theorem isOne_guaranteed {d : Option ℕ} {n : ℕ} (hd : Knows d n) (h : isOne true d = true) : n = 1 := by
  cases d with
  | none => simp [isOne] at h
  | some k => rw [← hd k rfl]; simpa [isOne] using h

theorem isOne_permitted {d : Option ℕ} (hd : Knows d 1) : isOne false d = true := by
  cases d with
  | none => rfl
  | some k => rw [hd k rfl]; rfl

/-- **C117** (one component): guaranteed and permitted are right for a wrapped vector. -/
theorem C117_one_dimensional [Zero 𝕜] (r c : Option ℕ) (v : Arr 𝕜) (hr : Knows r v.rows) (hc : Knows c v.cols) :
    (wrapperOneDimensional true r c = true → (diagonalOf v).rows = 1) ∧ ((diagonalOf v).rows = 1 → wrapperOneDimensional false r c = true) := by
  constructor
  · intro h
    simp only [wrapperOneDimensional, Bool.and_eq_true] at h
    show v.rows * v.cols = 1
    rw [isOne_guaranteed hr h.1, isOne_guaranteed hc h.2]
  · intro h
    have h : v.rows * v.cols = 1 := h
    have e1 := Nat.eq_one_of_mul_eq_one_right h
    have e2 := Nat.eq_one_of_mul_eq_one_left h
    rw [e1] at hr
    rw [e2] at hc
    simp [wrapperOneDimensional, isOne_permitted hr, isOne_permitted hc]

/-- **C117** (squares): a wrapped vector that is guaranteed to be square in the first `n` indices is, for every `n`. -/
theorem C117_square_guaranteed [Zero 𝕜] (r c : Option ℕ) (v : Arr 𝕜) (hr : Knows r v.rows) (hc : Knows c v.cols) (hv : v.rows = 1 ∨ v.cols = 1) (n : ℕ)
    (h : wrapperIsSquare true n r c = true) : SquareTo n [(diagonalOf v).rows, (diagonalOf v).cols] := by
  show SquareTo n [v.rows * v.cols, v.rows * v.cols]
  have one : v.rows * v.cols = 1 → SquareTo n [v.rows * v.cols, v.rows * v.cols] := by
    intro e i _ j _
    rw [e]
    have : ∀ k, ([1, 1] : List ℕ).getD k 1 = 1 := by
      intro k
      match k with
      | 0 => rfl
      | 1 => rfl
      | k + 2 => rfl
    rw [this, this]
  match n, h with
  | 0, h => simp [wrapperIsSquare, squareShaped] at h
  | 1, h => simp [wrapperIsSquare, squareShaped] at h
  | 2, _ =>
    intro i hi j hj
    interval_cases i <;> interval_cases j <;> rfl
  | 3, h =>
    have h : sameDimension true 2 r c = true := by simpa [wrapperIsSquare, squareShaped] using h
    cases r with
    | none => simp [sameDimension] at h
    | some p =>
      cases c with
      | none => simp [sameDimension] at h
      | some q =>
        have h : p = q := by simpa [sameDimension] using h
        have e1 := hr p rfl
        have e2 := hc q rfl
        apply one
        rcases hv with e | e
        · rw [show v.cols = 1 by omega, e]
        · rw [show v.rows = 1 by omega, e]
  | n + 4, h =>
    have h : isOne true r = true ∧ isOne true c = true := by
      have : wrapperIsSquare true (n + 4) r c = (isOne true r && isOne true c) := by
        simp [wrapperIsSquare, squareShaped, sameDimension]
      rw [this] at h
      simpa using h
    exact one (by rw [isOne_guaranteed hr h.1, isOne_guaranteed hc h.2])

/-- **C117** (squares, partial): for `n ≥ 3` a wrapped vector that is square in the first `n` indices is permitted to be.  Missing: `n = 2`, the usual
case, see below. -/
theorem C117_square_permitted_partial [Zero 𝕜] (r c : Option ℕ) (v : Arr 𝕜) (hr : Knows r v.rows) (hc : Knows c v.cols) (n : ℕ) (hn : 3 ≤ n)
    (h : SquareTo n [(diagonalOf v).rows, (diagonalOf v).cols]) : wrapperIsSquare false n r c = true := by
  have e : v.rows * v.cols = 1 := h 0 (by omega) 2 (by omega)
  have e1 := Nat.eq_one_of_mul_eq_one_right e
  have e2 := Nat.eq_one_of_mul_eq_one_left e
  rw [e1] at hr
  rw [e2] at hc
  obtain ⟨m, rfl⟩ : ∃ m, n = m + 3 := ⟨n - 3, by omega⟩
  cases m with
  | zero =>
    show squareShaped false 2 r c = true
    cases r with
    | none => simp [squareShaped, sameDimension]
    | some p =>
      cases c with
      | none => simp [squareShaped, sameDimension]
      | some q => rw [hr p rfl, hc q rfl]; rfl
  | succ m =>
    have : wrapperIsSquare false (m + 1 + 3) r c = (isOne false r && isOne false c) := by simp [wrapperIsSquare, squareShaped, sameDimension]
    rw [this, isOne_permitted hr, isOne_permitted hc]
    rfl

/-- **C117** violated: a diagonal matrix made of a column of three is square, but the traits do not even permit it to be. -/
theorem C117_square_violated :
    let v : Arr ℤ := ⟨3, 1, fun i _ => i⟩
    Knows (some 3) v.rows ∧ Knows (some 1) v.cols ∧ SquareTo 2 [(diagonalOf v).rows, (diagonalOf v).cols] ∧ ∀ g, wrapperIsSquare g 2 (some 3) (some 1) = false := by
  refine ⟨by simp [Knows], by simp [Knows], ?_, by decide⟩
  intro i hi j hj
  interval_cases i <;> interval_cases j <;> rfl

/-- **C117** (`DiagonalMatrix`): one-dimensional is right, and (partial) square for `n ≤ 2`.  Missing: `n ≥ 3`, see below. -/
theorem C117_matrix_partial (size : Option ℕ) (k : ℕ) (h : Knows size k) :
    Knows (diagonalMatrixDimension size) k ∧ (diagonalMatrixOneDimensional true size = true → k = 1) ∧
      (k = 1 → diagonalMatrixOneDimensional false size = true) ∧
      (∀ n g, SquareTo n [k, k] → diagonalMatrixIsSquare g n size = true) ∧
      ∀ n ≤ 2, ∀ g, diagonalMatrixIsSquare g n size = true → SquareTo n [k, k] := by
  refine ⟨h, ?_, ?_, fun _ _ _ => rfl, ?_⟩
  · intro e
    have : size = some 1 := by simpa [diagonalMatrixOneDimensional] using e
    exact (h 1 this).symm
  · rintro rfl
    cases size with
    | none => rfl
    | some p => rw [h p rfl]; rfl
  · intro n hn g _ i hi j hj
    have : i < 2 := by omega
    have : j < 2 := by omega
    interval_cases i <;> interval_cases j <;> rfl

/-- **C117** violated: a 3 × 3 `DiagonalMatrix` is guaranteed to be square in three indices, though the third extent is 1. -/
theorem C117_matrix_violated : diagonalMatrixIsSquare true 3 (some 3) = true ∧ ¬ SquareTo 3 [3, 3] := by
  refine ⟨rfl, fun h => ?_⟩
  have := h 0 (by decide) 2 (by decide)
  simp at this

/-- **C117** (number of indices): every extent past the counted indices is 1. -/
theorem C117_count (r c : Option ℕ) (m n : ℕ) (hr : Knows r m) (hc : Knows c n) (lin : Bool) (size : Option ℕ) (k : ℕ) (hk : Knows size k) :
    OnesFrom (baseCount r c lin) [m, n] ∧ OnesFrom (wrapperCount size) [k, k] ∧ OnesFrom (diagonalMatrixCount size) [k, k] ∧
      OnesFrom vectorWiseCount [m, n] := by
  have two : ∀ m n, OnesFrom 2 [m, n] := by
    intro m n i hi
    obtain ⟨p, rfl⟩ : ∃ p, i = p + 2 := ⟨i - 2, by omega⟩
    rfl
  have zero : OnesFrom 0 [1, 1] := by
    intro i _
    match i with
    | 0 => rfl
    | 1 => rfl
    | i + 2 => rfl
  have diag : OnesFrom (if size = some 1 then 0 else 2) [k, k] := by
    by_cases e : size = some 1
    · rw [if_pos e, ← hk 1 e]; exact zero
    · rw [if_neg e]; exact two _ _
  refine ⟨?_, diag, diag, two _ _⟩
  unfold baseCount
  by_cases e : r = some 1 ∧ c = some 1
  · rw [if_pos e, ← hr 1 e.1, ← hc 1 e.2]; exact zero
  · rw [if_neg e]
    by_cases e2 : c = some 1 ∧ lin = true
    · rw [if_pos e2, ← hc 1 e2.1]
      intro i hi
      obtain ⟨p, rfl⟩ : ∃ p, i = p + 1 := ⟨i - 1, by omega⟩
      match p with
      | 0 => rfl
      | p + 1 => rfl
    · rw [if_neg e2]; exact two _ _

/-- **C117** violated: a block of three components of a column has no index, and one of a row only the first, by the traits of `VectorBlock`. -/
theorem C117_count_violated : ¬ OnesFrom (vectorBlockCount false) [3, 1] ∧ ¬ OnesFrom (vectorBlockCount true) [1, 3] := by
  refine ⟨fun h => ?_, fun h => ?_⟩
  · have := h 0 (by decide)
    simp at this
  · have := h 1 (by decide)
    simp at this

/-! ## Cases -/

/-- A 2 × 6 matrix reshaped to 3 rows has 4 columns. -/
example : (⟨some 2, some 6, some 3, none⟩ : Reshaped).pattern 1 = some 4 := rfl

/-- Reading by rows or by columns makes a difference. -/
example : (reshape true 3 2 (⟨2, 3, fun i j => 10 * i + j⟩ : Arr ℕ)).get 1 0 = 2 ∧ (reshape false 3 2 (⟨2, 3, fun i j => 10 * i + j⟩ : Arr ℕ)).get 1 0 = 10 := by
  decide

/-- A constant 2 × 8 matrix reshaped to 4 × 4. -/
example : (⟨some 2, some 8, some 4, none⟩ : Reshaped).Fits (Arr.const 2 8 (5 : ℤ)) 4 4 ∧ (reshape true 4 4 (Arr.const 2 8 (5 : ℤ))).Const 5 := by
  have h : (⟨some 2, some 8, some 4, none⟩ : Reshaped).Fits (Arr.const 2 8 (5 : ℤ)) 4 4 := by constructor <;> simp [Knows, Arr.const]
  refine ⟨h, C116_constant _ _ _ _ h true (some 5) ?_ 5 rfl⟩
  rintro x hx
  cases hx
  intro i _ j _
  rfl

/-- It is guaranteed to be square. -/
example : (⟨some 2, some 8, some 4, none⟩ : Reshaped).isSquare (fun n => n.sqrt * n.sqrt == n) true = some true := by decide +kernel

/-- A row of two on the diagonal. -/
example : let v : Arr ℤ := ⟨1, 2, fun _ j => j + 5⟩
    (diagonalOf v).get 1 1 = 6 ∧ (diagonalOf v).get 0 1 = 0 ∧ wrapperDimension (some 1) (some 2) = some 2 := by decide

end OpenKalman.EigenShapes
