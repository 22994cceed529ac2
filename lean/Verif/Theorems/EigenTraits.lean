import Verif.Proof.EigenRedux

/-!
# C69-C71: what the traits of Eigen expressions report is true of their values

`Truthful a k`: the constant, the constant diagonal, the triangle type, the Hermitian flag and the static extents in `k` all hold of the matrix `a`.
-/

namespace OpenKalman.EigenTraits
open Classical RCLike Claims

/-! ## C69: coefficient-wise expressions -/

/-- Real scalars, every unary functor, every matrix on which the functor is defined: all reports are true. -/
theorem C69_unary_real (op : Un) (a : Arr ℝ) (k : Claims ℝ) (h : Truthful a k) (hd : a.All (domR op)) : Truthful (a.map (unR op)) (unaryClaims realScalar op k) :=
  unary_true realScalar_ok h hd fun _ _ _ _ _ => Or.inl rfl

/-- The identity matrix and a functor that keeps zero: `expm1` of the identity is reported to be diagonal with `e - 1` on the diagonal, and is so. -/
example : (unaryClaims realScalar .expm1 (identityClaims (some 2) (some 2))).diag = some ⟨true, Real.exp 1 - 1⟩ ∧
    ((Arr.identity 2 2 : Arr ℝ).map (unR .expm1)).ConstDiag (Real.exp 1 - 1) :=
  have e : (unaryClaims realScalar .expm1 (identityClaims (some 2) (some 2))).diag = some ⟨true, Real.exp 1 - 1⟩ := by
    simp [unaryClaims, presTri, diagVal, identityClaims, operation₁, constUn, realScalar, unR]
  ⟨e, (C69_unary_real .expm1 _ _ (identityClaims_true (by simp) (by simp)) (fun _ _ _ _ => trivial)).diag _ e⟩

/-- Complex scalars.  Missing: where the functor does not commute with conjugation (`hermDom`) the Hermitian report is false, see below. -/
theorem C69_unary_complex_partial (op : Un) (a : Arr ℂ) (k : Claims ℂ) (h : Truthful a k) (hd : a.All (domC op))
    (hh : (unaryClaims complexScalar op k).herm = true → a.All (hermDom complexScalar op)) : Truthful (a.map (unC op)) (unaryClaims complexScalar op k) :=
  unary_true complexScalar_ok h hd hh

/-- A Hermitian two-by-two matrix. -/
noncomputable def exHerm : Arr ℂ := ⟨2, 2, fun i j => if i = j then 1 else if i < j then Complex.I else -Complex.I⟩

def exHermClaims : Claims ℂ := ⟨none, none, .none, true, some 2, some 2⟩

theorem exHerm_true : Truthful exHerm exHermClaims where
  const v e := by simp [exHermClaims] at e
  diag v e := by simp [exHermClaims] at e
  tri := trivial
  herm _ := by
    intro _ i hi j hj
    simp only [exHerm] at hi hj ⊢
    interval_cases i <;> interval_cases j <;> simp
  sr n e := by simpa [exHermClaims, exHerm] using e
  sc n e := by simpa [exHermClaims, exHerm] using e

/-- The square root of that matrix, component by component, is reported to be Hermitian, and is so because no component is on the branch cut. -/
example : (unaryClaims complexScalar .sqrt exHermClaims).herm = true ∧ (exHerm.map (unC .sqrt)).Herm :=
  have e : (unaryClaims complexScalar .sqrt exHermClaims).herm = true := by
    simp [unaryClaims, presHerm, isHerm, maybeSquare, exHermClaims]
  ⟨e, (C69_unary_complex_partial .sqrt _ _ exHerm_true (fun _ _ _ _ => trivial) (fun _ => by
    intro i hi j hj
    simp only [exHerm] at hi hj ⊢
    right
    interval_cases i <;> interval_cases j <;> simp)).herm e⟩

/-- `-1` on the diagonal of a one-by-one complex matrix: its square root `i` is reported to be Hermitian. -/
theorem C69_unary_hermitian_violated : ∃ (a : Arr ℂ) (k : Claims ℂ), Truthful a k ∧ a.All (domC .sqrt) ∧ ¬ Truthful (a.map (unC .sqrt)) (unaryClaims complexScalar .sqrt k) := by
  refine ⟨⟨1, 1, fun _ _ => -1⟩, ⟨none, none, .none, true, none, none⟩, ?_, fun _ _ _ _ => trivial, ?_⟩
  · refine ⟨by simp, by simp, trivial, fun _ _ i _ j _ => by simp, by simp, by simp⟩
  · intro h
    have := h.herm (by simp [unaryClaims, presHerm, isHerm, maybeSquare]) rfl 0 (by simp [Arr.map]) 0 (by simp [Arr.map])
    have e : csqrt (-1) = Complex.I := by
      unfold csqrt
      rw [Complex.cpow_def_of_ne_zero (by norm_num), Complex.log_neg_one, show (Real.pi : ℂ) * Complex.I * (1 / 2) = (Real.pi / 2) * Complex.I by ring, Complex.exp_mul_I]
      simp
    have e' : csqrt (-1) = star (csqrt (-1)) := this
    rw [e] at e'
    have := congrArg Complex.im e'
    norm_num at this

/-- The argument of an imaginary number is real but reported Hermitian along with a matrix that has conjugate imaginary numbers off the diagonal. -/
theorem C69_unary_arg_violated : ∃ (a : Arr ℂ) (k : Claims ℂ), Truthful a k ∧ a.All (domC .arg) ∧ ¬ Truthful (a.map (unC .arg)) (unaryClaims complexScalar .arg k) := by
  refine ⟨exHerm, exHermClaims, exHerm_true, fun _ _ _ _ => trivial, fun h => ?_⟩
  have := h.herm (by simp [unaryClaims, presHerm, isHerm, maybeSquare, exHermClaims]) rfl 0 (by simp [Arr.map, exHerm]) 1 (by simp [Arr.map, exHerm])
  simp only [Arr.map, exHerm, unC] at this
  norm_num at this
  rw [show -((Real.pi : ℂ) / 2) = ((-(Real.pi / 2) : ℝ) : ℂ) by push_cast; ring, show (Real.pi : ℂ) / 2 = ((Real.pi / 2 : ℝ) : ℂ) by push_cast; ring] at this
  rw [Complex.ofReal_inj] at this
  linarith [Real.pi_pos]

/-- Real scalars, every binary functor.  Missing: the cases in which the code is wrong (`BinOk`), see below. -/
theorem C69_binary_real_partial (op : Bin) (a b : Arr ℝ) (k₁ k₂ : Claims ℝ) (h₁ : Truthful a k₁) (h₂ : Truthful b k₂) (hr : b.rows = a.rows) (hc : b.cols = a.cols)
    (hd : a.All₂ b (bdomR op)) (ho : BinOk realScalar op a b k₁ k₂) : Truthful (a.map₂ (binR op) b) (binaryClaims realScalar op k₁ k₂) :=
  binary_true realScalar_ok h₁ h₂ hr hc hd ho fun _ h => by simp [realScalar] at h

theorem C69_binary_complex_partial (op : Bin) (a b : Arr ℂ) (k₁ k₂ : Claims ℂ) (h₁ : Truthful a k₁) (h₂ : Truthful b k₂) (hr : b.rows = a.rows) (hc : b.cols = a.cols)
    (hd : a.All₂ b (bdomC op)) (ho : BinOk complexScalar op a b k₁ k₂) (hp : (binaryClaims complexScalar op k₁ k₂).herm = true → op ≠ .pow) :
    Truthful (a.map₂ (binC op) b) (binaryClaims complexScalar op k₁ k₂) :=
  binary_true complexScalar_ok h₁ h₂ hr hc hd ho fun h _ => hp h

/-- The minimum of the identity and the constant `-2` (known at compile time) is reported to be the constant `-2`. -/
example : ∃ k₂ : Claims ℝ, Truthful (Arr.const 2 2 (-2)) k₂ ∧ (binaryClaims realScalar .min (identityClaims (some 2) (some 2)) k₂).const = some ⟨true, -2⟩ ∧
    ((Arr.identity 2 2).map₂ (binR .min) (Arr.const 2 2 (-2))).Const (-2) := by
  have h2 : Truthful (Arr.const 2 2 (-2) : Arr ℝ) ⟨some ⟨true, -2⟩, none, .none, true, some 2, some 2⟩ :=
    ⟨fun v e => by cases e; exact fun _ _ _ _ => rfl, by simp, trivial, fun _ _ i _ j _ => by simp [Arr.const], by simp [Arr.const], by simp [Arr.const]⟩
  have e : (binaryClaims realScalar .min (identityClaims (some 2) (some 2)) ⟨some ⟨true, -2⟩, none, .none, true, some 2, some 2⟩).const = some ⟨true, -2⟩ := by
    simp [binaryClaims, binaryConst, extConst, constVal, diagVal, identityClaims, OneDim]
    norm_num
  exact ⟨_, h2, e, (C69_binary_real_partial .min _ _ _ _ (identityClaims_true (by simp) (by simp)) h2 rfl rfl (fun _ _ _ _ => trivial)
    ⟨by simp, by simp, by simp [kind], by simp⟩).const _ e⟩

/-- A zero matrix known at compile time. -/
def zeroClaims (𝕜 : Type*) [RCLike 𝕜] : Claims 𝕜 := ⟨some ⟨true, 0⟩, none, .none, true, none, none⟩

theorem zero_true (n : ℕ) : Truthful (Arr.const n n 0 : Arr ℝ) (zeroClaims ℝ) where
  const v e := by cases e; exact fun _ _ _ _ => rfl
  diag v e := by simp [zeroClaims] at e
  tri := trivial
  herm _ := fun _ _ _ _ _ => by simp [Arr.const]
  sr n e := by simp [zeroClaims] at e
  sc n e := by simp [zeroClaims] at e

/-- `0 - 1` is reported to be constant `1`: the difference is of the sum type, and a sum with a zero left operand is reported as the right operand. -/
theorem C69_difference_violated : ∃ (a b : Arr ℝ) (k₁ k₂ : Claims ℝ), Truthful a k₁ ∧ Truthful b k₂ ∧ b.rows = a.rows ∧ b.cols = a.cols ∧ a.All₂ b (bdomR .diff) ∧
    ¬ Truthful (a.map₂ (binR .diff) b) (binaryClaims realScalar .diff k₁ k₂) := by
  refine ⟨Arr.const 2 2 0, Arr.const 2 2 1, zeroClaims ℝ, constClaims false 1 none none, zero_true 2, constClaims_true (S := realScalar) realScalar_ok (by simp) (by simp), rfl, rfl,
    fun _ _ _ _ => trivial, fun h => ?_⟩
  have := h.const ⟨false, 1⟩ (by simp [binaryClaims, binaryConst, kind, Claims.Zero, zeroClaims, constVal, constClaims]) 0 (by simp [Arr.map₂, Arr.const]) 0 (by simp [Arr.map₂, Arr.const])
  simp [Arr.map₂, Arr.const, binR] at this
  norm_num at this

/-- Likewise for functors that zero is not neutral for: `0 < 1` holds but `0 > 1` is reported to be constant `1`, `hypot (0, -1)` to be `-1`, `|0 - (-1)|` to be `-1`. -/
theorem C69_neutral_violated (op : Bin) (hop : op = .greater ∨ op = .hypot ∨ op = .absDiff) : ∃ (a b : Arr ℝ) (k₁ k₂ : Claims ℝ), Truthful a k₁ ∧ Truthful b k₂ ∧
    b.rows = a.rows ∧ b.cols = a.cols ∧ a.All₂ b (bdomR op) ∧ ¬ Truthful (a.map₂ (binR op) b) (binaryClaims realScalar op k₁ k₂) := by
  refine ⟨Arr.const 2 2 0, Arr.const 2 2 (-1), zeroClaims ℝ, constClaims false (-1) none none, zero_true 2, constClaims_true (S := realScalar) realScalar_ok (by simp) (by simp), rfl, rfl,
    ?_, fun h => ?_⟩
  · rcases hop with rfl | rfl | rfl <;> exact fun _ _ _ _ => trivial
  rcases hop with rfl | rfl | rfl <;>
    (have := h.const ⟨false, -1⟩ (by simp [binaryClaims, binaryConst, kind, Claims.Zero, zeroClaims, constVal, constClaims]) 0 (by simp [Arr.map₂, Arr.const]) 0 (by simp [Arr.map₂, Arr.const])
     simp [Arr.map₂, Arr.const, binR, bit] at this
     norm_num at this)

/-- The component-wise product of two constant matrices is reported to be a constant *diagonal*. -/
theorem C69_product_of_constants_violated : ∃ (a b : Arr ℝ) (k₁ k₂ : Claims ℝ), Truthful a k₁ ∧ Truthful b k₂ ∧ b.rows = a.rows ∧ b.cols = a.cols ∧ a.All₂ b (bdomR .prod) ∧
    ¬ Truthful (a.map₂ (binR .prod) b) (binaryClaims realScalar .prod k₁ k₂) := by
  refine ⟨Arr.const 2 2 1, Arr.const 2 2 1, constClaims false 1 none none, constClaims false 1 none none, constClaims_true (S := realScalar) realScalar_ok (by simp) (by simp),
    constClaims_true (S := realScalar) realScalar_ok (by simp) (by simp), rfl, rfl, fun _ _ _ _ => trivial, fun h => ?_⟩
  have := h.diag ⟨false, 1 * 1⟩ (by simp [binaryClaims, binaryDiag, kind, Claims.Zero, constVal, constClaims, operation, constBin, realScalar, binR]) 0 (by simp [Arr.map₂, Arr.const]) 1
    (by simp [Arr.map₂, Arr.const])
  simp [Arr.map₂, Arr.const, binR] at this

/-- Functors with one operand bound to a scalar. -/
theorem C69_bound_real_partial (op : Bin) (x : ℝ) (a : Arr ℝ) (k : Claims ℝ) (h : Truthful a k) :
    (a.All (bdomR op x) → BinOk realScalar op (Arr.const a.rows a.cols x) a (constClaims false x k.sr k.sc) k → Truthful (a.map (binR op x)) (bind1Claims realScalar op x k)) ∧
    (a.All (bdomR op · x) → BinOk realScalar op a (Arr.const a.rows a.cols x) k (constClaims false x k.sr k.sc) → Truthful (a.map (binR op · x)) (bind2Claims realScalar op k x)) :=
  ⟨fun hd ho => bind1_true realScalar_ok h hd ho fun _ hc => by simp [realScalar] at hc, fun hd ho => bind2_true realScalar_ok h hd ho fun _ hc => by simp [realScalar] at hc⟩

/-- Complex scalars; missing: a bound scalar that is not real with a Hermitian operand. -/
theorem C69_bound_complex_partial (op : Bin) (x : ℂ) (a : Arr ℂ) (k : Claims ℂ) (h : Truthful a k) (hx : k.isHerm true = true → op ≠ .pow ∧ star x = x) :
    (a.All (bdomC op x) → BinOk complexScalar op (Arr.const a.rows a.cols x) a (constClaims true x k.sr k.sc) k → Truthful (a.map (binC op x)) (bind1Claims complexScalar op x k)) ∧
    (a.All (bdomC op · x) → BinOk complexScalar op a (Arr.const a.rows a.cols x) k (constClaims true x k.sr k.sc) → Truthful (a.map (binC op · x)) (bind2Claims complexScalar op k x)) :=
  ⟨fun hd ho => bind1_true complexScalar_ok h hd ho fun e _ => hx (by simpa [bind1Claims, presHermBin, complexScalar] using e),
    fun hd ho => bind2_true complexScalar_ok h hd ho fun e _ => hx (by simpa [bind2Claims, presHermBin, complexScalar] using e)⟩

/-- Three times the identity is reported to be diagonal with three on the diagonal. -/
example : (bind1Claims realScalar .prod 3 (identityClaims (some 2) (some 2))).diag = some ⟨false, 3⟩ ∧ ((Arr.identity 2 2 : Arr ℝ).map (binR .prod 3)).ConstDiag 3 :=
  have e : (bind1Claims realScalar .prod 3 (identityClaims (some 2) (some 2))).diag = some ⟨false, 3⟩ := by
    simp [bind1Claims, binaryClaims, binaryDiag, kind, Claims.Zero, constVal, diagVal, constClaims, identityClaims, operation, constBin, realScalar, binR, OneDim]
  ⟨e, ((C69_bound_real_partial .prod 3 _ _ (identityClaims_true (by simp) (by simp))).1 (fun _ _ _ _ => trivial)
    ⟨by simp, by simp, by simp [identityClaims, constVal, OneDim], by simp⟩).diag _ e⟩

/-- `i` times a Hermitian matrix is reported to be Hermitian. -/
theorem C69_bound_scalar_violated : ∃ (a : Arr ℂ) (k : Claims ℂ), Truthful a k ∧ a.All (bdomC .prod Complex.I) ∧
    ¬ Truthful (a.map (binC .prod Complex.I)) (bind1Claims complexScalar .prod Complex.I k) := by
  refine ⟨exHerm, exHermClaims, exHerm_true, fun _ _ _ _ => trivial, fun h => ?_⟩
  have := h.herm (by simp [bind1Claims, presHermBin, isHerm, maybeSquare, exHermClaims]) rfl 0 (by simp [Arr.map, exHerm]) 0 (by simp [Arr.map, exHerm])
  simp only [Arr.map, exHerm, binC] at this
  have := congrArg Complex.im this
  norm_num at this

/-- Any nullary functor without an entry in the tables is reported to be constant, for example random components. -/
theorem C69_nullary_violated : ∃ (a : Arr ℝ) (draw : ℝ), (∃ i < a.rows, ∃ j < a.cols, a.get i j = draw) ∧ ¬ Truthful a (nullaryClaims draw none none) := by
  refine ⟨⟨1, 2, fun _ j => j⟩, 0, ⟨0, by simp, 0, by simp, by simp⟩, fun h => ?_⟩
  have := h.const ⟨false, 0⟩ rfl 0 (by simp) 1 (by simp)
  simp at this

/-- Where a matrix of a triangle type may be different from zero. -/
def mask : Tri → ℕ → ℕ → Prop
  | .none, _, _ => True
  | .lower, i, j => ¬ i < j
  | .upper, i, j => ¬ j < i
  | .diagonal, i, j => i = j

theorem isTri_iff (X : Arr ℝ) (t : Tri) : X.IsTri t ↔ ∀ i < X.rows, ∀ j < X.cols, ¬ mask t i j → X.get i j = 0 := by
  cases t with
  | none => simp [Arr.IsTri, mask]
  | lower => simp only [Arr.IsTri, mask, not_not]; exact Iff.rfl
  | upper => simp only [Arr.IsTri, mask, not_not]; exact Iff.rfl
  | diagonal =>
    simp only [Arr.IsTri, mask]
    constructor
    · rintro ⟨h1, h2⟩ i hi j hj hij
      rcases Nat.lt_or_gt_of_ne hij with h | h
      · exact h1 i hi j hj h
      · exact h2 i hi j hj h
    · intro h
      exact ⟨fun i hi j hj hij => h i hi j hj (by omega), fun i hi j hj hij => h i hi j hj (by omega)⟩

theorem mask_mul (a b : Tri) (i j : ℕ) : mask (Tri.mul a b) i j ↔ mask a i j ∧ mask b i j := by
  cases a <;> cases b <;> simp [Tri.mul, mask] <;> omega

theorem mask_add (a b : Tri) (i j : ℕ) : mask (Tri.add a b) i j ↔ mask a i j ∨ mask b i j := by
  cases a <;> cases b <;> simp [Tri.add, mask] <;> omega

/-- The algebra of triangle types loses nothing: a report `t` follows from the product (sum) of the types iff it is true of all component-wise
products (sums) of matrices of these types. -/
theorem C69_triangle_algebra (a b t : Tri) :
    ((∀ X : Arr ℝ, X.IsTri (Tri.mul a b) → X.IsTri t) ↔
      ∀ A B : Arr ℝ, B.rows = A.rows → B.cols = A.cols → A.IsTri a → B.IsTri b → (A.map₂ (· * ·) B).IsTri t) ∧
    ((∀ X : Arr ℝ, X.IsTri (Tri.add a b) → X.IsTri t) ↔
      ∀ A B : Arr ℝ, B.rows = A.rows → B.cols = A.cols → A.IsTri a → B.IsTri b → (A.map₂ (· + ·) B).IsTri t) := by
  refine ⟨⟨fun h A B hr hc ha hb => h _ (tri_mul_true (by simp) (by simp) hr hc ha hb), fun h X hX => ?_⟩,
    ⟨fun h A B hr hc ha hb => h _ (tri_add_true (by simp) hr hc ha hb), fun h X hX => ?_⟩⟩
  · have := h ⟨X.rows, X.cols, fun i j => if mask a i j then X.get i j else 0⟩ ⟨X.rows, X.cols, fun i j => if mask b i j then 1 else 0⟩ rfl rfl
      ((isTri_iff _ _).2 fun i _ j _ hm => if_neg hm) ((isTri_iff _ _).2 fun i _ j _ hm => if_neg hm)
    rw [isTri_iff] at this hX ⊢
    intro i hi j hj hm
    have hz := this i hi j hj hm
    by_cases hab : mask a i j ∧ mask b i j
    · simpa [Arr.map₂, hab.1, hab.2] using hz
    · exact hX i hi j hj (by rwa [mask_mul])
  · have := h ⟨X.rows, X.cols, fun i j => if mask a i j then X.get i j else 0⟩
      ⟨X.rows, X.cols, fun i j => if mask b i j then (if mask a i j then 0 else X.get i j) else 0⟩ rfl rfl
      ((isTri_iff _ _).2 fun i _ j _ hm => if_neg hm) ((isTri_iff _ _).2 fun i _ j _ hm => if_neg hm)
    rw [isTri_iff] at this hX ⊢
    intro i hi j hj hm
    have hz := this i hi j hj hm
    by_cases ha : mask a i j
    · simpa [Arr.map₂, ha] using hz
    · by_cases hb : mask b i j
      · simpa [Arr.map₂, ha, hb] using hz
      · exact hX i hi j hj (by rw [mask_add]; tauto)

/-- The component-wise product of a diagonal and any matrix is reported diagonal, the sum of a lower and an upper one is not reported triangular. -/
example : Tri.mul .diagonal .none = .diagonal ∧ Tri.add .lower .upper = .none := by decide

/-! ## C70: structural expressions, and expressions of any depth -/

theorem C70_transpose_real (a : Arr ℝ) (k : Claims ℝ) (h : Truthful a k) : Truthful a.transpose (transposeClaims false k) := transpose_true realScalar_ok h

theorem C70_transpose_complex (a : Arr ℂ) (k : Claims ℂ) (h : Truthful a k) : Truthful a.transpose (transposeClaims true k) := transpose_true complexScalar_ok h

/-- Views as self-adjoint matrices; one triangle of a square matrix with any contents in the other. -/
theorem C70_selfAdjointView_real (up : Bool) (a : Arr ℝ) (k : Claims ℝ) (hsq : a.rows = a.cols) (h : Truthful a k) : Truthful (a.selfAdjointView up) (selfAdjointClaims false k) :=
  selfAdjoint_true realScalar_ok hsq h

theorem C70_selfAdjointView_complex (up : Bool) (a : Arr ℂ) (k : Claims ℂ) (hsq : a.rows = a.cols) (h : Truthful a k) : Truthful (a.selfAdjointView up) (selfAdjointClaims true k) :=
  selfAdjoint_true complexScalar_ok hsq h

theorem C70_select_real (c a b : Arr ℝ) (k₁ k₂ k₃ : Claims ℝ) (h₁ : Truthful c k₁) (h₂ : Truthful a k₂) (h₃ : Truthful b k₃) (hr : a.rows = c.rows) (hc : a.cols = c.cols)
    (hr' : b.rows = c.rows) (hc' : b.cols = c.cols) : Truthful (c.select a b) (selectClaims false k₁ k₂ k₃) :=
  select_true realScalar_ok h₁ h₂ h₃ hr hc hr' hc'

theorem C70_select_complex (c a b : Arr ℂ) (k₁ k₂ k₃ : Claims ℂ) (h₁ : Truthful c k₁) (h₂ : Truthful a k₂) (h₃ : Truthful b k₃) (hr : a.rows = c.rows) (hc : a.cols = c.cols)
    (hr' : b.rows = c.rows) (hc' : b.cols = c.cols) : Truthful (c.select a b) (selectClaims true k₁ k₂ k₃) :=
  select_true complexScalar_ok h₁ h₂ h₃ hr hc hr' hc'

/-- Diagonals: a constant that is reported is the constant, for every index in range, static or not. -/
theorem C70_diagonal {𝕜 : Type*} [RCLike 𝕜] (a : Arr 𝕜) (k : Claims 𝕜) (idx : ℤ) (static : Bool) (h : Truthful a k) (hlo : -(a.rows : ℤ) < idx) (hhi : idx < a.cols) (v : Val 𝕜)
    (e : diagonalConst a.rows a.cols idx static k = .ok (some v)) : (a.diagonal idx).Const v.v :=
  diagonal_true h hlo hhi e

/-- The first superdiagonal of the identity is reported zero. -/
example : diagonalConst 3 3 1 true (identityClaims (some 3) (some 3) : Claims ℝ) = .ok (some ⟨true, 0⟩) := by
  simp [diagonalConst, identityClaims, diagVal, Claims.Zero]

/-- With an index known at run time and a dynamic number of columns (fewer than 16777215) the diagonal of a zero matrix throws, whatever the index. -/
theorem C70_diagonal_throws_violated : ∃ (a : Arr ℝ) (k : Claims ℝ), Truthful a k ∧ diagonalConst a.rows a.cols 0 false k = .error () := by
  refine ⟨Arr.const 2 2 0, zeroClaims ℝ, zero_true 2, ?_⟩
  simp [diagonalConst, zeroClaims, diagVal, Claims.Zero, Arr.const]

/-- Real expressions of any depth over leaves with any true reports: if no node is one of those for which the code is wrong (`Good`), everything reported about the expression is true. -/
theorem C70_expressions_real_partial (e : Expr ℝ) (w : e.WF realScalar) (g : e.Good realScalar) : Truthful (e.eval realScalar) (e.claims realScalar) := (claims_true realScalar_ok e w g).1

theorem C70_expressions_complex_partial (e : Expr ℂ) (w : e.WF complexScalar) (g : e.Good complexScalar) : Truthful (e.eval complexScalar) (e.claims complexScalar) :=
  (claims_true complexScalar_ok e w g).1

/-- The sum over columns of the transpose of `I + 3 I`, which is reported to be constant `4`. -/
noncomputable def exTree : Expr ℝ := .redux .sum false (.transpose (.binary .sum (.identity 2 2 (some 2) (some 2)) (.bind1 .prod 3 (.identity 2 2 (some 2) (some 2)))))

theorem exTree_wf : exTree.WF realScalar := by
  refine ⟨⟨⟨?_, ?_⟩, ⟨⟨?_, ?_⟩, ?_⟩, rfl, rfl, ?_⟩, ?_, ?_⟩
  all_goals first
    | simp [Expr.eval, Arr.len, Arr.map₂, Arr.identity, Arr.transpose]; done
    | exact fun _ _ _ _ => trivial

theorem exTree_good : exTree.Good realScalar := by
  refine ⟨⟨trivial, ⟨trivial, ⟨?_, ?_, ?_, ?_⟩, ?_⟩, ⟨?_, ?_, ?_, ?_⟩, ?_⟩, ⟨?_, ?_, ?_⟩⟩
  · simp
  · simp
  · intro _ _ h; simp [Expr.claims, identityClaims, constVal, OneDim] at h
  · simp
  · intro _ h; simp [realScalar] at h
  · simp
  · simp
  · simp [kind]
  · simp
  · intro _ h; simp [realScalar] at h
  · simp
  · simp
  · simp

example : (exTree.claims realScalar).const = some ⟨false, 4⟩ ∧ (exTree.eval realScalar).Const 4 :=
  have e : (exTree.claims realScalar).const = some ⟨false, 4⟩ := by
    simp [exTree, Expr.claims, Expr.reduxVal, transposeClaims, binaryClaims, bind1Claims, binaryConst, binaryDiag, kind, Claims.Zero, constVal, diagVal, constClaims, identityClaims, operation,
      operation₁, constBin, realScalar, binR, OneDim, reduxLeaf, reduxDiag, atLeastSquare, Expr.eval, Arr.map₂, Arr.identity, Arr.map]
    norm_num
  ⟨e, (C70_expressions_real_partial exTree exTree_wf exTree_good).const _ e⟩

/-! The nodes at which the code is wrong. -/

/-- Three ones in a lower triangle, stacked twice, are reported to be an upper triangle. -/
theorem C70_replicate_violated : ∃ (a : Arr ℝ) (k : Claims ℝ), Truthful a k ∧ ¬ Truthful (a.replicate 2 1) (replicateClaims false (some 2) (some 1) k) := by
  refine ⟨⟨2, 2, fun i j => if j ≤ i then 1 else 0⟩, ⟨none, none, .lower, false, none, none⟩, ⟨by simp, by simp, ?_, by simp, by simp, by simp⟩, fun h => ?_⟩
  · intro i _ j _ hij
    show (if j ≤ i then (1 : ℝ) else 0) = 0
    rw [if_neg (by omega)]
  · have e : (replicateClaims false (some 2) (some 1) ⟨none, none, .lower, false, none, none⟩ : Claims ℝ).tri = .upper := by
      simp [replicateClaims, triOf, Claims.Zero, OneDim]
    have := h.tri
    rw [e] at this
    have := this 1 (by simp [Arr.replicate]) 0 (by simp [Arr.replicate]) (by omega)
    simp [Arr.replicate] at this

/-- A dynamic row `(1 0)` reported diagonal counts as Hermitian while it is not square; two copies are square and not Hermitian. -/
theorem C70_replicate_hermitian_violated : ∃ (a : Arr ℝ) (k : Claims ℝ), Truthful a k ∧ ¬ (k.triOf = .lower) ∧ ¬ Truthful (a.replicate 2 1) (replicateClaims false (some 2) none k) := by
  refine ⟨⟨1, 2, fun _ j => if j = 0 then 1 else 0⟩, ⟨none, none, .diagonal, false, none, none⟩, ⟨by simp, by simp, ?_, by simp, by simp, by simp⟩, by simp [triOf, Claims.Zero, OneDim], fun h => ?_⟩
  · refine ⟨fun i hi j _ hij => ?_, fun i hi j _ hij => ?_⟩
    · show (if j = 0 then (1 : ℝ) else 0) = 0
      rw [if_neg (by omega)]
    · simp at hi; omega
  · have := h.herm (by simp [replicateClaims, isHerm, maybeSquare, triOf, Claims.Zero, OneDim]) (by simp [Arr.replicate]) 1 (by simp [Arr.replicate]) 0 (by simp [Arr.replicate])
    simp [Arr.replicate] at this

/-- A two-by-three identity reversed in both directions is reported to be diagonal. -/
theorem C70_reverse_violated : ∃ (a : Arr ℝ) (k : Claims ℝ), Truthful a k ∧ ¬ Truthful (a.reverse true true) (reverseClaims false true true k) := by
  refine ⟨Arr.identity 2 3, identityClaims none none, identityClaims_true (by simp) (by simp), fun h => ?_⟩
  have := h.diag ⟨true, 1⟩ (by simp [reverseClaims, diagVal, identityClaims]) 0 (by simp [Arr.reverse, Arr.identity]) 0 (by simp [Arr.reverse, Arr.identity])
  simp [Arr.reverse, Arr.identity] at this

/-- A column reversed sideways stays as it is, but its trait turns `lower` into `upper`. -/
theorem C70_reverse_vector_violated : ∃ (a : Arr ℝ) (k : Claims ℝ), Truthful a k ∧ ¬ Truthful (a.reverse false true) (reverseClaims false false true k) := by
  refine ⟨Arr.const 2 1 1, constClaims false 1 (some 2) (some 1), constClaims_true (S := realScalar) realScalar_ok (by simp) (by simp), fun h => ?_⟩
  have e : (reverseClaims false false true (constClaims false 1 (some 2) (some 1)) : Claims ℝ).tri = .upper := by
    simp [reverseClaims, constClaims, triOf, Claims.Zero, OneDim]
  have := h.tri
  rw [e] at this
  have := this 1 (by simp [Arr.reverse, Arr.const]) 0 (by simp [Arr.reverse, Arr.const]) (by omega)
  simp [Arr.reverse, Arr.const] at this

/-- The product of a two-by-one and a one-by-two identity is reported to be the identity. -/
theorem C70_product_violated : ∃ (a b : Arr ℝ) (k₁ k₂ : Claims ℝ), Truthful a k₁ ∧ Truthful b k₂ ∧ b.rows = a.cols ∧ ¬ Truthful (a.mul b) (productClaims false a.cols k₁ k₂) := by
  refine ⟨Arr.identity 2 1, Arr.identity 1 2, identityClaims (some 2) (some 1), identityClaims (some 1) (some 2), identityClaims_true (by simp) (by simp),
    identityClaims_true (by simp) (by simp), rfl, fun h => ?_⟩
  have := h.diag ⟨true, 1 * 1⟩ (by simp [productClaims, diagVal, identityClaims, operation]) 1 (by simp [Arr.mul, Arr.identity]) 1 (by simp [Arr.mul, Arr.identity])
  simp [Arr.mul, Arr.identity] at this

/-- A zero matrix seen as a unit triangle is reported to be zero. -/
theorem C70_triangularView_violated : ∃ (a : Arr ℝ) (k : Claims ℝ), Truthful a k ∧ ¬ Truthful (a.triView false .unit) (triViewClaims false false .unit k) := by
  refine ⟨Arr.const 2 2 0, zeroClaims ℝ, zero_true 2, fun h => ?_⟩
  have := h.const ⟨true, 0⟩ (by simp [triViewClaims, zeroClaims, Claims.Zero]) 0 (by simp [Arr.triView, Arr.const]) 0 (by simp [Arr.triView, Arr.const])
  simp [Arr.triView] at this

/-! ## C71: reductions -/

/-- A reduction of rows or columns through any chain of unary functors and replications: the constant that is reported is the value of every line. -/
theorem C71_reductions_real_partial (op : Red) (hz : Bool) (e : Expr ℝ) (w : e.WF realScalar) (g : e.Good realScalar) (hlen : 0 < (e.eval realScalar).len hz)
    (hok : e.ReduxOk realScalar op hz id) (v : Val ℝ) (hv : ((Expr.redux op hz e).claims realScalar).const = some v) : ((e.eval realScalar).reduce op hz).Const v.v :=
  (C70_expressions_real_partial (.redux op hz e) ⟨w, hlen, fun _ => rfl⟩ ⟨g, hok⟩).const v hv

theorem C71_reductions_complex_partial (op : Red) (hop : op ≠ .min ∧ op ≠ .max) (hz : Bool) (e : Expr ℂ) (w : e.WF complexScalar) (g : e.Good complexScalar)
    (hlen : 0 < (e.eval complexScalar).len hz) (hok : e.ReduxOk complexScalar op hz id) (v : Val ℂ) (hv : ((Expr.redux op hz e).claims complexScalar).const = some v) :
    ((e.eval complexScalar).reduce op hz).Const v.v :=
  (C70_expressions_complex_partial (.redux op hz e) ⟨w, hlen, fun h => absurd h (by simp [hop])⟩ ⟨g, hok⟩).const v hv

/-- Reductions of constants, replicated: no exceptions. -/
theorem C71_constants (op : Red) (hz : Bool) (m n r c : ℕ) (rs cs : Bool) (x : ℝ) (h1 : 0 < (if hz then c * n else r * m)) (v : Val ℝ)
    (hv : ((Expr.redux op hz (.replicate r c rs cs (.const m n none none x))).claims realScalar).const = some v) :
    (((Arr.const m n x).replicate r c).reduce op hz).Const v.v := by
  refine C71_reductions_real_partial op hz (.replicate r c rs cs (.const m n none none x)) ⟨by simp, by simp⟩ ⟨trivial, ⟨?_, ?_, ?_⟩⟩ ?_ ⟨?_, ?_, ?_⟩ v hv
  · simp [Expr.claims, constClaims, triOf, Claims.Zero, OneDim]
  · simp [Expr.claims, constClaims, triOf, Claims.Zero, OneDim]
  · intro _; exact Or.inr (Or.inr ⟨by simp [Expr.claims, constClaims, constVal], rfl⟩)
  · cases hz <;> exact h1
  · simp [Expr.claims, constClaims, constVal]
  · simp [Expr.claims, constClaims, constVal]
  · simp [Expr.claims, constClaims, constVal]

/-- The euclidean norm of the columns of two copies of a two-by-three matrix of threes: reported as the square root of four times three. -/
example : ((Expr.redux (.lpnorm 2) false (.replicate 2 1 true true (.const 2 3 none none (3 : ℝ)))).claims realScalar).const = some ⟨false, Real.sqrt 4 * 3⟩ := by
  simp [Expr.claims, Expr.reduxVal, reduxLeaf, constClaims, constVal, operation₁, reduxConst]

/-- The sum of the columns of `cos` of the identity: reported as `cos 1`, the functor being applied to the diagonal only. -/
theorem C71_composition_violated : ∃ (e : Expr ℝ) (v : Val ℝ), e.WF realScalar ∧ e.Good realScalar ∧ ((Expr.redux .sum false e).claims realScalar).const = some v ∧
    ¬ ((e.eval realScalar).reduce .sum false).Const v.v := by
  refine ⟨.unary .cos (.identity 2 2 (some 2) (some 2)), ⟨true, Real.cos 1⟩, ⟨⟨by simp, by simp⟩, fun _ _ _ _ => trivial⟩, ⟨trivial, fun _ _ _ _ _ => Or.inl rfl⟩, ?_, fun h => ?_⟩
  · simp [Expr.claims, Expr.reduxVal, reduxLeaf, identityClaims, constVal, diagVal, operation₁, reduxDiag, constUn, realScalar, unR, OneDim, atLeastSquare]
    intro h
    exact absurd h (ne_of_gt (Real.cos_pos_of_le_one (by norm_num)))
  · have := h 0 (by simp [Arr.reduce]) 0 (by simp [Arr.reduce, Expr.eval, Arr.map, Arr.identity])
    simp [Arr.reduce, Expr.eval, Arr.map, Arr.identity, reduceLine, realScalar, unR, Finset.sum_range_succ] at this

/-- The product of the single row of a one-by-two identity taken down its columns: reported as zero although the first one is one. -/
theorem C71_product_violated : ∃ (e : Expr ℝ) (v : Val ℝ), e.WF realScalar ∧ e.Good realScalar ∧ ((Expr.redux .prod false e).claims realScalar).const = some v ∧
    ¬ ((e.eval realScalar).reduce .prod false).Const v.v := by
  refine ⟨.identity 1 2 (some 1) (some 2), ⟨true, 0⟩, ⟨by simp, by simp⟩, trivial, ?_, fun h => ?_⟩
  · simp [Expr.claims, Expr.reduxVal, reduxLeaf, identityClaims, constVal, diagVal, operation₁, reduxDiag, OneDim]
  · have := h 0 (by simp [Arr.reduce]) 0 (by simp [Arr.reduce, Expr.eval, Arr.identity])
    simp [Arr.reduce, Expr.eval, Arr.identity, reduceLine] at this

/-- Likewise the minimum and whether all are nonzero. -/
theorem C71_minimum_violated : ∃ (e : Expr ℝ) (v : Val ℝ), e.WF realScalar ∧ e.Good realScalar ∧ ((Expr.redux .min false e).claims realScalar).const = some v ∧
    ¬ ((e.eval realScalar).reduce .min false).Const v.v := by
  refine ⟨.identity 1 2 (some 1) (some 2), ⟨true, 0⟩, ⟨by simp, by simp⟩, trivial, ?_, fun h => ?_⟩
  · simp [Expr.claims, Expr.reduxVal, reduxLeaf, identityClaims, constVal, diagVal, operation₁, reduxDiag, OneDim, atLeastSquare]
  · have := h 0 (by simp [Arr.reduce]) 0 (by simp [Arr.reduce, Expr.eval, Arr.identity])
    simp [Arr.reduce, Expr.eval, Arr.identity, reduceLine] at this

end OpenKalman.EigenTraits
