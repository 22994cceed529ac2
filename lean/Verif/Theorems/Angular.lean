import Verif.Proof.Angular

/-!
# C78, C79: means with angles

C78: a `Mean` holds canonical numbers, and its arithmetic is arithmetic of points.  C79: transforms and updates treat angles as points of a circle.
-/

namespace OpenKalman.Angular
open OpenKalman.Patterns OpenKalman.Kalman OpenKalman.SigmaPoints Real Matrix

/-- Used in the examples: an axis and an angle in degrees. -/
noncomputable def axisAngle : List Elem := [⟨.dim 1, false⟩, ⟨.angle degrees360, false⟩]

theorem axisAngle_ok : AxesAndAngles axisAngle := by intro e he; simp [axisAngle] at he; rcases he with rfl | rfl <;> trivial

/-! ## C78 -/

/-- **C78** (construction): a `Mean` made from a column, a matrix or by `make_mean` holds the canonical numbers of the same point; columns for the same
point give the same `Mean`. -/
theorem C78_construct (es : List Elem) (ha : AxesAndAngles es) (x : List ℝ) (hx : x.length = (coordsOf es).length) :
    ∃ m, ofNested es x = some ⟨.mean, m⟩ ∧ ofTyped es ⟨.matrix, x⟩ = some ⟨.mean, m⟩ ∧ makeMean es x = some ⟨.mean, m⟩ ∧
      SameVec (coordsOf es) x m ∧ CanonicalVec (coordsOf es) m ∧ (CanonicalVec (coordsOf es) x → m = x) ∧
      ∀ y, SameVec (coordsOf es) x y → ofNested es y = some ⟨.mean, m⟩ := by
  have hw := wrapAngles_vec es ha x hx
  refine ⟨wrapVec es x, ?_, ?_, ?_, wrapVec_same es x hx, wrapVec_canonical es x, wrapVec_of_canonical, fun y hy => ?_⟩
  · simp [ofNested, hw]
  · simp [ofTyped, hw]
  · simp only [makeMean, ofNested, hw, Option.bind_eq_bind, Option.bind_some]
    rw [wrapAngles_vec es ha _ (wrapVec_length es x), wrapVec_of_canonical (wrapVec_canonical es x)]; rfl
  · simp only [ofNested, wrapAngles_vec es ha y hy.2.1, wrapVec_congr hy]; rfl

example : ∃ m, ofNested axisAngle [5, 725] = some ⟨.mean, m⟩ ∧ SameVec (coordsOf axisAngle) [5, 725] m := by
  obtain ⟨m, h, -, -, h', -⟩ := C78_construct axisAngle axisAngle_ok [5, 725] rfl
  exact ⟨m, h, h'⟩

/-- **C78** (sums): the sum of two means is the canonical mean for the sum of the points, whatever numbers stand for the points; `+=` gives the same;
addition is commutative and associative. -/
theorem C78_add (es : List Elem) (ha : AxesAndAngles es) (x y z : List ℝ) (hx : x.length = (coordsOf es).length) (hy : y.length = (coordsOf es).length)
    (hz : z.length = (coordsOf es).length) :
    ∃ s, add es ⟨.mean, x⟩ ⟨.mean, y⟩ = some ⟨.mean, s⟩ ∧ Step.run es x (.plus y) = some s ∧ CanonicalVec (coordsOf es) s ∧
      (∀ (i : ℕ) (c : Coord), (coordsOf es)[i]? = some c → c.Same (x.getD i 0 + y.getD i 0) (s.getD i 0)) ∧
      (∀ x' y', SameVec (coordsOf es) x x' → SameVec (coordsOf es) y y' → add es ⟨.mean, x'⟩ ⟨.mean, y'⟩ = some ⟨.mean, s⟩) ∧
      add es ⟨.mean, y⟩ ⟨.mean, x⟩ = some ⟨.mean, s⟩ ∧
      (add es ⟨.mean, s⟩ ⟨.mean, z⟩ = do let t ← add es ⟨.mean, y⟩ ⟨.mean, z⟩; add es ⟨.mean, x⟩ t) := by
  have hmk : ∀ a, a.length = (coordsOf es).length → makeMean es a = some ⟨.mean, wrapVec es a⟩ := by
    intro a hal
    obtain ⟨m, h1, -, h3, -⟩ := C78_construct es ha a hal
    rw [h3, ← h1]
    simp [ofNested, wrapAngles_vec es ha a hal]
  have hadd : ∀ a b, a.length = (coordsOf es).length → b.length = (coordsOf es).length → add es ⟨.mean, a⟩ ⟨.mean, b⟩ = some ⟨.mean, wrapVec es (vadd a b)⟩ :=
    fun a b h1 h2 => hmk _ (vadd_length h1 h2)
  have hs := wrapVec_same es (vadd x y) (vadd_length hx hy)
  refine ⟨wrapVec es (vadd x y), hadd x y hx hy, wrapAngles_vec es ha _ (vadd_length hx hy), wrapVec_canonical es _, fun i c hc => ?_, ?_, ?_, ?_⟩
  · have := hs.2.2 i c hc
    rwa [vadd_get hx hy] at this
  · intro x' y' h1 h2
    rw [hadd x' y' h1.2.1 h2.2.1, wrapVec_congr (vadd_same h1 h2)]
  · rw [hadd y x hy hx, vadd_comm]
  · rw [hadd _ z hs.2.1 hz, hadd y z hy hz]
    show _ = add es ⟨.mean, x⟩ ⟨.mean, wrapVec es (vadd y z)⟩
    rw [hadd x _ hx (wrapVec_length es _)]
    congr 2
    have h1 : SameVec (coordsOf es) (vadd (wrapVec es (vadd x y)) z) (vadd (vadd x y) z) := vadd_same (sameVec_symm hs) (sameVec_refl hz)
    have h2 : SameVec (coordsOf es) (vadd x (vadd y z)) (vadd x (wrapVec es (vadd y z))) :=
      vadd_same (sameVec_refl hx) (wrapVec_same es _ (vadd_length hy hz))
    rw [vadd_assoc hx hy hz] at h1
    exact wrapVec_congr (sameVec_trans h1 h2)

example : ∃ s, add axisAngle ⟨.mean, [1, 350]⟩ ⟨.mean, [2, 20]⟩ = some ⟨.mean, s⟩ ∧ CanonicalVec (coordsOf axisAngle) s := by
  obtain ⟨s, h, -, h', -⟩ := C78_add axisAngle axisAngle_ok [1, 350] [2, 20] [0, 0] rfl rfl rfl
  exact ⟨s, h, h'⟩

/-- **C78** (differences): the difference of two means is the plain difference of the numbers; made a mean, it is the result of `-=`, the canonical mean
for the difference of the points. -/
theorem C78_sub_partial (es : List Elem) (ha : AxesAndAngles es) (x y : List ℝ) (hx : x.length = (coordsOf es).length) (hy : y.length = (coordsOf es).length) :
    ∃ d m, sub ⟨.mean, x⟩ ⟨.mean, y⟩ = some ⟨.matrix, d⟩ ∧ d.length = x.length ∧ (∀ i, d.getD i 0 = x.getD i 0 - y.getD i 0) ∧
      ofTyped es ⟨.matrix, d⟩ = some ⟨.mean, m⟩ ∧ Step.run es x (.minus y) = some m ∧ CanonicalVec (coordsOf es) m ∧
      ∀ (i : ℕ) (c : Coord), (coordsOf es)[i]? = some c → c.Same (x.getD i 0 - y.getD i 0) (m.getD i 0) := by
  have hl := vsub_length hx hy
  have hw := wrapAngles_vec es ha _ hl
  refine ⟨vsub x y, wrapVec es (vsub x y), rfl, by rw [hl, hx], fun i => vsub_get hx hy i, by simp [ofTyped, hw], hw, wrapVec_canonical es _, fun i c hc => ?_⟩
  have := (wrapVec_same es _ hl).2.2 i c hc
  rwa [vsub_get hx hy] at this

example : ∃ m, ofTyped axisAngle ⟨.matrix, [1 - 4, 10 - 350]⟩ = some ⟨.mean, m⟩ ∧ Step.run axisAngle [1, 10] (.minus [4, 350]) = some m := by
  obtain ⟨d, m, h, -, -, h1, h2, -⟩ := C78_sub_partial axisAngle axisAngle_ok [1, 10] [4, 350] rfl rfl
  obtain rfl : [1 - 4, 10 - 350] = d := by simpa [sub, vsub] using h
  exact ⟨m, h1, h2⟩

theorem degrees_wrap (x y : ℝ) (k : ℤ) (h0 : 0 ≤ y) (h1 : y < 360) (hk : y = x + k * 360) : wrapAngles [⟨.angle degrees360, false⟩] [x] = some [y] := by
  have ha : AxesAndAngles [⟨.angle degrees360, false⟩] := by intro e he; simp at he; subst he; trivial
  rw [wrapAngles_vec _ ha [x] rfl]
  show some [wrapC (some degrees360) x] = some [y]
  congr 2
  refine canonical_unique (o := some degrees360) (same_symm (same_trans ⟨-k, ?_⟩ (wrapC_same _ x))) (wrapC_canonical _ x) ⟨h0, h1⟩
  rw [hk]; simp [degrees360]

/-- **C78** violated: the difference of two canonical means need not be canonical, and then differs from what `-=` gives (10° - 350°). -/
theorem C78_sub_violated :
    let es : List Elem := [⟨.angle degrees360, false⟩]
    CanonicalVec (coordsOf es) [10] ∧ CanonicalVec (coordsOf es) [350] ∧ sub ⟨.mean, [10]⟩ ⟨.mean, [350]⟩ = some ⟨.matrix, [-340]⟩ ∧
      Step.run es [10] (.minus [350]) = some [20] ∧ ¬ CanonicalVec (coordsOf es) [-340] := by
  have hcan : ∀ x : ℝ, CanonicalVec (coordsOf [⟨.angle degrees360, false⟩]) [x] ↔ 0 ≤ x ∧ x < 360 := by
    intro x
    constructor
    · rintro ⟨-, h⟩; exact h 0 (toCoord (some degrees360)) rfl
    · intro h
      refine ⟨rfl, fun i c hc => ?_⟩
      cases i with
      | zero => obtain rfl := Option.some.inj hc; exact h
      | succ j => simp [coordsOf, lims] at hc
  intro es
  refine ⟨(hcan 10).mpr (by norm_num), (hcan 350).mpr (by norm_num), ?_, ?_, ?_⟩
  · norm_num [sub, vsub]
  · show wrapAngles _ [(10 : ℝ) - 350] = _
    exact degrees_wrap _ _ 1 (by norm_num) (by norm_num) (by norm_num)
  · intro h; have := (hcan _).mp h; norm_num at this

/-- **C78** (multiples and negatives): multiplying a mean by a number, and dividing it, gives the same as `*=` and `/=`, a canonical mean; for an integer
it is the mean for the multiple of the point.  The negative of a mean is a matrix with the negative numbers. -/
theorem C78_scale (es : List Elem) (ha : AxesAndAngles es) (x : List ℝ) (hx : x.length = (coordsOf es).length) (s : ℝ) :
    (∃ m, scale es s ⟨.mean, x⟩ = some ⟨.mean, m⟩ ∧ Step.run es x (.times s) = some m ∧ CanonicalVec (coordsOf es) m ∧
      (∀ (i : ℕ) (c : Coord), (coordsOf es)[i]? = some c → c.Same (s * x.getD i 0) (m.getD i 0)) ∧
      ((∃ k : ℤ, s = k) → ∀ y, SameVec (coordsOf es) x y → scale es s ⟨.mean, y⟩ = some ⟨.mean, m⟩)) ∧
    (s ≠ 0 → ∃ m, divide es s ⟨.mean, x⟩ = some ⟨.mean, m⟩ ∧ Step.run es x (.over s) = some m ∧ CanonicalVec (coordsOf es) m ∧
      ∀ (i : ℕ) (c : Coord), (coordsOf es)[i]? = some c → c.Same (x.getD i 0 / s) (m.getD i 0)) ∧
    ∃ d, neg ⟨.mean, x⟩ = ⟨.matrix, d⟩ ∧ d.length = x.length ∧ ∀ i, d.getD i 0 = -x.getD i 0 := by
  have hmk : ∀ a, a.length = (coordsOf es).length → makeMean es a = some ⟨.mean, wrapVec es a⟩ := by
    intro a hal
    obtain ⟨m, h1, -, h3, -⟩ := C78_construct es ha a hal
    rw [h3, ← h1]
    simp [ofNested, wrapAngles_vec es ha a hal]
  have hget : ∀ (t : ℝ) (i : ℕ) (c : Coord), (coordsOf es)[i]? = some c → c.Same (t * x.getD i 0) ((wrapVec es (vscale t x)).getD i 0) := by
    intro t i c hc
    have := (wrapVec_same es _ (vscale_length t hx)).2.2 i c hc
    rwa [vscale_get] at this
  refine ⟨⟨_, hmk _ (vscale_length s hx), wrapAngles_vec es ha _ (vscale_length s hx), wrapVec_canonical es _, hget s, ?_⟩, fun hs => ?_, ?_⟩
  · rintro ⟨k, rfl⟩ y hy
    show makeMean es _ = _
    rw [hmk _ (vscale_length _ hy.2.1), wrapVec_congr (vscale_same k hy)]
  · refine ⟨_, ?_, ?_, wrapVec_canonical es (vscale (1 / s) x), fun i c hc => ?_⟩
    · unfold divide
      rw [if_neg hs]
      exact hmk _ (vscale_length _ hx)
    · show (if s = 0 then none else _) = _
      rw [if_neg hs]
      exact wrapAngles_vec es ha _ (vscale_length _ hx)
    · have := hget (1 / s) i c hc
      rwa [one_div_mul_eq_div] at this
  · refine ⟨_, rfl, by simp [vscale], fun i => ?_⟩
    rw [vscale_get, neg_one_mul]

example : ∃ m, scale axisAngle 3 ⟨.mean, [1, 350]⟩ = some ⟨.mean, m⟩ ∧ CanonicalVec (coordsOf axisAngle) m := by
  obtain ⟨⟨m, h, -, h', -⟩, -⟩ := C78_scale axisAngle axisAngle_ok [1, 350] rfl 3
  exact ⟨m, h, h'⟩

/-- **C78** (kinds): any sum or difference with a matrix is a matrix of plain sums or differences; Euclidean-transformed operands combine only with
each other; multiples keep the kind. -/
theorem C78_kinds (es : List Elem) (v w : Typed) (h : v.kind ≠ .mean ∨ w.kind ≠ .mean) (s : ℝ) :
    (((v.kind = .euclidean ↔ w.kind = .euclidean) → ∃ a d, add es v w = some a ∧ sub v w = some d ∧ a.kind = d.kind ∧
        (a.kind = if v.kind = .euclidean then .euclidean else .matrix) ∧ (v.col.length = w.col.length → a.col.length = v.col.length ∧ d.col.length = v.col.length ∧
          ∀ i, a.col.getD i 0 = v.col.getD i 0 + w.col.getD i 0 ∧ d.col.getD i 0 = v.col.getD i 0 - w.col.getD i 0)) ∧
      (¬ (v.kind = .euclidean ↔ w.kind = .euclidean) → add es v w = none ∧ sub v w = none)) ∧
    (v.kind ≠ .mean → (∃ m, scale es s v = some m ∧ m.kind = v.kind ∧ m.col.length = v.col.length ∧ ∀ i, m.col.getD i 0 = s * v.col.getD i 0) ∧
      (s ≠ 0 → ∃ m, divide es s v = some m ∧ m.kind = v.kind ∧ m.col.length = v.col.length ∧ ∀ i, m.col.getD i 0 = v.col.getD i 0 / s) ∧
      (neg v).kind = v.kind ∧ (neg v).col.length = v.col.length ∧ ∀ i, (neg v).col.getD i 0 = -v.col.getD i 0) := by
  obtain ⟨k, x⟩ := v
  obtain ⟨l, y⟩ := w
  have hsum : x.length = y.length → (vadd x y).length = x.length ∧ (vsub x y).length = x.length ∧
      ∀ i, (vadd x y).getD i 0 = x.getD i 0 + y.getD i 0 ∧ (vsub x y).getD i 0 = x.getD i 0 - y.getD i 0 :=
    fun e => ⟨vadd_length rfl e.symm, vsub_length rfl e.symm, fun i => ⟨vadd_get rfl e.symm i, vsub_get rfl e.symm i⟩⟩
  have hsc : ∀ t : ℝ, (vscale t x).length = x.length ∧ ∀ i, (vscale t x).getD i 0 = t * x.getD i 0 :=
    fun t => ⟨by simp [vscale], fun i => vscale_get t x i⟩
  refine ⟨⟨fun hk => ?_, fun hk => ?_⟩, fun hm => ⟨?_, fun hs => ?_, ?_⟩⟩
  · cases k <;> cases l <;> simp at hk h <;> exact ⟨_, _, rfl, rfl, rfl, rfl, hsum⟩
  · cases k <;> cases l <;> simp at hk h <;> exact ⟨rfl, rfl⟩
  · cases k <;> simp at hm <;> exact ⟨_, rfl, rfl, hsc s⟩
  · unfold divide
    rw [if_neg hs]
    simp only [fun i => (one_div_mul_eq_div s (x.getD i 0)).symm]
    cases k <;> simp at hm <;> exact ⟨_, rfl, rfl, hsc (1 / s)⟩
  · simp only [fun i => (neg_one_mul (x.getD i 0)).symm]
    cases k <;> simp at hm <;> exact ⟨rfl, hsc (-1)⟩

example : add [⟨.angle degrees360, false⟩] ⟨.matrix, [350]⟩ ⟨.mean, [20]⟩ = some ⟨.matrix, [350 + 20]⟩ := rfl

/-- What the arguments of a change must satisfy: the right sizes, a divisor other than zero, and canonical numbers in a `Mean`. -/
def Step.Ok (es : List Elem) : Step → Prop
  | .assign x => x.length = (coordsOf es).length
  | .assignTyped ⟨.mean, x⟩ => CanonicalVec (coordsOf es) x
  | .assignTyped ⟨.euclidean, x⟩ => x.length = (es.map (·.d.statDimension)).sum
  | .assignTyped ⟨.matrix, x⟩ => x.length = (coordsOf es).length
  | .plus x => x.length = (coordsOf es).length
  | .minus x => x.length = (coordsOf es).length
  | .times _ => True
  | .over s => s ≠ 0

theorem step_ok (es : List Elem) (ha : AxesAndAngles es) (m : List ℝ) (hm : m.length = (coordsOf es).length) (op : Step) (ho : op.Ok es) :
    ∃ m', op.run es m = some m' ∧ CanonicalVec (coordsOf es) m' := by
  have hw : ∀ x, x.length = (coordsOf es).length → ∃ m', wrapAngles es x = some m' ∧ CanonicalVec (coordsOf es) m' :=
    fun x hx => ⟨_, wrapAngles_vec es ha x hx, wrapVec_canonical es x⟩
  cases op with
  | assign x => exact hw x ho
  | assignTyped v =>
    obtain ⟨k, x⟩ := v
    cases k with
    | mean => exact ⟨x, rfl, ho⟩
    | euclidean => exact ⟨decB es x, by simp [Step.run, ofTyped, decode_eq es x ho], decB_canonical es ha x ho⟩
    | matrix =>
      obtain ⟨m', h1, h2⟩ := hw x ho
      exact ⟨m', by simp [Step.run, ofTyped, h1], h2⟩
  | plus x => exact hw _ (vadd_length hm ho)
  | minus x => exact hw _ (vsub_length hm ho)
  | times s => exact hw _ (vscale_length s hm)
  | over s =>
    obtain ⟨m', h1, h2⟩ := hw _ (vscale_length (1 / s) hm)
    exact ⟨m', by simp only [Step.run, if_neg (show ¬ s = 0 from ho), h1], h2⟩

/-- **C78** (invariant): whatever is done to a canonical `Mean`, it stays canonical. -/
theorem C78_invariant (es : List Elem) (ha : AxesAndAngles es) (ops : List Step) (ho : ∀ op ∈ ops, op.Ok es) (m : List ℝ) (hm : CanonicalVec (coordsOf es) m) :
    ∃ m', runSteps es m ops = some m' ∧ CanonicalVec (coordsOf es) m' := by
  induction ops generalizing m with
  | nil => exact ⟨m, rfl, hm⟩
  | cons op ops ih =>
    obtain ⟨m1, h1, h2⟩ := step_ok es ha m hm.1 op (ho op (by simp))
    obtain ⟨m', h3, h4⟩ := ih (fun o h => ho o (by simp [h])) m1 h2
    refine ⟨m', ?_, h4⟩
    unfold runSteps at h3 ⊢
    rw [List.foldlM_cons, h1]
    exact h3

example : ∃ m', runSteps axisAngle [1, 350] [.plus [2, 300], .times (-1 / 2), .assignTyped ⟨.euclidean, [4, -3, 0]⟩, .minus [7, 359], .over 3] = some m' ∧
    CanonicalVec (coordsOf axisAngle) m' := by
  refine C78_invariant axisAngle axisAngle_ok _ ?_ _ ⟨rfl, ?_⟩
  · intro op h
    simp only [List.mem_cons, List.not_mem_nil, or_false] at h
    rcases h with rfl | rfl | rfl | rfl | rfl
    · rfl
    · trivial
    · rfl
    · rfl
    · show (3 : ℝ) ≠ 0
      norm_num
  · intro i c hc
    match i, hc with
    | 0, hc => obtain rfl := Option.some.inj hc; trivial
    | 1, hc =>
      obtain rfl := Option.some.inj hc
      show (0 : ℝ) ≤ 350 ∧ (350 : ℝ) < 360
      norm_num

/-- The same change of a plain vector of numbers. -/
noncomputable def Step.plain (m : List ℝ) : Step → List ℝ
  | .assign x => x
  | .assignTyped v => v.col
  | .plus x => vadd m x
  | .minus x => vsub m x
  | .times s => vscale s m
  | .over s => vscale (1 / s) m

/-- The changes that make sense for points of a circle: assignment, sums, differences and multiples by integers. -/
def Step.Circular : Step → Prop
  | .assign _ => True
  | .assignTyped v => v.kind = .matrix ∨ v.kind = .mean
  | .plus _ => True
  | .minus _ => True
  | .times s => ∃ k : ℤ, s = k
  | .over _ => False

/-- **C78** (values): after any sequence of assignments, sums, differences and multiplications by integers, the mean stands for the same point as the
result of plain arithmetic with the numbers, wherever the angles were wrapped meanwhile. -/
theorem C78_value (es : List Elem) (ha : AxesAndAngles es) (ops : List Step) (ho : ∀ op ∈ ops, op.Ok es ∧ op.Circular) (m x : List ℝ)
    (hm : SameVec (coordsOf es) x m) : ∃ m', runSteps es m ops = some m' ∧ SameVec (coordsOf es) (ops.foldl Step.plain x) m' := by
  induction ops generalizing m x with
  | nil => exact ⟨m, rfl, hm⟩
  | cons op ops ih =>
    obtain ⟨hok, hcirc⟩ := ho op (by simp)
    have key : ∃ m1, op.run es m = some m1 ∧ SameVec (coordsOf es) (op.plain x) m1 := by
      have hw : ∀ a b, SameVec (coordsOf es) a b → ∃ m1, wrapAngles es b = some m1 ∧ SameVec (coordsOf es) a m1 :=
        fun a b h => ⟨_, wrapAngles_vec es ha b h.2.1, sameVec_trans h (wrapVec_same es b h.2.1)⟩
      cases op with
      | assign a => exact hw _ _ (sameVec_refl hok)
      | assignTyped v =>
        obtain ⟨k, a⟩ := v
        rcases hcirc with rfl | rfl
        · obtain ⟨m1, h1, h2⟩ := hw a a (sameVec_refl hok)
          exact ⟨m1, by simp [Step.run, ofTyped, h1], h2⟩
        · exact ⟨a, rfl, sameVec_refl hok.1⟩
      | plus a => exact hw _ _ (vadd_same hm (sameVec_refl hok))
      | minus a => exact hw _ _ (vsub_same hm (sameVec_refl hok))
      | times s =>
        obtain ⟨k, rfl⟩ := hcirc
        exact hw _ _ (vscale_same k hm)
      | over s => exact absurd hcirc id
    obtain ⟨m1, h1, h2⟩ := key
    obtain ⟨m', h3, h4⟩ := ih (fun o h => ho o (by simp [h])) m1 _ h2
    refine ⟨m', ?_, h4⟩
    unfold runSteps at h3 ⊢
    rw [List.foldlM_cons, h1]
    exact h3

example : ∃ m', runSteps axisAngle [1, 350] [.plus [2, 300], .times (3 : ℤ), .minus [1, 700]] = some m' ∧ SameVec (coordsOf axisAngle) [8, 1250] m' := by
  obtain ⟨m', h, h'⟩ := C78_value axisAngle axisAngle_ok [.plus [2, 300], .times (3 : ℤ), .minus [1, 700]]
    (by intro op h
        simp only [List.mem_cons, List.not_mem_nil, or_false] at h
        rcases h with rfl | rfl | rfl
        · exact ⟨rfl, trivial⟩
        · exact ⟨trivial, 3, rfl⟩
        · exact ⟨rfl, trivial⟩) [1, 350] [1, 350] (sameVec_refl rfl)
  refine ⟨m', h, ?_⟩
  have : [Step.plus [2, 300], .times (3 : ℤ), .minus [1, 700]].foldl Step.plain [1, 350] = [8, 1250] := by norm_num [Step.plain, vadd, vsub, vscale]
  rwa [this] at h'

/-- **C78** violated (scaling): halving a sum of angles is not plain arithmetic up to whole turns: (190° + 190°) / 2 is 10°, not 190°. -/
theorem C78_scale_violated :
    let es : List Elem := [⟨.angle degrees360, false⟩]
    runSteps es [190] [.plus [190], .over 2] = some [10] ∧ [Step.plus [190], .over 2].foldl Step.plain [190] = [190] ∧ ¬ SameVec (coordsOf es) [190] [10] := by
  refine ⟨?_, by norm_num [Step.plain, vadd, vscale], ?_⟩
  · have h1 : Step.run [⟨.angle degrees360, false⟩] [190] (.plus [190]) = some [20] := by
      show wrapAngles _ [(190 : ℝ) + 190] = _
      exact degrees_wrap _ _ (-1) (by norm_num) (by norm_num) (by norm_num)
    have h2 : Step.run [⟨.angle degrees360, false⟩] [20] (.over 2) = some [10] := by
      show (if (2 : ℝ) = 0 then none else wrapAngles _ [(1 / 2 : ℝ) * 20]) = _
      rw [if_neg (by norm_num)]
      exact degrees_wrap _ _ 0 (by norm_num) (by norm_num) (by norm_num)
    simp only [runSteps, List.foldlM_cons, h1, h2, List.foldlM_nil, Option.bind_eq_bind, Option.bind_some]
    rfl
  · rintro ⟨-, -, h⟩
    obtain ⟨k, hk⟩ := h 0 (toCoord (some degrees360)) rfl
    simp only [List.getD_cons_zero, degrees360] at hk
    have h2 : (k : ℝ) * 2 = -1 := by linarith
    have h3 : k * 2 = -1 := by exact_mod_cast h2
    omega

/-- **C78** (Euclidean patterns): without angles all changes are plain arithmetic. -/
theorem C78_euclidean (es : List Elem) (he : es.all (·.staticEuclidean) = true) (ops : List Step)
    (ho : ∀ op ∈ ops, match op with | .assignTyped v => v.kind ≠ .euclidean | .over s => s ≠ 0 | _ => True) (m : List ℝ) :
    runSteps es m ops = some (ops.foldl Step.plain m) := by
  induction ops generalizing m with
  | nil => rfl
  | cons op ops ih =>
    have hw : ∀ x, wrapAngles es x = some x := fun x => by unfold wrapAngles; rw [if_pos he]
    have h1 : op.run es m = some (op.plain m) := by
      have := ho op (by simp)
      cases op with
      | assignTyped v =>
        obtain ⟨k, a⟩ := v
        cases k with
        | mean => rfl
        | matrix => simp [Step.run, ofTyped, hw, Step.plain]
        | euclidean => exact absurd rfl this
      | over s => simp only [Step.run, if_neg (show ¬ s = 0 from this), hw]; rfl
      | _ => exact hw _
    unfold runSteps
    rw [List.foldlM_cons, h1]
    exact ih (fun o h => ho o (by simp [h])) _

example : runSteps [⟨.dim 2, false⟩] [1, 2] [.plus [3, 4], .over 2] = some [2, 3] := by
  rw [C78_euclidean _ rfl _ (by
    intro op h
    simp only [List.mem_cons, List.not_mem_nil, or_false] at h
    rcases h with rfl | rfl
    · trivial
    · show (2 : ℝ) ≠ 0
      norm_num)]
  norm_num [Step.plain, vadd, vscale]

/-- **C78** violated (distances): a `Mean` assigned from a `EuclideanMean` keeps a negative distance, which any other way of making it would have wrapped. -/
theorem C78_distance_violated :
    let es : List Elem := [⟨.distance, false⟩]
    ofTyped es ⟨.euclidean, [-2]⟩ = some ⟨.mean, [-2]⟩ ∧ ofNested es [-2] = some ⟨.mean, [2]⟩ := by
  constructor
  · rfl
  · show some (Typed.mk .mean [|(-2 : ℝ)|]) = _
    norm_num

/-! ## C79 -/

variable {count : ℕ}

/-- **C79** (mean): in each coordinate the mean of the transformed points is the canonical point nearest to the outputs, in the weighted mean of squared
distances (on a circle: along straight lines in the plane); for weights with sum 1. -/
theorem C79_mean (es : List Elem) (ha : AxesAndAngles es) (w : Fin count → ℝ) (hw : ∑ c, w c = 1) (y : Fin count → List ℝ)
    (hy : ∀ c, (y c).length = (coordsOf es).length) :
    ∃ s, stage es w y = some s ∧ CanonicalVec (coordsOf es) s.mean ∧
      ∀ (i : ℕ) (c : Coord), (coordsOf es)[i]? = some c → ∀ t, spread w c (fun k => (y k).getD i 0) (s.mean.getD i 0) ≤ spread w c (fun k => (y k).getD i 0) t := by
  refine ⟨_, stage_eq es ha w y hy, ⟨meanVec_length es w y, fun i c hc => ?_⟩, fun i c hc t => ?_⟩
  · obtain ⟨o, ho, rfl⟩ := coordsOf_get hc
    show (toCoord o).Canonical ((meanVec es w y).getD i 0)
    rw [meanVec_get ho]
    exact meanC_canonical w o _
  · obtain ⟨o, ho, rfl⟩ := coordsOf_get hc
    show spread w _ _ ((meanVec es w y).getD i 0) ≤ _
    rw [meanVec_get ho]
    exact meanC_minimal w hw o _ t

example : ∃ s, stage axisAngle (![1 / 2, 1 / 2] : Fin 2 → ℝ) ![[1, 350], [3, 20]] = some s ∧ CanonicalVec (coordsOf axisAngle) s.mean := by
  obtain ⟨s, h, h', -⟩ := C79_mean axisAngle axisAngle_ok ![1 / 2, 1 / 2] (by norm_num [Fin.sum_univ_two]) ![[1, 350], [3, 20]] (by intro c; fin_cases c <;> rfl)
  exact ⟨s, h, h'⟩

/-- **C79** (deviations): each deviation stands for the difference between the output and the mean. -/
theorem C79_deviations (es : List Elem) (ha : AxesAndAngles es) (w : Fin count → ℝ) (y : Fin count → List ℝ)
    (hy : ∀ c, (y c).length = (coordsOf es).length) :
    ∃ s, stage es w y = some s ∧ ∀ k, SameVec (coordsOf es) (vsub (y k) s.mean) (s.dev k) :=
  ⟨_, stage_eq es ha w y hy, fun k => vsub_same (wrapVec_same es _ (hy k)) (sameVec_refl (meanVec_length es w y))⟩

/-- **C79** (representation): whole turns added to the outputs make no difference to the mean, the deviations or the covariances. -/
theorem C79_representation (es : List Elem) (ha : AxesAndAngles es) (w : Fin count → ℝ) (y y' : Fin count → List ℝ)
    (h : ∀ c, SameVec (coordsOf es) (y c) (y' c)) : stage es w y = stage es w y' := by
  rw [stage_eq es ha w y fun c => (h c).1, stage_eq es ha w y' fun c => (h c).2.1, meanVec_congr w h]
  simp only [fun c => wrapVec_congr (h c)]

example : stage axisAngle (fun _ : Fin 2 => 1 / 2) ![[1, 350], [3, 20]] = stage axisAngle (fun _ => 1 / 2) ![[1, -10], [3, 740]] := by
  refine C79_representation axisAngle axisAngle_ok _ _ _ fun c => ?_
  have h : ∀ a b b' : ℝ, (∃ k : ℤ, b' = b + k * (360 - 0)) → SameVec (coordsOf axisAngle) [a, b] [a, b'] := by
    intro a b b' hb
    refine ⟨rfl, rfl, fun i c hc => ?_⟩
    match i, hc with
    | 0, hc => obtain rfl := Option.some.inj hc; rfl
    | 1, hc => obtain rfl := Option.some.inj hc; exact hb
  fin_cases c
  · exact h 1 350 (-10) ⟨-1, by norm_num⟩
  · exact h 3 20 740 ⟨2, by norm_num⟩

/-- **C79** (all outputs the same): if all outputs stand for one point, that is the mean, and all deviations and the covariances vanish. -/
theorem C79_concentrated (es : List Elem) (ha : AxesAndAngles es) (W : Weights count) (hw : ∑ c, W.wm c = 1) (y : Fin count → List ℝ) (x : List ℝ)
    (h : ∀ c, SameVec (coordsOf es) x (y c)) (hx : x.length = (coordsOf es).length) (lib : Lib ℝ) {n : ℕ} (X : Matrix (Fin n) (Fin count) ℝ) :
    ∃ s, stage es W.wm y = some s ∧ SameVec (coordsOf es) x s.mean ∧ (∀ k, s.dev k = List.replicate x.length 0) ∧
      s.cov x.length lib W = 0 ∧ s.cross x.length W X = 0 := by
  have hmean : meanVec es W.wm y = wrapVec es x := by
    rw [← meanVec_congr W.wm h]
    refine vec_ext (meanVec_length es _ _) (wrapVec_length es x) fun i hi => ?_
    have hc : (coordsOf es)[i]? = some (coordsOf es)[i] := List.getElem?_eq_getElem hi
    obtain ⟨o, ho, -⟩ := coordsOf_get hc
    rw [meanVec_get ho, wrapVec_get ho]
    cases o with
    | none => show ∑ c, W.wm c * _ = _; rw [← Finset.sum_mul, hw, one_mul]; rfl
    | some L =>
      show L.fromStat (∑ c, W.wm c * _) (∑ c, W.wm c * _) = _
      rw [← Finset.sum_mul, ← Finset.sum_mul, hw, one_mul, one_mul]; rfl
  have hdev : ∀ k, vsub (wrapVec es (y k)) (meanVec es W.wm y) = List.replicate x.length 0 := by
    intro k
    rw [hmean, ← wrapVec_congr (h k)]
    have hl := wrapVec_length es x
    refine vec_ext (vsub_length hl hl) (by rw [List.length_replicate, hx]) fun i hi => ?_
    rw [vsub_get hl hl, sub_self, List.getD_eq_getElem?_getD, List.getElem?_replicate, if_pos (by omega)]; rfl
  refine ⟨_, stage_eq es ha W.wm y fun c => (h c).2.1, ?_, hdev, ?_, ?_⟩
  · show SameVec _ x (meanVec es W.wm y)
    rw [hmean]; exact wrapVec_same es x hx
  all_goals
    have h0 : colMatrix x.length (fun c => vsub (wrapVec es (y c)) (meanVec es W.wm y)) = 0 := by
      ext a c
      simp only [colMatrix, hdev, List.getD_eq_getElem?_getD, List.getElem?_replicate, if_pos a.isLt]; rfl
  · show covarianceOf lib W (colMatrix _ _) = 0
    rw [h0, covarianceOf, Matrix.zero_mul, lib.herm_spec 0 (by simp [Matrix.IsHermitian])]
  · show crossOf W X (colMatrix _ _) = 0
    rw [h0, crossOf]; simp

example (lib : Lib ℝ) : ∃ s, stage axisAngle (fun _ : Fin 2 => 1 / 2) (fun _ => [1, 350]) = some s ∧ s.cov 2 lib ⟨fun _ => 1 / 2, fun _ => 1 / 2⟩ = 0 := by
  obtain ⟨s, h, -, -, h', -⟩ := C79_concentrated axisAngle axisAngle_ok (⟨fun _ => 1 / 2, fun _ => 1 / 2⟩ : Weights 2) (by norm_num) (fun _ => [1, 350]) [1, 350]
    (fun _ => sameVec_refl rfl) rfl lib (0 : Matrix (Fin 1) (Fin 2) ℝ)
  exact ⟨s, h, h'⟩

/-- **C79** (Euclidean outputs): for a plain pattern this is the transform of C56–C58. -/
theorem C79_euclidean (p : ℕ) (W : Weights count) (Y : Matrix (Fin p) (Fin count) ℝ) :
    ∃ s, stage [⟨.dim p, false⟩] W.wm (fun c => List.ofFn fun a => Y a c) = some s ∧ s.mean = List.ofFn (weightedMean W Y) ∧
      colMatrix p s.dev = deviations Y (weightedMean W Y) := by
  have ha : AxesAndAngles [⟨.dim p, false⟩] := by intro e he; simp at he; subst he; trivial
  have hl : coordsOf [⟨.dim p, false⟩] = List.replicate p .line := by simp [coordsOf, lims, toCoord]
  have hlims : ∀ i, i < p → (lims [⟨.dim p, false⟩])[i]? = some none := fun i hi => by simp [lims, hi]
  have hlen : ∀ c, (List.ofFn fun a => Y a c).length = (coordsOf [⟨.dim p, false⟩]).length := fun c => by rw [hl]; simp
  have hget : ∀ (f : Fin p → ℝ) (i : ℕ) (hi : i < p), (List.ofFn f).getD i 0 = f ⟨i, hi⟩ := fun f i hi => by
    simp [List.getD_eq_getElem?_getD, hi]
  have hm : meanVec [⟨.dim p, false⟩] W.wm (fun c => List.ofFn fun a => Y a c) = List.ofFn (weightedMean W Y) := by
    refine vec_ext (n := p) (by rw [meanVec_length, hl, List.length_replicate]) (by simp) fun i hi => ?_
    rw [meanVec_get (hlims i hi), hget _ i hi]
    unfold meanC weightedMean mulVec dotProduct scal
    refine Finset.sum_congr rfl fun c _ => ?_
    show W.wm c * (List.ofFn fun a => Y a c).getD i 0 = _
    rw [hget _ i hi, mul_comm]; rfl
  refine ⟨_, stage_eq _ ha W.wm _ hlen, hm, ?_⟩
  ext a c
  show (vsub _ (meanVec _ _ _)).getD a 0 = _
  rw [vsub_get (wrapVec_length _ _) (meanVec_length _ _ _), wrapVec_get (hlims a a.isLt), hm, hget _ a a.isLt]
  show Y a c - (List.ofFn (weightedMean W Y)).getD a 0 = _
  rw [hget _ a a.isLt]; rfl

/-- **C79** (rotation): if all outputs are moved by `t`, the mean moves by `t`, and the deviations stand for the same points as before.  In an angular
coordinate the outputs must not cancel. -/
theorem C79_rotation_partial (es : List Elem) (ha : AxesAndAngles es) (w : Fin count → ℝ) (hw : ∑ c, w c = 1) (y : Fin count → List ℝ)
    (hy : ∀ c, (y c).length = (coordsOf es).length) (t : List ℝ) (ht : t.length = (coordsOf es).length)
    (hres : ∀ (i : ℕ) (mn mx : ℝ) (top : Bool), (coordsOf es)[i]? = some (.circle mn mx top) →
      (∑ c, w c * (circlePoint (mx - mn) ((y c).getD i 0)).1, ∑ c, w c * (circlePoint (mx - mn) ((y c).getD i 0)).2) ≠ (0, 0)) :
    ∃ s s', stage es w y = some s ∧ stage es w (fun c => vadd (y c) t) = some s' ∧ SameVec (coordsOf es) (vadd s.mean t) s'.mean ∧
      ∀ k, SameVec (coordsOf es) (s.dev k) (s'.dev k) := by
  have hy' : ∀ c, (vadd (y c) t).length = (coordsOf es).length := fun c => vadd_length (hy c) ht
  have hmean : SameVec (coordsOf es) (vadd (meanVec es w y) t) (meanVec es w fun c => vadd (y c) t) := by
    refine ⟨vadd_length (meanVec_length es w y) ht, meanVec_length es w _, fun i c hc => ?_⟩
    obtain ⟨o, ho, rfl⟩ := coordsOf_get hc
    rw [vadd_get (meanVec_length es w y) ht, meanVec_get ho, meanVec_get ho]
    simp only [fun c => vadd_get (hy c) ht]
    cases o with
    | none =>
      show ∑ c, w c * _ + _ = ∑ c, w c * (_ + _)
      simp only [mul_add, Finset.sum_add_distrib, ← Finset.sum_mul, hw, one_mul]
    | some L => exact meanC_shift w L _ _ (hres i _ _ _ hc)
  refine ⟨_, _, stage_eq es ha w y hy, stage_eq es ha w _ hy', hmean, fun k => ?_⟩
  show SameVec _ (vsub (wrapVec es (y k)) (meanVec es w y)) (vsub (wrapVec es (vadd (y k) t)) (meanVec es w fun c => vadd (y c) t))
  have h1 : SameVec (coordsOf es) (vsub (vadd (y k) t) (vadd (meanVec es w y) t)) (vsub (wrapVec es (vadd (y k) t)) (meanVec es w fun c => vadd (y c) t)) :=
    vsub_same (wrapVec_same es _ (hy' k)) hmean
  have h2 : vsub (vadd (y k) t) (vadd (meanVec es w y) t) = vsub (y k) (meanVec es w y) := by
    refine vec_ext (vsub_length (hy' k) hmean.1) (vsub_length (hy k) (meanVec_length es w y)) fun i _ => ?_
    rw [vsub_get (hy' k) hmean.1, vadd_get (hy k) ht, vadd_get (meanVec_length es w y) ht, vsub_get (hy k) (meanVec_length es w y)]
    ring
  rw [h2] at h1
  exact sameVec_trans (vsub_same (sameVec_symm (wrapVec_same es _ (hy k))) (sameVec_refl (meanVec_length es w y))) h1

/-- Two outputs at 0° and 90° do not cancel. -/
example : ∃ s s', stage [⟨.angle degrees360, false⟩] (fun _ : Fin 2 => 1 / 2) ![[0], [90]] = some s ∧
    stage [⟨.angle degrees360, false⟩] (fun _ => 1 / 2) (fun c => vadd (![[0], [90]] c) [300]) = some s' ∧
    SameVec (coordsOf [⟨.angle degrees360, false⟩]) (vadd s.mean [300]) s'.mean := by
  obtain ⟨s, s', h1, h2, h3, -⟩ := C79_rotation_partial [⟨.angle degrees360, false⟩] (by intro e he; simp at he; subst he; trivial) (fun _ : Fin 2 => 1 / 2)
    (by norm_num) ![[0], [90]] (by intro c; fin_cases c <;> rfl) [300] rfl (by
      intro i mn mx top hc
      cases i with
      | zero =>
        have hc' : toCoord (some degrees360) = .circle mn mx top := Option.some.inj hc
        obtain ⟨rfl, rfl, rfl⟩ : (0 : ℝ) = mn ∧ (360 : ℝ) = mx ∧ top = false := by
          simpa [toCoord, degrees360] using hc'
        intro h
        have h1 := (Prod.mk.inj h).1
        have : 2 * π * 90 / 360 = π / 2 := by ring
        simp [Fin.sum_univ_two, circlePoint, this] at h1
      | succ j => simp [coordsOf, lims] at hc)
  exact ⟨s, s', h1, h2, h3⟩

theorem radians_ok : AxesAndAngles [⟨.angle radians, false⟩] := by intro e he; simp at he; subst he; trivial

theorem radians_meanVec (w : Fin 2 → ℝ) (a b : ℝ) : meanVec [⟨.angle radians, false⟩] w ![[a], [b]] =
    [atan2 (w 0 * sin a + w 1 * sin b) (w 0 * cos a + w 1 * cos b)] := by
  show [meanC w (some radians) _] = _
  unfold meanC AngleLim.fromStat AngleLim.toStat
  simp [radians, Fin.sum_univ_two]

/-- Two outputs near 0 or near π. -/
theorem two_points (a m : ℝ) (hm : atan2 (1 / 2 * sin a + 1 / 2 * sin (-a)) (1 / 2 * cos a + 1 / 2 * cos (-a)) = m) (h1 : -π < a) (h2 : a < π) (h3 : -π < -a)
    (h4 : -a < π) :
    stage [⟨.angle radians, false⟩] (fun _ => 1 / 2) ![[a], [-a]] = some ⟨[m], fun c => ![[a - m], [-a - m]] c⟩ := by
  rw [stage_eq _ radians_ok _ _ (by intro c; fin_cases c <;> rfl), radians_meanVec, hm]
  congr 2
  funext c
  have hw : ∀ x, -π < x → x < π → wrapVec [⟨.angle radians, false⟩] [x] = [x] := by
    intro x hx1 hx2
    refine wrapVec_of_canonical ⟨rfl, fun i c hc => ?_⟩
    cases i with
    | zero => obtain rfl := Option.some.inj hc; exact ⟨hx1, hx2.le⟩
    | succ j => simp [coordsOf, lims] at hc
  fin_cases c
  · show vsub (wrapVec _ [a]) [m] = [a - m]
    rw [hw a h1 h2]; rfl
  · show vsub (wrapVec _ [-a]) [m] = [-a - m]
    rw [hw _ h3 h4]; rfl

/-- **C79** violated: the covariance changes if all outputs are turned by half a turn.  The outputs ±π/4 have variance π²/16; turned to ∓3π/4 they have
variance 25π²/16, since deviations from the mean π are not wrapped. -/
theorem C79_rotation_violated (lib : Lib ℝ) :
    ∃ s s', stage [⟨.angle radians, false⟩] (fun _ => 1 / 2) ![[π / 4], [-(π / 4)]] = some s ∧
      stage [⟨.angle radians, false⟩] (fun _ => 1 / 2) ![[3 * π / 4], [-(3 * π / 4)]] = some s' ∧
      SameVec (coordsOf [⟨.angle radians, false⟩]) [π / 4 + π] [-(3 * π / 4)] ∧ SameVec (coordsOf [⟨.angle radians, false⟩]) [-(π / 4) + π] [3 * π / 4] ∧
      s.cov 1 lib ⟨fun _ => 1 / 2, fun _ => 1 / 2⟩ 0 0 = π ^ 2 / 16 ∧ s'.cov 1 lib ⟨fun _ => 1 / 2, fun _ => 1 / 2⟩ 0 0 = 25 * π ^ 2 / 16 := by
  have hpi := Real.pi_pos
  have hcos : cos (3 * π / 4) < 0 := by
    apply cos_neg_of_pi_div_two_lt_of_lt <;> linarith
  have hcos' : 0 < cos (π / 4) := cos_pos_of_mem_Ioo ⟨by linarith, by linarith⟩
  have e1 : atan2 (1 / 2 * sin (π / 4) + 1 / 2 * sin (-(π / 4))) (1 / 2 * cos (π / 4) + 1 / 2 * cos (-(π / 4))) = 0 := by
    rw [sin_neg, cos_neg, show 1 / 2 * sin (π / 4) + 1 / 2 * -sin (π / 4) = 0 by ring, show 1 / 2 * cos (π / 4) + 1 / 2 * cos (π / 4) = cos (π / 4) by ring]
    show Complex.arg ⟨cos (π / 4), 0⟩ = 0
    exact Complex.arg_ofReal_of_nonneg hcos'.le
  have e2 : atan2 (1 / 2 * sin (3 * π / 4) + 1 / 2 * sin (-(3 * π / 4))) (1 / 2 * cos (3 * π / 4) + 1 / 2 * cos (-(3 * π / 4))) = π := by
    rw [sin_neg, cos_neg, show 1 / 2 * sin (3 * π / 4) + 1 / 2 * -sin (3 * π / 4) = 0 by ring,
      show 1 / 2 * cos (3 * π / 4) + 1 / 2 * cos (3 * π / 4) = cos (3 * π / 4) by ring]
    show Complex.arg ⟨cos (3 * π / 4), 0⟩ = π
    exact Complex.arg_ofReal_of_neg hcos
  have hcov : ∀ (s : Stage 2) (u v : ℝ), (s.dev 0).getD 0 0 = u → (s.dev 1).getD 0 0 = v →
      s.cov 1 lib ⟨fun _ => 1 / 2, fun _ => 1 / 2⟩ 0 0 = (u ^ 2 + v ^ 2) / 2 := by
    intro s u v hu hv
    unfold Stage.cov covarianceOf
    rw [lib.herm_spec _ (by
      ext i j
      rw [Subsingleton.elim i j]
      simp [Matrix.conjTranspose_apply])]
    simp [Matrix.mul_apply, Matrix.diagonal_apply, Fin.sum_univ_two, colMatrix, scal] at hu hv ⊢
    rw [hu, hv]
    ring
  have hs : ∀ x y : ℝ, (∃ k : ℤ, y = x + k * (π - -π)) → SameVec (coordsOf [⟨.angle radians, false⟩]) [x] [y] := by
    intro x y h
    refine ⟨rfl, rfl, fun i c hc => ?_⟩
    cases i with
    | zero => obtain rfl := Option.some.inj hc; exact h
    | succ j => simp [coordsOf, lims] at hc
  refine ⟨_, _, two_points (π / 4) 0 e1 (by linarith) (by linarith) (by linarith) (by linarith),
    two_points (3 * π / 4) π e2 (by linarith) (by linarith) (by linarith) (by linarith), hs _ _ ⟨-1, by push_cast; ring⟩, hs _ _ ⟨0, by push_cast; ring⟩, ?_, ?_⟩
  · rw [hcov _ (π / 4 - 0) (-(π / 4) - 0) rfl rfl]; ring
  · rw [hcov _ (3 * π / 4 - π) (-(3 * π / 4) - π) rfl rfl]; ring

/-- **C79** violated (distances): with a negative weight, as unscented transforms have for the first point, the mean distance can be negative. -/
theorem C79_distance_violated : ∃ s, stage [⟨.distance, false⟩] (![-1, 1, 1] : Fin 3 → ℝ) ![[5], [1], [1]] = some s ∧ s.mean = [-3] := by
  refine ⟨_, rfl, ?_⟩
  show [∑ c : Fin 3, _] = _
  simp [Fin.sum_univ_three, Distance.toStat]
  norm_num

/-- **C79** (update): the new mean is canonical, the same whatever numbers stand for the measurement, and is the old mean plus the gain times the
difference of the canonical measurement and the predicted one. -/
theorem C79_update_partial {n p : ℕ} (xs zs : List Elem) (hxs : AxesAndAngles xs) (hzs : AxesAndAngles zs) (hn : (coordsOf xs).length = n)
    (hp : (coordsOf zs).length = p) (K : Matrix (Fin n) (Fin p) ℝ) (x y z : List ℝ) (hx : x.length = n) (hy : y.length = p) (hz : z.length = p) :
    ∃ m zc, updateMean xs zs K x y z = some m ∧ CanonicalVec (coordsOf xs) m ∧ SameVec (coordsOf zs) z zc ∧ CanonicalVec (coordsOf zs) zc ∧
      SameVec (coordsOf xs) (vadd x (List.ofFn (K *ᵥ fun a : Fin p => zc.getD a 0 - y.getD a 0))) m ∧
      ∀ z', SameVec (coordsOf zs) z z' → updateMean xs zs K x y z' = some m := by
  have hl : (vadd x (List.ofFn (K *ᵥ fun a : Fin p => (wrapVec zs z).getD a 0 - y.getD a 0))).length = (coordsOf xs).length := by
    rw [hn]; exact vadd_length hx (by simp)
  have key : ∀ z', SameVec (coordsOf zs) z z' → updateMean xs zs K x y z' =
      some (wrapVec xs (vadd x (List.ofFn (K *ᵥ fun a : Fin p => (wrapVec zs z).getD a 0 - y.getD a 0)))) := by
    intro z' h
    have h1 : ofNested zs z' = some ⟨.mean, wrapVec zs z⟩ := by
      simp only [ofNested, wrapAngles_vec zs hzs z' h.2.1, ← wrapVec_congr h]; rfl
    have h2 : (fun a : Fin p => (vsub (wrapVec zs z) y).getD a 0) = fun a : Fin p => (wrapVec zs z).getD a 0 - y.getD a 0 := by
      funext a
      exact vsub_get ((wrapVec_length zs z).trans hp) hy a
    unfold updateMean
    simp only [h1, Option.bind_eq_bind, Option.bind_some, sub, h2]
    exact wrapAngles_vec xs hxs _ hl
  refine ⟨_, wrapVec zs z, key z (sameVec_refl (by rw [hz, hp])), wrapVec_canonical xs _, wrapVec_same zs z (by rw [hz, hp]), wrapVec_canonical zs z,
    wrapVec_same xs _ hl, key⟩

example : ∃ m, updateMean axisAngle axisAngle (fun _ _ => 1 / 4 : Matrix (Fin 2) (Fin 2) ℝ) [1, 350] [0, 10] [2, 380] = some m ∧
    CanonicalVec (coordsOf axisAngle) m := by
  obtain ⟨m, -, h, h', -⟩ := C79_update_partial axisAngle axisAngle axisAngle_ok axisAngle_ok rfl rfl (fun _ _ => 1 / 4 : Matrix (Fin 2) (Fin 2) ℝ)
    [1, 350] [0, 10] [2, 380] rfl rfl rfl
  exact ⟨m, h, h'⟩

/-- **C79** violated (update): for an angle measured directly with gain 1/2, predicted 350° and measured 10°, the new mean is 180° instead of 0°;
all turned by 20°, it is 20°. -/
theorem C79_update_violated :
    let es : List Elem := [⟨.angle degrees360, false⟩]
    let K : Matrix (Fin 1) (Fin 1) ℝ := fun _ _ => 1 / 2
    updateMean es es K [350] [350] [10] = some [180] ∧ updateMean es es K [10] [10] [30] = some [20] ∧ ¬ SameVec (coordsOf es) [180 + 20] [20] := by
  have h : ∀ (x y z r : ℝ) (k : ℤ), 0 ≤ z → z < 360 → 0 ≤ r → r < 360 → r = x + 1 / 2 * (z - y) + k * 360 →
      updateMean [⟨.angle degrees360, false⟩] [⟨.angle degrees360, false⟩] (fun _ _ => 1 / 2 : Matrix (Fin 1) (Fin 1) ℝ) [x] [y] [z] = some [r] := by
    intro x y z r k h1 h2 h3 h4 h5
    unfold updateMean ofNested
    rw [degrees_wrap z z 0 h1 h2 (by simp)]
    simp only [Option.bind_eq_bind, Option.bind_some, Option.pure_def, sub, vsub, List.zipWith_cons_cons, List.zipWith_nil_left, List.ofFn_succ,
      List.ofFn_zero, vadd]
    have e : (K : Matrix (Fin 1) (Fin 1) ℝ) → K = (fun _ _ => 1 / 2) → (K *ᵥ fun a : Fin 1 => ([z - y] : List ℝ).getD a 0) 0 = 1 / 2 * (z - y) := by
      rintro K rfl
      simp [mulVec, dotProduct]
    rw [e _ rfl]
    exact degrees_wrap _ _ k h3 h4 h5
  refine ⟨h 350 350 10 180 0 (by norm_num) (by norm_num) (by norm_num) (by norm_num) (by norm_num),
    h 10 10 30 20 0 (by norm_num) (by norm_num) (by norm_num) (by norm_num) (by norm_num), ?_⟩
  rintro ⟨-, -, h⟩
  obtain ⟨k, hk⟩ := h 0 (toCoord (some degrees360)) rfl
  simp only [List.getD_cons_zero, degrees360] at hk
  have h2 : (k : ℝ) * 2 = -1 := by linarith
  have h3 : k * 2 = -1 := by exact_mod_cast h2
  omega

end OpenKalman.Angular
