import Verif.Theorems.Kalman

/-!
# C53, C55: linear, consecutive and second-order transforms
-/

set_option linter.unusedSectionVars false

namespace OpenKalman.Kalman
open Matrix
open scoped ComplexOrder MatrixOrder

variable {𝕜 : Type} [RCLike 𝕜] (lib : Lib 𝕜)

/-! ## C53 -/

/-- What the means of the noise terms of a linear transform add. -/
def noiseMean {n p : ℕ} (g : LinTrans 𝕜 n p) (ns : List (Gauss 𝕜 (Fin p))) : Fin p → 𝕜 := (ns.zipIdx.map fun v => g.Bs.getD v.2 1 *ᵥ v.1.mean).sum

/-- **C53** (moments): the mean is `A x̄ + Σ Bᵢ n̄ᵢ`, the covariance `A P A* + Σ Bᵢ Rᵢ Bᵢ*`, and the cross-covariance `P A*`, for any number of noise
terms; where no matrix was given for a noise term, `Bᵢ` is the identity. -/
theorem C53_moments {n p : ℕ} (g : LinTrans 𝕜 n p) (x : Gauss 𝕜 (Fin n)) (ns : List (Gauss 𝕜 (Fin p))) (hx : x.cov.IsHermitian)
    (hn : ∀ d ∈ ns, d.cov.IsHermitian) :
    linearTransform lib g x ns = ⟨g.A *ᵥ x.mean + noiseMean g ns, g.A * x.cov * g.Aᴴ + noiseTotal g ns⟩ ∧
    linearTransformCross lib g x ns = (linearTransform lib g x ns, x.cov * g.Aᴴ) := by
  refine ⟨?_, linearTransformCross_eq lib g x ns hx hn⟩
  rw [linearTransform_eq lib g x ns hx hn, noiseTotal_eq, apply_eq, List.zipIdx_map, List.map_map]
  rfl

/-- **C53** (padding): giving identity matrices for further noise terms makes no difference. -/
theorem C53_padding {n p : ℕ} (A : Matrix (Fin p) (Fin n) 𝕜) (Bs : List (Matrix (Fin p) (Fin p) 𝕜)) (j : ℕ) (x : Gauss 𝕜 (Fin n))
    (ns : List (Gauss 𝕜 (Fin p))) :
    linearTransform lib ⟨A, Bs ++ List.replicate j 1⟩ x ns = linearTransform lib ⟨A, Bs⟩ x ns := by
  have h : pertMatrix (⟨A, Bs ++ List.replicate j 1⟩ : LinTrans 𝕜 n p) = pertMatrix ⟨A, Bs⟩ := by
    funext i
    unfold pertMatrix
    simp only []
    rcases Nat.lt_or_ge i Bs.length with hi | hi
    · rw [List.getD_append _ _ _ _ hi]
    · rw [List.getD_append_right _ _ _ _ hi, List.getD_eq_default Bs _ hi]
      rcases Nat.lt_or_ge (i - Bs.length) j with h' | h'
      · rw [List.getD_replicate _ h']
      · rw [List.getD_eq_default _ _ (by simpa using h')]
  unfold linearTransform
  rw [jacobian_spec, jacobian_spec, apply_eq, apply_eq, h]

/-- **C53** (Cholesky form): working on factors gives the same distributions and cross-covariances as working on covariances. -/
theorem C53_cholesky {n p : ℕ} (g : LinTrans 𝕜 n p) (x : GaussChol 𝕜 (Fin n)) (ns : List (GaussChol 𝕜 (Fin p))) :
    (linearTransformChol lib g x ns).toGauss = linearTransform lib g x.toGauss (ns.map GaussChol.toGauss) ∧
    linearTransformCrossChol lib g x ns =
      (linearTransformChol lib g x ns, (linearTransformCross lib g x.toGauss (ns.map GaussChol.toGauss)).2) := by
  refine ⟨linearTransformChol_toGauss lib g x ns, ?_⟩
  rw [linearTransformCrossChol_eq, linearTransformCross_eq lib g _ _ (toGauss_posSemidef x).1 fun d hd => (toGauss_mem_hermitian ns d hd).1]

/-- The matrix of a chain: the product of the matrices of its members. -/
def Chain.matrix : {n p : ℕ} → Chain 𝕜 n p → Matrix (Fin p) (Fin n) 𝕜
  | _, _, .last g _ => g.A
  | _, _, .cons g _ rest => rest.matrix * g.A

/-- What the noise terms add to the mean. -/
def Chain.offset : {n p : ℕ} → Chain 𝕜 n p → (Fin p → 𝕜)
  | _, _, .last g ns => noiseMean g ns
  | _, _, .cons g ns rest => rest.matrix *ᵥ noiseMean g ns + rest.offset

/-- What the noise terms add to the covariance. -/
def Chain.noise : {n p : ℕ} → Chain 𝕜 n p → Matrix (Fin p) (Fin p) 𝕜
  | _, _, .last g ns => noiseTotal g ns
  | _, _, .cons g ns rest => rest.matrix * noiseTotal g ns * rest.matrixᴴ + rest.noise

/-- The noise terms have Hermitian covariances. -/
def Chain.Hermitian : {n p : ℕ} → Chain 𝕜 n p → Prop
  | _, _, .last _ ns => ∀ d ∈ ns, d.cov.IsHermitian
  | _, _, .cons _ ns rest => (∀ d ∈ ns, d.cov.IsHermitian) ∧ rest.Hermitian

theorem noiseTotal_hermitian {n p : ℕ} (g : LinTrans 𝕜 n p) (ns : List (Gauss 𝕜 (Fin p))) (hn : ∀ d ∈ ns, d.cov.IsHermitian) :
    (noiseTotal g ns).IsHermitian := by
  rw [noiseTotal_eq]
  exact noiseCov_hermitian _ (mem_noiseTerms (P := fun d => d.cov.IsHermitian) hn)

/-- **C53** (consecutive transforms): a chain of any length is one linear map, with each noise term carried through the rest of the chain. -/
theorem C53_consecutive {n p : ℕ} (c : Chain 𝕜 n p) (hc : c.Hermitian) (x : Gauss 𝕜 (Fin n)) (hx : x.cov.IsHermitian) :
    c.run lib x = ⟨c.matrix *ᵥ x.mean + c.offset, c.matrix * x.cov * c.matrixᴴ + c.noise⟩ ∧ (c.runCross lib x).1 = c.run lib x := by
  induction c with
  | last g ns =>
    have h := C53_moments lib g x ns hx hc
    exact ⟨h.1, congrArg Prod.fst h.2⟩
  | cons g ns rest ih =>
    have h := (C53_moments lib g x ns hx hc.1).1
    have hh : (linearTransform lib g x ns).cov.IsHermitian := by
      rw [h]
      exact (isHermitian_conj hx g.A).add (noiseTotal_hermitian g ns hc.1)
    obtain ⟨i1, i2⟩ := ih hc.2 _ hh
    refine ⟨?_, i2⟩
    show rest.run lib (linearTransform lib g x ns) = _
    rw [i1, h]
    simp only [Chain.matrix, Chain.offset, Chain.noise]
    congr 1
    · rw [mulVec_add, mulVec_mulVec, add_assoc]
    · rw [Matrix.mul_add, Matrix.add_mul, conjTranspose_mul, ← add_assoc]
      simp only [Matrix.mul_assoc]

/-- **C53** (cross-covariance, partial): a chain of one transform returns the cross-covariance of its input and output.  For longer chains it returns that of
the last input and the output: see `C53_cross_violated`. -/
theorem C53_cross_partial {n p : ℕ} (g : LinTrans 𝕜 n p) (ns : List (Gauss 𝕜 (Fin p))) (x : Gauss 𝕜 (Fin n)) (hx : x.cov.IsHermitian)
    (hn : ∀ d ∈ ns, d.cov.IsHermitian) : ((Chain.last g ns).runCross lib x).2 = ⟨n, x.cov * (Chain.last g ns).matrixᴴ⟩ := by
  show (⟨n, (linearTransformCross lib g x ns).2⟩ : (k : ℕ) × Matrix (Fin k) (Fin p) 𝕜) = _
  rw [(C53_moments lib g x ns hx hn).2]
  rfl

/-- **C53** fails for the cross-covariance of consecutive transforms: doubling and then tripling a variable of variance 1 has cross-covariance 6, but 12 is
returned. -/
theorem C53_cross_violated (lib : Lib ℝ) :
    let c : Chain ℝ 1 1 := .cons ⟨!![2], []⟩ [] (.last ⟨!![3], []⟩ [])
    (c.runCross lib ⟨0, 1⟩).2 = ⟨1, !![12]⟩ ∧ (1 : Matrix (Fin 1) (Fin 1) ℝ) * c.matrixᴴ = !![6] := by
  intro c
  constructor
  · show (⟨1, (linearTransformCross lib (⟨!![3], []⟩ : LinTrans ℝ 1 1) (linearTransform lib ⟨!![2], []⟩ ⟨0, 1⟩ []) []).2⟩ :
      (k : ℕ) × Matrix (Fin k) (Fin 1) ℝ) = _
    have h1 := (C53_moments lib (⟨!![2], []⟩ : LinTrans ℝ 1 1) ⟨0, 1⟩ [] (by simp) (by simp)).1
    have h2 : (linearTransform lib (⟨!![2], []⟩ : LinTrans ℝ 1 1) ⟨0, 1⟩ []).cov = !![4] := by
      rw [h1]
      ext i j
      fin_cases i; fin_cases j
      norm_num [noiseTotal, Matrix.mul_apply, Matrix.vecMul]
    have h3 : (linearTransform lib (⟨!![2], []⟩ : LinTrans ℝ 1 1) ⟨0, 1⟩ []).cov.IsHermitian := by
      rw [h2]; ext i j; fin_cases i; fin_cases j; simp
    rw [(C53_moments lib (⟨!![3], []⟩ : LinTrans ℝ 1 1) _ [] h3 (by simp)).2]
    congr 1
    rw [h2]
    ext i j; fin_cases i; fin_cases j
    norm_num [Matrix.mul_apply]
  · ext i j; fin_cases i; fin_cases j
    norm_num [c, Chain.matrix, Matrix.mul_apply]

/-- **C53** (identity transform): means and covariances are added, and the cross-covariance is that of the input. -/
theorem C53_identity {n : Type} [Fintype n] [DecidableEq n] (x : Gauss 𝕜 n) (ns : List (Gauss 𝕜 n)) :
    identityTransform x ns = ⟨x.mean + (ns.map Gauss.mean).sum, x.cov + (ns.map Gauss.cov).sum⟩ ∧
    identityTransformCross x ns = (identityTransform x ns, x.cov) := by
  refine ⟨?_, rfl⟩
  unfold identityTransform
  induction ns generalizing x with
  | nil => simp
  | cons d ns ih =>
    rw [List.foldl_cons, ih]
    simp [Gauss.add, add_assoc]

/-- **C53** fails for `LinearTransform` with an `IdentityTransformation`: the Jacobians of the noise terms are zero, so that noise of variance 1 added to a
variable of variance 1 leaves variance 1, although the means are added. -/
theorem C53_identity_violated (lib : Lib ℝ) :
    linearTransformIdentity lib (⟨fun _ => 5, 1⟩ : Gauss ℝ (Fin 1)) [⟨fun _ => 7, 1⟩] = ⟨fun _ => 12, 1⟩ ∧
    identityTransform (⟨fun _ => 5, 1⟩ : Gauss ℝ (Fin 1)) [⟨fun _ => 7, 1⟩] = ⟨fun _ => 12, 1 + 1⟩ := by
  constructor
  · unfold linearTransformIdentity
    simp only []
    rw [sumNoise_eq lib _ _ _ (by simp) (by simp [identityJacobian])]
    refine Gauss.ext ?_ ?_
    · funext i; simp [identityApply]; norm_num
    · simp [identityJacobian, noiseCov]
  · refine Gauss.ext ?_ ?_
    · funext i; simp [identityTransform, Gauss.add]; norm_num
    · simp [identityTransform, Gauss.add]

example : (linearTransform someLib (⟨!![1; 2], []⟩ : LinTrans ℝ 1 2) ⟨fun _ => 3, 1⟩ [⟨fun _ => 1, 1⟩]).mean = fun i => if i = 0 then 4 else 7 := by
  rw [(C53_moments someLib _ ⟨fun _ => 3, 1⟩ [⟨fun _ => 1, 1⟩] (by simp) (by simp)).1]
  funext i
  fin_cases i <;> simp [noiseMean, dotProduct] <;> norm_num

/-! ## C55 -/

section SecondOrder
variable {n q : Type} [Fintype n] [DecidableEq n] [Fintype q] [DecidableEq q]

/-- **C55** (positive semidefinite): for symmetric Hessians. -/
theorem C55_posSemidef (hess : q → Matrix n n ℝ) (hs : ∀ i, (hess i).IsHermitian) (P : Matrix n n ℝ) (hP : P.PosSemidef) :
    (secondOrderCov hess P).PosSemidef := by
  obtain ⟨L, rfl⟩ := exists_factor hP
  let M : q → Matrix n n ℝ := fun i => Lᴴ * hess i * L
  have hM : ∀ i, (M i).IsHermitian := fun i => by
    have := isHermitian_conj (hs i) Lᴴ
    rwa [conjTranspose_conjTranspose] at this
  let V : Matrix q (n × n) ℝ := fun i ab => M i ab.1 ab.2
  have h : secondOrderCov hess (L * Lᴴ) = (0.5 : ℝ) • (V * Vᴴ) := by
    ext i j
    have e : (L * Lᴴ * hess i * (L * Lᴴ) * hess j).trace = (M i * M j).trace := by
      have : L * Lᴴ * hess i * (L * Lᴴ) * hess j = L * (Lᴴ * hess i * L * (Lᴴ * hess j)) := by simp only [Matrix.mul_assoc]
      rw [this, trace_mul_comm]
      congr 1
      simp only [M, Matrix.mul_assoc]
    show 0.5 * (L * Lᴴ * hess i * (L * Lᴴ) * hess j).trace = (0.5 : ℝ) * (V * Vᴴ) i j
    rw [e]
    congr 1
    rw [Matrix.mul_apply, Fintype.sum_prod_type]
    show ∑ a, (M i * M j) a a = _
    refine Finset.sum_congr rfl fun a _ => ?_
    rw [Matrix.mul_apply]
    refine Finset.sum_congr rfl fun b _ => ?_
    have := (hM j).apply a b
    simp only [star_trivial] at this
    rw [conjTranspose_apply, star_trivial]
    show M i a b * M j b a = M i a b * M j a b
    rw [this]
  rw [h]
  exact (posSemidef_self_mul_conjTranspose V).smul (by norm_num)

/-- **C55** (zero Hessians): no correction, so that the transform is the first-order one. -/
theorem C55_zero (P : Matrix n n ℝ) : secondOrderMean (fun _ : q => 0) P = 0 ∧ secondOrderCov (fun _ : q => 0) P = 0 := by
  constructor
  · funext i; simp [secondOrderMean]
  · ext i j; simp [secondOrderCov]

/-- **C55** (several noise terms): the corrections of the input and every noise term are added, and the sum is positive semidefinite. -/
theorem C55_total (lib : Lib ℝ) (t : (k : ℕ) × (q → Matrix (Fin k) (Fin k) ℝ) × Matrix (Fin k) (Fin k) ℝ)
    (ts : List ((k : ℕ) × (q → Matrix (Fin k) (Fin k) ℝ) × Matrix (Fin k) (Fin k) ℝ))
    (h : ∀ s ∈ t :: ts, (∀ i, (s.2.1 i).IsHermitian) ∧ s.2.2.PosSemidef) :
    ∃ g, addCorrection lib (t :: ts) = some g ∧ g.mean = ((t :: ts).map fun s => secondOrderMean s.2.1 s.2.2).sum ∧
      g.cov = ((t :: ts).map fun s => secondOrderCov s.2.1 s.2.2).sum ∧ g.cov.PosSemidef := by
  induction ts generalizing t with
  | nil =>
    have h1 := C55_posSemidef _ (h t (by simp)).1 _ (h t (by simp)).2
    refine ⟨_, rfl, ?_, ?_, ?_⟩
    · simp
    · simp [lib.herm_spec _ h1.1]
    · simp only [lib.herm_spec _ h1.1]; exact h1
  | cons s ts ih =>
    obtain ⟨g, e, e1, e2, e3⟩ := ih s fun r hr => h r (List.mem_cons_of_mem _ hr)
    have h1 := C55_posSemidef _ (h t (by simp)).1 _ (h t (by simp)).2
    refine ⟨⟨secondOrderMean t.2.1 t.2.2 + g.mean, lib.herm (secondOrderCov t.2.1 t.2.2) + g.cov⟩, ?_, ?_, ?_, ?_⟩
    · rw [addCorrection, e]
    · rw [List.map_cons, List.sum_cons, ← e1]
    · rw [List.map_cons, List.sum_cons, ← e2, lib.herm_spec _ h1.1]
    · simp only [lib.herm_spec _ h1.1]; exact h1.add e3

/-- An expectation: linear, with the given mean and covariance. -/
structure Expect (E : ((n → ℝ) → ℝ) →ₗ[ℝ] ℝ) (μ : n → ℝ) (P : Matrix n n ℝ) : Prop where
  one : E (fun _ => 1) = 1
  first : ∀ i, E (fun x => x i - μ i) = 0
  second : ∀ i j, E (fun x => (x i - μ i) * (x j - μ j)) = P i j

/-- The third and fourth central moments are those of a normal distribution. -/
structure NormalMoments (E : ((n → ℝ) → ℝ) →ₗ[ℝ] ℝ) (μ : n → ℝ) (P : Matrix n n ℝ) : Prop extends Expect E μ P where
  third : ∀ i j k, E (fun x => (x i - μ i) * (x j - μ j) * (x k - μ k)) = 0
  fourth : ∀ i j k l, E (fun x => (x i - μ i) * (x j - μ j) * (x k - μ k) * (x l - μ l)) = P i j * P k l + P i k * P j l + P i l * P j k

/-- A quadratic function with value `c`, gradient `b` and Hessian `Q` at `μ`. -/
noncomputable def quadratic (μ : n → ℝ) (c : ℝ) (b : n → ℝ) (Q : Matrix n n ℝ) (x : n → ℝ) : ℝ :=
  c + b ⬝ᵥ (x - μ) + 1 / 2 * ((x - μ) ⬝ᵥ Q *ᵥ (x - μ))

theorem E_sum {ι X : Type} (E : (X → ℝ) →ₗ[ℝ] ℝ) (s : Finset ι) (a : ι → ℝ) (f : ι → X → ℝ) :
    E (fun x => ∑ i ∈ s, a i * f i x) = ∑ i ∈ s, a i * E (f i) := by
  have : (fun x => ∑ i ∈ s, a i * f i x) = ∑ i ∈ s, a i • f i := by
    funext x
    simp
  rw [this, map_sum]
  simp

theorem E_add {X : Type} (E : (X → ℝ) →ₗ[ℝ] ℝ) (f g : X → ℝ) : E (fun x => f x + g x) = E f + E g := map_add E f g

theorem E_mul {X : Type} (E : (X → ℝ) →ₗ[ℝ] ℝ) (c : ℝ) (f : X → ℝ) : E (fun x => c * f x) = c * E f := map_smul E c f

theorem E_lin {E : ((n → ℝ) → ℝ) →ₗ[ℝ] ℝ} (b : n → ℝ) (μ : n → ℝ) (h : (n → ℝ) → ℝ) :
    E (fun x => b ⬝ᵥ (x - μ) * h x) = ∑ i, b i * E (fun x => (x i - μ i) * h x) := by
  rw [← E_sum]
  congr 1
  funext x
  simp only [dotProduct, Pi.sub_apply, Finset.sum_mul]
  exact Finset.sum_congr rfl fun i _ => by ring

theorem E_quad {E : ((n → ℝ) → ℝ) →ₗ[ℝ] ℝ} (Q : Matrix n n ℝ) (μ : n → ℝ) (h : (n → ℝ) → ℝ) :
    E (fun x => (x - μ) ⬝ᵥ Q *ᵥ (x - μ) * h x) = ∑ i, ∑ j, Q i j * E (fun x => (x i - μ i) * (x j - μ j) * h x) := by
  have e : (fun x : n → ℝ => (x - μ) ⬝ᵥ Q *ᵥ (x - μ) * h x) = fun x => ∑ ij : n × n, Q ij.1 ij.2 * ((x ij.1 - μ ij.1) * (x ij.2 - μ ij.2) * h x) := by
    funext x
    simp only [dotProduct, mulVec, Pi.sub_apply, Finset.mul_sum, Finset.sum_mul, Fintype.sum_prod_type]
    exact Finset.sum_congr rfl fun i _ => Finset.sum_congr rfl fun j _ => by ring
  rw [e, E_sum, Fintype.sum_prod_type]

/-- **C55** (mean exact): for quadratic functions, value at the mean plus the correction is the expected value. -/
theorem C55_mean (E : ((n → ℝ) → ℝ) →ₗ[ℝ] ℝ) (μ : n → ℝ) (P : Matrix n n ℝ) (hE : Expect E μ P) (c : q → ℝ) (b : q → n → ℝ) (Q : q → Matrix n n ℝ)
    (a : q) : E (quadratic μ (c a) (b a) (Q a)) = quadratic μ (c a) (b a) (Q a) μ + secondOrderMean Q P a := by
  have e : quadratic μ (c a) (b a) (Q a) = fun x => c a * (fun _ => 1 : (n → ℝ) → ℝ) x + b a ⬝ᵥ (x - μ) * (fun _ => 1 : (n → ℝ) → ℝ) x
      + 1 / 2 * ((x - μ) ⬝ᵥ Q a *ᵥ (x - μ) * (fun _ => 1 : (n → ℝ) → ℝ) x) := by
    funext x
    simp [quadratic]
  have h0 : quadratic μ (c a) (b a) (Q a) μ = c a := by simp [quadratic]
  rw [h0, e, E_add, E_add, E_mul, E_mul, E_lin, E_quad]
  simp only [mul_one, hE.one, hE.first, hE.second, mul_zero, Finset.sum_const_zero, add_zero]
  congr 1
  have hsymm : ∀ i j, P i j = P j i := fun i j => by
    rw [← hE.second, ← hE.second]
    congr 1
    funext x
    ring
  show _ = 0.5 * ∑ i, (P * Q a) i i
  rw [show (0.5 : ℝ) = 1 / 2 by norm_num]
  congr 1
  rw [Finset.sum_comm]
  refine Finset.sum_congr rfl fun i _ => ?_
  rw [Matrix.mul_apply]
  exact Finset.sum_congr rfl fun j _ => by rw [hsymm j i, mul_comm]

/-- **C55** (covariance exact): for quadratic functions of a variable with the moments of a normal distribution, the first-order covariance plus the
correction is the covariance. -/
theorem C55_covariance (E : ((n → ℝ) → ℝ) →ₗ[ℝ] ℝ) (μ : n → ℝ) (P : Matrix n n ℝ) (hE : NormalMoments E μ P) (c : q → ℝ) (b : q → n → ℝ)
    (Q : q → Matrix n n ℝ) (hs : ∀ a, (Q a).IsHermitian) (a a' : q) :
    E (fun x => (quadratic μ (c a) (b a) (Q a) x - E (quadratic μ (c a) (b a) (Q a))) *
        (quadratic μ (c a') (b a') (Q a') x - E (quadratic μ (c a') (b a') (Q a')))) =
      (Matrix.of b * P * (Matrix.of b)ᵀ) a a' + secondOrderCov Q P a a' := by
  have hsymm : ∀ i j, P i j = P j i := fun i j => by
    rw [← hE.second, ← hE.second]
    congr 1
    funext x
    ring
  have hQ : ∀ a i j, Q a i j = Q a j i := fun a i j => by
    have := (hs a).apply j i
    simpa using this
  -- both factors, centred
  have hc : ∀ a x, quadratic μ (c a) (b a) (Q a) x - E (quadratic μ (c a) (b a) (Q a)) =
      b a ⬝ᵥ (x - μ) + 1 / 2 * ((x - μ) ⬝ᵥ Q a *ᵥ (x - μ)) - 1 / 2 * (P * Q a).trace := by
    intro a x
    rw [C55_mean E μ P hE.toExpect c b Q a]
    have h0 : quadratic μ (c a) (b a) (Q a) μ = c a := by simp [quadratic]
    rw [h0]
    simp only [quadratic, secondOrderMean]
    ring
  let one : (n → ℝ) → ℝ := fun _ => 1
  have e : (fun x => (quadratic μ (c a) (b a) (Q a) x - E (quadratic μ (c a) (b a) (Q a))) *
        (quadratic μ (c a') (b a') (Q a') x - E (quadratic μ (c a') (b a') (Q a')))) =
      fun x => ((((b a ⬝ᵥ (x - μ) * (b a' ⬝ᵥ (x - μ) * one x)
        + 1 / 2 * (b a ⬝ᵥ (x - μ) * ((x - μ) ⬝ᵥ Q a' *ᵥ (x - μ) * one x)))
        + 1 / 2 * (b a' ⬝ᵥ (x - μ) * ((x - μ) ⬝ᵥ Q a *ᵥ (x - μ) * one x)))
        + 1 / 4 * ((x - μ) ⬝ᵥ Q a *ᵥ (x - μ) * ((x - μ) ⬝ᵥ Q a' *ᵥ (x - μ) * one x)))
        + (-(1 / 2 * (P * Q a').trace)) * (b a ⬝ᵥ (x - μ) * one x)
        + (-(1 / 2 * (P * Q a).trace)) * (b a' ⬝ᵥ (x - μ) * one x)
        + (-(1 / 4 * (P * Q a').trace)) * ((x - μ) ⬝ᵥ Q a *ᵥ (x - μ) * one x)
        + (-(1 / 4 * (P * Q a).trace)) * ((x - μ) ⬝ᵥ Q a' *ᵥ (x - μ) * one x))
        + (1 / 4 * (P * Q a).trace * (P * Q a').trace) * one x := by
    funext x
    rw [hc, hc]
    simp only [one]
    ring
  have l1 : ∀ (b : n → ℝ), E (fun x => b ⬝ᵥ (x - μ) * one x) = 0 := by
    intro b
    rw [E_lin]
    simp [one, hE.first]
  have htr : ∀ a, (P * Q a).trace = ∑ i, ∑ j, Q a i j * P i j := by
    intro a
    show ∑ i, (P * Q a) i i = _
    refine Finset.sum_congr rfl fun i _ => ?_
    rw [Matrix.mul_apply]
    exact Finset.sum_congr rfl fun j _ => by rw [hQ a i j, mul_comm]
  have l2 : ∀ a, E (fun x => (x - μ) ⬝ᵥ Q a *ᵥ (x - μ) * one x) = (P * Q a).trace := by
    intro a
    rw [E_quad, htr]
    simp [one, hE.second]
  have l3 : ∀ (b : n → ℝ) a, E (fun x => b ⬝ᵥ (x - μ) * ((x - μ) ⬝ᵥ Q a *ᵥ (x - μ) * one x)) = 0 := by
    intro b a
    rw [E_lin]
    refine Finset.sum_eq_zero fun i _ => ?_
    have : (fun x : n → ℝ => (x i - μ i) * ((x - μ) ⬝ᵥ Q a *ᵥ (x - μ) * one x)) = fun x => (x - μ) ⬝ᵥ Q a *ᵥ (x - μ) * (x i - μ i) := by
      funext x; simp only [one]; ring
    rw [this, E_quad]
    simp [hE.third]
  have l4 : E (fun x => b a ⬝ᵥ (x - μ) * (b a' ⬝ᵥ (x - μ) * one x)) = (Matrix.of b * P * (Matrix.of b)ᵀ) a a' := by
    rw [E_lin]
    have : ∀ i, E (fun x => (x i - μ i) * (b a' ⬝ᵥ (x - μ) * one x)) = ∑ j, b a' j * P i j := by
      intro i
      have h : (fun x : n → ℝ => (x i - μ i) * (b a' ⬝ᵥ (x - μ) * one x)) = fun x => b a' ⬝ᵥ (x - μ) * (x i - μ i) := by
        funext x; simp only [one]; ring
      rw [h, E_lin]
      simp [hE.second, hsymm i]
    simp only [this]
    rw [Matrix.mul_assoc, Matrix.mul_apply]
    refine Finset.sum_congr rfl fun i _ => ?_
    rw [Matrix.mul_apply]
    simp only [Matrix.of_apply, transpose_apply]
    congr 1
    exact Finset.sum_congr rfl fun j _ => by ring
  have l5 : E (fun x => (x - μ) ⬝ᵥ Q a *ᵥ (x - μ) * ((x - μ) ⬝ᵥ Q a' *ᵥ (x - μ) * one x)) =
      (P * Q a).trace * (P * Q a').trace + 2 * (P * Q a * P * Q a').trace := by
    rw [E_quad]
    have h1 : ∀ i j, E (fun x => (x i - μ i) * (x j - μ j) * ((x - μ) ⬝ᵥ Q a' *ᵥ (x - μ) * one x)) =
        ∑ k, ∑ l, Q a' k l * (P i j * P k l + P i k * P j l + P i l * P j k) := by
      intro i j
      have h : (fun x : n → ℝ => (x i - μ i) * (x j - μ j) * ((x - μ) ⬝ᵥ Q a' *ᵥ (x - μ) * one x)) =
          fun x => (x - μ) ⬝ᵥ Q a' *ᵥ (x - μ) * ((x i - μ i) * (x j - μ j)) := by
        funext x; simp only [one]; ring
      rw [h, E_quad]
      refine Finset.sum_congr rfl fun k _ => Finset.sum_congr rfl fun l _ => ?_
      rw [← hE.fourth]
      congr 2
      funext x
      ring
    simp only [h1]
    have t2 : (P * Q a * P * Q a').trace = ∑ i, ∑ j, Q a i j * ∑ k, ∑ l, Q a' k l * (P i k * P j l) := by
      have : (P * Q a * P * Q a').trace = (Q a * (P * Q a' * P)).trace := by
        rw [Matrix.mul_assoc P, Matrix.mul_assoc P, trace_mul_comm]
        simp only [Matrix.mul_assoc]
      rw [this]
      show ∑ i, (Q a * (P * Q a' * P)) i i = _
      refine Finset.sum_congr rfl fun i _ => ?_
      rw [Matrix.mul_apply]
      refine Finset.sum_congr rfl fun j _ => ?_
      congr 1
      rw [Matrix.mul_assoc, Matrix.mul_apply]
      have : ∀ k, (Q a' * P) k i = ∑ l, Q a' k l * P l i := fun k => Matrix.mul_apply
      simp only [this, Finset.mul_sum]
      rw [Finset.sum_comm]
      refine Finset.sum_congr rfl fun k _ => Finset.sum_congr rfl fun l _ => ?_
      rw [hQ a' l k, hsymm k i]
      ring
    have t3 : (P * Q a * P * Q a').trace = ∑ i, ∑ j, Q a i j * ∑ k, ∑ l, Q a' k l * (P i l * P j k) := by
      rw [t2]
      refine Finset.sum_congr rfl fun i _ => Finset.sum_congr rfl fun j _ => ?_
      congr 1
      rw [Finset.sum_comm]
      refine Finset.sum_congr rfl fun k _ => Finset.sum_congr rfl fun l _ => ?_
      rw [hQ a' l k]
    have t1 : (P * Q a).trace * (P * Q a').trace = ∑ i, ∑ j, Q a i j * ∑ k, ∑ l, Q a' k l * (P i j * P k l) := by
      rw [htr, htr, Finset.sum_mul]
      refine Finset.sum_congr rfl fun i _ => ?_
      rw [Finset.sum_mul]
      refine Finset.sum_congr rfl fun j _ => ?_
      rw [mul_assoc]
      congr 1
      simp only [Finset.mul_sum]
      exact Finset.sum_congr rfl fun k _ => Finset.sum_congr rfl fun l _ => by ring
    rw [two_mul]
    nth_rewrite 2 [t3]
    rw [t1, t2]
    simp only [mul_add, Finset.sum_add_distrib]
    ring
  rw [e]
  simp only [E_add, E_mul]
  rw [l1, l1, l2, l2, l3, l3, l4, l5]
  have : E one = 1 := hE.one
  rw [this]
  simp only [secondOrderCov]
  ring

/-- The expectation over the points `0`, `√3`, `-√3` with weights `2/3`, `1/6`, `1/6` has the first five moments of a normal distribution. -/
noncomputable def threePoints : ((Fin 1 → ℝ) → ℝ) →ₗ[ℝ] ℝ where
  toFun f := 2 / 3 * f (fun _ => 0) + 1 / 6 * f (fun _ => √3) + 1 / 6 * f (fun _ => -√3)
  map_add' f g := by simp only [Pi.add_apply]; ring
  map_smul' c f := by simp only [Pi.smul_apply, smul_eq_mul, RingHom.id_apply]; ring

example : NormalMoments threePoints 0 1 := by
  have h3 : √3 * √3 = 3 := Real.mul_self_sqrt (by norm_num)
  constructor
  · constructor
    · norm_num [threePoints]
    · intro i; simp [threePoints]
    · intro i j
      have : i = j := Subsingleton.elim _ _
      subst this
      simp [threePoints, h3]; norm_num
  · intro i j k; simp [threePoints]
  · intro i j k l
    obtain rfl : i = j := Subsingleton.elim _ _
    obtain rfl : i = k := Subsingleton.elim _ _
    obtain rfl : i = l := Subsingleton.elim _ _
    simp [threePoints, h3]; norm_num
    nlinarith [h3]

end SecondOrder
end OpenKalman.Kalman
