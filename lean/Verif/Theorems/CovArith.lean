import Verif.Proof.CovArith

/-!
# C47: covariance arithmetic acts on the represented matrix

Every theorem holds for every library meeting `Lib.Ok` (the contracts established in C43); `someLib_ok` shows there is one.  `Represents` (Spec/CovArith.lean) says
which matrix a stored form stands for.  A square root stored as its square needs a positive definite square (`Definite`), since otherwise it does not
determine a factor.
-/

set_option linter.unusedSectionVars false

namespace OpenKalman.CovArith
open Matrix
open scoped ComplexOrder MatrixOrder

variable {𝕜 : Type} [RCLike 𝕜] {n : ℕ} {lib : Lib 𝕜}

/-- C47, `+` (of covariances in any form and plain matrices): the result stands for the sum, in a consistent form. -/
theorem C47_add (ok : lib.Ok) {a b : Opd 𝕜 n} (ha : a.WF) (hb : b.WF) (da : a.Definite) (db : b.Definite) {A B : Mat 𝕜 n}
    (hA : a.Represents A) (hB : b.Represents B) : (add lib a b).WF ∧ (add lib a b).Represents (A + B) ∧ (add lib a b).Definite :=
  add_sound ok ha hb da db hA hB

/-- C47, `-`: whenever it returns, the result stands for the difference; it returns if the difference is positive definite. -/
theorem C47_sub (ok : lib.Ok) {a b : Opd 𝕜 n} (ha : a.WF) (hb : b.WF) (da : a.Definite) (db : b.Definite) {A B : Mat 𝕜 n}
    (hA : a.Represents A) (hB : b.Represents B) : (∀ r, sub lib a b = some r → r.WF ∧ r.Represents (A - B) ∧ r.Definite) ∧
      ((A - B).PosDef → (sub lib a b).isSome = true) :=
  ⟨fun _ h => sub_sound ok ha hb da db hA hB h, fun h => sub_defined ok ha hb hA hB h⟩

/-- C47, product of two covariances, and of a covariance with a rectangular matrix on either side. -/
theorem C47_mul (ok : lib.Ok) {c d : Cov 𝕜 n} (hc : c.WF) (hd : d.WF) (dc : c.Definite) (dd : d.Definite) {A B : Mat 𝕜 n}
    (hA : c.Represents A) (hB : d.Represents B) : ((mul lib c d).WF ∧ (mul lib c d).Represents (A * B)) ∧
      (∀ {k : ℕ} (X : Matrix (Fin n) (Fin k) 𝕜), mulMat lib c X = A * X) ∧ (∀ {k : ℕ} (X : Matrix (Fin k) (Fin n) 𝕜), matMul lib X c = X * A) :=
  have h := mul_sound ok hc hd dc dd hA hB
  ⟨⟨h.1, h.2.1⟩, fun X => mulMat_sound ok hc dc hA X, fun X => matMul_sound ok hc dc hA X⟩

/-- C47, product with and quotient by a real scalar, for covariances that are not square roots (or are diagonal square roots): the result stands for the
product or quotient whenever there is one; there is one for every nonnegative factor and positive divisor.  Missing: square roots, for which the code returns a covariance
that is not a square root (`C47_scalar_violated`). -/
theorem C47_scalar_partial (ok : lib.Ok) {c : Cov 𝕜 n} (hc : c.WF) {A : Mat 𝕜 n} (hA : c.Represents A) (hroot : c.root = true → c.form = .diag) (s : ℝ) :
    ((∀ r, smul lib c s = some r → r.WF ∧ r.Represents ((s : 𝕜) • A)) ∧ (0 ≤ s → (smul lib c s).isSome = true)) ∧
      ((∀ r, sdiv lib c s = some r → r.WF ∧ r.Represents (((s⁻¹ : ℝ) : 𝕜) • A)) ∧ (0 < s → (sdiv lib c s).isSome = true)) :=
  ⟨⟨fun _ h => smul_sound ok hc hA hroot h, fun h => smul_nonneg_some c h⟩, fun _ h => sdiv_sound ok hc hA hroot h, fun h => sdiv_pos_some c h⟩

/-- C47, a negative factor: a Cholesky-form covariance cannot stand for the result, and there is none unless the covariance is zero; a self-adjoint one is multiplied. -/
theorem C47_scalar_negative (ok : lib.Ok) {c : Cov 𝕜 n} (hc : c.WF) (hr : c.root = false) {A : Mat 𝕜 n} (hA : c.Represents A) {s : ℝ} (hs : s < 0) :
    (c.choleskyForm = true → A ≠ 0 → smul lib c s = none) ∧ (c.choleskyForm = false → (smul lib c s).isSome = true) := by
  constructor
  · intro h hA0
    cases e : smul lib c s with
    | none => rfl
    | some r =>
      exfalso
      rcases choleskyForm_cases (c := c) with ⟨-, hf⟩ | ⟨h1, -⟩
      swap
      · rw [h] at h1; exact absurd h1 (by simp)
      have hz : c.zero ≠ true := fun hz => hA0 (represents_zero (a := .cov c) hc hz hA)
      unfold smul at e
      rw [if_neg hz, if_pos h, if_neg (by rw [hr]; simp), if_neg (not_lt.mpr hs.le), if_pos hs] at e
      obtain ⟨N', hN, -⟩ := Option.map_eq_some_iff.mp e
      apply hA0
      rw [← updateUp_gram hc hr hf hA, (update_zero ok hs hN).2, gram_zero]
  · intro h
    unfold smul
    rw [if_neg (show ¬ c.choleskyForm = true by rw [h]; simp)]
    split_ifs <;> rfl

/-- C47, negation: where it compiles, the result stands for the negative. -/
theorem C47_neg {c r : Cov 𝕜 n} (hc : c.WF) {A : Mat 𝕜 n} (hA : c.Represents A) (h : neg c = some r) : r.WF ∧ r.Represents (-A) := neg_sound hc hA h

/-- C47, `scale` and `inverse_scale` by a real scalar: covariances are multiplied (divided) by its square, square roots by the scalar itself.  Missing: a square root stored as its square, scaled
by a negative number (`C47_scale_violated`), and complex factors (`C47_scale_complex_violated`). -/
theorem C47_scale_partial {c : Cov 𝕜 n} (hc : c.WF) {A : Mat 𝕜 n} (hA : c.Represents A) {s : 𝕜} (hs : star s = s)
    (hpos : c.root = true → ∀ up, c.form = .herm up → 0 ≤ s) :
    ((scale c s).WF ∧ (scale c s).root = c.root ∧ (scale c s).Represents (if c.root then s • A else (s * s) • A)) ∧
      (s ≠ 0 → ∃ r, inverseScale c s = some r ∧ r.WF ∧ r.root = c.root ∧ r.Represents (if c.root then s⁻¹ • A else (s * s)⁻¹ • A)) := by
  have hs' : star s⁻¹ = s⁻¹ := by rw [star_inv₀, hs]
  cases hr : c.root with
  | false =>
    refine ⟨scale_cov hc hr hA hs, fun h0 => ⟨_, inverseScale_eq h0, ?_⟩⟩
    have := scale_cov hc hr hA hs'
    rw [← mul_inv] at this
    exact this
  | true =>
    refine ⟨scale_root hc hr hA hs (hpos hr), fun h0 => ⟨_, inverseScale_eq h0, ?_⟩⟩
    exact scale_root hc hr hA hs' fun up h => by
      have := hpos hr up h
      exact (RCLike.inv_pos.mpr (lt_of_le_of_ne this h0.symm)).le

/-- C47, `scale` by a (rectangular) matrix: a covariance `P` becomes `A P Aᴴ`; a square root becomes a triangular square root of `A P Aᴴ`. -/
theorem C47_scale_matrix (ok : lib.Ok) {k : ℕ} {c : Cov 𝕜 n} (hc : c.WF) {M : Mat 𝕜 n} (hM : c.Represents M) (A : Matrix (Fin k) (Fin n) 𝕜) :
    (scaleMat lib c A).WF ∧ (scaleMat lib c A).root = c.root ∧ (c.root = false → (scaleMat lib c A).Represents (A * M * Aᴴ)) ∧
      (c.root = true → ∀ R, (scaleMat lib c A).Represents R → IsTri c.form.up R ∧ gram c.form.up R = A * gram c.form.up M * Aᴴ) := by
  cases hr : c.root with
  | false =>
    have h := scaleMat_cov ok hc hr hM A
    exact ⟨h.1, h.2.1, fun _ => h.2.2, fun h => absurd h (by simp)⟩
  | true =>
    have h := scaleMat_root ok hc hr hM A
    exact ⟨h.1, h.2.1, fun h => absurd h (by simp), fun _ => h.2.2⟩

/-- C47, in-place `+=` and `-=` of a covariance in Cholesky form, in every synchronisation state: both stored forms that are up to date are updated consistently.  Missing:
arguments with a real diagonal matrix (`C47_in_place_diagonal_violated`) and complex arguments with the other triangle (`C47_in_place_complex_violated`). -/
theorem C47_in_place_add_partial (ok : lib.Ok) {up : Bool} {o : State 𝕜 n} {P : Mat 𝕜 n} (ho : HoldsCov up P o) {c : Cov 𝕜 n} (hc : c.WF) (hr : c.root = false)
    (hd : c.form ≠ .diag) (hp : ∀ u, c.form = .herm u → c.nested.PosDef) {Q : Mat 𝕜 n} (hQ : c.Represents Q) :
    (Fits up c → HoldsCov up (P + Q) (o.addCov lib up c)) ∧ (Fits false c → ∀ r, o.subCov lib up c = some r → HoldsCov up (P - Q) r) :=
  ⟨fun hf => addCov_sound ok ho hc hr hd hp hf hQ, fun hf _ h => subCov_sound ok ho hc hr hd hp hf hQ h⟩

/-- C47, in-place `*=`, `/=`, `scale` and `inverse_scale` of a covariance in Cholesky form by real scalars, in every synchronisation state. -/
theorem C47_in_place_scalar (ok : lib.Ok) {up : Bool} {o : State 𝕜 n} {P : Mat 𝕜 n} (ho : HoldsCov up P o) :
    (∀ (s : ℝ) r, o.mulCov lib up s = some r → HoldsCov up ((s : 𝕜) • P) r) ∧ (∀ (s : ℝ) r, o.divCov lib up s = some r → HoldsCov up (((s⁻¹ : ℝ) : 𝕜) • P) r) ∧
      (∀ s : 𝕜, star s = s → HoldsCov up ((s * s) • P) (o.scaleCov s) ∧ HoldsCov up ((s * s)⁻¹ • P) (o.inverseScaleCov s)) := by
  refine ⟨fun s r h => mulCov_sound ok ho h, fun s r h => divCov_sound ok ho h, fun s hs => ⟨scaleCov_sound ho hs, ?_⟩⟩
  rw [inverseScaleCov_eq, mul_inv]
  exact scaleCov_sound ho (by rw [star_inv₀, hs])

/-- C47, in-place `+=`, `-=` and `*=` of a square root stored as its square by a square root (`f` is the matrix operation), and `*=`, `/=` by nonnegative scalars, in every synchronisation state.
Missing: negative scalars (`C47_in_place_root_violated`). -/
theorem C47_in_place_root_partial (ok : lib.Ok) {up : Bool} {o : State 𝕜 n} {L : Mat 𝕜 n} (ho : HoldsRoot up L o) :
    (∀ (f : Mat 𝕜 n → Mat 𝕜 n → Mat 𝕜 n), (0 < o.sd → o.nested.PosDef) → ∀ c : Cov 𝕜 n, c.WF → c.Definite → c.root = true →
      (∀ up', (c.form = .herm up' ∨ c.form = .tri up') → up' = up) → ∀ K, c.Represents K → HoldsRoot up (f L K) (o.opRoot lib up f c)) ∧
      (∀ s : 𝕜, 0 ≤ s → HoldsRoot up (s • L) (o.mulRoot s)) ∧ (∀ s : 𝕜, 0 < s → HoldsRoot up (s⁻¹ • L) (o.divRoot s)) :=
  ⟨fun f hdef _ hw hd hr hfit _ hK => (opRoot_sound ok f ho hdef hw hd hr hfit hK).1, fun _ hs => mulRoot_sound ho hs,
    fun s hs => by rw [divRoot_eq]; exact mulRoot_sound ho (RCLike.inv_pos.mpr hs).le⟩

/-- C47, in-place `+=`, `-=` of covariances that store their own kind: self-adjoint matrices in a covariance, triangular ones in a square root. -/
theorem C47_in_place_same_kind (ok : lib.Ok) {c d : Cov 𝕜 n} {A B : Mat 𝕜 n} (hA : c.Represents A) (hd : d.WF) (dd : d.Definite) (hB : d.Represents B) :
    (c.root = false → d.root = false → c.form.hermitian = true → (c.addHerm d).Represents (A + B) ∧ (c.subHerm d).Represents (A - B)) ∧
      (∀ f : Mat 𝕜 n → Mat 𝕜 n → Mat 𝕜 n, c.root = true → d.root = true → (c.form.diagonal = true → d.form.diagonal = true) →
        (∀ up, c.form ≠ .herm up) → (c.form.diagonal = false → ∀ up', (d.form = .herm up' ∨ d.form = .tri up') → c.form = .tri up') →
        (c.opTri lib f d).Represents (f A B)) := by
  constructor
  · intro h1 h2 h3
    have e := selfAdjointNested_eq h2 hB
    obtain ⟨root, form, N, z, i⟩ := c
    subst h1
    cases form with
    | herm up => exact ⟨by rw [← e, show A = N from hA]; rfl, by rw [← e, show A = N from hA]; rfl⟩
    | diag => exact ⟨by rw [← e, show A = N from hA]; rfl, by rw [← e, show A = N from hA]; rfl⟩
    | cdiag => exact absurd h3 (by simp [Form.hermitian])
    | tri up => exact absurd h3 (by simp [Form.hermitian])
  · intro f h1 h2 h3 h4 h5
    obtain ⟨root, form, N, z, i⟩ := c
    subst h1
    have diagCase : d.form.diagonal = true → d.triangularNested lib = B := by
      intro h
      obtain ⟨r', f', N', z', i'⟩ := d
      subst h2
      cases f' with
      | herm up => exact absurd h (by simp [Form.diagonal])
      | diag => exact hB.symm
      | cdiag => exact hB.symm
      | tri up => exact absurd h (by simp [Form.diagonal])
    cases form with
    | herm up => exact absurd rfl (h4 up)
    | diag =>
      have e := diagCase (h3 rfl)
      rw [← e, show A = N from hA]; rfl
    | cdiag =>
      have e := diagCase (h3 rfl)
      rw [← e, show A = N from hA]; rfl
    | tri up =>
      have hu : Form.updateUp (.tri up) = up := by cases up <;> rfl
      have e := toTri_root (up := up) ok hd dd h2 (fun up' h => by have := h5 rfl up' h; injection this with this; exact this.symm) hB
      rw [← e, show A = N from hA]
      show f N (d.toTri lib up) = f N (d.toTri lib (Form.updateUp (.tri up)))
      rw [hu]

/-! ### Where the code does otherwise -/

/-- One-dimensional matrices for the examples. -/
def one1 (x : 𝕜) : Mat 𝕜 1 := Matrix.of fun _ _ => x

theorem isTri_one1 (up : Bool) (x : 𝕜) : IsTri up (one1 x) := by
  intro i j h
  obtain rfl := Subsingleton.elim i j
  cases up <;> simp at h

theorem one1_mul (x y : 𝕜) : one1 x * one1 y = one1 (x * y) := by
  ext i j; simp [one1, Matrix.mul_apply]

theorem one1_star (x : 𝕜) : (one1 x)ᴴ = one1 (star x) := by
  ext i j; simp [one1]

theorem one1_inj {x y : 𝕜} (h : one1 x = one1 y) : x = y := congrFun (congrFun h 0) 0

theorem one1_smul (s x : 𝕜) : s • one1 x = one1 (s * x) := by ext i j; simp [one1]

theorem one1_gram (up : Bool) (x : 𝕜) : gram up (one1 x) = one1 (star x * x) := by
  cases up
  · show one1 x * (one1 x)ᴴ = _; rw [one1_star, one1_mul, mul_comm]
  · show (one1 x)ᴴ * one1 x = _; rw [one1_star, one1_mul]

theorem one1_diag (x : 𝕜) : (one1 x).IsDiag := fun i j h => absurd (Subsingleton.elim i j) h

theorem one1_herm {x : 𝕜} (h : star x = x) : (one1 x).IsHermitian := by show _ᴴ = _; rw [one1_star, h]

/-- A lower triangular square root, and a square root stored as its square, standing for `2`. -/
noncomputable def rootTri : Cov ℝ 1 := ⟨true, .tri false, one1 2, false, false⟩
noncomputable def rootHerm : Cov ℝ 1 := ⟨true, .herm false, one1 4, false, false⟩

theorem rootTri_ok : rootTri.WF ∧ rootTri.Represents (one1 2) := ⟨⟨isTri_one1 _ _, by simp [rootTri], by simp [rootTri]⟩, rfl⟩

theorem rootHerm_ok : rootHerm.WF ∧ rootHerm.Represents (one1 2) :=
  ⟨⟨one1_herm rfl, by simp [rootHerm], by simp [rootHerm]⟩, isTri_one1 _ _, by rw [one1_gram]; norm_num [rootHerm], fun _ => by norm_num [one1]⟩

/-- Three times a square root `2` should be `6`; the code returns a covariance (not a square root) standing for `36`, in both forms (for a self-adjoint nested matrix,
the square `4` becomes the covariance `36`; for a triangular one, the factor `6` becomes a factor of the covariance). -/
theorem C47_scalar_violated (lib : Lib ℝ) : ∀ c ∈ [rootTri, rootHerm], c.WF ∧ c.Represents (one1 2) ∧
    ∃ r, smul lib c 3 = some r ∧ r.root = false ∧ r.Represents (one1 36) ∧ ¬ r.Represents (one1 6) := by
  intro c hc
  simp only [List.mem_cons, List.not_mem_nil, or_false] at hc
  rcases hc with rfl | rfl
  · refine ⟨rootTri_ok.1, rootTri_ok.2, ⟨false, .tri false, (3 : ℝ) • one1 2, false, false⟩, rfl, rfl, ?_, ?_⟩
    · show one1 36 = gram false ((3 : ℝ) • one1 2)
      rw [one1_smul, one1_gram]; norm_num
    · intro h
      have h : one1 (6 : ℝ) = gram false ((3 : ℝ) • one1 (2 : ℝ)) := h
      rw [one1_smul, one1_gram] at h
      have := one1_inj h
      norm_num at this
  · refine ⟨rootHerm_ok.1, rootHerm_ok.2, ⟨false, .herm false, ((3 * 3 : ℝ)) • one1 4, false, false⟩, rfl, rfl, ?_, ?_⟩
    · show one1 36 = (3 * 3 : ℝ) • one1 4
      rw [one1_smul]; norm_num
    · intro h
      have h : one1 (6 : ℝ) = (3 * 3 : ℝ) • one1 (4 : ℝ) := h
      rw [one1_smul] at h
      have := one1_inj h
      norm_num at this

/-- `scale(L, -1)` of a square root stored as its square stands for `L` again; of one stored as a triangle it stands for `-L`. -/
theorem C47_scale_violated : rootHerm.Represents (one1 2) ∧ (scale rootHerm (-1)).Represents (one1 2) ∧ ¬ (scale rootHerm (-1)).Represents ((-1 : ℝ) • one1 2) ∧
    rootTri.Represents (one1 2) ∧ (scale rootTri (-1)).Represents ((-1 : ℝ) • one1 2) := by
  have e : scale rootHerm (-1) = rootHerm := by
    show (⟨true, .herm false, ((-1 : ℝ) * -1) • one1 4, false, false⟩ : Cov ℝ 1) = ⟨true, .herm false, one1 4, false, false⟩
    rw [one1_smul]; norm_num
  refine ⟨rootHerm_ok.2, by rw [e]; exact rootHerm_ok.2, ?_, rootTri_ok.2, rfl⟩
  rintro ⟨-, -, h⟩
  have := h 0
  rw [one1_smul] at this
  norm_num [one1] at this

/-- Scaling by the imaginary unit: two covariances standing for the same matrix `1` end up standing for different ones (`-1` and `1`). -/
theorem C47_scale_complex_violated : ∃ c d : Cov ℂ 1, c.WF ∧ d.WF ∧ c.Represents (one1 1) ∧ d.Represents (one1 1) ∧
    (scale c Complex.I).Represents (one1 (-1)) ∧ (scale d Complex.I).Represents (one1 1) := by
  refine ⟨⟨false, .herm false, one1 1, false, false⟩, ⟨false, .tri false, one1 1, false, false⟩, ⟨one1_herm (by simp), by simp, by simp⟩,
    ⟨isTri_one1 _ _, by simp, by simp⟩, rfl, ?_, ?_, ?_⟩
  · show one1 1 = gram false (one1 1)
    rw [one1_gram]; simp
  · show one1 (-1) = (Complex.I * Complex.I) • one1 1
    rw [one1_smul]; simp
  · show one1 1 = gram false (Complex.I • one1 1)
    rw [one1_smul, one1_gram]; simp

/-- `+=` of a diagonal covariance to one in Cholesky form treats the diagonal matrix as a factor: `1 += 2` gives `5`. -/
theorem C47_in_place_diagonal_violated {lib : Lib ℝ} (ok : lib.Ok) : ∃ (o : State ℝ 1) (c : Cov ℝ 1), HoldsCov false (one1 1) o ∧ c.WF ∧ c.root = false ∧
    c.Represents (one1 2) ∧ HoldsCov false (one1 5) (o.addCov lib false c) ∧ ¬ HoldsCov false (one1 1 + one1 2) (o.addCov lib false c) := by
  let c : Cov ℝ 1 := ⟨false, .diag, one1 2, false, false⟩
  let o : State ℝ 1 := ⟨one1 1, 0, 1⟩
  have q := ok.lq (fromCols (one1 1 : Mat ℝ 1) (one1 2))
  have hg : gram false (lib.lq (fromCols (one1 1 : Mat ℝ 1) (one1 2))) = one1 5 := by
    show _ * _ᴴ = _
    rw [q.2, fromCols_gram, one1_star, one1_star, one1_mul, one1_mul]
    ext i j; norm_num [one1]
  refine ⟨o, c, ⟨fun _ => ⟨isTri_one1 _ _, by show gram false (one1 1) = _; rw [one1_gram]; simp⟩, fun h => absurd h (by decide)⟩,
    ⟨⟨one1_diag _, one1_herm rfl⟩, by simp [c], by simp [c]⟩, rfl, rfl, ⟨fun _ => ⟨q.1, hg⟩, fun h => absurd (show (1 : ℤ) ≤ 0 from h) (by decide)⟩, ?_⟩
  rintro ⟨h, -⟩
  have h := (h (show (0 : ℤ) ≤ 1 by decide)).2
  have h' : gram false (lib.lq (fromCols (one1 1 : Mat ℝ 1) (one1 2))) = one1 1 + one1 2 := h
  rw [hg] at h'
  have := congrFun (congrFun h' 0) 0
  norm_num [one1] at this

/-- `+=` of a complex covariance with an upper triangular factor to one with a lower triangular factor transposes the factor without conjugating it: starting from zero, the result is not the argument. -/
theorem C47_in_place_complex_violated {lib : Lib ℂ} (ok : lib.Ok) : ∃ (o : State ℂ 2) (c : Cov ℂ 2) (Q : Mat ℂ 2), HoldsCov false 0 o ∧ c.WF ∧ c.root = false ∧ c.form = .tri true ∧
    c.Represents Q ∧ ¬ HoldsCov false (0 + Q) (o.addCov lib false c) := by
  let U : Mat ℂ 2 := !![1, Complex.I; 0, 1]
  let c : Cov ℂ 2 := ⟨false, .tri true, U, false, false⟩
  let o : State ℂ 2 := ⟨0, 0, 1⟩
  have q := ok.lq (fromCols (0 : Mat ℂ 2) Uᵀ)
  refine ⟨o, c, Uᴴ * U, ⟨fun _ => ⟨IsTri.zero, gram_zero _⟩, fun h => absurd h (by decide)⟩, ⟨?_, by simp [c], by simp [c]⟩, rfl, rfl, rfl, ?_⟩
  · intro i j h
    fin_cases i <;> fin_cases j <;> simp at h
    rfl
  · rintro ⟨h, -⟩
    have h := (h (show (0 : ℤ) ≤ 1 by decide)).2
    have h' : lib.lq (fromCols (0 : Mat ℂ 2) Uᵀ) * (lib.lq (fromCols (0 : Mat ℂ 2) Uᵀ))ᴴ = 0 + Uᴴ * U := h
    rw [q.2, fromCols_gram] at h'
    have := congrFun (congrFun h' 0) 1
    simp [U, Matrix.mul_apply, Fin.sum_univ_two, conjTranspose_apply, transpose_apply] at this
    have := congrArg Complex.im this
    norm_num at this

/-- `*= -1` on a square root stored as its square: what it stands for afterwards depends on the synchronisation state. -/
theorem C47_in_place_root_violated : ∃ o o' : State ℝ 1, HoldsRoot false (one1 2) o ∧ HoldsRoot false (one1 2) o' ∧
    ¬ HoldsRoot false ((-1 : ℝ) • one1 2) (o.mulRoot (-1)) ∧ (o'.mulRoot (-1)).chol = (-1 : ℝ) • one1 2 := by
  have hc : IsChol false (one1 4) (one1 (2 : ℝ)) := rootHerm_ok.2
  refine ⟨⟨one1 4, 0, 1⟩, ⟨one1 4, one1 2, 0⟩, ⟨fun _ => hc, fun h => absurd h (by decide)⟩, ⟨fun _ => hc, fun _ => rfl⟩, ?_, rfl⟩
  rintro ⟨h, -⟩
  have := (h (by decide)).2.2 0
  rw [one1_smul] at this
  norm_num [one1] at this

/-! ### The hypotheses can be met -/

/-- Two-dimensional covariances in the different forms, and a definite square root stored as its square. -/
noncomputable def exLow : Cov ℝ 2 := ⟨false, .tri false, !![1, 0; 2, 3], false, false⟩
noncomputable def exUp : Cov ℝ 2 := ⟨false, .tri true, !![1, 2; 0, 3], false, false⟩

theorem exLow_ok : exLow.WF ∧ exLow.Represents (gram false !![1, 0; 2, 3]) := by
  refine ⟨⟨?_, by simp [exLow], by simp [exLow]⟩, rfl⟩
  intro i j h
  fin_cases i <;> fin_cases j <;> simp at h
  rfl

theorem exUp_ok : exUp.WF ∧ exUp.Represents (gram true !![1, 2; 0, 3]) := by
  refine ⟨⟨?_, by simp [exUp], by simp [exUp]⟩, rfl⟩
  intro i j h
  fin_cases i <;> fin_cases j <;> simp at h
  rfl

theorem rootHerm_definite : rootHerm.Definite := by
  intro _ up _
  show (one1 (4 : ℝ)).PosDef
  have e : one1 (4 : ℝ) = (4 : ℝ) • 1 := by ext i j; obtain rfl := Subsingleton.elim i j; simp [one1]
  rw [e]
  exact PosDef.one.smul (by norm_num)

example : (add someLib (.cov exLow) (.cov exUp)).Represents (gram false !![1, 0; 2, 3] + gram true !![1, 2; 0, 3]) :=
  (C47_add someLib_ok (a := .cov exLow) (b := .cov exUp) exLow_ok.1 exUp_ok.1 (fun h => absurd h (by simp [exLow])) (fun h => absurd h (by simp [exUp])) exLow_ok.2 exUp_ok.2).2.1

example : (add someLib (.cov rootHerm) (.cov rootTri)).Represents (one1 2 + one1 2) :=
  (C47_add someLib_ok (a := .cov rootHerm) (b := .cov rootTri) rootHerm_ok.1 rootTri_ok.1 rootHerm_definite (fun _ _ h => absurd h (by simp [rootTri])) rootHerm_ok.2 rootTri_ok.2).2.1

example : (scaleMat someLib exLow (!![1, 1] : Matrix (Fin 1) (Fin 2) ℝ)).Represents
    ((!![1, 1] : Matrix (Fin 1) (Fin 2) ℝ) * gram false (!![1, 0; 2, 3] : Mat ℝ 2) * (!![1, 1] : Matrix (Fin 1) (Fin 2) ℝ)ᴴ) :=
  (C47_scale_matrix someLib_ok exLow_ok.1 exLow_ok.2 _).2.2.1 rfl

example : (mul someLib exLow exUp).Represents (gram false !![1, 0; 2, 3] * gram true !![1, 2; 0, 3]) :=
  (C47_mul someLib_ok exLow_ok.1 exUp_ok.1 (fun h => absurd h (by simp [exLow])) (fun h => absurd h (by simp [exUp])) exLow_ok.2 exUp_ok.2).1.2

example : ∃ r, smul someLib exLow 2 = some r ∧ r.Represents (((2 : ℝ)) • gram false !![1, 0; 2, 3]) := by
  have h := (C47_scalar_partial someLib_ok exLow_ok.1 exLow_ok.2 (fun h => absurd h (by simp [exLow])) 2).1
  obtain ⟨r, hr⟩ := Option.isSome_iff_exists.mp (h.2 (by norm_num))
  exact ⟨r, hr, (h.1 r hr).2⟩

/-- A difference that succeeds: `4 - 1` in Cholesky form. -/
example : ∃ r, sub someLib (.cov ⟨false, .tri false, one1 (2 : ℝ), false, false⟩) (.cov ⟨false, .tri true, one1 (1 : ℝ), false, false⟩) = some r ∧ r.Represents (one1 4 - one1 1) := by
  have h := C47_sub someLib_ok (a := .cov ⟨false, .tri false, one1 (2 : ℝ), false, false⟩) (b := .cov ⟨false, .tri true, one1 (1 : ℝ), false, false⟩)
    ⟨isTri_one1 _ _, by simp, by simp⟩ ⟨isTri_one1 _ _, by simp, by simp⟩ (fun h => absurd h (by simp)) (fun h => absurd h (by simp)) (A := one1 4) (B := one1 1)
    (show one1 4 = gram false (one1 2) by rw [one1_gram]; norm_num) (show one1 1 = gram true (one1 1) by rw [one1_gram]; norm_num)
  have hp : (one1 (4 : ℝ) - one1 1).PosDef := by
    have e : one1 (4 : ℝ) - one1 1 = (3 : ℝ) • 1 := by ext i j; obtain rfl := Subsingleton.elim i j; norm_num [one1]
    rw [e]; exact PosDef.one.smul (by norm_num)
  obtain ⟨r, hr⟩ := Option.isSome_iff_exists.mp (h.2 hp)
  exact ⟨r, hr, (h.1 r hr).2.1⟩

example : HoldsCov false (gram false !![1, 0; 2, 3] + gram true !![1, 2; 0, 3]) (State.addCov someLib false ⟨(!![1, 0; 2, 3] : Mat ℝ 2), gram false !![1, 0; 2, 3], 0⟩ exUp) :=
  (C47_in_place_add_partial someLib_ok (up := false) (o := ⟨(!![1, 0; 2, 3] : Mat ℝ 2), gram false !![1, 0; 2, 3], 0⟩) ⟨fun _ => ⟨exLow_ok.1.1, rfl⟩, fun _ => rfl⟩ exUp_ok.1 rfl (by simp [exUp]) (fun u h => absurd h (by simp [exUp])) exUp_ok.2).1
    fun _ _ => Or.inr fun _ => rfl

example : HoldsRoot false (one1 2 + one1 2) (State.opRoot someLib false (· + ·) ⟨one1 (4 : ℝ), 0, 1⟩ rootTri) :=
  (C47_in_place_root_partial someLib_ok (L := one1 2) (up := false) (o := ⟨one1 (4 : ℝ), 0, 1⟩) ⟨fun _ => rootHerm_ok.2, fun h => absurd h (by decide)⟩).1 (· + ·) (fun _ => rootHerm_definite rfl false rfl) rootTri rootTri_ok.1
    (fun _ _ h => absurd h (by simp [rootTri])) rfl (fun up' h => by simpa [rootTri, eq_comm] using h) _ rootTri_ok.2

end OpenKalman.CovArith
