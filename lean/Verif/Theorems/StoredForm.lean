import Verif.Proof.StoredForm

/-!
# C64: filter and transform steps on every stored form of a covariance

`Holds d x` says that the stored distribution `d` has the moments `x`; nothing else about how `d` is stored enters the specification (`total`, `condition`, `Matches`).
All theorems are about every library meeting `Lib.Ok` (C43) and every solver meeting `SolveOk` (C42).
-/

namespace OpenKalman.StoredForm
open Matrix OpenKalman.CovArith OpenKalman.Gaussian

variable {n m p : ℕ} {lib : CovArith.Lib ℝ} {solve : {m k : ℕ} → Mat ℝ m → Matrix (Fin m) (Fin k) ℝ → Matrix (Fin m) (Fin k) ℝ}

/-! ## Linear transforms -/

/-- C64, linear transforms: the output has the exact moments and the cross-covariance is exact, in whatever forms the input and the noise terms are stored, as long as (in the branch for
triangular inputs) nothing is stored in an upper triangle.  Missing: upper triangular storage (`C64_transform_upper`). -/
theorem C64_transform_partial (ok : lib.Ok) (J0 : Matrix (Fin p) (Fin n) ℝ) {d0 : Gaussian.Dist n} {x0 : Moments n} (h0 : Holds d0 x0)
    {V : ∀ k, Gaussian.Dist k → Mat ℝ k} {ts : List (Noise p)} (hts : ∀ t ∈ ts, Holds t.d ⟨t.d.mean, V t.k t.d⟩)
    (hl : d0.cov.choleskyForm = true → d0.cov.form ≠ .tri true ∧ ∀ t ∈ ts, Lower t.d.cov (V t.k t.d)) :
    Holds (transform lib J0 d0 ts).1 (total (⟨n, J0, x0⟩ :: ts.map (Noise.part V))) ∧ (transform lib J0 d0 ts).2 = x0.cov * J0ᵀ :=
  have h := transform_sound ok J0 h0 hts hl
  ⟨h.1, h.2.1⟩

/-- C64, linear transforms, upper triangular input: with `U` stored for `Uᵀ U`, the output stands for `J U Uᵀ Jᵀ` and the cross-covariance is `U Uᵀ Jᵀ`; hence even the identity
transform returns the covariance it was given only if `U` is diagonal. -/
theorem C64_transform_upper (ok : lib.Ok) {d0 : Gaussian.Dist n} {x0 : Moments n} (h0 : Holds d0 x0) (hu : d0.cov.form = .tri true) :
    (∀ {p : ℕ} (J : Matrix (Fin p) (Fin n) ℝ), (transform lib J d0 []).1.cov.Represents (J * (d0.cov.nested * d0.cov.nestedᴴ) * Jᵀ) ∧
      (transform lib J d0 []).2 = d0.cov.nested * d0.cov.nestedᴴ * Jᵀ) ∧
    ((transform lib 1 d0 []).1.cov.Represents x0.cov ↔ d0.cov.nested.IsDiag) ∧ ((transform lib (1 : Mat ℝ n) d0 []).2 = x0.cov ↔ d0.cov.nested.IsDiag) := by
  have hc : d0.cov.choleskyForm = true := by unfold Cov.choleskyForm; rw [hu]; rfl
  have hsq : (squareRoot lib d0.cov).1 = d0.cov.nested := by unfold squareRoot; rw [hu]
  have hx : x0.cov = d0.cov.nestedᴴ * d0.cov.nested := by
    have h := selfAdjointNested_eq h0.valid.2.1 h0.cov
    rw [← h]
    unfold Cov.selfAdjointNested
    rw [hu]
    rfl
  have htri : IsTri true d0.cov.nested := by
    have := h0.valid.1.1
    rw [hu] at this
    exact this
  have key : ∀ {p : ℕ} (J : Matrix (Fin p) (Fin n) ℝ), (transform lib J d0 []).1.cov.root = false ∧
      (transform lib J d0 []).1.cov.Represents (J * (d0.cov.nested * d0.cov.nestedᴴ) * Jᵀ) ∧ (transform lib J d0 []).2 = d0.cov.nested * d0.cov.nestedᴴ * Jᵀ := by
    intro p J
    have e : sumNoise lib J d0 [] = (⟨false, .tri false, lib.lq (J * d0.cov.nested), false, false⟩, d0.cov.nested * (J * d0.cov.nested)ᴴ) := by
      unfold sumNoise
      rw [if_pos hc, hsq]
      rfl
    have e1 : (transform lib J d0 []).1.cov = (sumNoise lib J d0 []).1 := rfl
    have e2 : (transform lib J d0 []).2 = (sumNoise lib J d0 []).2 := rfl
    rw [e1, e2, e]
    refine ⟨rfl, Eq.trans (sandwich rfl J).symm (ok.lq (J * d0.cov.nested)).2.symm, ?_⟩
    rw [conjTranspose_mul, ← Matrix.mul_assoc, conjTranspose_eq_transpose_of_trivial J]
  refine ⟨fun J => (key J).2, ?_, ?_⟩
  · rw [← normal_tri_iff htri]
    have h1 := key (1 : Mat ℝ n)
    rw [Matrix.one_mul, transpose_one, Matrix.mul_one] at h1
    constructor
    · intro h
      rw [← hx]
      exact represents_unique h1.1 h1.2.1 h
    · intro h
      rw [hx, ← h]
      exact h1.2.1
  · rw [← normal_tri_iff htri, (key (1 : Mat ℝ n)).2.2, transpose_one, Matrix.mul_one, hx]

/-! ## Updates -/

/-- C64, update step: with the measurement's covariance stored in any form but an upper triangular one, and the state's in any form at all, the result has the conditional moments; there is
a result whenever the exact covariance is definite.  Missing: upper triangular storage (`C64_identity_violated`). -/
theorem C64_update_partial (ok : lib.Ok) (sok : SolveOk solve) {Nx : Gaussian.Dist n} {Ny : Gaussian.Dist m} {x : Moments n} {y : Moments m} (hx : Holds Nx x) (hy : Holds Ny y)
    (hd : y.cov.PosDef) (hl : Ny.cov.form ≠ .tri true) (C : Matrix (Fin n) (Fin m) ℝ) (z : Fin m → ℝ) (hj : (condition x y C z).cov.PosSemidef) :
    (∀ d, updateStep lib solve Nx Ny C z = some d → Holds d (condition x y C z)) ∧
      ((condition x y C z).cov.PosDef → (updateStep lib solve Nx Ny C z).isSome = true) :=
  have h := updateStep_sound ok sok hx hy hd hl C hj z
  ⟨h.1, h.2.1⟩

/-- C64, updates through the identity transform: right if the state is not stored as an upper triangular factor (or known to be zero). -/
theorem C64_identity_partial (ok : lib.Ok) (sok : SolveOk solve) {dx dv : Gaussian.Dist n} {x v : Moments n} (hx : Holds dx x) (hv : Holds dv v) (hd : v.cov.PosDef)
    (hl : dx.cov.form ≠ .tri true) (hz : dx.cov.zero = false) (z : Fin n → ℝ) (d : Gaussian.Dist n) (h : identityUpdate lib solve dx dv z = some d) :
    Holds d (condition x (total [⟨n, 1, x⟩, ⟨n, 1, v⟩]) x.cov z) := by
  unfold identityUpdate Dist.add at h
  obtain ⟨c, hc, hc1, hc2⟩ := add_kind lib ⟨hx.valid.2.1, hx.valid.2.2⟩ ⟨hv.valid.2.1, hv.valid.2.2⟩
  have hs := add_sound ok (a := .cov dx.cov) (b := .cov dv.cov) hx.valid.1 hv.valid.1 (definite_of_not_root hx.valid.2.1) (definite_of_not_root hv.valid.2.1) hx.cov hv.cov
  rw [hc] at h hs
  rw [make_cov hc1, Option.bind_some, selfAdjointNested_eq hx.valid.2.1 hx.cov] at h
  have ht : total [⟨n, 1, x⟩, ⟨n, 1, v⟩] = ⟨x.mean + v.mean, x.cov + v.cov⟩ := by
    unfold total
    simp
  have hxT : x.covᵀ = x.cov := by
    have := hx.psd.1
    rwa [IsHermitian, conjTranspose_eq_transpose_of_trivial] at this
  obtain ⟨p1, p2⟩ := posterior_psd hx.psd (1 : Mat ℝ n) hd
  simp only [Matrix.one_mul, transpose_one, Matrix.mul_one] at p1 p2
  have hform : c.form ≠ .tri true := by
    unfold CovArith.add at hc
    have hz' : ¬ (Opd.cov dx.cov).isZero = true := by show ¬ dx.cov.zero = true; rw [hz]; simp
    rw [if_neg hz'] at hc
    split_ifs at hc
    · rw [← Opd.cov.inj hc]; exact hl
    · split at hc
      · rename_i c' d' h1 h2
        rw [Gaussian.choleskySelfAdjoint_some h1] at hc
        have hup : dx.cov.form.upper = false := by
          obtain ⟨-, hch, -⟩ := CovArith.choleskySelfAdjoint_some h1
          have h1' : (if (dx.cov.choleskyForm && !dx.cov.root) = true then some dx.cov else none) = some c' := h1
          split_ifs at h1' with hch'
          rw [Bool.and_eq_true] at hch'
          rcases choleskyForm_cases (c := dx.cov) with ⟨-, hf | ⟨up, hf⟩⟩ | ⟨hf, -⟩
          · exact absurd hf hx.valid.2.2
          · cases up with
            | false => rw [hf]; rfl
            | true => exact absurd hf hl
          · rw [hch'.1] at hf; cases hf
        unfold addCholesky at hc
        rw [hup] at hc
        simp only [Bool.false_and, Bool.false_eq_true, if_false] at hc
        split_ifs at hc <;> rw [← Opd.cov.inj hc] <;> simp
      · unfold wrap at hc
        split_ifs at hc <;> rw [← Opd.cov.inj hc] at hc1 ⊢ <;> simp_all
  rw [ht]
  exact (updateStep_sound ok sok (Ny := ⟨dx.mean + dv.mean, c⟩) (y := ⟨x.mean + v.mean, x.cov + v.cov⟩) hx
    ⟨⟨hs.1, hc1, hc2⟩, by show dx.mean + dv.mean = _; rw [hx.mean, hv.mean], hs.2.1, p1.posSemidef⟩ p1 hform x.cov (by
      show (x.cov - x.cov * (x.cov + v.cov)⁻¹ * x.covᵀ).PosSemidef
      exact p2) z).1 d h

/-- C64 fails for updates through the identity transform when state and noise are stored as upper triangular factors: unless the covariance of the measurement is diagonal, no result is ever right. -/
theorem C64_identity_violated (ok : lib.Ok) (sok : SolveOk solve) {dx dv : Gaussian.Dist n} {x v : Moments n} (hx : Holds dx x) (hv : Holds dv v) (hp : x.cov.PosDef)
    (hux : dx.cov.form = .tri true) (huv : dv.cov.form = .tri true) (hnd : ¬ (x.cov + v.cov).IsDiag) (z : Fin n → ℝ) (d : Gaussian.Dist n)
    (h : identityUpdate lib solve dx dv z = some d) : ¬ d.cov.Represents (condition x (total [⟨n, 1, x⟩, ⟨n, 1, v⟩]) x.cov z).cov := by
  have zx : dx.cov.zero = false := by
    cases e : dx.cov.zero with
    | false => rfl
    | true => have := (hx.valid.1.2.1 e).1; rw [hux] at this; cases this
  have zv : dv.cov.zero = false := by
    cases e : dv.cov.zero with
    | false => rfl
    | true => have := (hv.valid.1.2.1 e).1; rw [huv] at this; cases this
  have ex : (Opd.cov dx.cov).choleskySelfAdjoint = some dx.cov := by
    show (if (dx.cov.choleskyForm && !dx.cov.root) = true then some dx.cov else none) = _
    rw [hx.valid.2.1]
    unfold Cov.choleskyForm
    rw [hux]
    rfl
  have ev : (Opd.cov dv.cov).choleskySelfAdjoint = some dv.cov := by
    show (if (dv.cov.choleskyForm && !dv.cov.root) = true then some dv.cov else none) = _
    rw [hv.valid.2.1]
    unfold Cov.choleskyForm
    rw [huv]
    rfl
  have eadd : CovArith.add lib (.cov dx.cov) (.cov dv.cov) = .cov ⟨false, .tri true, lib.qr (fromRows dx.cov.nested dv.cov.nested), false, false⟩ := by
    unfold CovArith.add
    rw [if_neg (by show ¬ dx.cov.zero = true; rw [zx]; simp), if_neg (by show ¬ dv.cov.zero = true; rw [zv]; simp), ex, ev]
    show Opd.cov (addCholesky lib dx.cov dv.cov) = _
    unfold addCholesky
    rw [hux, huv]
    rfl
  have hs := add_sound ok (a := .cov dx.cov) (b := .cov dv.cov) hx.valid.1 hv.valid.1 (definite_of_not_root hx.valid.2.1) (definite_of_not_root hv.valid.2.1) hx.cov hv.cov
  unfold identityUpdate Dist.add at h
  rw [eadd] at h hs
  rw [make_cov rfl, Option.bind_some, selfAdjointNested_eq hx.valid.2.1 hx.cov] at h
  have hS : (x.cov + v.cov).PosDef := PosDef.add_posSemidef hp hv.psd
  have hu : IsUnit (x.cov + v.cov).det := (Matrix.isUnit_iff_isUnit_det _).mp hS.isUnit
  have hux' : IsUnit x.cov.det := (Matrix.isUnit_iff_isUnit_det _).mp hp.isUnit
  obtain ⟨hr, hrep⟩ := (updateStep_upper ok sok (Ny := ⟨dx.mean + dv.mean, ⟨false, .tri true, lib.qr (fromRows dx.cov.nested dv.cov.nested), false, false⟩⟩)
    (y := ⟨x.mean + v.mean, x.cov + v.cov⟩) hx ⟨⟨hs.1, rfl, by simp⟩, by show dx.mean + dv.mean = _; rw [hx.mean, hv.mean], hs.2.1, hS.posSemidef⟩ hS rfl x.cov z).1 d h
  intro hbad
  have ht : total [⟨n, 1, x⟩, ⟨n, 1, v⟩] = ⟨x.mean + v.mean, x.cov + v.cov⟩ := by
    unfold total
    simp
  rw [ht] at hbad
  have heq := represents_unique hr hrep hbad
  set W := lib.qr (fromRows dx.cov.nested dv.cov.nested) with hW
  set S := x.cov + v.cov with hSdef
  have hWS : Wᴴ * W = S := by
    have : S = gram true W := hs.2.1
    exact this.symm
  have hST : Sᵀ = S := by
    have := hS.1
    rwa [IsHermitian, conjTranspose_eq_transpose_of_trivial] at this
  have heq : x.cov - x.cov * S⁻¹ * (W * Wᴴ) * (x.cov * S⁻¹)ᵀ = x.cov - x.cov * S⁻¹ * x.covᵀ := heq
  have h2 : x.cov * S⁻¹ * (W * Wᴴ) * (x.cov * S⁻¹)ᵀ = x.cov * S⁻¹ * S * (x.cov * S⁻¹)ᵀ := by
    have h3 : x.cov * S⁻¹ * x.covᵀ = x.cov * S⁻¹ * S * (x.cov * S⁻¹)ᵀ := by
      rw [transpose_mul, transpose_nonsing_inv, hST, Matrix.mul_assoc x.cov S⁻¹ S, Matrix.nonsing_inv_mul _ hu, Matrix.mul_one, Matrix.mul_assoc]
    rw [← h3]
    exact sub_right_injective heq
  have hKu : IsUnit (x.cov * S⁻¹) := (hp.isUnit).mul ((Matrix.isUnit_nonsing_inv_iff).mpr hS.isUnit)
  have hKTu : IsUnit (x.cov * S⁻¹)ᵀ := (Matrix.isUnit_transpose _).mpr hKu
  have h4 := hKTu.mul_right_cancel h2
  have h5 := hKu.mul_left_cancel h4
  refine hnd ?_
  have hdiag := (normal_tri_iff (U := W) hs.1.1).mp (h5.trans hWS.symm)
  rw [← hWS]
  exact isDiag_mul hdiag.conjTranspose hdiag

/-! ## Histories -/

/-- What an operation does to the moments. -/
noncomputable def Op.exact (V : ∀ k, Gaussian.Dist k → Mat ℝ k) : {n p : ℕ} → Op n p → Moments n → Moments p
  | _, _, .predict F ts, x => Step.exact (.predict F (ts.map (Noise.part V))) x
  | _, _, .update H ts z, x => Step.exact (.update H (ts.map (Noise.part V)) z) x

noncomputable def Run.exact (V : ∀ k, Gaussian.Dist k → Mat ℝ k) : {n p : ℕ} → Run n p → Moments n → Moments p
  | _, _, .nil, x => x
  | _, _, .cons o r, x => r.exact V (o.exact V x)

/-- The noise terms have the covariances `V`, the noise of a measurement is definite, and (for states stored as factors, `chol`) no noise term is stored in an upper triangle. -/
def Op.Ok (V : ∀ k, Gaussian.Dist k → Mat ℝ k) (chol : Bool) : {n p : ℕ} → Op n p → Prop
  | _, _, .predict _ ts => ∀ t ∈ ts, Holds t.d ⟨t.d.mean, V t.k t.d⟩ ∧ (chol = true → Lower t.d.cov (V t.k t.d))
  | _, _, .update _ ts _ => (∀ t ∈ ts, Holds t.d ⟨t.d.mean, V t.k t.d⟩ ∧ (chol = true → Lower t.d.cov (V t.k t.d))) ∧ (total (ts.map (Noise.part V))).cov.PosDef

def Run.Ok (V : ∀ k, Gaussian.Dist k → Mat ℝ k) (chol : Bool) : {n p : ℕ} → Run n p → Prop
  | _, _, .nil => True
  | _, _, .cons o r => o.Ok V chol ∧ r.Ok V chol

/-- The exact covariance is definite after every operation. -/
def Run.Definite (V : ∀ k, Gaussian.Dist k → Mat ℝ k) : {n p : ℕ} → Run n p → Moments n → Prop
  | _, _, .nil, _ => True
  | _, _, .cons o r, x => (o.exact V x).cov.PosDef ∧ r.Definite V (o.exact V x)

theorem op_sound (ok : lib.Ok) (sok : SolveOk solve) {V : ∀ k, Gaussian.Dist k → Mat ℝ k} (o : Op n p) {d : Gaussian.Dist n} {x : Moments n} (h : Holds d x)
    (hf : d.cov.form ≠ .tri true) (ho : o.Ok V d.cov.choleskyForm) :
    (∀ d', o.run lib solve d = some d' → Holds d' (o.exact V x) ∧ d'.cov.form ≠ .tri true ∧ d'.cov.choleskyForm = d.cov.choleskyForm) ∧
      ((o.exact V x).cov.PosDef → (o.run lib solve d).isSome = true) := by
  have hcf : ∀ f : Form, (f = if d.cov.choleskyForm = true then .tri false else .herm false) → f ≠ .tri true ∧ (!f.hermitian) = d.cov.choleskyForm := by
    rintro f rfl
    cases d.cov.choleskyForm <;> exact ⟨by simp, rfl⟩
  cases o with
  | predict F ts =>
    obtain ⟨h1, -, h3⟩ := transform_sound ok F h (fun t ht => (ho t ht).1) (fun hc => ⟨hf, fun t ht => (ho t ht).2 hc⟩)
    refine ⟨fun d' hd' => ?_, fun _ => rfl⟩
    obtain rfl : (transform lib F d ts).1 = d' := Option.some.inj hd'
    exact ⟨h1, hcf _ h3⟩
  | update H ts z =>
    obtain ⟨ho1, ho2⟩ := ho
    obtain ⟨h1, h2, h3⟩ := transform_sound ok H h (fun t ht => (ho1 t ht).1) (fun hc => ⟨hf, fun t ht => (ho1 t ht).2 hc⟩)
    obtain ⟨p1, p2⟩ := posterior_psd h.psd H ho2
    have ec : (total (⟨_, H, x⟩ :: ts.map (Noise.part V))).cov = H * x.cov * Hᵀ + (total (ts.map (Noise.part V))).cov := (total_cons _ _).2
    rw [← ec] at p1 p2
    have hu := updateStep_sound ok sok h h1 p1 (hcf _ h3).1 (x.cov * Hᵀ) p2 z
    have er : (Op.update H ts z).run lib solve d = updateStep lib solve d (transform lib H d ts).1 (x.cov * Hᵀ) z := by rw [← h2]; rfl
    rw [er]
    refine ⟨fun d' hd' => ⟨hu.1 d' hd', hu.2.2 d' hd' hf (hcf _ h3).2.symm⟩, fun hdef => hu.2.1 hdef⟩

/-- C64, histories: after any interleaving of predictions and updates, the stored result has the moments of the exact recursion, in whatever forms state and noise terms are stored, as long as nothing
is stored in an upper triangle where a factor is needed; there is a result if the exact covariances stay definite.  Missing: upper triangular storage. -/
theorem C64_history_partial (ok : lib.Ok) (sok : SolveOk solve) {V : ∀ k, Gaussian.Dist k → Mat ℝ k} (r : Run n p) {d : Gaussian.Dist n} {x : Moments n} (h : Holds d x)
    (hf : d.cov.form ≠ .tri true) (hr : r.Ok V d.cov.choleskyForm) :
    (∀ d', r.run lib solve d = some d' → Holds d' (r.exact V x)) ∧ (r.Definite V x → (r.run lib solve d).isSome = true) := by
  induction r with
  | nil => exact ⟨fun d' hd' => by obtain rfl := Option.some.inj hd'; exact h, fun _ => rfl⟩
  | cons o r ih =>
    obtain ⟨h1, h2⟩ := op_sound ok sok o h hf hr.1
    refine ⟨fun d' hd' => ?_, fun hdef => ?_⟩
    · obtain ⟨d1, e1, e2⟩ := Option.bind_eq_some_iff.mp hd'
      obtain ⟨g1, g2, g3⟩ := h1 d1 e1
      exact (ih g1 g2 (by rw [g3]; exact hr.2)).1 d' e2
    · obtain ⟨d1, e1⟩ := Option.isSome_iff_exists.mp (h2 hdef.1)
      obtain ⟨g1, g2, g3⟩ := h1 d1 e1
      show ((o.run lib solve d).bind (r.run lib solve)).isSome = true
      rw [e1, Option.bind_some]
      exact (ih g1 g2 (by rw [g3]; exact hr.2)).2 hdef.2

/-- C64: two runs whose states and noise terms have the same moments but are stored differently give the same moments. -/
theorem C64_forms_partial (ok : lib.Ok) (sok : SolveOk solve) {V V' : ∀ k, Gaussian.Dist k → Mat ℝ k} (r r' : Run n p) {d d' : Gaussian.Dist n} {x : Moments n} (h : Holds d x) (h' : Holds d' x)
    (hf : d.cov.form ≠ .tri true) (hf' : d'.cov.form ≠ .tri true) (hr : r.Ok V d.cov.choleskyForm) (hr' : r'.Ok V' d'.cov.choleskyForm) (hsame : r.exact V = r'.exact V')
    {e e' : Gaussian.Dist p} (he : r.run lib solve d = some e) (he' : r'.run lib solve d' = some e') : e.mean = e'.mean ∧ e.cov.selfAdjointNested = e'.cov.selfAdjointNested := by
  have a := (C64_history_partial ok sok r h hf hr).1 e he
  have b := (C64_history_partial ok sok r' h' hf' hr').1 e' he'
  rw [hsame] at a
  exact ⟨a.mean.trans b.mean.symm, (selfAdjointNested_eq a.valid.2.1 a.cov).trans (selfAdjointNested_eq b.valid.2.1 b.cov).symm⟩

/-! ## Sample points -/

section points
variable {b : ℕ} (k : Fin (b + 1) → ℕ)

/-- C64, cubature and unscented points: they match the moments of the distributions, in whatever forms those are stored, as long as it is not in an upper triangle.
Missing: upper triangular storage (`C64_points_upper`). -/
theorem C64_points_partial (ok : lib.Ok) (hk : ∀ i, 0 < k i) (d : (i : Fin (b + 1)) → Gaussian.Dist (k i)) (x : (i : Fin (b + 1)) → Moments (k i)) (hd : ∀ i, Holds (d i) (x i))
    (hl : ∀ i, Lower (d i).cov (x i).cov) :
    (∃ Z, cubaturePoints k lib d = some Z ∧
      SigmaPoints.Matches (SigmaPoints.cubatureWeights ((∑ i, k i) * 2)).wm (SigmaPoints.cubatureWeights ((∑ i, k i) * 2)).wc Z fun i => (x i).cov) ∧
    ∀ alpha beta kappa : ℝ, alpha ≠ 0 → 0 < (∑ i, k i : ℕ) + kappa → ∃ Z, unscentedPoints k lib alpha kappa d = some Z ∧
      SigmaPoints.Matches (SigmaPoints.unscentedWeights (∑ i, k i) alpha beta kappa).wm (SigmaPoints.unscentedWeights (∑ i, k i) alpha beta kappa).wc Z fun i => (x i).cov := by
  have hdim : 0 < ∑ i, k i := lt_of_lt_of_le (hk 0) (Finset.single_le_sum (f := k) (fun _ _ => Nat.zero_le _) (Finset.mem_univ 0))
  constructor
  · obtain ⟨L, h1, h2⟩ := cubature_matches k hk (fun i => delta lib ((∑ i, k i : ℕ) : ℝ) (d i)) (fun i => (x i).cov) fun i =>
      delta_lower ok (hd i).valid (hd i).cov (hd i).psd (hl i) (by exact_mod_cast hdim)
    exact ⟨_, by unfold cubaturePoints; simp only [h1, Option.map_some], h2⟩
  · intro alpha beta kappa ha hkp
    have hg : 0 < alpha * alpha * (kappa + (∑ i, k i : ℕ)) := mul_pos (mul_self_pos.mpr ha) (by linarith)
    obtain ⟨L, h1, h2⟩ := unscented_matches k hk alpha beta kappa ha hkp (fun i => delta lib (alpha * alpha * (kappa + (∑ i, k i : ℕ))) (d i)) (fun i => (x i).cov) fun i =>
      delta_lower ok (hd i).valid (hd i).cov (hd i).psd (hl i) hg
    exact ⟨_, by unfold unscentedPoints; simp only [h1, Option.map_some], h2⟩

end points

/-- C64, cubature points of one distribution stored in an upper triangle: they match the covariance only if the stored factor, or (for a definite self-adjoint matrix) the covariance itself, is diagonal. -/
theorem C64_points_upper (ok : lib.Ok) (hn : 0 < n) {d : Gaussian.Dist n} {x : Moments n} (hd : Holds d x) :
    (d.cov.form = .tri true → ((∃ Z, cubaturePoints (fun _ : Fin 1 => n) lib (fun _ => d) = some Z ∧
      SigmaPoints.Matches (SigmaPoints.cubatureWeights _).wm (SigmaPoints.cubatureWeights _).wc Z fun _ => x.cov) ↔ d.cov.nested.IsDiag)) ∧
    (d.cov.form = .herm true → x.cov.PosDef → ((∃ Z, cubaturePoints (fun _ : Fin 1 => n) lib (fun _ => d) = some Z ∧
      SigmaPoints.Matches (SigmaPoints.cubatureWeights _).wm (SigmaPoints.cubatureWeights _).wc Z fun _ => x.cov) ↔ x.cov.IsDiag)) := by
  have hdim : (∑ _ : Fin 1, n) = n := by simp
  have hnR : (0 : ℝ) < ((∑ _ : Fin 1, n : ℕ) : ℝ) := by rw [hdim]; exact_mod_cast hn
  set s : ℝ := ((∑ _ : Fin 1, n : ℕ) : ℝ) with hs
  -- the points match `s⁻¹ δ δᵀ`
  obtain ⟨L, h1, h2⟩ := cubature_matches (fun _ : Fin 1 => n) (fun _ => hn) (fun _ => delta lib s d) (fun _ => s⁻¹ • (delta lib s d * (delta lib s d)ᴴ))
    (fun _ => by rw [smul_smul, mul_inv_cancel₀ hnR.ne', one_smul])
  have hZ : cubaturePoints (fun _ : Fin 1 => n) lib (fun _ => d) = some (SigmaPoints.pointsOf (fun _ : Fin 1 => n) ((∑ _ : Fin 1, n) * 2) L fun _ => delta lib s d) := by
    unfold cubaturePoints
    simp only [h1, Option.map_some, hs]
  have key : (∃ Z, cubaturePoints (fun _ : Fin 1 => n) lib (fun _ => d) = some Z ∧
      SigmaPoints.Matches (SigmaPoints.cubatureWeights _).wm (SigmaPoints.cubatureWeights _).wc Z fun _ => x.cov) ↔ delta lib s d * (delta lib s d)ᴴ = s • x.cov := by
    constructor
    · rintro ⟨Z, hZ', hM⟩
      rw [hZ] at hZ'
      obtain rfl := Option.some.inj hZ'
      have e : s⁻¹ • (delta lib s d * (delta lib s d)ᴴ) = x.cov := by
        ext a a'
        exact (h2.cov 0 a a').symm.trans (hM.cov 0 a a')
      rw [← e, smul_smul, mul_inv_cancel₀ hnR.ne', one_smul]
    · intro h
      refine ⟨_, hZ, ?_⟩
      have e : s⁻¹ • (delta lib s d * (delta lib s d)ᴴ) = x.cov := by rw [h, smul_smul, inv_mul_cancel₀ hnR.ne', one_smul]
      rw [e] at h2
      exact h2
  rw [key]
  constructor
  · intro hu
    have htri : IsTri true d.cov.nested := by
      have := hd.valid.1.1
      rw [hu] at this
      exact this
    have hz : d.cov.zero = false := by
      cases e : d.cov.zero with
      | false => rfl
      | true => have := (hd.valid.1.2.1 e).1; rw [hu] at this; cases this
    have hx : x.cov = d.cov.nestedᴴ * d.cov.nested := by
      rw [← selfAdjointNested_eq hd.valid.2.1 hd.cov]
      unfold Cov.selfAdjointNested
      rw [hu]
      rfl
    rw [(delta_upper hd.valid.2.1 hnR hz).1 hu, ← normal_tri_iff htri, conjTranspose_smul, star_trivial, Matrix.smul_mul, Matrix.mul_smul, smul_smul, Real.mul_self_sqrt hnR.le, hx]
    exact ⟨fun h => smul_right_injective _ hnR.ne' h, fun h => by rw [h]⟩
  · intro hu hp
    have hz : d.cov.zero = false := by
      cases e : d.cov.zero with
      | false => rfl
      | true => have := (hd.valid.1.2.1 e).1; rw [hu] at this; cases this
    have hx : d.cov.nested = x.cov := by
      rw [← selfAdjointNested_eq hd.valid.2.1 hd.cov]
      unfold Cov.selfAdjointNested
      rw [hu]
    have hsp : (s • x.cov).PosDef := hp.smul hnR
    have hch := ok.chol (s • x.cov) true hsp
    rw [(delta_upper hd.valid.2.1 hnR hz).2 hu, hx]
    have hg : (lib.chol true (s • x.cov))ᴴ * lib.chol true (s • x.cov) = s • x.cov := hch.2.1
    constructor
    · intro h
      have hdiag := (normal_tri_iff hch.1).mp (h.trans hg.symm)
      have h3 : (s • x.cov).IsDiag := by
        rw [← hg]
        exact isDiag_mul hdiag.conjTranspose hdiag
      intro i j hij
      have : s * x.cov i j = 0 := h3 hij
      exact (mul_eq_zero.mp this).resolve_left hnR.ne'
    · intro h
      have hD : IsChol true (s • x.cov) (diagonal fun i => Real.sqrt ((s • x.cov) i i)) := by
        refine ⟨isTri_of_isDiag (isDiag_diagonal _) _, ?_, fun i => by rw [diagonal_apply_eq]; exact Real.sqrt_nonneg _⟩
        rw [isDiag_gram (isDiag_diagonal _), diagonal_conjTranspose, diagonal_mul_diagonal]
        ext i j
        by_cases hij : i = j
        · subst hij
          rw [diagonal_apply_eq]
          simp [Real.mul_self_sqrt hsp.posSemidef.diag_nonneg, -Matrix.smul_apply]
        · rw [diagonal_apply_ne _ hij, Matrix.smul_apply, h hij, smul_zero]
      have hE := isChol_unique hsp hch hD
      have hdiag : (lib.chol true (s • x.cov)).IsDiag := by rw [hE]; exact isDiag_diagonal _
      rw [(normal_tri_iff hch.1).mpr hdiag, hg]

/-! ## Cases meeting the hypotheses -/

section examples

/-- The factors of the examples: `upF` is upper triangular and not diagonal. -/
def upF : Mat ℝ 2 := !![1, 1; 0, 1]
def lowF : Mat ℝ 2 := !![1, 0; 1, 1]

theorem upF_tri : IsTri true upF := by
  intro i j h
  fin_cases i <;> fin_cases j <;> simp [upF] at h ⊢

theorem lowF_tri : IsTri false lowF := by
  intro i j h
  fin_cases i <;> fin_cases j <;> simp [lowF] at h ⊢

theorem upF_not_diag : ¬ upF.IsDiag := fun h => by
  have : upF 0 1 = 0 := h (by decide)
  simp [upF] at this

/-- The same covariance `[1 1; 1 2]`, stored as an upper factor, a lower factor and a self-adjoint matrix. -/
def exUp : Gaussian.Dist 2 := ⟨![1, 2], ⟨false, .tri true, upF, false, false⟩⟩
def exLow : Gaussian.Dist 2 := ⟨![1, 2], ⟨false, .tri false, lowF, false, false⟩⟩
def exHerm : Gaussian.Dist 2 := ⟨![1, 2], ⟨false, .herm false, !![1, 1; 1, 2], false, false⟩⟩
def exMom : Moments 2 := ⟨![1, 2], !![1, 1; 1, 2]⟩

theorem exMom_gram : exMom.cov = upFᴴ * upF ∧ exMom.cov = lowF * lowFᴴ := by
  constructor <;>
  · ext i j
    fin_cases i <;> fin_cases j <;> (simp [exMom, upF, lowF, Matrix.mul_apply, Fin.sum_univ_two]; try norm_num)

theorem exMom_posDef : exMom.cov.PosDef := by
  rw [exMom_gram.2]
  refine PosDef.mul_conjTranspose_self _ ?_
  rw [Matrix.vecMul_injective_iff_isUnit, Matrix.isUnit_iff_isUnit_det]
  simp [lowF]

theorem exUp_holds : Holds exUp exMom := ⟨⟨⟨upF_tri, by simp [exUp], by simp [exUp]⟩, rfl, by simp [exUp]⟩, rfl, exMom_gram.1, exMom_posDef.posSemidef⟩

theorem exLow_holds : Holds exLow exMom := ⟨⟨⟨lowF_tri, by simp [exLow], by simp [exLow]⟩, rfl, by simp [exLow]⟩, rfl, exMom_gram.2, exMom_posDef.posSemidef⟩

theorem exHerm_holds : Holds exHerm exMom := ⟨⟨⟨exMom_posDef.1, by simp [exHerm], by simp [exHerm]⟩, rfl, by simp [exHerm]⟩, rfl, rfl, exMom_posDef.posSemidef⟩

/-- Noise with identity covariance: diagonal, and as an upper factor. -/
def exDiag : Gaussian.Dist 2 := ⟨0, ⟨false, .diag, 1, false, true⟩⟩
def exUnit : Gaussian.Dist 2 := ⟨0, ⟨false, .tri true, 1, false, false⟩⟩

theorem exDiag_holds : Holds exDiag ⟨0, 1⟩ :=
  ⟨⟨⟨⟨isDiag_one, isHermitian_one⟩, by simp [exDiag], fun _ => ⟨rfl, rfl⟩⟩, rfl, by simp [exDiag]⟩, rfl, rfl, PosSemidef.one⟩

theorem exUnit_holds : Holds exUnit ⟨0, 1⟩ :=
  ⟨⟨⟨isTri_of_isDiag isDiag_one _, by simp [exUnit], by simp [exUnit]⟩, rfl, by simp [exUnit]⟩, rfl, by show _ = (1 : Mat ℝ 2)ᴴ * 1; simp, PosSemidef.one⟩

/-- A prediction with a diagonal and a self-adjoint noise term, then an update with a diagonal one. -/
noncomputable def exRun : Run 2 2 := .cons (.predict !![1, 1; 0, 1] [⟨2, 1, exDiag⟩, ⟨2, 1, exHerm⟩]) (.cons (.update 1 [⟨2, 1, exDiag⟩] ![3, 4]) .nil)

noncomputable def exV : ∀ k, Gaussian.Dist k → Mat ℝ k := fun _ d => d.cov.selfAdjointNested

theorem exRun_ok (chol : Bool) : exRun.Ok exV chol := by
  have hD : Holds exDiag ⟨exDiag.mean, exV 2 exDiag⟩ := exDiag_holds
  have hH : Holds exHerm ⟨exHerm.mean, exV 2 exHerm⟩ := exHerm_holds
  refine ⟨fun t ht => ?_, ⟨fun t ht => ?_, ?_⟩, trivial⟩
  · simp only [List.mem_cons, List.not_mem_nil, or_false] at ht
    rcases ht with rfl | rfl
    · exact ⟨hD, fun _ => Or.inr (Or.inl rfl)⟩
    · exact ⟨hH, fun _ => Or.inr (Or.inr ⟨rfl, exMom_posDef⟩)⟩
  · simp only [List.mem_cons, List.not_mem_nil, or_false] at ht
    subst ht
    exact ⟨hD, fun _ => Or.inr (Or.inl rfl)⟩
  · show (total [⟨2, 1, ⟨0, (1 : Mat ℝ 2)⟩⟩]).cov.PosDef
    unfold total
    simpa using PosDef.one

/-- The same run from a lower factor and from a self-adjoint matrix. -/
example (ok : lib.Ok) (sok : SolveOk solve) : (∀ d', exRun.run lib solve exLow = some d' → Holds d' (exRun.exact exV exMom)) ∧
    ∀ d', exRun.run lib solve exHerm = some d' → Holds d' (exRun.exact exV exMom) :=
  ⟨(C64_history_partial ok sok exRun exLow_holds (by simp [exLow]) (exRun_ok _)).1, (C64_history_partial ok sok exRun exHerm_holds (by simp [exHerm]) (exRun_ok _)).1⟩

/-- A prediction keeps covariances definite, and there is a result. -/
example (ok : lib.Ok) (sok : SolveOk solve) : ((Run.cons (.predict 1 [⟨2, 1, exDiag⟩]) .nil : Run 2 2).run lib solve exLow).isSome = true := by
  refine (C64_history_partial (V := exV) ok sok (Run.cons (.predict 1 [⟨2, 1, exDiag⟩]) .nil : Run 2 2) exLow_holds (by simp [exLow]) ?_).2 ⟨?_, trivial⟩
  · refine ⟨fun t ht => ?_, trivial⟩
    simp only [List.mem_cons, List.not_mem_nil, or_false] at ht
    subst ht
    exact ⟨exDiag_holds, fun _ => Or.inr (Or.inl rfl)⟩
  · show (total [⟨2, 1, exMom⟩, ⟨2, 1, ⟨0, (1 : Mat ℝ 2)⟩⟩]).cov.PosDef
    unfold total
    simpa using exMom_posDef.add PosDef.one

example : ∃ (lib : CovArith.Lib ℝ) (solve : {m k : ℕ} → Mat ℝ m → Matrix (Fin m) (Fin k) ℝ → Matrix (Fin m) (Fin k) ℝ), lib.Ok ∧ SolveOk solve :=
  ⟨someLib, fun A B => A⁻¹ * B, someLib_ok, fun A B h => by rw [← Matrix.mul_assoc, Matrix.mul_nonsing_inv _ h, Matrix.one_mul]⟩

end examples

/-- C64 fails for linear transforms: the identity transform turns a covariance stored as an upper factor into another one, and the same covariance stored as a lower factor into itself. -/
theorem C64_transform_violated (ok : lib.Ok) : ∃ (d d' : Gaussian.Dist 2) (x : Moments 2), Holds d x ∧ Holds d' x ∧
    (transform lib (1 : Mat ℝ 2) d []).1.cov.Represents x.cov ∧ ¬ (transform lib (1 : Mat ℝ 2) d' []).1.cov.Represents x.cov := by
  refine ⟨exLow, exUp, exMom, exLow_holds, exUp_holds, ?_, fun h => upF_not_diag (((C64_transform_upper ok exUp_holds rfl).2.1).mp h)⟩
  have h := (C64_transform_partial ok (1 : Mat ℝ 2) (V := exV) (ts := []) exLow_holds (by simp) (fun _ => ⟨by simp [exLow], by simp⟩)).1.cov
  have e : (total (⟨2, (1 : Mat ℝ 2), exMom⟩ :: [].map (Noise.part exV))).cov = exMom.cov := by
    unfold total
    simp
  rwa [e] at h

/-- C64 fails for cubature points: stored as an upper factor, or as a self-adjoint matrix whose upper triangle is stored, a covariance that is not diagonal is not matched. -/
theorem C64_points_violated (ok : lib.Ok) : ∃ (d d' : Gaussian.Dist 2) (x : Moments 2), Holds d x ∧ Holds d' x ∧ d.cov.form = .tri true ∧ d'.cov.form = .herm true ∧
    (¬ ∃ Z, cubaturePoints (fun _ : Fin 1 => 2) lib (fun _ => d) = some Z ∧
      SigmaPoints.Matches (SigmaPoints.cubatureWeights _).wm (SigmaPoints.cubatureWeights _).wc Z fun _ => x.cov) ∧
    ¬ ∃ Z, cubaturePoints (fun _ : Fin 1 => 2) lib (fun _ => d') = some Z ∧
      SigmaPoints.Matches (SigmaPoints.cubatureWeights _).wm (SigmaPoints.cubatureWeights _).wc Z fun _ => x.cov := by
  have hH : Holds ⟨![1, 2], ⟨false, .herm true, !![1, 1; 1, 2], false, false⟩⟩ exMom := ⟨⟨⟨exMom_posDef.1, by simp, by simp⟩, rfl, by simp⟩, rfl, rfl, exMom_posDef.posSemidef⟩
  refine ⟨exUp, _, exMom, exUp_holds, hH, rfl, rfl, fun h => upF_not_diag (((C64_points_upper ok (by decide) exUp_holds).1 rfl).mp h),
    fun h => ?_⟩
  have h2 := ((C64_points_upper ok (by decide) hH).2 rfl exMom_posDef).mp h
  have : exMom.cov 0 1 = 0 := h2 (by decide)
  simp [exMom] at this

theorem posDef_two {a b c : ℝ} (ha : 0 < a) (hd : 0 < a * c - b * b) : (!![a, b; b, c] : Mat ℝ 2).PosDef := by
  have e : (!![a, b; b, c] : Mat ℝ 2) = !![Real.sqrt a, 0; b / Real.sqrt a, Real.sqrt (c - b * b / a)] * !![Real.sqrt a, 0; b / Real.sqrt a, Real.sqrt (c - b * b / a)]ᴴ := by
    have h1 := Real.mul_self_sqrt ha.le
    have h0 : Real.sqrt a ≠ 0 := (Real.sqrt_pos.mpr ha).ne'
    have h2 : 0 ≤ c - b * b / a := by
      rw [sub_nonneg, div_le_iff₀ ha]
      linarith
    have h3 := Real.mul_self_sqrt h2
    have h4 : b / Real.sqrt a * (b / Real.sqrt a) = b * b / a := by rw [div_mul_div_comm, h1]
    ext i j
    fin_cases i <;> fin_cases j <;> simp [Matrix.mul_apply, Fin.sum_univ_two, h1, mul_div_cancel₀, h0, h3, h4]
  rw [e]
  refine PosDef.mul_conjTranspose_self _ ?_
  rw [Matrix.vecMul_injective_iff_isUnit, Matrix.isUnit_iff_isUnit_det, Matrix.det_fin_two_of]
  have h2 : 0 < c - b * b / a := by
    rw [sub_pos, div_lt_iff₀ ha]
    linarith
  rw [zero_mul, sub_zero]
  exact (mul_pos (Real.sqrt_pos.mpr ha) (Real.sqrt_pos.mpr h2)).ne'.isUnit

/-- Noise with covariance `100`, stored as an upper factor. -/
def exBig : Gaussian.Dist 2 := ⟨0, ⟨false, .tri true, (10 : ℝ) • 1, false, false⟩⟩

theorem exBig_holds : Holds exBig ⟨0, (100 : ℝ) • 1⟩ := by
  refine ⟨⟨⟨(isTri_of_isDiag isDiag_one true).smul _, by simp [exBig], by simp [exBig]⟩, rfl, by simp [exBig]⟩, rfl, ?_, PosSemidef.one.smul (by norm_num)⟩
  show _ = ((10 : ℝ) • (1 : Mat ℝ 2))ᴴ * ((10 : ℝ) • 1)
  rw [conjTranspose_smul, conjTranspose_one, Matrix.smul_mul, Matrix.one_mul, smul_smul]
  norm_num

/-- The identity update of `exUp` with noise stored as an upper factor returns something, and it is not right. -/
example (ok : lib.Ok) (sok : SolveOk solve) (z : Fin 2 → ℝ) : ∃ d, identityUpdate lib solve exUp exBig z = some d ∧
    ¬ d.cov.Represents (condition exMom (total [⟨2, 1, exMom⟩, ⟨2, 1, ⟨0, (100 : ℝ) • 1⟩⟩]) exMom.cov z).cov := by
  have hsome : (identityUpdate lib solve exUp exBig z).isSome = true := by
    have hs := add_sound ok (a := .cov exUp.cov) (b := .cov exBig.cov) exUp_holds.valid.1 exBig_holds.valid.1 (definite_of_not_root rfl) (definite_of_not_root rfl) exUp_holds.cov exBig_holds.cov
    have eadd : CovArith.add lib (.cov exUp.cov) (.cov exBig.cov) = .cov ⟨false, .tri true, lib.qr (fromRows exUp.cov.nested exBig.cov.nested), false, false⟩ := rfl
    rw [eadd] at hs
    unfold identityUpdate Dist.add
    rw [eadd, make_cov rfl, Option.bind_some, selfAdjointNested_eq rfl exUp_holds.cov]
    set W := lib.qr (fromRows exUp.cov.nested exBig.cov.nested) with hW
    have hS : (exMom.cov + (100 : ℝ) • (1 : Mat ℝ 2)).PosDef := exMom_posDef.add (PosDef.one.smul (by norm_num))
    refine (updateStep_upper ok sok (Ny := ⟨exUp.mean + exBig.mean, ⟨false, .tri true, W, false, false⟩⟩) (y := ⟨exMom.mean + 0, exMom.cov + (100 : ℝ) • 1⟩) exUp_holds
      ⟨⟨hs.1, rfl, by simp⟩, rfl, hs.2.1, hS.posSemidef⟩ hS rfl exMom.cov z).2 ?_
    have hWS : exMom.cov + (100 : ℝ) • 1 = Wᴴ * W := hs.2.1
    have hS2 : exMom.cov + (100 : ℝ) • 1 = (!![101, 1; 1, 102] : Mat ℝ 2) := by
      ext i j
      fin_cases i <;> fin_cases j <;> (simp [exMom]; try norm_num)
    have hK : exMom.cov * (exMom.cov + (100 : ℝ) • 1)⁻¹ = (1 / 10301 : ℝ) • !![101, 100; 100, 201] := by
      have hu : IsUnit (exMom.cov + (100 : ℝ) • 1).det := (Matrix.isUnit_iff_isUnit_det _).mp hS.isUnit
      refine Eq.symm ((Matrix.mul_nonsing_inv_cancel_right (A := exMom.cov + (100 : ℝ) • 1) ((1 / 10301 : ℝ) • !![101, 100; 100, 201]) hu).symm.trans ?_)
      congr 1
      rw [hS2]
      ext i j
      fin_cases i <;> fin_cases j <;> (simp [exMom, Matrix.mul_apply, Fin.sum_univ_two]; try norm_num)
    show (exMom.cov - exMom.cov * (exMom.cov + (100 : ℝ) • 1)⁻¹ * (W * Wᴴ) * (exMom.cov * (exMom.cov + (100 : ℝ) • 1)⁻¹)ᵀ).PosDef
    rw [hK]
    -- `W Wᵀ ≤ 203`
    have htr : (203 : ℝ) • (1 : Mat ℝ 2) - W * Wᴴ = !![0, 1; -1, 0] * (W * Wᴴ) * (!![0, 1; -1, 0] : Mat ℝ 2)ᴴ := by
      have t0 := congrFun (congrFun (hS2.symm.trans hWS) 0) 0
      have t1 := congrFun (congrFun (hS2.symm.trans hWS) 1) 1
      simp only [Matrix.mul_apply, Fin.sum_univ_two, conjTranspose_apply, star_trivial] at t0 t1
      have t0 : (101 : ℝ) = W 0 0 * W 0 0 + W 1 0 * W 1 0 := t0
      have t1 : (102 : ℝ) = W 0 1 * W 0 1 + W 1 1 * W 1 1 := t1
      ext i j
      fin_cases i <;> fin_cases j <;> (simp [Matrix.mul_apply, Matrix.vecMul, dotProduct, Fin.sum_univ_two]; try linarith)
    have e : exMom.cov - (1 / 10301 : ℝ) • !![101, 100; 100, 201] * (W * Wᴴ) * ((1 / 10301 : ℝ) • !![101, 100; 100, 201])ᵀ =
        (exMom.cov - (1 / 10301 : ℝ) • !![101, 100; 100, 201] * ((203 : ℝ) • 1) * ((1 / 10301 : ℝ) • !![101, 100; 100, 201])ᵀ) +
        ((1 / 10301 : ℝ) • !![101, 100; 100, 201]) * ((203 : ℝ) • 1 - W * Wᴴ) * ((1 / 10301 : ℝ) • !![101, 100; 100, 201])ᴴ := by
      rw [conjTranspose_eq_transpose_of_trivial ((1 / 10301 : ℝ) • _), Matrix.mul_sub, Matrix.sub_mul]
      abel
    rw [e]
    refine PosDef.add_posSemidef ?_ ?_
    · have e2 : exMom.cov - (1 / 10301 : ℝ) • !![101, 100; 100, 201] * ((203 : ℝ) • 1) * ((1 / 10301 : ℝ) • !![101, 100; 100, 201])ᵀ =
          (!![1 - 203 * 20201 / 10301 ^ 2, 1 - 203 * 30200 / 10301 ^ 2; 1 - 203 * 30200 / 10301 ^ 2, 2 - 203 * 50401 / 10301 ^ 2] : Mat ℝ 2) := by
        ext i j
        fin_cases i <;> fin_cases j <;> (simp [exMom, Matrix.vecMul, dotProduct, Fin.sum_univ_two]; try norm_num)
      rw [e2]
      refine posDef_two ?_ ?_ <;> norm_num
    · refine PosSemidef.mul_mul_conjTranspose_same ?_ _
      rw [htr]
      exact (posSemidef_self_mul_conjTranspose W).mul_mul_conjTranspose_same _
  obtain ⟨d, hd⟩ := Option.isSome_iff_exists.mp hsome
  refine ⟨d, hd, C64_identity_violated ok sok exUp_holds exBig_holds exMom_posDef rfl rfl (fun h => ?_) z d hd⟩
  have : (exMom.cov + (100 : ℝ) • (1 : Mat ℝ 2)) 0 1 = 0 := h (by decide)
  simp [exMom] at this

/-- … and that of `exLow` is right, in any form of the noise. -/
example (ok : lib.Ok) (sok : SolveOk solve) (z : Fin 2 → ℝ) (d : Gaussian.Dist 2) (h : identityUpdate lib solve exLow exUnit z = some d) :
    Holds d (condition exMom (total [⟨2, 1, exMom⟩, ⟨2, 1, ⟨0, 1⟩⟩]) exMom.cov z) :=
  C64_identity_partial ok sok exLow_holds exUnit_holds PosDef.one (by simp [exLow]) rfl z d h

end OpenKalman.StoredForm
