import Verif.Model.StoredForm
import Verif.Proof.Gaussian
import Verif.Proof.Kalman
import Verif.Theorems.SigmaPoints

/-! # Lemmas for C64 -/

namespace OpenKalman.StoredForm
open Matrix OpenKalman.CovArith OpenKalman.Gaussian

variable {n m p : ℕ}

theorem squareRoot_isDiag {lib : CovArith.Lib ℝ} {c : Cov ℝ n} (hw : c.WF) (hf : c.form = .diag) : (squareRoot lib c).1.IsDiag := by
  obtain ⟨r, f, N, z, i⟩ := c
  obtain rfl : f = .diag := hf
  by_cases h : (i || z) = true
  · have e : squareRoot lib ⟨r, .diag, N, z, i⟩ = (N, true) := if_pos h
    rw [e]
    exact hw.1.1
  · have e : squareRoot lib ⟨r, .diag, N, z, i⟩ = (diagonal fun i => Real.sqrt (N i i), true) := if_neg h
    rw [e]
    exact isDiag_diagonal _

theorem squareRoot_lower {lib : CovArith.Lib ℝ} (ok : lib.Ok) {c : Cov ℝ n} (hw : c.WF) (hr : c.root = false) {P : Mat ℝ n} (hP : c.Represents P)
    (hs : P.PosSemidef) (hl : Lower c P) : (squareRoot lib c).1 * (squareRoot lib c).1ᴴ = P := by
  have hf : c.form ≠ .cdiag := by
    rcases hl with h | h | ⟨h, -⟩ <;> rw [h] <;> simp
  have hg := squareRoot_sound ok hw hr hf hP (by
    rintro ⟨up, h⟩
    rcases hl with h' | h' | ⟨-, h'⟩
    · rw [h'] at h; cases h
    · rw [h'] at h; cases h
    · exact h') hs
  rcases hl with h | h | ⟨h, -⟩
  · have e : (squareRoot lib c).2 = false := by unfold squareRoot; rw [h]
    rwa [e] at hg
  · rwa [isDiag_gram (squareRoot_isDiag hw h)] at hg
  · have e : (squareRoot lib c).2 = false := by unfold squareRoot; rw [h]
    rwa [e] at hg

/-- The part of a sum that a noise term is, if `V` is the covariance. -/
def Noise.part (V : ∀ k, Gaussian.Dist k → Mat ℝ k) (t : Noise p) : Part p := ⟨t.k, t.J, ⟨t.d.mean, V t.k t.d⟩⟩

theorem sandwich {k : ℕ} {S P : Mat ℝ k} (h : S * Sᴴ = P) (J : Matrix (Fin p) (Fin k) ℝ) : J * S * (J * S)ᴴ = J * P * Jᵀ := by
  rw [conjTranspose_mul, Matrix.mul_assoc, ← Matrix.mul_assoc S, h, Matrix.mul_assoc, conjTranspose_eq_transpose_of_trivial J]

theorem fold_sum {α : Type} (f : α → Mat ℝ p) (ts : List α) (X : Mat ℝ p) : ts.foldl (fun acc t => acc + f t) X = X + (ts.map f).sum := by
  induction ts generalizing X with
  | nil => simp
  | cons t ts ih => rw [List.foldl_cons, ih, List.map_cons, List.sum_cons, add_assoc]

theorem parts_psd {V : ∀ k, Gaussian.Dist k → Mat ℝ k} {ts : List (Noise p)} (h : ∀ t ∈ ts, Holds t.d ⟨t.d.mean, V t.k t.d⟩) :
    ((ts.map (Noise.part V)).map fun q : Part p => q.J * q.x.cov * q.Jᵀ).sum.PosSemidef := by
  refine Kalman.list_sum_posSemidef _ fun A hA => ?_
  obtain ⟨q, hq, rfl⟩ := List.mem_map.mp hA
  obtain ⟨t, ht, rfl⟩ := List.mem_map.mp hq
  have := (h t ht).psd.mul_mul_conjTranspose_same t.J
  rwa [conjTranspose_eq_transpose_of_trivial] at this

theorem total_cons (q : Part p) (qs : List (Part p)) : (total (q :: qs)).mean = q.J *ᵥ q.x.mean + (qs.map fun q => q.J *ᵥ q.x.mean).sum ∧
    (total (q :: qs)).cov = q.J * q.x.cov * q.Jᵀ + (qs.map fun q => q.J * q.x.cov * q.Jᵀ).sum := by
  unfold total
  constructor
  · rw [List.map_cons, List.sum_cons]
  · simp only [List.map_cons, List.sum_cons]

theorem transform_sound {lib : CovArith.Lib ℝ} (ok : lib.Ok) (J0 : Matrix (Fin p) (Fin n) ℝ) {d0 : Dist n} {x0 : Moments n} (h0 : Holds d0 x0)
    {V : ∀ k, Gaussian.Dist k → Mat ℝ k} {ts : List (Noise p)} (hts : ∀ t ∈ ts, Holds t.d ⟨t.d.mean, V t.k t.d⟩)
    (hl : d0.cov.choleskyForm = true → d0.cov.form ≠ .tri true ∧ ∀ t ∈ ts, Lower t.d.cov (V t.k t.d)) :
    Holds (transform lib J0 d0 ts).1 (total (⟨n, J0, x0⟩ :: ts.map (Noise.part V))) ∧ (transform lib J0 d0 ts).2 = x0.cov * J0ᵀ ∧
      (transform lib J0 d0 ts).1.cov.form = if d0.cov.choleskyForm then .tri false else .herm false := by
  have hpsd : (total (⟨n, J0, x0⟩ :: ts.map (Noise.part V))).cov.PosSemidef := by
    rw [(total_cons _ _).2]
    refine PosSemidef.add ?_ (parts_psd hts)
    have := h0.psd.mul_mul_conjTranspose_same J0
    rwa [conjTranspose_eq_transpose_of_trivial] at this
  have hmean : (transform lib J0 d0 ts).1.mean = (total (⟨n, J0, x0⟩ :: ts.map (Noise.part V))).mean := by
    rw [(total_cons _ _).1]
    unfold transform
    rw [h0.mean, List.map_map]
    rfl
  by_cases hc : d0.cov.choleskyForm = true
  · obtain ⟨hup, hlow⟩ := hl hc
    have hform : d0.cov.form = .tri false := by
      rcases choleskyForm_cases (c := d0.cov) with ⟨-, h | ⟨up, h⟩⟩ | ⟨h, -⟩
      · exact absurd h h0.valid.2.2
      · cases up with
        | false => exact h
        | true => exact absurd h hup
      · rw [hc] at h; cases h
    have hs0 := squareRoot_lower ok h0.valid.1 h0.valid.2.1 h0.cov h0.psd (Or.inl hform)
    have e : sumNoise lib J0 d0 ts = (⟨false, .tri false, lib.lq (Kalman.hcatList ⟨n, J0 * (squareRoot lib d0.cov).1⟩
        (ts.map fun t => ⟨t.k, t.J * (squareRoot lib t.d.cov).1⟩)).2, false, false⟩, (squareRoot lib d0.cov).1 * (J0 * (squareRoot lib d0.cov).1)ᴴ) := if_pos hc
    have e1 : (transform lib J0 d0 ts).1.cov = (sumNoise lib J0 d0 ts).1 := rfl
    have e2 : (transform lib J0 d0 ts).2 = (sumNoise lib J0 d0 ts).2 := rfl
    have hlq := ok.lq (Kalman.hcatList ⟨n, J0 * (squareRoot lib d0.cov).1⟩ (ts.map fun t => ⟨t.k, t.J * (squareRoot lib t.d.cov).1⟩)).2
    refine ⟨⟨⟨?_, ?_, ?_⟩, hmean, ?_, hpsd⟩, ?_, ?_⟩
    · rw [e1, e]
      exact ⟨hlq.1, by simp, by simp⟩
    · rw [e1, e]
    · rw [e1, e]; simp
    · rw [e1, e]
      show _ = gram false _
      have hq := hlq.2
      rw [Kalman.hcatList_sq] at hq
      refine Eq.trans ?_ hq.symm
      rw [(total_cons _ _).2]
      congr 1
      · show J0 * x0.cov * J0ᵀ = (J0 * (squareRoot lib d0.cov).1) * (J0 * (squareRoot lib d0.cov).1)ᴴ
        exact (sandwich hs0 J0).symm
      · rw [List.map_map, List.map_map]
        congr 1
        refine List.map_congr_left fun t ht => ?_
        show t.J * V t.k t.d * t.Jᵀ = (t.J * (squareRoot lib t.d.cov).1) * (t.J * (squareRoot lib t.d.cov).1)ᴴ
        have := squareRoot_lower ok (hts t ht).valid.1 (hts t ht).valid.2.1 (hts t ht).cov (hts t ht).psd (hlow t ht)
        exact (sandwich this t.J).symm
    · rw [e2, e]
      show (squareRoot lib d0.cov).1 * (J0 * (squareRoot lib d0.cov).1)ᴴ = _
      rw [conjTranspose_mul, ← Matrix.mul_assoc, hs0, conjTranspose_eq_transpose_of_trivial J0]
    · rw [e1, e, if_pos hc]
  · have hm0 : mulMat lib d0.cov J0ᴴ = x0.cov * J0ᵀ := by
      rw [mulMat_sound ok h0.valid.1 (definite_of_not_root h0.valid.2.1) h0.cov, conjTranspose_eq_transpose_of_trivial J0]
    have e : sumNoise lib J0 d0 ts = (⟨false, .herm false, ts.foldl (fun acc (t : Noise p) => acc + t.J * mulMat lib t.d.cov t.Jᴴ) (J0 * mulMat lib d0.cov J0ᴴ), false, false⟩,
      mulMat lib d0.cov J0ᴴ) := if_neg hc
    have e1 : (transform lib J0 d0 ts).1.cov = (sumNoise lib J0 d0 ts).1 := rfl
    have e2 : (transform lib J0 d0 ts).2 = (sumNoise lib J0 d0 ts).2 := rfl
    have hval : ts.foldl (fun acc (t : Noise p) => acc + t.J * mulMat lib t.d.cov t.Jᴴ) (J0 * mulMat lib d0.cov J0ᴴ) = (total (⟨n, J0, x0⟩ :: ts.map (Noise.part V))).cov := by
      rw [fold_sum (fun t : Noise p => t.J * mulMat lib t.d.cov t.Jᴴ)]
      rw [(total_cons _ _).2, hm0]
      congr 1
      · exact (Matrix.mul_assoc _ _ _).symm
      · rw [List.map_map]
        congr 1
        refine List.map_congr_left fun t ht => ?_
        show t.J * mulMat lib t.d.cov t.Jᴴ = t.J * V t.k t.d * t.Jᵀ
        rw [mulMat_sound ok (hts t ht).valid.1 (definite_of_not_root (hts t ht).valid.2.1) (hts t ht).cov, conjTranspose_eq_transpose_of_trivial t.J, Matrix.mul_assoc]
    refine ⟨⟨⟨?_, ?_, ?_⟩, hmean, ?_, hpsd⟩, ?_, ?_⟩
    · rw [e1, e]
      refine ⟨?_, by simp, by simp⟩
      show (ts.foldl (fun acc (t : Noise p) => acc + t.J * mulMat lib t.d.cov t.Jᴴ) (J0 * mulMat lib d0.cov J0ᴴ)).IsHermitian
      rw [hval]
      exact hpsd.1
    · rw [e1, e]
    · rw [e1, e]; simp
    · rw [e1, e]
      exact hval.symm
    · rw [e2, e, hm0]
    · rw [e1, e, if_neg hc]

/-- The form of a difference. -/
theorem sub_form {lib : CovArith.Lib ℝ} {c d r : Cov ℝ n} (hc : c.root = false ∧ c.form ≠ .cdiag) (hd : d.root = false ∧ d.form ≠ .cdiag) (hz : d.zero = false)
    (hf : c.choleskyForm = d.choleskyForm) (hu : c.form ≠ .tri true) (h : CovArith.sub lib (.cov c) (.cov d) = some (.cov r)) :
    r.form ≠ .tri true ∧ r.choleskyForm = c.choleskyForm := by
  have ec : (Opd.cov c).choleskySelfAdjoint = if c.choleskyForm = true then some c else none := by
    show (if (c.choleskyForm && !c.root) = true then some c else none) = _
    rw [hc.1]; simp
  have ed : (Opd.cov d).choleskySelfAdjoint = if d.choleskyForm = true then some d else none := by
    show (if (d.choleskyForm && !d.root) = true then some d else none) = _
    rw [hd.1]; simp
  have hz' : ¬ (Opd.cov d).isZero = true := by show ¬ d.zero = true; rw [hz]; simp
  unfold CovArith.sub at h
  rw [if_neg hz', ec, ed, ← hf] at h
  by_cases hcf : c.choleskyForm = true
  · rw [if_pos hcf, if_pos hcf] at h
    obtain ⟨r', h', hr'⟩ := Option.map_eq_some_iff.mp h
    obtain ⟨N, _, rfl⟩ := Option.map_eq_some_iff.mp h'
    obtain rfl := Opd.cov.inj hr'
    have hform : c.form = .tri false := by
      rcases choleskyForm_cases (c := c) with ⟨-, h | ⟨up, h⟩⟩ | ⟨h, -⟩
      · exact absurd h hc.2
      · cases up with
        | false => exact h
        | true => exact absurd h hu
      · rw [hcf] at h; cases h
    rw [hcf]
    refine ⟨?_, rfl⟩
    show Form.tri c.form.updateUp ≠ .tri true
    rw [hform]
    decide
  · rw [if_neg hcf, if_neg hcf] at h
    have hN : (Nest.combine (· - ·) ((Opd.cov c).toNestable lib) ((Opd.cov d).toNestable lib)).hermitian = true := by
      show (((Opd.cov c).toNestable lib).hermitian && ((Opd.cov d).toNestable lib).hermitian) = true
      rw [toNestable_hermitian hc.1 hc.2, toNestable_hermitian hd.1 hd.2]; rfl
    have h' := Option.some.inj h
    unfold wrap at h'
    rw [if_pos hN] at h'
    obtain rfl := Opd.cov.inj h'
    rw [Bool.not_eq_true] at hcf
    rw [hcf]
    constructor
    · show (if _ then Form.diag else .herm false) ≠ .tri true
      split_ifs <;> simp
    · show (!(if _ then Form.diag else Form.herm false).hermitian) = false
      split_ifs <;> rfl

theorem solve_eq {A : Mat ℝ m} {k : ℕ} {B X : Matrix (Fin m) (Fin k) ℝ} (hA : IsUnit A.det) (h : A * X = B) : X = A⁻¹ * B := by
  rw [← h, ← Matrix.mul_assoc, Matrix.nonsing_inv_mul _ hA, Matrix.one_mul]

theorem updateStep_sound {lib : CovArith.Lib ℝ} (ok : lib.Ok) {solve : {m k : ℕ} → Mat ℝ m → Matrix (Fin m) (Fin k) ℝ → Matrix (Fin m) (Fin k) ℝ}
    (sok : SolveOk solve) {Nx : Dist n} {Ny : Dist m} {x : Moments n} {y : Moments m} (hx : Holds Nx x) (hy : Holds Ny y) (hd : y.cov.PosDef)
    (hl : Ny.cov.form ≠ .tri true) (C : Matrix (Fin n) (Fin m) ℝ) (hj : (condition x y C 0).cov.PosSemidef) (z : Fin m → ℝ) :
    (∀ d, updateStep lib solve Nx Ny C z = some d → Holds d (condition x y C z)) ∧
      ((condition x y C 0).cov.PosDef → (updateStep lib solve Nx Ny C z).isSome = true) ∧
      (∀ d, updateStep lib solve Nx Ny C z = some d → Nx.cov.form ≠ .tri true → Nx.cov.choleskyForm = Ny.cov.choleskyForm →
        d.cov.form ≠ .tri true ∧ d.cov.choleskyForm = Nx.cov.choleskyForm) := by
  have hu : IsUnit y.cov.det := (Matrix.isUnit_iff_isUnit_det _).mp hd.isUnit
  have hS : Ny.cov.selfAdjointNested = y.cov := selfAdjointNested_eq hy.valid.2.1 hy.cov
  have hyT : y.covᵀ = y.cov := by
    have := hd.1
    rwa [IsHermitian, conjTranspose_eq_transpose_of_trivial] at this
  have hKadj : solve Ny.cov.selfAdjointNestedᴴ Cᴴ = y.cov⁻¹ * Cᵀ := by
    rw [hS, conjTranspose_eq_transpose_of_trivial y.cov, hyT, conjTranspose_eq_transpose_of_trivial C]
    exact solve_eq hu (sok _ _ hu)
  have hK : (solve Ny.cov.selfAdjointNestedᴴ Cᴴ)ᴴ = C * y.cov⁻¹ := by
    rw [hKadj, conjTranspose_eq_transpose_of_trivial, transpose_mul, transpose_transpose, transpose_nonsing_inv, hyT]
  have hcond : ∀ z, (condition x y C z).cov = x.cov - C * y.cov⁻¹ * Cᵀ := fun _ => rfl
  obtain ⟨s, hs⟩ : ∃ s : Cov ℝ n, s = if Ny.cov.choleskyForm then ⟨false, .tri false, lib.lq ((solve Ny.cov.selfAdjointNestedᴴ Cᴴ)ᴴ * (squareRoot lib Ny.cov).1), false, false⟩
    else ⟨false, .herm false, C * solve Ny.cov.selfAdjointNestedᴴ Cᴴ, false, false⟩ := ⟨_, rfl⟩
  have hherm : (C * y.cov⁻¹ * Cᵀ).IsHermitian := by
    rw [IsHermitian, conjTranspose_eq_transpose_of_trivial, transpose_mul, transpose_mul, transpose_transpose, transpose_nonsing_inv, hyT, Matrix.mul_assoc]
  have hsok : s.WF ∧ s.root = false ∧ s.form ≠ .cdiag ∧ s.zero = false ∧ s.Represents (C * y.cov⁻¹ * Cᵀ) ∧ s.choleskyForm = Ny.cov.choleskyForm := by
    by_cases hc : Ny.cov.choleskyForm = true
    · rw [if_pos hc] at hs
      have hform : Ny.cov.form = .tri false := by
        rcases choleskyForm_cases (c := Ny.cov) with ⟨-, h | ⟨up, h⟩⟩ | ⟨h, -⟩
        · exact absurd h hy.valid.2.2
        · cases up with
          | false => exact h
          | true => exact absurd h hl
        · rw [hc] at h; cases h
      have h1 := ok.lq ((solve Ny.cov.selfAdjointNestedᴴ Cᴴ)ᴴ * (squareRoot lib Ny.cov).1)
      have h2 := squareRoot_lower ok hy.valid.1 hy.valid.2.1 hy.cov hy.psd (Or.inl hform)
      subst hs
      refine ⟨⟨h1.1, by simp, by simp⟩, rfl, by simp, rfl, ?_, hc.symm⟩
      show _ = gram false _
      refine Eq.trans ?_ h1.2.symm
      rw [sandwich h2, hK, transpose_mul, transpose_nonsing_inv, hyT, Matrix.mul_assoc C _ y.cov, Matrix.nonsing_inv_mul _ hu, Matrix.mul_one, Matrix.mul_assoc]
    · rw [if_neg hc] at hs
      subst hs
      rw [Bool.not_eq_true] at hc
      refine ⟨⟨?_, by simp, by simp⟩, rfl, by simp, rfl, ?_, hc.symm⟩
      · show (C * solve Ny.cov.selfAdjointNestedᴴ Cᴴ).IsHermitian
        rw [hKadj, ← Matrix.mul_assoc]
        exact hherm
      · show _ = C * solve Ny.cov.selfAdjointNestedᴴ Cᴴ
        rw [hKadj, ← Matrix.mul_assoc]
  obtain ⟨w1, w2, w3, w4, w5, w6⟩ := hsok
  have e : updateStep lib solve Nx Ny C z = (CovArith.sub lib (.cov Nx.cov) (.cov s)).bind
      (make id (Nx.mean + (solve Ny.cov.selfAdjointNestedᴴ Cᴴ)ᴴ *ᵥ (z - Ny.mean))) := by rw [hs]; rfl
  refine ⟨fun d h => ?_, fun h => ?_, fun d h hnx hxy => ?_⟩
  · rw [e, Option.bind_eq_some_iff] at h
    obtain ⟨o, ho, hmk⟩ := h
    obtain ⟨r, rfl, hr1, hr2⟩ := sub_kind lib ⟨hx.valid.2.1, hx.valid.2.2⟩ ⟨w2, w3⟩ ho
    have h3 := sub_sound ok (a := .cov Nx.cov) (b := .cov s) hx.valid.1 w1 (definite_of_not_root hx.valid.2.1) (definite_of_not_root w2) hx.cov w5 ho
    rw [make_cov hr1] at hmk
    obtain rfl := Option.some.inj hmk
    refine ⟨⟨h3.1, hr1, hr2⟩, ?_, h3.2.1, hj⟩
    show Nx.mean + _ *ᵥ (z - Ny.mean) = x.mean + _ *ᵥ (z - y.mean)
    rw [hK, hx.mean, hy.mean]
  · rw [e]
    have := sub_defined ok (a := .cov Nx.cov) (b := .cov s) hx.valid.1 w1 hx.cov w5 h
    obtain ⟨o, ho⟩ := Option.isSome_iff_exists.mp this
    obtain ⟨r, rfl, hr1, hr2⟩ := sub_kind lib ⟨hx.valid.2.1, hx.valid.2.2⟩ ⟨w2, w3⟩ ho
    rw [ho, Option.bind_some, make_cov hr1]
    rfl
  · rw [e, Option.bind_eq_some_iff] at h
    obtain ⟨o, ho, hmk⟩ := h
    obtain ⟨r, rfl, hr1, hr2⟩ := sub_kind lib ⟨hx.valid.2.1, hx.valid.2.2⟩ ⟨w2, w3⟩ ho
    rw [make_cov hr1] at hmk
    obtain rfl := Option.some.inj hmk
    exact sub_form ⟨hx.valid.2.1, hx.valid.2.2⟩ ⟨w2, w3⟩ w4 (hxy.trans w6.symm) hnx ho

/-- What `update_step` does when the covariance of the measurement is stored as an upper triangular factor `W`: it subtracts `K W Wᵀ Kᵀ` instead of `K Wᵀ W Kᵀ`. -/
theorem updateStep_upper {lib : CovArith.Lib ℝ} (ok : lib.Ok) {solve : {m k : ℕ} → Mat ℝ m → Matrix (Fin m) (Fin k) ℝ → Matrix (Fin m) (Fin k) ℝ}
    (sok : SolveOk solve) {Nx : Dist n} {Ny : Dist m} {x : Moments n} {y : Moments m} (hx : Holds Nx x) (hy : Holds Ny y) (hd : y.cov.PosDef)
    (hl : Ny.cov.form = .tri true) (C : Matrix (Fin n) (Fin m) ℝ) (z : Fin m → ℝ) :
    (∀ d, updateStep lib solve Nx Ny C z = some d →
      d.cov.root = false ∧ d.cov.Represents (x.cov - C * y.cov⁻¹ * (Ny.cov.nested * Ny.cov.nestedᴴ) * (C * y.cov⁻¹)ᵀ)) ∧
    ((x.cov - C * y.cov⁻¹ * (Ny.cov.nested * Ny.cov.nestedᴴ) * (C * y.cov⁻¹)ᵀ).PosDef → (updateStep lib solve Nx Ny C z).isSome = true) := by
  have hu : IsUnit y.cov.det := (Matrix.isUnit_iff_isUnit_det _).mp hd.isUnit
  have hS : Ny.cov.selfAdjointNested = y.cov := selfAdjointNested_eq hy.valid.2.1 hy.cov
  have hyT : y.covᵀ = y.cov := by
    have := hd.1
    rwa [IsHermitian, conjTranspose_eq_transpose_of_trivial] at this
  have hKadj : solve Ny.cov.selfAdjointNestedᴴ Cᴴ = y.cov⁻¹ * Cᵀ := by
    rw [hS, conjTranspose_eq_transpose_of_trivial y.cov, hyT, conjTranspose_eq_transpose_of_trivial C]
    exact solve_eq hu (sok _ _ hu)
  have hK : (solve Ny.cov.selfAdjointNestedᴴ Cᴴ)ᴴ = C * y.cov⁻¹ := by
    rw [hKadj, conjTranspose_eq_transpose_of_trivial, transpose_mul, transpose_transpose, transpose_nonsing_inv, hyT]
  have hc : Ny.cov.choleskyForm = true := by unfold Cov.choleskyForm; rw [hl]; rfl
  have hsq : (squareRoot lib Ny.cov).1 = Ny.cov.nested := by unfold squareRoot; rw [hl]
  have e : updateStep lib solve Nx Ny C z = (CovArith.sub lib (.cov Nx.cov) (.cov ⟨false, .tri false, lib.lq (C * y.cov⁻¹ * Ny.cov.nested), false, false⟩)).bind
      (make id (Nx.mean + (solve Ny.cov.selfAdjointNestedᴴ Cᴴ)ᴴ *ᵥ (z - Ny.mean))) := by
    unfold updateStep
    simp only [if_pos hc, hK, hsq]
  have h1 := ok.lq (C * y.cov⁻¹ * Ny.cov.nested)
  rw [e]
  constructor
  swap
  · intro hp
    have := sub_defined ok (a := .cov Nx.cov) (b := .cov ⟨false, .tri false, lib.lq (C * y.cov⁻¹ * Ny.cov.nested), false, false⟩) hx.valid.1 ⟨h1.1, by simp, by simp⟩ hx.cov
      (Eq.trans (sandwich rfl _).symm h1.2.symm) hp
    obtain ⟨o, ho⟩ := Option.isSome_iff_exists.mp this
    obtain ⟨r, rfl, hr1, hr2⟩ := sub_kind lib ⟨hx.valid.2.1, hx.valid.2.2⟩ ⟨rfl, by simp⟩ ho
    rw [ho, Option.bind_some, make_cov hr1]
    rfl
  intro d h
  rw [Option.bind_eq_some_iff] at h
  obtain ⟨o, ho, hmk⟩ := h
  obtain ⟨r, rfl, hr1, hr2⟩ := sub_kind lib ⟨hx.valid.2.1, hx.valid.2.2⟩ ⟨rfl, by simp⟩ ho
  have h3 := sub_sound ok (a := .cov Nx.cov) hx.valid.1 (B := C * y.cov⁻¹ * (Ny.cov.nested * Ny.cov.nestedᴴ) * (C * y.cov⁻¹)ᵀ)
    (b := .cov ⟨false, .tri false, lib.lq (C * y.cov⁻¹ * Ny.cov.nested), false, false⟩) ⟨h1.1, by simp, by simp⟩ (definite_of_not_root hx.valid.2.1)
    (definite_of_not_root rfl) hx.cov (Eq.trans (sandwich rfl _).symm h1.2.symm) ho
  rw [make_cov hr1] at hmk
  obtain rfl := Option.some.inj hmk
  exact ⟨hr1, h3.2.1⟩

/-- The posterior covariance of a linear measurement with definite noise. -/
theorem posterior_psd {P : Mat ℝ n} (hP : P.PosSemidef) (H : Matrix (Fin m) (Fin n) ℝ) {R : Mat ℝ m} (hR : R.PosDef) :
    (H * P * Hᵀ + R).PosDef ∧ (P - P * Hᵀ * (H * P * Hᵀ + R)⁻¹ * (P * Hᵀ)ᵀ).PosSemidef := by
  have hHP : (H * P * Hᵀ).PosSemidef := by
    have := hP.mul_mul_conjTranspose_same H
    rwa [conjTranspose_eq_transpose_of_trivial] at this
  have hD : (H * P * Hᵀ + R).PosDef := PosDef.posSemidef_add hHP hR
  refine ⟨hD, ?_⟩
  have : Invertible (H * P * Hᵀ + R) := hD.isUnit.invertible
  have hb : (fromBlocks P (P * Hᵀ) (P * Hᵀ)ᴴ (H * P * Hᵀ + R)).PosSemidef := by
    have e : fromBlocks P (P * Hᵀ) (P * Hᵀ)ᴴ (H * P * Hᵀ + R) = fromRows 1 H * P * (fromRows 1 H)ᴴ + fromBlocks 0 0 0 R := by
      have hPT : Pᵀ = P := by
        have := hP.1
        rwa [IsHermitian, conjTranspose_eq_transpose_of_trivial] at this
      rw [fromRows_mul, conjTranspose_eq_transpose_of_trivial, conjTranspose_eq_transpose_of_trivial, transpose_fromRows, fromRows_mul_fromCols, transpose_one, fromBlocks_add,
        transpose_mul, transpose_transpose, hPT]
      simp
    rw [e]
    refine PosSemidef.add (hP.mul_mul_conjTranspose_same _) ?_
    have := hR.posSemidef.mul_mul_conjTranspose_same (fromRows (0 : Matrix (Fin n) (Fin m) ℝ) (1 : Mat ℝ m))
    rw [fromRows_mul, conjTranspose_eq_transpose_of_trivial, transpose_fromRows, fromRows_mul_fromCols] at this
    simpa using this
  have := (PosDef.fromBlocks₂₂ P (P * Hᵀ) hD).mp hb
  rwa [conjTranspose_eq_transpose_of_trivial] at this

/-! ### Triangular normal matrices -/

/-- A triangular real matrix that commutes with its transpose is diagonal. -/
theorem normal_tri {U : Mat ℝ n} (hU : IsTri true U) (h : Uᴴ * U = U * Uᴴ) : U.IsDiag := by
  have key : ∀ k : ℕ, ∀ i : Fin n, i.val = k → ∀ j, i < j → U i j = 0 := by
    intro k
    induction k using Nat.strong_induction_on with
    | _ k ih =>
      intro i hi j hij
      have h1 := congrFun (congrFun h i) i
      rw [Matrix.mul_apply, Matrix.mul_apply] at h1
      simp only [conjTranspose_apply, star_trivial] at h1
      have h2 : ∑ r, U r i * U r i = U i i * U i i := by
        refine Finset.sum_eq_single i (fun r _ hr => ?_) (by simp)
        rcases lt_or_gt_of_ne hr with hlt | hgt
        · rw [ih r.val (by omega) r rfl i hlt, zero_mul]
        · rw [hU r i (by simpa using hgt), zero_mul]
      rw [h2, ← Finset.add_sum_erase _ _ (Finset.mem_univ i)] at h1
      have h3 : ∑ c ∈ Finset.univ.erase i, U i c * U i c = 0 := by linarith
      have h4 := (Finset.sum_eq_zero_iff_of_nonneg fun c _ => mul_self_nonneg (U i c)).mp h3 j (Finset.mem_erase.mpr ⟨ne_of_gt hij, Finset.mem_univ j⟩)
      exact mul_self_eq_zero.mp h4
  intro i j hij
  rcases lt_or_gt_of_ne hij with hlt | hgt
  · exact key i.val i rfl j hlt
  · exact hU i j (by simpa using hgt)

theorem normal_tri_iff {U : Mat ℝ n} (hU : IsTri true U) : U * Uᴴ = Uᴴ * U ↔ U.IsDiag :=
  ⟨fun h => normal_tri hU h.symm, fun h => (isDiag_gram h true).symm⟩

/-! ### Sample points -/

theorem delta_lower {lib : CovArith.Lib ℝ} (ok : lib.Ok) {d : Dist n} {P : Mat ℝ n} (hv : d.Valid) (hP : d.cov.Represents P) (hs : P.PosSemidef) (hl : Lower d.cov P)
    {s : ℝ} (hpos : 0 < s) : delta lib s d * (delta lib s d)ᴴ = s • P := by
  obtain ⟨c, hc⟩ := Option.isSome_iff_exists.mp (smul_nonneg_some (lib := lib) d.cov hpos.le)
  have hsd := smul_sound ok hv.1 hP (fun h => by rw [hv.2.1] at h; cases h) hc
  have e : delta lib s d = (squareRoot lib c).1 := by unfold delta; rw [hc]
  have hsP : (s • P).PosSemidef := hs.smul hpos.le
  rw [e]
  have hform : c.root = false ∧ Lower c (s • P) := by
    unfold CovArith.smul at hc
    split_ifs at hc with h1 h2 h3 h4
    · obtain rfl := Option.some.inj hc
      exact ⟨hv.2.1, Or.inr (Or.inl (hv.1.2.1 h1).1)⟩
    · rw [hv.2.1] at h3; cases h3
    · obtain rfl := Option.some.inj hc
      refine ⟨rfl, Or.inl ?_⟩
      rcases hl with h | h | ⟨h, -⟩
      · show d.cov.form.triangular = _
        rw [h]; rfl
      · exfalso; unfold Cov.choleskyForm at h2; rw [h] at h2; cases h2
      · exfalso; unfold Cov.choleskyForm at h2; rw [h] at h2; cases h2
    · rw [hv.2.1] at h4; simp at h4
    · obtain rfl := Option.some.inj hc
      refine ⟨rfl, ?_⟩
      rcases hl with h | h | ⟨h, h'⟩
      · exact Or.inl h
      · exact Or.inr (Or.inl h)
      · exact Or.inr (Or.inr ⟨h, h'.smul hpos⟩)
  exact squareRoot_lower ok hsd.1 hform.1 hsd.2 hsP hform.2

/-- What the difference vectors are for upper forms. -/
theorem delta_upper {lib : CovArith.Lib ℝ} {d : Dist n} (hr : d.cov.root = false) {s : ℝ} (hpos : 0 < s) (hz : d.cov.zero = false) :
    (d.cov.form = .tri true → delta lib s d = Real.sqrt s • d.cov.nested) ∧ (d.cov.form = .herm true → delta lib s d = lib.chol true (s • d.cov.nested)) := by
  obtain ⟨mean, r, f, N, z, i⟩ := d
  obtain rfl : r = false := hr
  obtain rfl : z = false := hz
  constructor
  · intro h
    obtain rfl : f = .tri true := h
    have e : CovArith.smul lib (⟨false, .tri true, N, false, i⟩ : Cov ℝ n) s = some ⟨false, .tri true, Real.sqrt s • N, false, false⟩ := by
      show (if (0 : ℝ) < s then _ else _) = _
      rw [if_pos hpos]
      rfl
    unfold delta
    rw [e]
    rfl
  · intro h
    obtain rfl : f = .herm true := h
    rfl

section points
variable {b : ℕ} (k : Fin (b + 1) → ℕ)

/-- Cubature points built from any difference vectors. -/
theorem cubature_matches (hk : ∀ i, 0 < k i) (dl : (i : Fin (b + 1)) → Mat ℝ (k i)) (P : (i : Fin (b + 1)) → Mat ℝ (k i))
    (h : ∀ i, dl i * (dl i)ᴴ = ((∑ i, k i : ℕ) : ℝ) • P i) :
    ∃ L, SigmaPoints.cubatureLayout (∑ i, k i) 0 (List.ofFn k) = some L ∧
      SigmaPoints.Matches (SigmaPoints.cubatureWeights ((∑ i, k i) * 2)).wm (SigmaPoints.cubatureWeights ((∑ i, k i) * 2)).wc
        (SigmaPoints.pointsOf k ((∑ i, k i) * 2) L dl) P := by
  have hd : 0 < ∑ i, k i := lt_of_lt_of_le (hk 0) (Finset.single_le_sum (f := k) (fun _ _ => Nat.zero_le _) (Finset.mem_univ 0))
  obtain ⟨L, hL, hF⟩ := SigmaPoints.cubature_frames (∑ i, k i) (List.ofFn k) (by simp)
    (by simp only [List.mem_ofFn, forall_exists_index]; rintro _ i rfl; exact hk i) (List.sum_ofFn)
  refine ⟨L, hL, ?_⟩
  set dim := ∑ i, k i with hdim
  have hdR : (dim : ℝ) ≠ 0 := by positivity
  obtain ⟨m1, m2⟩ := SigmaPoints.points_moments k 0 (dim * 2) (by omega) L hF dl (SigmaPoints.scal (SigmaPoints.cubatureWeights (dim * 2)).wm)
    (1 / (dim * 2 : ℕ) : ℝ) (fun c _ => rfl)
  refine SigmaPoints.matches_of _ _ _ _ ?_ m1 ?_
  · simp only [SigmaPoints.cubatureWeights, Finset.sum_const, Finset.card_univ, Fintype.card_fin, nsmul_eq_mul]
    push_cast
    field_simp
  · refine m2.trans ?_
    congr 1
    funext i
    rw [h, smul_smul]
    have e : (2 : ℝ) * (1 / (dim * 2 : ℕ) : ℝ) * (dim : ℝ) = 1 := by
      push_cast
      field_simp
    rw [e, one_smul]

/-- Unscented points built from any difference vectors. -/
theorem unscented_matches (hk : ∀ i, 0 < k i) (alpha beta kappa : ℝ) (ha : alpha ≠ 0) (hkp : 0 < (∑ i, k i : ℕ) + kappa) (dl : (i : Fin (b + 1)) → Mat ℝ (k i))
    (P : (i : Fin (b + 1)) → Mat ℝ (k i)) (h : ∀ i, dl i * (dl i)ᴴ = (alpha * alpha * (kappa + (∑ i, k i : ℕ))) • P i) :
    ∃ L, SigmaPoints.unscentedLayout (∑ i, k i) 0 (List.ofFn k) = some L ∧
      SigmaPoints.Matches (SigmaPoints.unscentedWeights (∑ i, k i) alpha beta kappa).wm (SigmaPoints.unscentedWeights (∑ i, k i) alpha beta kappa).wc
        (SigmaPoints.pointsOf k ((∑ i, k i) * 2 + 1) L dl) P := by
  obtain ⟨L, hL, hF⟩ := SigmaPoints.unscented_frames (∑ i, k i) (List.ofFn k) (by simp)
    (by simp only [List.mem_ofFn, forall_exists_index]; rintro _ i rfl; exact hk i) (List.sum_ofFn)
  refine ⟨L, hL, ?_⟩
  set dim := ∑ i, k i with hdim
  have tailW : ∀ w : Fin (dim * 2 + 1) → ℝ, (∀ c : Fin (dim * 2), w c.succ = 0.5 / (dim + kappa) / (alpha * alpha)) →
      ∀ c : Fin (dim * 2 + 1), 1 ≤ (c : ℕ) → SigmaPoints.scal (𝕜 := ℝ) w c = 0.5 / (dim + kappa) / (alpha * alpha) := by
    intro w hw c hc
    obtain ⟨c', rfl⟩ : ∃ c' : Fin (dim * 2), c = c'.succ := ⟨c.pred (by rintro rfl; simp at hc), by simp⟩
    simp [SigmaPoints.scal, hw]
  obtain ⟨m1, -⟩ := SigmaPoints.points_moments k 1 (dim * 2 + 1) (by omega) L hF dl (SigmaPoints.scal (SigmaPoints.unscentedWeights dim alpha beta kappa).wm) _ (tailW _ (fun c => rfl))
  obtain ⟨-, m2⟩ := SigmaPoints.points_moments k 1 (dim * 2 + 1) (by omega) L hF dl (SigmaPoints.scal (SigmaPoints.unscentedWeights dim alpha beta kappa).wc) _ (tailW _ (fun c => rfl))
  refine SigmaPoints.matches_of _ _ _ _ ?_ m1 (m2.trans ?_)
  · rw [Fin.sum_univ_succ]
    simp only [SigmaPoints.unscentedWeights, SigmaPoints.scaledWeights, Fin.cons_zero, Fin.cons_succ, Finset.sum_const, Finset.card_univ, Fintype.card_fin, nsmul_eq_mul]
    have := hkp.ne'
    push_cast
    field_simp
    ring
  · congr 1
    funext i
    rw [h, smul_smul]
    have e : (2 : ℝ) * (0.5 / (dim + kappa) / (alpha * alpha)) * (alpha * alpha * (kappa + dim)) = 1 := by
      have := hkp.ne'
      have h2 : kappa + dim ≠ 0 := by rwa [add_comm]
      field_simp
      ring
    rw [e, one_smul]

end points

end OpenKalman.StoredForm
