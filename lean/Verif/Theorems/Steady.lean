import Verif.Proof.Steady

/-!
# C155, C156: filters called again and again with the same matrices

`F.A`, `H.A` are the matrices of the system, `noiseTotal` the covariances of the sums of the noise terms, and `noiseMean` the means of these sums.  The words used are those of
`Spec/Steady.lean`.
-/

set_option linter.unusedSectionVars false

namespace OpenKalman.Steady
open Matrix Filter Topology OpenKalman.Kalman
open scoped ComplexOrder

variable {𝕜 : Type} [RCLike 𝕜] (lib : Lib 𝕜) {n m : ℕ} (F : LinTrans 𝕜 n n) (H : LinTrans 𝕜 n m) (q : List (GaussChol 𝕜 (Fin n))) (r : List (GaussChol 𝕜 (Fin m)))

/-- The covariance of the noise in a move, and in a measurement. -/
abbrev moveNoise : Matrix (Fin n) (Fin n) 𝕜 := noiseTotal F (q.map GaussChol.toGauss)
abbrev measureNoise : Matrix (Fin m) (Fin m) 𝕜 := noiseTotal H (r.map GaussChol.toGauss)

/-! ## C155 -/

theorem cycles_cov (hR : (measureNoise H r).PosDef) (z : ℕ → Fin m → 𝕜) (x : Gauss 𝕜 (Fin n)) (hx : x.cov.PosSemidef) (t : ℕ) :
    (cycles lib F H q r z x t).cov = iter F.A (moveNoise F q) H.A (measureNoise H r) x.cov t := by
  induction t with
  | zero => rfl
  | succ t ih =>
    rw [iter_succ, ← ih, cycles]
    have hp : (cycles lib F H q r z x t).cov.PosSemidef := by
      rw [ih]
      exact iter_psd (noiseTotal_psd F q) hR hx t
    exact congrArg Gauss.cov (cycle_eq lib F H q r hR hp (z t) (cycles lib F H q r z x t).mean)

/-- **C155** (one call): each call corrects the predicted mean by the gain of Kalman, and takes the covariance through one step of the Riccati recursion, whatever is measured. -/
theorem C155_call (hR : (measureNoise H r).PosDef) (z : ℕ → Fin m → 𝕜) (x : Gauss 𝕜 (Fin n)) (hx : x.cov.PosSemidef) (t : ℕ) :
    let X := cycles lib F H q r z x t
    let X' := cycles lib F H q r z x (t + 1)
    let predicted := F.A *ᵥ X.mean + noiseMean F (q.map GaussChol.toGauss)
    X'.mean = predicted + kalmanGain F.A (moveNoise F q) H.A (measureNoise H r) X.cov *ᵥ (z t - (H.A *ᵥ predicted + noiseMean H (r.map GaussChol.toGauss))) ∧
    X'.cov = riccati F.A (moveNoise F q) H.A (measureNoise H r) X.cov := by
  have hp : (cycles lib F H q r z x t).cov.PosSemidef := by
    rw [cycles_cov lib F H q r hR z x hx t]
    exact iter_psd (noiseTotal_psd F q) hR hx t
  have h := cycle_eq lib F H q r hR hp (z t) (cycles lib F H q r z x t).mean
  exact ⟨congrArg Gauss.mean h, congrArg Gauss.cov h⟩

/-- **C155** (from certainty): if some constant gain makes errors die out, the covariance reported by a filter that starts with a known state never decreases, and tends to the least
solution of the Riccati equation. -/
theorem C155_least (hR : (measureNoise H r).PosDef) (hD : Detectable F.A H.A) :
    ∃ X : Matrix (Fin n) (Fin n) 𝕜, X.PosSemidef ∧ riccati F.A (moveNoise F q) H.A (measureNoise H r) X = X ∧
      (∀ Y : Matrix (Fin n) (Fin n) 𝕜, Y.PosSemidef → riccati F.A (moveNoise F q) H.A (measureNoise H r) Y = Y → (Y - X).PosSemidef) ∧
      ∀ (lib : Lib 𝕜) (mu : Fin n → 𝕜) (z : ℕ → Fin m → 𝕜),
        Tendsto (fun t => (cycles lib F H q r z ⟨mu, 0⟩ t).cov) atTop (𝓝 X) ∧
        ∀ t, ((cycles lib F H q r z ⟨mu, 0⟩ (t + 1)).cov - (cycles lib F H q r z ⟨mu, 0⟩ t).cov).PosSemidef := by
  obtain ⟨X, h1, h2, h3, h4, h5⟩ := least (A := F.A) (C := H.A) (noiseTotal_psd F q) hR hD
  refine ⟨X, h1, h2, h5, fun lib mu z => ⟨?_, fun t => ?_⟩⟩
  · exact h3.congr fun t => (cycles_cov lib F H q r hR z ⟨mu, 0⟩ PosSemidef.zero t).symm
  · rw [cycles_cov lib F H q r hR z ⟨mu, 0⟩ PosSemidef.zero t, cycles_cov lib F H q r hR z ⟨mu, 0⟩ PosSemidef.zero (t + 1)]
    exact h4 t

/-- **C155** (from any start): if moreover every component of the state is disturbed in a move, the Riccati equation has exactly one solution, the covariance reported tends to it from
every start and whatever is measured, the gain tends to that of the solution, and under that gain errors die out. -/
theorem C155_converges (hQ : (moveNoise F q).PosDef) (hR : (measureNoise H r).PosDef) (hD : Detectable F.A H.A) :
    ∃ X : Matrix (Fin n) (Fin n) 𝕜, X.PosDef ∧ riccati F.A (moveNoise F q) H.A (measureNoise H r) X = X ∧
      (∀ Y : Matrix (Fin n) (Fin n) 𝕜, Y.PosSemidef → riccati F.A (moveNoise F q) H.A (measureNoise H r) Y = Y → Y = X) ∧
      DiesOut ((1 - kalmanGain F.A (moveNoise F q) H.A (measureNoise H r) X * H.A) * F.A) ∧
      ∀ (lib : Lib 𝕜) (x : Gauss 𝕜 (Fin n)) (z : ℕ → Fin m → 𝕜), x.cov.PosSemidef →
        Tendsto (fun t => (cycles lib F H q r z x t).cov) atTop (𝓝 X) ∧
        Tendsto (fun t => kalmanGain F.A (moveNoise F q) H.A (measureNoise H r) (cycles lib F H q r z x t).cov) atTop
          (𝓝 (kalmanGain F.A (moveNoise F q) H.A (measureNoise H r) X)) := by
  obtain ⟨X, h1, h2, h3, -, -⟩ := least (A := F.A) (C := H.A) hQ.posSemidef hR hD
  obtain ⟨hXd, hX⟩ := steady_dies_out hQ hR h1 h2
  refine ⟨X, hXd, h2, ?_, hX, fun lib x z hx => ?_⟩
  · intro Y hY hf
    have h := attracts hQ hR h1 h2 h3 hY
    have hc : ∀ t, iter F.A (moveNoise F q) H.A (measureNoise H r) Y t = Y := by
      intro t
      induction t with
      | zero => rfl
      | succ t ih => rw [iter_succ, ih, hf]
    exact tendsto_nhds_unique (tendsto_const_nhds.congr fun t => (hc t).symm) h
  · have h : Tendsto (fun t => (cycles lib F H q r z x t).cov) atTop (𝓝 X) :=
      (attracts hQ hR h1 h2 h3 hx).congr fun t => (cycles_cov lib F H q r hR z x hx t).symm
    exact ⟨h, ((riccati_continuous (A := F.A) (C := H.A) hQ.posSemidef hR h1).2.tendsto).comp h⟩

/-- **C155** (the condition is the right one): if every component of the state is disturbed in a move, the covariance reported has a limit, from a known state or from any other, only if
some constant gain makes errors die out. -/
theorem C155_iff (hQ : (moveNoise F q).PosDef) (hR : (measureNoise H r).PosDef) (z : ℕ → Fin m → 𝕜) (x : Gauss 𝕜 (Fin n)) (hx : x.cov.PosSemidef) :
    (∃ X, Tendsto (fun t => (cycles lib F H q r z x t).cov) atTop (𝓝 X)) ↔ Detectable F.A H.A := by
  refine ⟨fun ⟨X, h⟩ => ?_, fun hD => ?_⟩
  · have hi : Tendsto (iter F.A (moveNoise F q) H.A (measureNoise H r) x.cov) atTop (𝓝 X) := h.congr fun t => cycles_cov lib F H q r hR z x hx t
    have hX := psd_limit hi (iter_psd hQ.posSemidef hR hx)
    have h1 := (riccati_continuous (A := F.A) (C := H.A) hQ.posSemidef hR hX).1.tendsto.comp hi
    have h2 := (tendsto_add_atTop_iff_nat 1).2 hi
    have hf : riccati F.A (moveNoise F q) H.A (measureNoise H r) X = X := tendsto_nhds_unique h1 (h2.congr fun t => iter_succ _ t)
    exact ⟨_, (steady_dies_out hQ hR hX hf).2⟩
  · obtain ⟨X, -, -, -, -, h⟩ := C155_converges F H q r hQ hR hD
    exact ⟨X, (h lib x z hx).1⟩

theorem cyclesChol_toGauss (hR : (measureNoise H r).PosDef) (z : ℕ → Fin m → 𝕜) (x : GaussChol 𝕜 (Fin n)) (t : ℕ) :
    (cyclesChol lib F H q r z x t).toGauss = cycles lib F H q r z x.toGauss t := by
  induction t with
  | zero => rfl
  | succ t ih =>
    rw [cycles, ← ih, C50_cycle lib F H q r (z t) _ hR]
    rfl

/-- **C155** (in square-root form): the factor that is kept need not converge, but its square does, to the same limit. -/
theorem C155_square_root (hQ : (moveNoise F q).PosDef) (hR : (measureNoise H r).PosDef) (hD : Detectable F.A H.A) :
    ∃ X : Matrix (Fin n) (Fin n) 𝕜, X.PosDef ∧ riccati F.A (moveNoise F q) H.A (measureNoise H r) X = X ∧
      ∀ (lib : Lib 𝕜) (x : GaussChol 𝕜 (Fin n)) (z : ℕ → Fin m → 𝕜),
        Tendsto (fun t => (cyclesChol lib F H q r z x t).fac * (cyclesChol lib F H q r z x t).facᴴ) atTop (𝓝 X) := by
  obtain ⟨X, h1, h2, -, -, h⟩ := C155_converges F H q r hQ hR hD
  refine ⟨X, h1, h2, fun lib x z => ?_⟩
  exact (h lib x.toGauss z (toGauss_posSemidef x)).1.congr fun t => (congrArg Gauss.cov (cyclesChol_toGauss lib F H q r hR z x t)).symm

/-! ## C156 -/

/-- Whatever is multiplied in every step by what the step leaves of an error dies out. -/
theorem error_dies_out (hQ : (moveNoise F q).PosDef) (hR : (measureNoise H r).PosDef) (hD : Detectable F.A H.A) {P : Matrix (Fin n) (Fin n) 𝕜} (hP : P.PosSemidef)
    (e : ℕ → Fin n → 𝕜) (he : ∀ t, e (t + 1) = ((1 - kalmanGain F.A (moveNoise F q) H.A (measureNoise H r) (iter F.A (moveNoise F q) H.A (measureNoise H r) P t) * H.A) * F.A) *ᵥ e t) :
    Tendsto e atTop (𝓝 0) := by
  obtain ⟨B, hB, hb⟩ := detectable_bound hQ.posSemidef hR hD hP
  have hpos := iter_psd (A := F.A) (C := H.A) hQ.posSemidef hR hP
  have h := contract (P := fun t => iter F.A (moveNoise F q) H.A (measureNoise H r) P (t + 1))
    (F := fun t => (1 - kalmanGain F.A (moveNoise F q) H.A (measureNoise H r) (iter F.A (moveNoise F q) H.A (measureNoise H r) P (t + 1)) * H.A) * F.A)
    (B := B) (floor_posDef (A := F.A) (C := H.A) hQ hR) (by
      refine posDef_of_le (floor_posDef (A := F.A) (C := H.A) hQ hR) ?_
      show (iter F.A (moveNoise F q) H.A (measureNoise H r) P (0 + 1) - _).PosSemidef
      rw [iter_succ]
      exact riccati_mono hQ.posSemidef hR PosSemidef.zero (by rw [sub_zero]; exact hP)) (fun t => hb P hP hB _) (fun t => by
      show (iter F.A (moveNoise F q) H.A (measureNoise H r) P (t + 1 + 1) - _).PosSemidef
      rw [iter_succ _ (t + 1), riccati_eq hQ.posSemidef hR (hpos (t + 1))]
      exact step_adds hQ.posSemidef hR _ _)
  have hform : ∀ t, e (t + 1) = prod (fun t => (1 - kalmanGain F.A (moveNoise F q) H.A (measureNoise H r)
      (iter F.A (moveNoise F q) H.A (measureNoise H r) P (t + 1)) * H.A) * F.A) t *ᵥ e 1 := by
    intro t
    induction t with
    | zero => rw [prod, one_mulVec]
    | succ t ih => rw [he (t + 1), ih, prod, mulVec_mulVec]
  refine (tendsto_add_atTop_iff_nat 1).1 ?_
  have h1 : Continuous fun Y : Matrix (Fin n) (Fin n) 𝕜 => Y *ᵥ e 1 := continuous_id.matrix_mulVec continuous_const
  have h2 := (h1.tendsto 0).comp h
  rw [zero_mulVec] at h2
  exact h2.congr fun t => (hform t).symm

/-- **C156** (a wrong start is forgotten): two filters that start with any means and the same covariance, and get the same measurements, have means that approach each other, whatever
the measurements are. -/
theorem C156_forgets (hQ : (moveNoise F q).PosDef) (hR : (measureNoise H r).PosDef) (hD : Detectable F.A H.A) (a b : Fin n → 𝕜) {P : Matrix (Fin n) (Fin n) 𝕜} (hP : P.PosSemidef)
    (z : ℕ → Fin m → 𝕜) :
    Tendsto (fun t => (cycles lib F H q r z ⟨a, P⟩ t).mean - (cycles lib F H q r z ⟨b, P⟩ t).mean) atTop (𝓝 0) := by
  refine error_dies_out F H q r hQ hR hD hP _ fun t => ?_
  have h1 := (C155_call lib F H q r hR z ⟨a, P⟩ hP t).1
  have h2 := (C155_call lib F H q r hR z ⟨b, P⟩ hP t).1
  rw [h1, h2, cycles_cov lib F H q r hR z ⟨a, P⟩ hP t, cycles_cov lib F H q r hR z ⟨b, P⟩ hP t]
  simp only [mulVec_sub, mulVec_add, Matrix.sub_mul, Matrix.one_mul, sub_mulVec, ← mulVec_mulVec]
  abel

/-- **C156** (a state is found): if the state moves and is measured as the filter was told, without further disturbance, the mean approaches the state, whatever the filter believed in
the beginning. -/
theorem C156_finds (hQ : (moveNoise F q).PosDef) (hR : (measureNoise H r).PosDef) (hD : Detectable F.A H.A) (x : Gauss 𝕜 (Fin n)) (hx : x.cov.PosSemidef) (s : ℕ → Fin n → 𝕜)
    (hs : ∀ t, s (t + 1) = F.A *ᵥ s t + noiseMean F (q.map GaussChol.toGauss)) :
    Tendsto (fun t => (cycles lib F H q r (fun t => H.A *ᵥ s (t + 1) + noiseMean H (r.map GaussChol.toGauss)) x t).mean - s t) atTop (𝓝 0) := by
  refine error_dies_out F H q r hQ hR hD hx _ fun t => ?_
  have h1 := (C155_call lib F H q r hR (fun t => H.A *ᵥ s (t + 1) + noiseMean H (r.map GaussChol.toGauss)) x hx t).1
  rw [h1, cycles_cov lib F H q r hR _ x hx t, hs]
  simp only [mulVec_sub, mulVec_add, Matrix.sub_mul, Matrix.one_mul, sub_mulVec, ← mulVec_mulVec]
  abel

/-! ### A case

A state of two components that grow by the factor 2 and by the factor 1/2; only the first is measured. -/

noncomputable def caseMove : LinTrans ℝ 2 2 := ⟨!![2, 0; 0, 1 / 2], []⟩
def caseMeasure : LinTrans ℝ 2 1 := ⟨!![1, 0], []⟩
def caseMoveNoise : List (GaussChol ℝ (Fin 2)) := [⟨fun _ => 1, 1⟩]
def caseMeasureNoise : List (GaussChol ℝ (Fin 1)) := [⟨fun _ => 3, 1⟩]

theorem case_Q : (moveNoise caseMove caseMoveNoise).PosDef := by
  have : moveNoise caseMove caseMoveNoise = 1 := by simp [moveNoise, noiseTotal, caseMove, caseMoveNoise, GaussChol.toGauss]
  rw [this]
  exact PosDef.one

theorem case_R : (measureNoise caseMeasure caseMeasureNoise).PosDef := by
  have : measureNoise caseMeasure caseMeasureNoise = 1 := by simp [measureNoise, noiseTotal, caseMeasure, caseMeasureNoise, GaussChol.toGauss]
  rw [this]
  exact PosDef.one

theorem case_detectable : Detectable caseMove.A caseMeasure.A := by
  refine ⟨!![1; 0], ?_⟩
  have e : (1 - (!![1; 0] : Matrix (Fin 2) (Fin 1) ℝ) * caseMeasure.A) * caseMove.A = diagonal ![0, 1 / 2] := by
    ext i j
    fin_cases i <;> fin_cases j <;> simp [caseMove, caseMeasure, Matrix.mul_apply]
  rw [DiesOut, e]
  have h : ∀ t : ℕ, (diagonal ![0, 1 / 2] : Matrix (Fin 2) (Fin 2) ℝ) ^ (t + 1) = diagonal ![0, (1 / 2) ^ (t + 1)] := by
    intro t
    rw [diagonal_pow]
    congr 1
    ext i
    fin_cases i <;> simp
  refine (tendsto_add_atTop_iff_nat 1).1 (Tendsto.congr (fun t => (h t).symm) (tendsto_entries.2 fun i j => ?_))
  have h0 : Tendsto (fun t : ℕ => ((1 : ℝ) / 2) ^ (t + 1)) atTop (𝓝 0) :=
    (tendsto_add_atTop_iff_nat 1).2 (tendsto_pow_atTop_nhds_zero_of_lt_one (by norm_num) (by norm_num))
  fin_cases i <;> fin_cases j <;> simp <;> simpa using h0

/-- The hypotheses of C155 and C156 hold for it; the state is not stable. -/
example : ∃ X : Matrix (Fin 2) (Fin 2) ℝ, X.PosDef ∧ ∀ (x : Gauss ℝ (Fin 2)) (z : ℕ → Fin 1 → ℝ), x.cov.PosSemidef →
    Tendsto (fun t => (cycles someLib caseMove caseMeasure caseMoveNoise caseMeasureNoise z x t).cov) atTop (𝓝 X) := by
  obtain ⟨X, h1, -, -, -, h⟩ := C155_converges caseMove caseMeasure caseMoveNoise caseMeasureNoise case_Q case_R case_detectable
  exact ⟨X, h1, fun x z hx => (h someLib x z hx).1⟩

example (a b : Fin 2 → ℝ) (z : ℕ → Fin 1 → ℝ) :
    Tendsto (fun t => (cycles someLib caseMove caseMeasure caseMoveNoise caseMeasureNoise z ⟨a, 1⟩ t).mean -
      (cycles someLib caseMove caseMeasure caseMoveNoise caseMeasureNoise z ⟨b, 1⟩ t).mean) atTop (𝓝 0) :=
  C156_forgets someLib caseMove caseMeasure caseMoveNoise caseMeasureNoise case_Q case_R case_detectable a b PosSemidef.one z

/-- Without a measurement of the component that grows the condition fails, and by `C155_iff` the covariance has no limit. -/
theorem case_hidden : ¬ Detectable caseMove.A (!![0, 1] : Matrix (Fin 1) (Fin 2) ℝ) := by
  rintro ⟨L, hL⟩
  have h : ∀ t : ℕ, (((1 - L * (!![0, 1] : Matrix (Fin 1) (Fin 2) ℝ)) * caseMove.A) ^ t) *ᵥ ![1, 0] = ![2 ^ t, 0] := by
    intro t
    induction t with
    | zero => simp
    | succ t ih =>
      rw [pow_succ', ← mulVec_mulVec, ih]
      ext i
      fin_cases i <;> simp [caseMove, Matrix.mul_apply, mulVec, dotProduct, Fin.sum_univ_two, pow_succ, mul_comm]
  have h1 : Continuous fun Y : Matrix (Fin 2) (Fin 2) ℝ => (Y *ᵥ ![1, 0]) 0 := (continuous_apply 0).comp (continuous_id.matrix_mulVec continuous_const)
  have h2 := (h1.tendsto 0).comp hL
  have h3 : Tendsto (fun t : ℕ => (2 : ℝ) ^ t) atTop (𝓝 0) := by
    refine Tendsto.congr (fun t => ?_) (by simpa using h2)
    show ((((1 - L * (!![0, 1] : Matrix (Fin 1) (Fin 2) ℝ)) * caseMove.A) ^ t) *ᵥ ![1, 0]) 0 = 2 ^ t
    rw [h t]
    rfl
  exact not_tendsto_nhds_of_tendsto_atTop (tendsto_pow_atTop_atTop_of_one_lt (by norm_num)) 0 h3

end OpenKalman.Steady
