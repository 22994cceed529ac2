import Verif.Theorems.Kalman
import Mathlib.Topology.Instances.Matrix
import Mathlib.Analysis.Normed.Field.Basic

/-!
# C164: small changes of the arguments of a filter change its results little; limits of large and small noise

A history of calls whose arguments depend on a parameter `t` is a `Family`; `Family.at` are the calls for one `t`.
-/

set_option linter.unusedSectionVars false

namespace OpenKalman.Kalman
open Matrix Filter Topology
open scoped ComplexOrder

variable {𝕜 : Type} [RCLike 𝕜] (lib : Lib 𝕜) {T : Type} [TopologicalSpace T]

/-- Calls of a filter whose arguments are functions of a parameter. -/
inductive Family (T 𝕜 : Type) : ℕ → ℕ → Type
  | nil {n : ℕ} : Family T 𝕜 n n
  | predict {n k l : ℕ} (A : T → Matrix (Fin k) (Fin n) 𝕜) (Bs : List (T → Matrix (Fin k) (Fin k) 𝕜)) (ns : List (T → GaussChol 𝕜 (Fin k))) (rest : Family T 𝕜 k l) : Family T 𝕜 n l
  | update {n l : ℕ} (m : ℕ) (A : T → Matrix (Fin m) (Fin n) 𝕜) (Bs : List (T → Matrix (Fin m) (Fin m) 𝕜)) (ns : List (T → GaussChol 𝕜 (Fin m))) (z : T → Fin m → 𝕜)
      (rest : Family T 𝕜 n l) : Family T 𝕜 n l

/-- The calls for one value of the parameter. -/
def Family.at : {n l : ℕ} → Family T 𝕜 n l → T → Hist 𝕜 n l
  | _, _, .nil, _ => .nil
  | _, _, .predict A Bs ns rest, t => .cons (.predict ⟨A t, Bs.map (· t)⟩ (ns.map (· t))) (rest.at t)
  | _, _, .update m A Bs ns z rest, t => .cons (.update m ⟨A t, Bs.map (· t)⟩ (ns.map (· t)) (z t)) (rest.at t)

/-- All arguments are continuous functions of the parameter. -/
def Family.Continuous (t₀ : T) : {n l : ℕ} → Family T 𝕜 n l → Prop
  | _, _, .nil => True
  | _, _, .predict A Bs ns rest => ContinuousAt A t₀ ∧ (∀ B ∈ Bs, ContinuousAt B t₀) ∧
      (∀ d ∈ ns, ContinuousAt (fun t => (d t).mean) t₀ ∧ ContinuousAt (fun t => (d t).fac) t₀) ∧ rest.Continuous t₀
  | _, _, .update _ A Bs ns z rest => ContinuousAt A t₀ ∧ (∀ B ∈ Bs, ContinuousAt B t₀) ∧
      (∀ d ∈ ns, ContinuousAt (fun t => (d t).mean) t₀ ∧ ContinuousAt (fun t => (d t).fac) t₀) ∧ ContinuousAt z t₀ ∧ rest.Continuous t₀

/-! ## Parts -/

theorem _root_.ContinuousAt.mulMat {a b c : Type} [Fintype b] {t₀ : T} {A : T → Matrix a b 𝕜} {B : T → Matrix b c 𝕜} (hA : ContinuousAt A t₀) (hB : ContinuousAt B t₀) :
    ContinuousAt (fun t => A t * B t) t₀ := by
  have h : Continuous fun p : Matrix a b 𝕜 × Matrix b c 𝕜 => p.1 * p.2 := by fun_prop
  exact h.continuousAt.comp (f := fun t => (A t, B t)) (hA.prodMk hB)

theorem _root_.ContinuousAt.mulVec {a b : Type} [Fintype b] {t₀ : T} {A : T → Matrix a b 𝕜} {v : T → b → 𝕜} (hA : ContinuousAt A t₀) (hv : ContinuousAt v t₀) :
    ContinuousAt (fun t => A t *ᵥ v t) t₀ := by
  have h : Continuous fun p : Matrix a b 𝕜 × (b → 𝕜) => p.1 *ᵥ p.2 := by fun_prop
  exact h.continuousAt.comp (f := fun t => (A t, v t)) (hA.prodMk hv)

theorem _root_.ContinuousAt.conjT {a b : Type} {t₀ : T} {A : T → Matrix a b 𝕜} (hA : ContinuousAt A t₀) : ContinuousAt (fun t => (A t)ᴴ) t₀ := by
  have h : Continuous fun p : Matrix a b 𝕜 => pᴴ := by fun_prop
  exact h.continuousAt.comp (f := A) hA

theorem _root_.ContinuousAt.invMat {a : Type} [Fintype a] [DecidableEq a] {t₀ : T} {A : T → Matrix a a 𝕜} (hA : ContinuousAt A t₀) (hu : IsUnit (A t₀).det) :
    ContinuousAt (fun t => (A t)⁻¹) t₀ := by
  refine (continuousAt_matrix_inv (A t₀) ?_).comp (f := A) hA
  rw [Ring.inverse_eq_inv']
  exact continuousAt_inv₀ hu.ne_zero

theorem continuousAt_sum {a : Type} {b : Type} [AddCommMonoid b] [TopologicalSpace b] [ContinuousAdd b] {t₀ : T} (l : List a) (f : a → T → b) (h : ∀ x ∈ l, ContinuousAt (f x) t₀) :
    ContinuousAt (fun t => (l.map fun x => f x t).sum) t₀ := by
  induction l with
  | nil => exact continuousAt_const
  | cons x l ih =>
    simp only [List.map_cons, List.sum_cons]
    exact (h x List.mem_cons_self).add (ih fun y hy => h y (List.mem_cons_of_mem _ hy))

theorem continuousAt_sum_vec {a : Type} {k : ℕ} {t₀ : T} (l : List a) (f : a → T → Fin k → 𝕜) (h : ∀ x ∈ l, ContinuousAt (f x) t₀) :
    ContinuousAt (fun t => (l.map fun x => f x t).sum) t₀ := by
  induction l with
  | nil => exact continuousAt_const
  | cons x l ih =>
    simp only [List.map_cons, List.sum_cons]
    exact (h x List.mem_cons_self).add (ih fun y hy => h y (List.mem_cons_of_mem _ hy))

theorem continuousAt_getD {k : ℕ} {t₀ : T} (Bs : List (T → Matrix (Fin k) (Fin k) 𝕜)) (h : ∀ B ∈ Bs, ContinuousAt B t₀) (i : ℕ) :
    ContinuousAt (fun t => (Bs.map (· t)).getD i 1) t₀ := by
  by_cases hi : i < Bs.length
  · have e : (fun t => (Bs.map (· t)).getD i 1) = Bs[i] := by
      funext t
      simp [List.getD_eq_getElem?_getD, hi]
    rw [e]
    exact h _ (List.getElem_mem hi)
  · have e : (fun t => (Bs.map (· t)).getD i 1) = fun _ => (1 : Matrix (Fin k) (Fin k) 𝕜) := by
      funext t
      simp [List.getD_eq_getElem?_getD, not_lt.1 hi]
    rw [e]
    exact continuousAt_const

/-- What the noise terms add to the covariance and to the mean. -/
theorem noise_continuous {n k : ℕ} {t₀ : T} (A : T → Matrix (Fin k) (Fin n) 𝕜) (Bs : List (T → Matrix (Fin k) (Fin k) 𝕜)) (ns : List (T → GaussChol 𝕜 (Fin k)))
    (hB : ∀ B ∈ Bs, ContinuousAt B t₀) (hn : ∀ d ∈ ns, ContinuousAt (fun t => (d t).mean) t₀ ∧ ContinuousAt (fun t => (d t).fac) t₀) :
    ContinuousAt (fun t => noiseTotal ⟨A t, Bs.map (· t)⟩ ((ns.map (· t)).map GaussChol.toGauss)) t₀ ∧
    ContinuousAt (fun t => (((ns.map (· t)).map GaussChol.toGauss).zipIdx.map fun v => (Bs.map (· t)).getD v.2 1 *ᵥ v.1.mean).sum) t₀ := by
  have hz : ∀ v ∈ ns.zipIdx, v.1 ∈ ns := fun v hv => by
    obtain ⟨d, i⟩ := v
    exact (List.mem_zipIdx hv).2.2 ▸ List.getElem_mem _
  constructor
  · have e : (fun t => noiseTotal ⟨A t, Bs.map (· t)⟩ ((ns.map (· t)).map GaussChol.toGauss)) = fun t =>
        (ns.zipIdx.map fun v => (Bs.map (· t)).getD v.2 1 * ((v.1 t).fac * (v.1 t).facᴴ) * ((Bs.map (· t)).getD v.2 1)ᴴ).sum := by
      funext t
      unfold noiseTotal
      rw [List.map_map, List.zipIdx_map, List.map_map]
      rfl
    rw [e]
    refine continuousAt_sum ns.zipIdx (fun v t => (Bs.map (· t)).getD v.2 1 * ((v.1 t).fac * (v.1 t).facᴴ) * ((Bs.map (· t)).getD v.2 1)ᴴ) fun v hv => ?_
    have h1 := continuousAt_getD Bs hB v.2
    have h2 := (hn v.1 (hz v hv)).2
    exact (h1.mulMat (h2.mulMat h2.conjT)).mulMat h1.conjT
  · have e : (fun t => (((ns.map (· t)).map GaussChol.toGauss).zipIdx.map fun v => (Bs.map (· t)).getD v.2 1 *ᵥ v.1.mean).sum) = fun t =>
        (ns.zipIdx.map fun v => (Bs.map (· t)).getD v.2 1 *ᵥ (v.1 t).mean).sum := by
      funext t
      rw [List.map_map, List.zipIdx_map, List.map_map]
      rfl
    rw [e]
    let f : (T → GaussChol 𝕜 (Fin k)) × ℕ → T → Fin k → 𝕜 := fun v t => (Bs.map (· t)).getD v.2 1 *ᵥ (v.1 t).mean
    have hf : ∀ v ∈ ns.zipIdx, ContinuousAt (f v) t₀ := by
      intro v hv
      have h1 := continuousAt_getD Bs hB v.2
      have h2 := (hn v.1 (hz v hv)).1
      exact h1.mulVec h2
    exact continuousAt_sum_vec ns.zipIdx f hf

theorem total_posSemidef {n k : ℕ} (g : LinTrans 𝕜 n k) (ns : List (GaussChol 𝕜 (Fin k))) : (noiseTotal g (ns.map GaussChol.toGauss)).PosSemidef := by
  rw [noiseTotal_eq]
  exact noiseCov_posSemidef _ (mem_noiseTerms (P := fun d => d.cov.PosSemidef) (toGauss_mem_hermitian ns))

/-- **C164** (continuity): if all arguments of the calls and the prior are continuous functions of a parameter, and the calls are valid for one value of it (each measurement has noise in every
direction), then they are valid near it, and the mean and the covariance in the end are continuous there.  The same holds in square-root form, for the covariance that the factor
stands for. -/
theorem C164_continuous {n l : ℕ} (h : Family T 𝕜 n l) {t₀ : T} : ∀ {x : T → Gauss 𝕜 (Fin n)}, (∀ᶠ t in 𝓝 t₀, (x t).cov.PosSemidef) → ContinuousAt (fun t => (x t).mean) t₀ →
    ContinuousAt (fun t => (x t).cov) t₀ → h.Continuous t₀ → (h.at t₀).Valid →
    (∀ᶠ t in 𝓝 t₀, (h.at t).Valid) ∧ ContinuousAt (fun t => ((h.at t).run lib (x t)).mean) t₀ ∧ ContinuousAt (fun t => ((h.at t).run lib (x t)).cov) t₀ := by
  induction h with
  | nil => exact fun _ hm hc _ _ => ⟨Eventually.of_forall fun _ => trivial, hm, hc⟩
  | @predict n k l A Bs ns rest ih =>
    intro x hp hm hc hh hv
    obtain ⟨hA, hB, hn, hr⟩ := hh
    obtain ⟨c1, c2⟩ := noise_continuous A Bs ns hB hn
    let y : T → Gauss 𝕜 (Fin k) := fun t => (Op.predict ⟨A t, Bs.map (· t)⟩ (ns.map (· t))).run lib (x t)
    have ey : ∀ᶠ t in 𝓝 t₀, y t = ⟨A t *ᵥ (x t).mean + (((ns.map (· t)).map GaussChol.toGauss).zipIdx.map fun v => (Bs.map (· t)).getD v.2 1 *ᵥ v.1.mean).sum,
        A t * (x t).cov * (A t)ᴴ + noiseTotal ⟨A t, Bs.map (· t)⟩ ((ns.map (· t)).map GaussChol.toGauss)⟩ := by
      filter_upwards [hp] with t ht
      show linearTransform lib _ _ _ = _
      rw [linearTransform_eq lib _ _ _ ht.1 fun d hd => (toGauss_mem_hermitian _ d hd).1, noiseTotal_eq, apply_eq]
      congr 2
      rw [List.zipIdx_map, List.map_map]
      rfl
    obtain ⟨v1, v2, v3⟩ := ih (x := y) (by
      filter_upwards [hp] with t ht
      exact predict_posSemidef lib _ _ _ ht (toGauss_mem_hermitian _))
      (((hA.mulVec hm).add c2).congr (by filter_upwards [ey] with t ht using (congrArg Gauss.mean ht).symm))
      ((((hA.mulMat hc).mulMat hA.conjT).add c1).congr (by filter_upwards [ey] with t ht using (congrArg Gauss.cov ht).symm)) hr hv.2
    exact ⟨by filter_upwards [v1] with t ht using ⟨trivial, ht⟩, v2, v3⟩
  | @update n l m A Bs ns z rest ih =>
    intro x hp hm hc hh hv
    obtain ⟨hA, hB, hn, hz, hr⟩ := hh
    obtain ⟨c1, c2⟩ := noise_continuous A Bs ns hB hn
    let y : T → Gauss 𝕜 (Fin n) := fun t => (Op.update m ⟨A t, Bs.map (· t)⟩ (ns.map (· t)) (z t)).run lib (x t)
    let R : T → Matrix (Fin m) (Fin m) 𝕜 := fun t => noiseTotal ⟨A t, Bs.map (· t)⟩ ((ns.map (· t)).map GaussChol.toGauss)
    let r : T → Fin m → 𝕜 := fun t => (((ns.map (· t)).map GaussChol.toGauss).zipIdx.map fun v => (Bs.map (· t)).getD v.2 1 *ᵥ v.1.mean).sum
    have hR0 : (R t₀).PosDef := hv.1
    have hRp : ∀ t, (R t).PosSemidef := fun t => total_posSemidef _ _
    have hRt : ∀ᶠ t in 𝓝 t₀, (R t).PosDef := by
      have hd : ContinuousAt (fun t => (R t).det) t₀ := by
        have : Continuous fun M : Matrix (Fin m) (Fin m) 𝕜 => M.det := by fun_prop
        exact this.continuousAt.comp (f := R) c1
      filter_upwards [hd.eventually_ne hR0.det_pos.ne'] with t ht
      exact ((hRp t).posDef_iff_isUnit).2 ((isUnit_iff_isUnit_det _).2 (isUnit_iff_ne_zero.2 ht))
    have hS0 : ∀ t, (x t).cov.PosSemidef → (R t).PosDef → IsUnit (A t * (x t).cov * (A t)ᴴ + R t).det := fun t h1 h2 => measCov_unit h1 (A t) h2
    have cS : ContinuousAt (fun t => A t * (x t).cov * (A t)ᴴ + R t) t₀ := ((hA.mulMat hc).mulMat hA.conjT).add c1
    have cI := cS.invMat (hS0 t₀ hp.self_of_nhds hR0)
    have cK := (hc.mulMat hA.conjT).mulMat cI
    have ey : ∀ᶠ t in 𝓝 t₀, y t = ⟨(x t).mean + ((x t).cov * (A t)ᴴ * (A t * (x t).cov * (A t)ᴴ + R t)⁻¹) *ᵥ (z t - (A t *ᵥ (x t).mean + r t)),
        (x t).cov - (x t).cov * (A t)ᴴ * (A t * (x t).cov * (A t)ᴴ + R t)⁻¹ * (A t * (x t).cov)⟩ := by
      filter_upwards [hp, hRt] with t ht1 ht2
      show Kalman.update lib _ _ _ _ = _
      rw [C51_update_form lib _ _ _ _ ht1 (toGauss_mem_hermitian _)]
      exact linUpdate_eq lib (A t) (R t) (r t) (z t) (x t) ht1.1 ht2.1 (hS0 t ht1 ht2)
    obtain ⟨v1, v2, v3⟩ := ih (x := y) (by
      filter_upwards [hp, hRt] with t ht1 ht2
      exact (C49_update lib _ _ _ _ ht1 (toGauss_mem_hermitian _) ht2).1)
      ((hm.add (cK.mulVec (hz.sub ((hA.mulVec hm).add c2)))).congr (by filter_upwards [ey] with t ht using (congrArg Gauss.mean ht).symm))
      ((hc.sub (cK.mulMat (hA.mulMat hc))).congr (by filter_upwards [ey] with t ht using (congrArg Gauss.cov ht).symm)) hr hv.2
    exact ⟨by filter_upwards [v1, hRt] with t ht1 ht2 using ⟨ht2, ht1⟩, v2, v3⟩

/-- **C164** (continuity, square-root form). -/
theorem C164_continuous_root {n l : ℕ} (h : Family T 𝕜 n l) {t₀ : T} {x : T → GaussChol 𝕜 (Fin n)} (hm : ContinuousAt (fun t => (x t).mean) t₀)
    (hc : ContinuousAt (fun t => (x t).fac) t₀) (hh : h.Continuous t₀) (hv : (h.at t₀).Valid) :
    ContinuousAt (fun t => ((h.at t).runChol lib (x t)).mean) t₀ ∧
    ContinuousAt (fun t => ((h.at t).runChol lib (x t)).fac * ((h.at t).runChol lib (x t)).facᴴ) t₀ := by
  obtain ⟨v1, v2, v3⟩ := C164_continuous lib h (x := fun t => (x t).toGauss) (Eventually.of_forall fun t => toGauss_posSemidef (x t)) hm (hc.mulMat hc.conjT) hh hv
  have e : ∀ᶠ t in 𝓝 t₀, (h.at t).run lib (x t).toGauss = ((h.at t).runChol lib (x t)).toGauss := by
    filter_upwards [v1] with t ht using (C50_square_root lib _ ht (x t)).symm
  exact ⟨v2.congr (by filter_upwards [e] with t ht using congrArg Gauss.mean ht), v3.congr (by filter_upwards [e] with t ht using congrArg Gauss.cov ht)⟩

/-! ## Limits -/

section
variable {n m : ℕ}

/-- One measurement with one noise. -/
theorem update_single (H : Matrix (Fin m) (Fin n) 𝕜) (r z : Fin m → 𝕜) {R : Matrix (Fin m) (Fin m) 𝕜} {x : Gauss 𝕜 (Fin n)} (hx : x.cov.PosSemidef) (hR : R.PosSemidef)
    (hu : IsUnit (H * x.cov * Hᴴ + R).det) :
    Kalman.update lib ⟨H, []⟩ [⟨r, R⟩] z x = ⟨x.mean + (x.cov * Hᴴ * (H * x.cov * Hᴴ + R)⁻¹) *ᵥ (z - (H *ᵥ x.mean + r)),
      x.cov - x.cov * Hᴴ * (H * x.cov * Hᴴ + R)⁻¹ * (H * x.cov)⟩ := by
  have e1 : noiseTotal (⟨H, []⟩ : LinTrans 𝕜 n m) [⟨r, R⟩] = R := by simp [noiseTotal]
  rw [C51_update_form lib ⟨H, []⟩ [⟨r, R⟩] z x hx (by simpa using hR), e1]
  have e2 : ([(⟨r, R⟩ : Gauss 𝕜 (Fin m))].zipIdx.map fun v => ([] : List (Matrix (Fin m) (Fin m) 𝕜)).getD v.2 1 *ᵥ v.1.mean).sum = r := by simp
  show linUpdate lib H R ([(⟨r, R⟩ : Gauss 𝕜 (Fin m))].zipIdx.map fun v => ([] : List (Matrix (Fin m) (Fin m) 𝕜)).getD v.2 1 *ᵥ v.1.mean).sum z x = _
  rw [e2]
  exact linUpdate_eq lib H R r z x hx.1 hR.1 hu

theorem smul_posDef_of_pos {R : Matrix (Fin m) (Fin m) 𝕜} (hR : R.PosDef) {c : ℝ} (hc : 0 < c) : (((c : ℝ) : 𝕜) • R).PosDef :=
  hR.smul (by exact_mod_cast hc)

/-- **C164** (much noise): a measurement whose noise grows without bound changes the estimate less and less. -/
theorem C164_much_noise (H : Matrix (Fin m) (Fin n) 𝕜) (r z : Fin m → 𝕜) {R : Matrix (Fin m) (Fin m) 𝕜} (hR : R.PosDef) (x : Gauss 𝕜 (Fin n)) (hx : x.cov.PosSemidef) :
    Tendsto (fun c : ℝ => (Kalman.update lib ⟨H, []⟩ [⟨r, (c : 𝕜) • R⟩] z x).mean) atTop (𝓝 x.mean) ∧
    Tendsto (fun c : ℝ => (Kalman.update lib ⟨H, []⟩ [⟨r, (c : 𝕜) • R⟩] z x).cov) atTop (𝓝 x.cov) := by
  have hinv : Tendsto (fun c : ℝ => (H * x.cov * Hᴴ + (c : 𝕜) • R)⁻¹) atTop (𝓝 0) := by
    have h0 : Tendsto (fun c : ℝ => (c : 𝕜)⁻¹) atTop (𝓝 0) := by
      have := (RCLike.continuous_ofReal (K := 𝕜)).tendsto 0
      rw [RCLike.ofReal_zero] at this
      refine (this.comp tendsto_inv_atTop_zero).congr fun c => ?_
      simp
    have h1 : ContinuousAt (fun s : 𝕜 => (s • (H * x.cov * Hᴴ) + R)⁻¹) 0 := by
      refine ContinuousAt.invMat (by fun_prop) ?_
      rw [zero_smul, zero_add]
      exact isUnit_iff_ne_zero.2 hR.det_pos.ne'
    have h2 : Tendsto (fun c : ℝ => (c : 𝕜)⁻¹ • ((c : 𝕜)⁻¹ • (H * x.cov * Hᴴ) + R)⁻¹) atTop (𝓝 ((0 : 𝕜) • ((0 : 𝕜) • (H * x.cov * Hᴴ) + R)⁻¹)) :=
      h0.smul (h1.tendsto.comp h0)
    rw [zero_smul] at h2
    refine h2.congr' ?_
    filter_upwards [eventually_gt_atTop 0] with c hc
    have hc0 : (c : 𝕜) ≠ 0 := by exact_mod_cast hc.ne'
    have hP : ((c : 𝕜)⁻¹ • (H * x.cov * Hᴴ) + R).PosDef := by
      refine PosDef.posSemidef_add ((hx.mul_mul_conjTranspose_same H).smul ?_) hR
      rw [← RCLike.ofReal_inv]
      exact_mod_cast (inv_pos.2 hc).le
    have hu : IsUnit ((c : 𝕜)⁻¹ • (H * x.cov * Hᴴ) + R).det := isUnit_iff_ne_zero.2 hP.det_pos.ne'
    refine (inv_eq_right_inv ?_).symm
    have e : H * x.cov * Hᴴ + (c : 𝕜) • R = (c : 𝕜) • ((c : 𝕜)⁻¹ • (H * x.cov * Hᴴ) + R) := by
      rw [smul_add, smul_smul, mul_inv_cancel₀ hc0, one_smul]
    rw [e, Matrix.smul_mul, Matrix.mul_smul, mul_nonsing_inv _ hu, smul_smul, mul_inv_cancel₀ hc0, one_smul]
  have hev : ∀ᶠ c : ℝ in atTop, Kalman.update lib ⟨H, []⟩ [⟨r, (c : 𝕜) • R⟩] z x =
      ⟨x.mean + (x.cov * Hᴴ * (H * x.cov * Hᴴ + (c : 𝕜) • R)⁻¹) *ᵥ (z - (H *ᵥ x.mean + r)), x.cov - x.cov * Hᴴ * (H * x.cov * Hᴴ + (c : 𝕜) • R)⁻¹ * (H * x.cov)⟩ := by
    filter_upwards [eventually_gt_atTop 0] with c hc
    have hp := smul_posDef_of_pos (𝕜 := 𝕜) hR hc
    exact update_single lib H r z hx hp.posSemidef (measCov_unit hx H hp)
  constructor
  · have hf : Continuous fun M : Matrix (Fin m) (Fin m) 𝕜 => x.mean + (x.cov * Hᴴ * M) *ᵥ (z - (H *ᵥ x.mean + r)) := by fun_prop
    have := (hf.tendsto 0).comp hinv
    simp only [Matrix.mul_zero, zero_mulVec, add_zero] at this
    exact this.congr' (by filter_upwards [hev] with c hc using (congrArg Gauss.mean hc).symm)
  · have hf : Continuous fun M : Matrix (Fin m) (Fin m) 𝕜 => x.cov - x.cov * Hᴴ * M * (H * x.cov) := by fun_prop
    have := (hf.tendsto 0).comp hinv
    simp only [Matrix.mul_zero, Matrix.zero_mul, sub_zero] at this
    exact this.congr' (by filter_upwards [hev] with c hc using (congrArg Gauss.cov hc).symm)

/-- **C164** (little noise): if the state is uncertain in every direction that is measured, then with vanishing noise the estimate converges, and the limit agrees with the measurement
exactly. -/
theorem C164_little_noise (H : Matrix (Fin m) (Fin n) 𝕜) (r z : Fin m → 𝕜) {R : Matrix (Fin m) (Fin m) 𝕜} (hR : R.PosDef) (x : Gauss 𝕜 (Fin n)) (hx : x.cov.PosSemidef)
    (hH : (H * x.cov * Hᴴ).PosDef) :
    ∃ y : Gauss 𝕜 (Fin n), Tendsto (fun c : ℝ => (Kalman.update lib ⟨H, []⟩ [⟨r, (c : 𝕜) • R⟩] z x).mean) (𝓝[>] 0) (𝓝 y.mean) ∧
      Tendsto (fun c : ℝ => (Kalman.update lib ⟨H, []⟩ [⟨r, (c : 𝕜) • R⟩] z x).cov) (𝓝[>] 0) (𝓝 y.cov) ∧ H *ᵥ y.mean + r = z ∧ H * y.cov = 0 := by
  have hu : IsUnit (H * x.cov * Hᴴ).det := isUnit_iff_ne_zero.2 hH.det_pos.ne'
  have hinv : Tendsto (fun c : ℝ => (H * x.cov * Hᴴ + (c : 𝕜) • R)⁻¹) (𝓝[>] 0) (𝓝 (H * x.cov * Hᴴ)⁻¹) := by
    have h1 : ContinuousAt (fun c : ℝ => (H * x.cov * Hᴴ + (c : 𝕜) • R)⁻¹) 0 := by
      refine ContinuousAt.invMat ?_ (by simpa using hu)
      have : Continuous fun c : ℝ => H * x.cov * Hᴴ + (c : 𝕜) • R := by fun_prop
      exact this.continuousAt
    have := h1.tendsto
    simp only [RCLike.ofReal_zero, zero_smul, add_zero] at this
    exact this.mono_left nhdsWithin_le_nhds
  have hev : ∀ᶠ c : ℝ in 𝓝[>] 0, Kalman.update lib ⟨H, []⟩ [⟨r, (c : 𝕜) • R⟩] z x =
      ⟨x.mean + (x.cov * Hᴴ * (H * x.cov * Hᴴ + (c : 𝕜) • R)⁻¹) *ᵥ (z - (H *ᵥ x.mean + r)), x.cov - x.cov * Hᴴ * (H * x.cov * Hᴴ + (c : 𝕜) • R)⁻¹ * (H * x.cov)⟩ := by
    filter_upwards [self_mem_nhdsWithin] with c hc
    have hp := smul_posDef_of_pos (𝕜 := 𝕜) hR hc
    exact update_single lib H r z hx hp.posSemidef (measCov_unit hx H hp)
  refine ⟨⟨x.mean + (x.cov * Hᴴ * (H * x.cov * Hᴴ)⁻¹) *ᵥ (z - (H *ᵥ x.mean + r)), x.cov - x.cov * Hᴴ * (H * x.cov * Hᴴ)⁻¹ * (H * x.cov)⟩, ?_, ?_, ?_, ?_⟩
  · have hf : Continuous fun M : Matrix (Fin m) (Fin m) 𝕜 => x.mean + (x.cov * Hᴴ * M) *ᵥ (z - (H *ᵥ x.mean + r)) := by fun_prop
    exact ((hf.tendsto _).comp hinv).congr' (by filter_upwards [hev] with c hc using (congrArg Gauss.mean hc).symm)
  · have hf : Continuous fun M : Matrix (Fin m) (Fin m) 𝕜 => x.cov - x.cov * Hᴴ * M * (H * x.cov) := by fun_prop
    exact ((hf.tendsto _).comp hinv).congr' (by filter_upwards [hev] with c hc using (congrArg Gauss.cov hc).symm)
  · simp only [mulVec_add, mulVec_mulVec, ← Matrix.mul_assoc]
    rw [mul_nonsing_inv _ hu, one_mulVec]
    abel
  · simp only [Matrix.mul_sub, ← Matrix.mul_assoc]
    rw [mul_nonsing_inv _ hu, Matrix.one_mul, sub_self]

/-- **C164** (no prior knowledge): if the measurement determines the state, then with a prior that says less and less the estimate converges to the weighted least-squares solution for the
measurement alone, and the covariance to that of this solution. -/
theorem C164_no_prior (H : Matrix (Fin m) (Fin n) 𝕜) (r z : Fin m → 𝕜) {R : Matrix (Fin m) (Fin m) 𝕜} (hR : R.PosDef) (mu : Fin n → 𝕜) {C : Matrix (Fin n) (Fin n) 𝕜} (hC : C.PosDef)
    (hH : Function.Injective fun v : Fin n → 𝕜 => H *ᵥ v) :
    ∃ y : Gauss 𝕜 (Fin n), Tendsto (fun c : ℝ => (Kalman.update lib ⟨H, []⟩ [⟨r, R⟩] z ⟨mu, (c : 𝕜) • C⟩).mean) atTop (𝓝 y.mean) ∧
      Tendsto (fun c : ℝ => (Kalman.update lib ⟨H, []⟩ [⟨r, R⟩] z ⟨mu, (c : 𝕜) • C⟩).cov) atTop (𝓝 y.cov) ∧
      (Hᴴ * R⁻¹) *ᵥ (z - r - H *ᵥ y.mean) = 0 ∧ y.cov * (Hᴴ * R⁻¹ * H) = 1 := by
  have uR : IsUnit R.det := isUnit_iff_ne_zero.2 hR.det_pos.ne'
  have uC : IsUnit C.det := isUnit_iff_ne_zero.2 hC.det_pos.ne'
  have hI : (Hᴴ * R⁻¹ * H).PosDef := by
    have := hR.inv.conjTranspose_mul_mul_same (B := H) hH
    exact this
  have uI : IsUnit (Hᴴ * R⁻¹ * H).det := isUnit_iff_ne_zero.2 hI.det_pos.ne'
  have h0 : Tendsto (fun c : ℝ => (c : 𝕜)⁻¹) atTop (𝓝 0) := by
    have := (RCLike.continuous_ofReal (K := 𝕜)).tendsto 0
    rw [RCLike.ofReal_zero] at this
    refine (this.comp tendsto_inv_atTop_zero).congr fun c => ?_
    simp
  -- the information form
  have hev : ∀ᶠ c : ℝ in atTop, Kalman.update lib ⟨H, []⟩ [⟨r, R⟩] z ⟨mu, (c : 𝕜) • C⟩ =
      ⟨mu + (((c : 𝕜)⁻¹ • C⁻¹ + Hᴴ * R⁻¹ * H)⁻¹ * (Hᴴ * R⁻¹)) *ᵥ (z - (H *ᵥ mu + r)), ((c : 𝕜)⁻¹ • C⁻¹ + Hᴴ * R⁻¹ * H)⁻¹⟩ := by
    filter_upwards [eventually_gt_atTop 0] with c hc
    have hc0 : (c : 𝕜) ≠ 0 := by exact_mod_cast hc.ne'
    have hp := smul_posDef_of_pos (𝕜 := 𝕜) hC hc
    have hu := measCov_unit hp.posSemidef H hR
    rw [update_single lib H r z (x := ⟨mu, (c : 𝕜) • C⟩) hp.posSemidef hR.posSemidef hu]
    have hQ : ((c : 𝕜)⁻¹ • C⁻¹ + Hᴴ * R⁻¹ * H).PosDef := by
      refine PosDef.posSemidef_add (hC.inv.posSemidef.smul ?_) hI
      rw [← RCLike.ofReal_inv]
      exact_mod_cast (inv_pos.2 hc).le
    have uQ : IsUnit ((c : 𝕜)⁻¹ • C⁻¹ + Hᴴ * R⁻¹ * H).det := isUnit_iff_ne_zero.2 hQ.det_pos.ne'
    have hCC : ((c : 𝕜)⁻¹ • C⁻¹) * ((c : 𝕜) • C) = 1 := by
      rw [Matrix.smul_mul, Matrix.mul_smul, smul_smul, inv_mul_cancel₀ hc0, one_smul, nonsing_inv_mul _ uC]
    generalize (c : 𝕜) • C = D at hCC hu hp
    generalize (c : 𝕜)⁻¹ • C⁻¹ = E at hCC uQ hQ
    have hgain : (E + Hᴴ * R⁻¹ * H) * (D * Hᴴ) = Hᴴ * R⁻¹ * (H * D * Hᴴ + R) := by
      rw [Matrix.add_mul, ← Matrix.mul_assoc E, hCC, Matrix.one_mul, Matrix.mul_add, Matrix.mul_assoc Hᴴ R⁻¹ R, nonsing_inv_mul _ uR, Matrix.mul_one]
      simp only [Matrix.mul_assoc]
      abel
    have hK : D * Hᴴ * (H * D * Hᴴ + R)⁻¹ = (E + Hᴴ * R⁻¹ * H)⁻¹ * (Hᴴ * R⁻¹) := by
      have h1 : (E + Hᴴ * R⁻¹ * H) * (D * Hᴴ * (H * D * Hᴴ + R)⁻¹) = Hᴴ * R⁻¹ := by
        rw [← Matrix.mul_assoc, hgain, Matrix.mul_assoc, mul_nonsing_inv _ hu, Matrix.mul_one]
      calc D * Hᴴ * (H * D * Hᴴ + R)⁻¹ = ((E + Hᴴ * R⁻¹ * H)⁻¹ * (E + Hᴴ * R⁻¹ * H)) * (D * Hᴴ * (H * D * Hᴴ + R)⁻¹) := by rw [nonsing_inv_mul _ uQ, Matrix.one_mul]
        _ = (E + Hᴴ * R⁻¹ * H)⁻¹ * (Hᴴ * R⁻¹) := by rw [Matrix.mul_assoc, h1]
    have hP : D - D * Hᴴ * (H * D * Hᴴ + R)⁻¹ * (H * D) = (E + Hᴴ * R⁻¹ * H)⁻¹ := by
      rw [hK]
      refine (inv_eq_right_inv ?_).symm
      rw [Matrix.mul_sub, Matrix.mul_assoc (E + Hᴴ * R⁻¹ * H)⁻¹ (Hᴴ * R⁻¹) (H * D), ← Matrix.mul_assoc (E + Hᴴ * R⁻¹ * H) (E + Hᴴ * R⁻¹ * H)⁻¹, mul_nonsing_inv _ uQ, Matrix.one_mul,
        Matrix.add_mul, hCC]
      simp only [Matrix.mul_assoc]
      abel
    rw [hP, hK]
  have hinv : Tendsto (fun c : ℝ => ((c : 𝕜)⁻¹ • C⁻¹ + Hᴴ * R⁻¹ * H)⁻¹) atTop (𝓝 (Hᴴ * R⁻¹ * H)⁻¹) := by
    have h1 : ContinuousAt (fun s : 𝕜 => (s • C⁻¹ + Hᴴ * R⁻¹ * H)⁻¹) 0 := by
      refine ContinuousAt.invMat (by fun_prop) ?_
      rw [zero_smul, zero_add]
      exact uI
    have := h1.tendsto.comp h0
    simp only [zero_smul, zero_add] at this
    exact this
  refine ⟨⟨mu + ((Hᴴ * R⁻¹ * H)⁻¹ * (Hᴴ * R⁻¹)) *ᵥ (z - (H *ᵥ mu + r)), (Hᴴ * R⁻¹ * H)⁻¹⟩, ?_, ?_, ?_, nonsing_inv_mul _ uI⟩
  · have hf : Continuous fun M : Matrix (Fin n) (Fin n) 𝕜 => mu + (M * (Hᴴ * R⁻¹)) *ᵥ (z - (H *ᵥ mu + r)) := by fun_prop
    exact ((hf.tendsto _).comp hinv).congr' (by filter_upwards [hev] with c hc using (congrArg Gauss.mean hc).symm)
  · exact hinv.congr' (by filter_upwards [hev] with c hc using (congrArg Gauss.cov hc).symm)
  · have e : (Hᴴ * R⁻¹) *ᵥ (H *ᵥ (((Hᴴ * R⁻¹ * H)⁻¹ * (Hᴴ * R⁻¹)) *ᵥ (z - (H *ᵥ mu + r)))) = (Hᴴ * R⁻¹) *ᵥ (z - (H *ᵥ mu + r)) := by
      rw [mulVec_mulVec, mulVec_mulVec, ← Matrix.mul_assoc, mul_nonsing_inv _ uI, Matrix.one_mul]
    rw [mulVec_sub, mulVec_add, mulVec_add, e, ← mulVec_add, ← mulVec_sub]
    have : z - r - (H *ᵥ mu + (z - (H *ᵥ mu + r))) = 0 := by abel
    rw [this, mulVec_zero]

end

/-! ### Cases -/

/-- A number is multiplied by the parameter, with noise, and measured, with noise whose factor depends on the parameter too. -/
noncomputable def caseFamily : Family ℝ ℝ 1 1 :=
  .predict (fun t => !![t]) [] [fun _ => ⟨0, 1⟩] (.update 1 (fun _ => !![2]) [fun t => !![t * t]] [fun t => ⟨fun _ => t, diagonal fun _ => t⟩] (fun t _ => 3 * t) .nil)

theorem caseFamily_continuous (t₀ : ℝ) : caseFamily.Continuous t₀ := by
  refine ⟨?_, by simp, by simp [continuousAt_const], ?_, ?_, ?_, ?_, trivial⟩
  · have : Continuous fun t : ℝ => !![t] := by fun_prop
    exact this.continuousAt
  · exact continuousAt_const
  · intro B hB
    obtain rfl : B = fun t => !![t * t] := by simpa using hB
    have : Continuous fun t : ℝ => !![t * t] := by fun_prop
    exact this.continuousAt
  · intro d hd
    obtain rfl : d = fun t => ⟨fun _ => t, diagonal fun _ => t⟩ := by simpa using hd
    have h1 : Continuous fun (t : ℝ) (_ : Fin 1) => t := by fun_prop
    have h2 : Continuous fun t : ℝ => (diagonal fun _ => t : Matrix (Fin 1) (Fin 1) ℝ) := by fun_prop
    exact ⟨h1.continuousAt, h2.continuousAt⟩
  · have : Continuous fun (t : ℝ) (_ : Fin 1) => 3 * t := by fun_prop
    exact this.continuousAt

theorem caseFamily_valid {t₀ : ℝ} (h : t₀ ≠ 0) : (caseFamily.at t₀).Valid := by
  refine ⟨trivial, ?_, trivial⟩
  show (noiseTotal (⟨!![2], [!![t₀ * t₀]]⟩ : LinTrans ℝ 1 1) [⟨fun _ => t₀, (diagonal fun _ => t₀) * (diagonal fun _ => t₀)ᴴ⟩]).PosDef
  have e : noiseTotal (⟨!![2], [!![t₀ * t₀]]⟩ : LinTrans ℝ 1 1) [⟨fun _ => t₀, (diagonal fun _ => t₀) * (diagonal fun _ => t₀)ᴴ⟩] = diagonal fun _ => t₀ ^ 6 := by
    ext i j
    rw [Fin.fin_one_eq_zero i, Fin.fin_one_eq_zero j]
    simp [noiseTotal, Matrix.vecMul, dotProduct]
    ring
  rw [e]
  exact PosDef.diagonal fun _ => by positivity

example (lib : Lib ℝ) {t₀ : ℝ} (h : t₀ ≠ 0) : ContinuousAt (fun t => ((caseFamily.at t).run lib ⟨0, 1⟩).cov) t₀ :=
  (C164_continuous lib caseFamily (x := fun _ => ⟨0, 1⟩) (Eventually.of_forall fun _ => PosSemidef.one) continuousAt_const continuousAt_const (caseFamily_continuous t₀)
    (caseFamily_valid h)).2.2

/-- A state of two numbers, of which one is measured. -/
example (lib : Lib ℝ) : Tendsto (fun c : ℝ => (Kalman.update lib ⟨!![1, 0], []⟩ [⟨0, (c : ℝ) • (1 : Matrix (Fin 1) (Fin 1) ℝ)⟩] ![5] ⟨![1, 2], 1⟩).mean) atTop (𝓝 ![1, 2]) :=
  (C164_much_noise lib !![1, 0] 0 ![5] PosDef.one ⟨![1, 2], 1⟩ PosSemidef.one).1

example (lib : Lib ℝ) : ∃ y : Gauss ℝ (Fin 2),
    Tendsto (fun c : ℝ => (Kalman.update lib ⟨!![1, 0], []⟩ [⟨0, (c : ℝ) • (1 : Matrix (Fin 1) (Fin 1) ℝ)⟩] ![5] ⟨![1, 2], 1⟩).mean) (𝓝[>] 0) (𝓝 y.mean) ∧ y.mean 0 = 5 := by
  have hH : ((!![1, 0] : Matrix (Fin 1) (Fin 2) ℝ) * (1 : Matrix (Fin 2) (Fin 2) ℝ) * (!![1, 0] : Matrix (Fin 1) (Fin 2) ℝ)ᴴ).PosDef := by
    have e : (!![1, 0] : Matrix (Fin 1) (Fin 2) ℝ) * (1 : Matrix (Fin 2) (Fin 2) ℝ) * (!![1, 0] : Matrix (Fin 1) (Fin 2) ℝ)ᴴ = 1 := by
      ext i j
      rw [Fin.fin_one_eq_zero i, Fin.fin_one_eq_zero j]
      simp [Matrix.mul_apply, Fin.sum_univ_two]
    rw [e]
    exact PosDef.one
  obtain ⟨y, h1, -, h3, -⟩ := C164_little_noise lib !![1, 0] 0 ![5] PosDef.one ⟨![1, 2], 1⟩ PosSemidef.one hH
  refine ⟨y, h1, ?_⟩
  have := congrFun h3 0
  simpa [mulVec, dotProduct, Fin.sum_univ_two] using this

/-- A number measured twice: without prior knowledge the estimate is the mean of the two, and the variance one half. -/
example (lib : Lib ℝ) : ∃ y : Gauss ℝ (Fin 1),
    Tendsto (fun c : ℝ => (Kalman.update lib ⟨!![1; 1], []⟩ [⟨0, (1 : Matrix (Fin 2) (Fin 2) ℝ)⟩] ![4, 6] ⟨![100], (c : ℝ) • (1 : Matrix (Fin 1) (Fin 1) ℝ)⟩).mean) atTop (𝓝 y.mean) ∧
    y.mean 0 = 5 ∧ y.cov 0 0 = 1 / 2 := by
  obtain ⟨y, h1, -, h3, h4⟩ := C164_no_prior lib (!![1; 1] : Matrix (Fin 2) (Fin 1) ℝ) 0 ![4, 6] PosDef.one ![100] (C := 1) PosDef.one (fun v w hvw => by
    funext i
    rw [Fin.fin_one_eq_zero i]
    have := congrFun hvw 0
    simpa [mulVec, dotProduct] using this)
  refine ⟨y, h1, ?_, ?_⟩
  · have := congrFun h3 0
    simp [mulVec, dotProduct, Fin.sum_univ_two] at this
    linarith
  · have := congrFun (congrFun h4 0) 0
    simp [Matrix.mul_apply, Fin.sum_univ_two] at this
    linarith

end OpenKalman.Kalman
