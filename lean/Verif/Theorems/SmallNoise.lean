import Verif.Proof.SmallNoise
import Mathlib.Analysis.SpecialFunctions.Trigonometric.Deriv
import Mathlib.Analysis.Calculus.ContDiff.RCLike
import Mathlib.Analysis.Calculus.Deriv.Basic

/-!
# C170: for small covariances the filters on sample points take the steps of the linearised filter

`e` is the size of the standard deviations and tends to zero; `Shrinks P C` says that `P e / e²` tends to `C`.  `OpReaches` and `Reaches` (C151) allow any square roots.
-/

set_option linter.unusedSectionVars false

namespace OpenKalman.SigmaFilter
open Matrix Kalman SigmaPoints Filter Topology Asymptotics
open scoped ComplexOrder

variable {𝕜 : Type} [RCLike 𝕜] {b p : ℕ}

/-! ## Histories with less noise -/

/-- A noise term whose standard deviations are multiplied by `e`. -/
def lessNoise (e : ℝ) {n : ℕ} (d : GaussChol 𝕜 (Fin n)) : GaussChol 𝕜 (Fin n) := ⟨d.mean, (e : 𝕜) • d.fac⟩

/-- The same calls with noise terms multiplied by `e`. -/
def SOp.less (e : ℝ) : {n k : ℕ} → SOp 𝕜 n k → SOp 𝕜 n k
  | _, _, .predict k ns g => .predict k (fun i => lessNoise e (ns i)) g
  | _, _, .update k ns g z => .update k (fun i => lessNoise e (ns i)) g z

def SHist.less (e : ℝ) : {n k : ℕ} → SHist 𝕜 n k → SHist 𝕜 n k
  | _, _, .nil => .nil
  | _, _, .cons op h => .cons (op.less e) (h.less e)

/-- Along the way of the linearised filter, the functions are continuously differentiable and the covariances of measurements positive definite. -/
def Smooth (lib : Kalman.Lib 𝕜) : {n k : ℕ} → SHist 𝕜 n k → Gauss 𝕜 (Fin n) → Prop
  | _, _, .nil, _ => True
  | _, _, .cons (.predict k ns g) h, x => (∃ J, HasStrictFDerivAt (𝕜 := 𝕜) g J fun i => (dists x ns i).mean) ∧ Smooth lib h ((SOp.predict k ns g).runLin lib x)
  | _, _, .cons (.update k ns g z) h, x => (∃ J, HasStrictFDerivAt (𝕜 := 𝕜) g J fun i => (dists x ns i).mean) ∧ (linTransform lib k (dists x ns) g).1.cov.PosDef ∧
      Smooth lib h ((SOp.update k ns g z).runLin lib x)

/-! ## The transform -/

theorem linTransform_eq (lib : Kalman.Lib 𝕜) (k : Fin (b + 1) → ℕ) (d : (i : Fin (b + 1)) → Gauss 𝕜 (Fin (k i))) (hd : ∀ i, (d i).cov.IsHermitian)
    (g : ((i : Fin (b + 1)) → Fin (k i) → 𝕜) → Fin p → 𝕜) : linTransform lib k d g = (⟨g fun i => (d i).mean,
      jac g (fun i => (d i).mean) 0 * (d 0).cov * (jac g (fun i => (d i).mean) 0)ᴴ +
        ∑ i : Fin b, jac g (fun i => (d i).mean) i.succ * (d i.succ).cov * (jac g (fun i => (d i).mean) i.succ)ᴴ⟩, (d 0).cov * (jac g (fun i => (d i).mean) 0)ᴴ) := by
  unfold linTransform
  simp only []
  rw [sumNoiseCross_eq lib _ _ _ (hd 0) (by
    intro t ht
    obtain ⟨i, rfl⟩ := (List.mem_ofFn' _ _).1 ht
    exact hd i.succ)]
  unfold noiseCov
  rw [List.map_ofFn, List.sum_ofFn]
  rfl

/-- **C170** (transform): as the covariances shrink like `e²`, whichever square roots are used, the mean tends to that of the linearised transform, and so do covariance and cross-covariance
divided by `e²`. -/
theorem C170_transform (lib : Kalman.Lib 𝕜) (r : Rule) (k : Fin (b + 1) → ℕ) (hk : ∀ i, 0 < k i) (hr : Admissible r (∑ i, k i)) (g : ((i : Fin (b + 1)) → Fin (k i) → 𝕜) → Fin p → 𝕜)
    (d : ℝ → (i : Fin (b + 1)) → Gauss 𝕜 (Fin (k i))) (d0 : (i : Fin (b + 1)) → Gauss 𝕜 (Fin (k i))) (h0 : ∀ i, (d0 i).cov.IsHermitian)
    (hm : ∀ i, Tendsto (fun e => (d e i).mean) small (𝓝 (d0 i).mean)) (hP : ∀ i, Shrinks (fun e => (d e i).cov) (d0 i).cov)
    (hg : ∃ J, HasStrictFDerivAt (𝕜 := 𝕜) g J fun i => (d0 i).mean) (delta : ℝ → (i : Fin (b + 1)) → Matrix (Fin (k i)) (Fin (k i)) 𝕜)
    (hd : ∀ᶠ e in small, ∀ i, delta e i * (delta e i)ᴴ = (r.gamma (∑ i, k i) : 𝕜) • (d e i).cov) (y : ℝ → Gauss 𝕜 (Fin p) × Matrix (Fin (k 0)) (Fin p) 𝕜)
    (hy : ∀ᶠ e in small, covTransform lib r k (fun i => (d e i).mean) (delta e) g = some (y e)) :
    Tendsto (fun e => (y e).1.mean) small (𝓝 (linTransform lib k d0 g).1.mean) ∧ Shrinks (fun e => (y e).1.cov) (linTransform lib k d0 g).1.cov ∧
    Shrinks (fun e => (y e).2) (linTransform lib k d0 g).2 := by
  obtain ⟨J, hJ⟩ := hg
  rw [linTransform_eq lib k d0 h0]
  exact transform_limit r lib hk hr hJ (tendsto_pi_nhds.2 hm) (P := fun e i => (d e i).cov) hP hd hy

/-- **C170** (bias): the mean differs from the value of the function at the mean by less than the order of the standard deviations. -/
theorem C170_bias (lib : Kalman.Lib 𝕜) (r : Rule) (k : Fin (b + 1) → ℕ) (hk : ∀ i, 0 < k i) (hr : Admissible r (∑ i, k i)) (g : ((i : Fin (b + 1)) → Fin (k i) → 𝕜) → Fin p → 𝕜)
    (d : ℝ → (i : Fin (b + 1)) → Gauss 𝕜 (Fin (k i))) (d0 : (i : Fin (b + 1)) → Gauss 𝕜 (Fin (k i)))
    (hm : ∀ i, Tendsto (fun e => (d e i).mean) small (𝓝 (d0 i).mean)) (hP : ∀ i, Shrinks (fun e => (d e i).cov) (d0 i).cov)
    (hg : ∃ J, HasStrictFDerivAt (𝕜 := 𝕜) g J fun i => (d0 i).mean) (delta : ℝ → (i : Fin (b + 1)) → Matrix (Fin (k i)) (Fin (k i)) 𝕜)
    (hd : ∀ᶠ e in small, ∀ i, delta e i * (delta e i)ᴴ = (r.gamma (∑ i, k i) : 𝕜) • (d e i).cov) (y : ℝ → Gauss 𝕜 (Fin p) × Matrix (Fin (k 0)) (Fin p) 𝕜)
    (hy : ∀ᶠ e in small, covTransform lib r k (fun i => (d e i).mean) (delta e) g = some (y e)) :
    (fun e => (y e).1.mean - g fun i => (d e i).mean) =o[small] fun e => e := by
  obtain ⟨J, hJ⟩ := hg
  choose Z hZ hok using fun e => points_ok r k hk hr (delta e)
  have hW := (good_rule (𝕜 := 𝕜) r _ (sum_k_pos k hk) hr).total
  have hO : ∀ x c, (fun e => Z e x c) =O[small] fun e => e := points_isBigO r (P := fun e i => (d e i).cov) hP hd (Eventually.of_forall hZ)
  have h1 := restMean_isLittleO r hJ (tendsto_pi_nhds.2 hm) hO (r.weights (∑ i, k i))
  refine (isLittleO_pi.2 h1).congr' ?_ EventuallyEq.rfl
  filter_upwards [hy] with e he
  rw [transform_eq lib r k _ _ g (hZ e)] at he
  rw [← Option.some.inj he]
  show _ = weightedMean _ (outputs g _ (Z e)) - g _
  rw [mean_expand (J := J) _ hW _ _ (hok e).mean, add_sub_cancel_left]

/-! ## The filter -/

theorem dists_mean {k : Fin (b + 1) → ℕ} {x : ℝ → Gauss 𝕜 (Fin (k 0))} {x0 : Gauss 𝕜 (Fin (k 0))} (hx : Tendsto (fun e => (x e).mean) small (𝓝 x0.mean))
    (ns : (i : Fin b) → GaussChol 𝕜 (Fin (k i.succ))) (i : Fin (b + 1)) :
    Tendsto (fun e => (dists (x e) (fun i => lessNoise e (ns i)) i).mean) small (𝓝 (dists x0 ns i).mean) := by
  refine Fin.cases ?_ (fun i => ?_) i
  · exact hx
  · exact tendsto_const_nhds

theorem dists_shrinks {k : Fin (b + 1) → ℕ} {x : ℝ → Gauss 𝕜 (Fin (k 0))} {x0 : Gauss 𝕜 (Fin (k 0))} (hx : Shrinks (fun e => (x e).cov) x0.cov)
    (ns : (i : Fin b) → GaussChol 𝕜 (Fin (k i.succ))) (i : Fin (b + 1)) :
    Shrinks (fun e => (dists (x e) (fun i => lessNoise e (ns i)) i).cov) (dists x0 ns i).cov := by
  refine Fin.cases ?_ (fun i => ?_) i
  · exact hx
  · have h : Tendsto (fun _ : ℝ => (ns i).fac * (ns i).facᴴ) small (𝓝 ((ns i).fac * (ns i).facᴴ)) := tendsto_const_nhds
    refine Tendsto.congr' ?_ h
    filter_upwards [small_ne] with e he
    have hne : (e : 𝕜) ≠ 0 := RCLike.ofReal_ne_zero.2 he
    show _ = ((e : 𝕜) ^ 2)⁻¹ • (((e : 𝕜) • (ns i).fac) * ((e : 𝕜) • (ns i).fac)ᴴ)
    have hr : star (e : 𝕜) = e := by simp
    rw [conjTranspose_smul, hr, Matrix.smul_mul, Matrix.mul_smul, smul_smul, smul_smul, mul_assoc, ← sq, inv_mul_cancel₀ (pow_ne_zero _ hne), one_smul]

theorem dists_herm {k : Fin (b + 1) → ℕ} {x : Gauss 𝕜 (Fin (k 0))} (hx : x.cov.IsHermitian) (ns : (i : Fin b) → GaussChol 𝕜 (Fin (k i.succ))) (i : Fin (b + 1)) :
    (dists x ns i).cov.IsHermitian := by
  refine Fin.cases ?_ (fun i => ?_) i
  · exact hx
  · exact isHermitian_mul_conjTranspose_self _

theorem linTransform_herm (lib : Kalman.Lib 𝕜) (k : Fin (b + 1) → ℕ) (d : (i : Fin (b + 1)) → Gauss 𝕜 (Fin (k i))) (hd : ∀ i, (d i).cov.IsHermitian)
    (g : ((i : Fin (b + 1)) → Fin (k i) → 𝕜) → Fin p → 𝕜) : (linTransform lib k d g).1.cov.IsHermitian := by
  rw [linTransform_eq lib k d hd]
  refine (isHermitian_conj (hd 0) _).add ?_
  show (∑ i : Fin b, _ : Matrix (Fin p) (Fin p) 𝕜)ᴴ = _
  rw [conjTranspose_sum]
  exact Finset.sum_congr rfl fun i _ => (isHermitian_conj (hd i.succ) _)

theorem predict_reaches (lib : Kalman.Lib 𝕜) (r : Rule) (k : Fin (b + 1) → ℕ) (ns : (i : Fin b) → GaussChol 𝕜 (Fin (k i.succ))) (g : ((i : Fin (b + 1)) → Fin (k i) → 𝕜) → Fin p → 𝕜)
    (ha : OpAdmissible r (SOp.predict k ns g)) (x0 : Gauss 𝕜 (Fin (k 0))) (h0 : x0.cov.IsHermitian) (hg : ∃ J, HasStrictFDerivAt (𝕜 := 𝕜) g J fun i => (dists x0 ns i).mean)
    (x : ℝ → Gauss 𝕜 (Fin (k 0))) (hx : Tendsto (fun e => (x e).mean) small (𝓝 x0.mean)) (hP : Shrinks (fun e => (x e).cov) x0.cov) (u : ℝ → Gauss 𝕜 (Fin p))
    (hu : ∀ᶠ e in small, OpReaches lib r ((SOp.predict k ns g).less e) (x e) (u e)) :
    Tendsto (fun e => (u e).mean) small (𝓝 (linTransform lib k (dists x0 ns) g).1.mean) ∧ Shrinks (fun e => (u e).cov) (linTransform lib k (dists x0 ns) g).1.cov := by
  have hop : ∀ᶠ e in small, ∃ q : ((i : Fin (b + 1)) → Matrix (Fin (k i)) (Fin (k i)) 𝕜) × Matrix (Fin (k 0)) (Fin p) 𝕜,
      (∀ i, q.1 i * (q.1 i)ᴴ = (r.gamma (∑ i, k i) : 𝕜) • (dists (x e) (fun i => lessNoise e (ns i)) i).cov) ∧
      covTransform lib r k (fun i => (dists (x e) (fun i => lessNoise e (ns i)) i).mean) q.1 g = some (u e, q.2) := hu.mono fun e he => by
    obtain ⟨delta, hd, c, hc⟩ := he
    exact ⟨(delta, c), hd, hc⟩
  have : Nonempty (((i : Fin (b + 1)) → Matrix (Fin (k i)) (Fin (k i)) 𝕜) × Matrix (Fin (k 0)) (Fin p) 𝕜) := ⟨(fun _ => 0, 0)⟩
  obtain ⟨q, hq⟩ := hop.choice
  obtain ⟨h1, h2, -⟩ := C170_transform lib r k ha.1 ha.2 g (fun e => dists (x e) fun i => lessNoise e (ns i)) (dists x0 ns) (dists_herm h0 ns) (dists_mean hx ns) (dists_shrinks hP ns) hg
    (fun e => (q e).1) (hq.mono fun e he => he.1) (fun e => (u e, (q e).2)) (hq.mono fun e he => he.2)
  exact ⟨h1, h2⟩

theorem update_reaches (lib : Kalman.Lib 𝕜) (r : Rule) (k : Fin (b + 1) → ℕ) (ns : (i : Fin b) → GaussChol 𝕜 (Fin (k i.succ))) (g : ((i : Fin (b + 1)) → Fin (k i) → 𝕜) → Fin p → 𝕜)
    (z : Fin p → 𝕜) (ha : OpAdmissible r (SOp.update k ns g z)) (x0 : Gauss 𝕜 (Fin (k 0))) (h0 : x0.cov.IsHermitian)
    (hg : ∃ J, HasStrictFDerivAt (𝕜 := 𝕜) g J fun i => (dists x0 ns i).mean) (hS : (linTransform lib k (dists x0 ns) g).1.cov.PosDef)
    (x : ℝ → Gauss 𝕜 (Fin (k 0))) (hx : Tendsto (fun e => (x e).mean) small (𝓝 x0.mean)) (hP : Shrinks (fun e => (x e).cov) x0.cov) (u : ℝ → Gauss 𝕜 (Fin (k 0)))
    (hu : ∀ᶠ e in small, OpReaches lib r ((SOp.update k ns g z).less e) (x e) (u e)) :
    Tendsto (fun e => (u e).mean) small (𝓝 ((SOp.update k ns g z).runLin lib x0).mean) ∧ Shrinks (fun e => (u e).cov) ((SOp.update k ns g z).runLin lib x0).cov := by
  have hop : ∀ᶠ e in small, ∃ q : ((i : Fin (b + 1)) → Matrix (Fin (k i)) (Fin (k i)) 𝕜) × (Gauss 𝕜 (Fin p) × Matrix (Fin (k 0)) (Fin p) 𝕜),
      (∀ i, q.1 i * (q.1 i)ᴴ = (r.gamma (∑ i, k i) : 𝕜) • (dists (x e) (fun i => lessNoise e (ns i)) i).cov) ∧
      covTransform lib r k (fun i => (dists (x e) (fun i => lessNoise e (ns i)) i).mean) q.1 g = some q.2 ∧ updateStep lib id id (x e) q.2.1 q.2.2 z = u e := hu.mono fun e he => by
    obtain ⟨delta, hd, c, hc, hu⟩ := he
    exact ⟨(delta, c), hd, hc, hu.symm⟩
  have : Nonempty (((i : Fin (b + 1)) → Matrix (Fin (k i)) (Fin (k i)) 𝕜) × (Gauss 𝕜 (Fin p) × Matrix (Fin (k 0)) (Fin p) 𝕜)) := ⟨(fun _ => 0, ⟨0, 0⟩, 0)⟩
  obtain ⟨q, hq⟩ := hop.choice
  obtain ⟨h1, h2, h3⟩ := C170_transform lib r k ha.1 ha.2 g (fun e => dists (x e) fun i => lessNoise e (ns i)) (dists x0 ns) (dists_herm h0 ns) (dists_mean hx ns) (dists_shrinks hP ns) hg
    (fun e => (q e).1) (hq.mono fun e he => he.1) (fun e => (q e).2) (hq.mono fun e he => he.2.1)
  obtain ⟨h4, h5⟩ := update_limit lib hx hP h1 h2 h3 (hq.mono fun e he => transform_herm lib r he.2.1) hS z
  exact ⟨h4.congr' (hq.mono fun e he => congrArg Gauss.mean he.2.2), h5.congr (hq.mono fun e he => congrArg Gauss.cov he.2.2)⟩

/-- **C170** (filter): let mean and covariance (divided by `e²`) of the state tend to those of `x0`, and all noise be multiplied by `e`.  Then for every history of predictions and updates by
continuously differentiable functions, and whichever square roots are used, mean and covariance (divided by `e²`) tend to what the linearised filter makes of `x0`. -/
theorem C170_history (lib : Kalman.Lib 𝕜) (r : Rule) : {n l : ℕ} → (h : SHist 𝕜 n l) → AllAdmissible r h → (x0 : Gauss 𝕜 (Fin n)) → x0.cov.IsHermitian → Smooth lib h x0 →
    (x : ℝ → Gauss 𝕜 (Fin n)) → Tendsto (fun e => (x e).mean) small (𝓝 x0.mean) → Shrinks (fun e => (x e).cov) x0.cov → (y : ℝ → Gauss 𝕜 (Fin l)) →
    (∀ᶠ e in small, Reaches lib r (h.less e) (x e) (y e)) →
    Tendsto (fun e => (y e).mean) small (𝓝 (h.runLin lib x0).mean) ∧ Shrinks (fun e => (y e).cov) (h.runLin lib x0).cov
  | _, _, .nil, _, _, _, _, _, hx, hP, _, hy => ⟨hx.congr' (hy.mono fun _ he => congrArg Gauss.mean (Eq.symm he)), hP.congr (hy.mono fun _ he => congrArg Gauss.cov (Eq.symm he))⟩
  | _, _, .cons (k := q) (.predict k ns g) h, ha, x0, h0, hs, x, hx, hP, y, hy => by
    have : Nonempty (Gauss 𝕜 (Fin q)) := ⟨⟨0, 0⟩⟩
    have hy' : ∀ᶠ e in small, ∃ u, OpReaches lib r ((SOp.predict k ns g).less e) (x e) u ∧ Reaches lib r (h.less e) u (y e) := hy
    obtain ⟨u, hu⟩ := hy'.choice
    obtain ⟨h1, h2⟩ := predict_reaches lib r k ns g ha.1 x0 h0 hs.1 x hx hP u (hu.mono fun e he => he.1)
    exact C170_history lib r h ha.2 _ (linTransform_herm lib k _ (dists_herm h0 ns) g) hs.2 u h1 h2 y (hu.mono fun e he => he.2)
  | _, _, .cons (.update k ns g z) h, ha, x0, h0, hs, x, hx, hP, y, hy => by
    have : Nonempty (Gauss 𝕜 (Fin (k 0))) := ⟨⟨0, 0⟩⟩
    have hy' : ∀ᶠ e in small, ∃ u, OpReaches lib r ((SOp.update k ns g z).less e) (x e) u ∧ Reaches lib r (h.less e) u (y e) := hy
    obtain ⟨u, hu⟩ := hy'.choice
    obtain ⟨h1, h2⟩ := update_reaches lib r k ns g z ha.1 x0 h0 hs.1 hs.2.1 x hx hP u (hu.mono fun e he => he.1)
    refine C170_history lib r h ha.2 _ ?_ hs.2.2 u h1 h2 y (hu.mono fun e he => he.2)
    show (updateStep lib id id x0 (linTransform lib k (dists x0 ns) g).1 (linTransform lib k (dists x0 ns) g).2 z).cov.IsHermitian
    rw [updateStep_eq lib id id x0 _ _ z hs.2.1.1 (unit_of_posDef hs.2.1)]
    exact h0.sub (isHermitian_conj hs.2.1.1.inv _)

theorem less_admissible (r : Rule) (e : ℝ) : {n l : ℕ} → (h : SHist 𝕜 n l) → AllAdmissible r h → AllAdmissible r (h.less e)
  | _, _, .nil, _ => trivial
  | _, _, .cons (.predict _ _ _) h, ha => ⟨ha.1, less_admissible r e h ha.2⟩
  | _, _, .cons (.update _ _ _ _) h, ha => ⟨ha.1, less_admissible r e h ha.2⟩

/-- **C170** (the filter as coded): started with a mean and `e²` times a covariance, with noise multiplied by `e`, the filter always gives a result; mean and covariance (divided by `e²`) tend
to those of the linearised filter. -/
theorem C170_coded (lib : SLib 𝕜) (hs : Solves lib.toLib) (r : Rule) {n l : ℕ} (h : SHist 𝕜 n l) (ha : AllAdmissible r h) (x : Gauss 𝕜 (Fin n)) (hx : x.cov.PosSemidef)
    (hsm : Smooth lib.toLib h x) : ∃ y : ℝ → Gauss 𝕜 (Fin l), (∀ e, (h.less e).run lib r ⟨x.mean, ((e : 𝕜) ^ 2) • x.cov⟩ = some (y e)) ∧
    Tendsto (fun e => (y e).mean) small (𝓝 (h.runLin lib.toLib x).mean) ∧ Shrinks (fun e => (y e).cov) (h.runLin lib.toLib x).cov := by
  have hp : ∀ e : ℝ, (((e : 𝕜) ^ 2) • x.cov).PosSemidef := fun e => by
    have := smul_posSemidef hx (e ^ 2) (sq_nonneg e)
    rwa [RCLike.ofReal_pow] at this
  choose y h1 h2 _ using fun e => C151_history lib hs r (h.less e) (less_admissible r e h ha) ⟨x.mean, ((e : 𝕜) ^ 2) • x.cov⟩ (hp e)
  refine ⟨y, h1, C170_history lib.toLib r h ha x hx.1 hsm (fun e => ⟨x.mean, ((e : 𝕜) ^ 2) • x.cov⟩) tendsto_const_nhds ?_ y (Eventually.of_forall h2)⟩
  have hc : Tendsto (fun _ : ℝ => x.cov) small (𝓝 x.cov) := tendsto_const_nhds
  refine Tendsto.congr' ?_ hc
  filter_upwards [small_ne] with e he
  rw [smul_smul, inv_mul_cancel₀ (pow_ne_zero _ (RCLike.ofReal_ne_zero.2 he)), one_smul]

/-! ## A case: a pendulum -/

/-- Angle and its noise: `sin` of the angle, plus noise. -/
noncomputable def swing (z : (i : Fin 2) → Fin 1 → ℝ) (_ : Fin 1) : ℝ := Real.sin (z 0 0) + z 1 0

def coord (i : Fin 2) : ((i : Fin 2) → Fin 1 → ℝ) →L[ℝ] ℝ :=
  (ContinuousLinearMap.proj (R := ℝ) (φ := fun _ : Fin 1 => ℝ) 0).comp (ContinuousLinearMap.proj (R := ℝ) (φ := fun _ : Fin 2 => Fin 1 → ℝ) i)

theorem swing_deriv (μ : (i : Fin 2) → Fin 1 → ℝ) : HasStrictFDerivAt (𝕜 := ℝ) swing (ContinuousLinearMap.pi fun _ => Real.cos (μ 0 0) • coord 0 + coord 1) μ := by
  refine hasStrictFDerivAt_pi.2 fun _ => ?_
  have h0 : HasStrictFDerivAt (fun z : (i : Fin 2) → Fin 1 → ℝ => z 0 0) (coord 0) μ := (coord 0).hasStrictFDerivAt
  have h1 : HasStrictFDerivAt (fun z : (i : Fin 2) → Fin 1 → ℝ => z 1 0) (coord 1) μ := (coord 1).hasStrictFDerivAt
  exact h0.sin.add h1

theorem swing_jac (μ : (i : Fin 2) → Fin 1 → ℝ) : jac swing μ 0 = Matrix.of (fun _ _ => Real.cos (μ 0 0)) ∧ jac swing μ 1 = (1 : Matrix (Fin 1) (Fin 1) ℝ) := by
  constructor
  · ext a c
    obtain rfl := Subsingleton.elim a 0
    obtain rfl := Subsingleton.elim c 0
    simp [jac, (swing_deriv μ).hasFDerivAt.fderiv, coord]
  · ext a c
    obtain rfl := Subsingleton.elim a 0
    obtain rfl := Subsingleton.elim c 0
    simp [jac, (swing_deriv μ).hasFDerivAt.fderiv, coord]

/-- A prediction and an update by `swing`, each with noise of unit variance. -/
noncomputable def swinging : SHist ℝ 1 1 :=
  .cons (.predict (b := 1) (fun _ => 1) (fun _ => ⟨0, 1⟩) swing) (.cons (.update (b := 1) (fun _ => 1) (fun _ => ⟨0, 1⟩) swing 1) .nil)

theorem swing_pos (lib : Kalman.Lib ℝ) (x : Gauss ℝ (Fin 1)) (hx : x.cov.PosSemidef) :
    (linTransform lib (b := 1) (fun _ => 1) (dists x fun _ => ⟨0, 1⟩) swing).1.cov.PosDef := by
  rw [linTransform_eq lib (b := 1) (fun _ => 1) _ (dists_herm hx.1 _)]
  have h1 : (dists (k := fun _ : Fin 2 => 1) x (fun _ => ⟨0, 1⟩) 1).cov = (1 : Matrix (Fin 1) (Fin 1) ℝ) := by
    show (1 : Matrix (Fin 1) (Fin 1) ℝ) * (1 : Matrix (Fin 1) (Fin 1) ℝ)ᴴ = 1
    simp
  simp only [Fin.sum_univ_one, Fin.succ_zero_eq_one, h1, (swing_jac _).2]
  refine PosDef.posSemidef_add (hx.mul_mul_conjTranspose_same _) ?_
  simpa using (PosDef.one : (1 : Matrix (Fin 1) (Fin 1) ℝ).PosDef)

theorem swinging_smooth (lib : Kalman.Lib ℝ) : Smooth lib swinging ⟨fun _ => 1, 1⟩ :=
  ⟨⟨_, swing_deriv _⟩, ⟨_, swing_deriv _⟩, swing_pos lib _ (swing_pos lib _ PosSemidef.one).posSemidef, trivial⟩

/-- With the default parameters of the unscented transform; the filter is not linear, and its limit is not zero. -/
example : ∃ y : ℝ → Gauss ℝ (Fin 1), (∀ e, (swinging.less e).run solvingLib (.unscented 0.001 2 0) ⟨fun _ => 1, (e ^ 2) • 1⟩ = some (y e)) ∧
    Tendsto (fun e => (y e).mean) small (𝓝 (swinging.runLin (solvingLib : SLib ℝ).toLib ⟨fun _ => 1, 1⟩).mean) ∧
    Shrinks (fun e => (y e).cov) (swinging.runLin (solvingLib : SLib ℝ).toLib ⟨fun _ => 1, 1⟩).cov := by
  have h2 := (defaults_admissible 2 (by norm_num)).1
  exact C170_coded solvingLib solvingLib_solves (.unscented 0.001 2 0) swinging ⟨⟨fun _ => Nat.one_pos, by simpa using h2⟩, ⟨fun _ => Nat.one_pos, by simpa using h2⟩, trivial⟩
    ⟨fun _ => 1, 1⟩ PosSemidef.one (swinging_smooth _)

/-- The limit of the prediction is as expected: `sin 1`, and `cos² 1 + 1`. -/
example (lib : Kalman.Lib ℝ) : ((SOp.predict (b := 1) (fun _ => 1) (fun _ => ⟨0, 1⟩) swing).runLin lib ⟨fun _ => 1, 1⟩).mean 0 = Real.sin 1 ∧
    ((SOp.predict (b := 1) (fun _ => 1) (fun _ => ⟨0, 1⟩) swing).runLin lib ⟨fun _ => 1, 1⟩).cov 0 0 = Real.cos 1 ^ 2 + 1 := by
  constructor
  · show Real.sin 1 + 0 = Real.sin 1
    simp
  · show (linTransform lib (b := 1) (fun _ => 1) (dists ⟨fun _ => 1, 1⟩ fun _ => ⟨0, 1⟩) swing).1.cov 0 0 = _
    rw [linTransform_eq lib (b := 1) (fun _ => 1) _ (dists_herm isHermitian_one _)]
    have h1 : (dists (k := fun _ : Fin 2 => 1) (⟨fun _ => 1, 1⟩ : Gauss ℝ (Fin 1)) (fun _ => ⟨0, 1⟩) 1).cov = (1 : Matrix (Fin 1) (Fin 1) ℝ) := by
      show (1 : Matrix (Fin 1) (Fin 1) ℝ) * (1 : Matrix (Fin 1) (Fin 1) ℝ)ᴴ = 1
      simp
    have h0 : (dists (k := fun _ : Fin 2 => 1) (⟨fun _ => 1, 1⟩ : Gauss ℝ (Fin 1)) (fun _ => ⟨0, 1⟩) 0).cov = (1 : Matrix (Fin 1) (Fin 1) ℝ) := rfl
    simp only [Fin.sum_univ_one, Fin.succ_zero_eq_one, h1, h0, (swing_jac _).1, (swing_jac _).2]
    have hm : (dists (k := fun _ : Fin 2 => 1) (⟨fun _ => 1, 1⟩ : Gauss ℝ (Fin 1)) (fun _ => ⟨0, 1⟩) 0).mean 0 = 1 := rfl
    simp [hm, Matrix.mul_apply, sq]

end OpenKalman.SigmaFilter
