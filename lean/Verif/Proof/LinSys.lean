import Verif.Spec.LinSys
import Verif.Theorems.Kalman
import Mathlib.Probability.Moments.Variance

/-! # Estimation in linear systems: covariances, and one step of the filter -/

set_option linter.unusedSectionVars false

namespace OpenKalman.LinSys
open MeasureTheory ProbabilityTheory Matrix OpenKalman.Kalman

variable {Ω : Type} [MeasurableSpace Ω] {P : Measure Ω} [IsProbabilityMeasure P] {n m k : ℕ}

/-! ## Square integrable vectors -/

theorem Square.add {X Y : Ω → Fin n → ℝ} (hX : Square P X) (hY : Square P Y) : Square P fun ω => X ω + Y ω := fun i => (hX i).add (hY i)

theorem Square.sub {X Y : Ω → Fin n → ℝ} (hX : Square P X) (hY : Square P Y) : Square P fun ω => X ω - Y ω := fun i => (hX i).sub (hY i)

theorem Square.const (c : Fin n → ℝ) : Square P fun _ => c := fun i => memLp_const (c i)

theorem Square.mulVec {X : Ω → Fin n → ℝ} (hX : Square P X) (A : Matrix (Fin m) (Fin n) ℝ) : Square P fun ω => A *ᵥ X ω := by
  intro i
  have : MemLp (fun ω => ∑ j, A i j * X ω j) 2 P := memLp_finset_sum _ fun j _ => (hX j).const_mul (A i j)
  exact this

/-! ## Covariances -/

theorem covMat_swap (X : Ω → Fin n → ℝ) (Y : Ω → Fin m → ℝ) : covMat P X Y = (covMat P Y X)ᵀ := by
  ext i j
  exact covariance_comm _ _

theorem covMat_add_left {X Y : Ω → Fin n → ℝ} {Z : Ω → Fin m → ℝ} (hX : Square P X) (hY : Square P Y) (hZ : Square P Z) :
    covMat P (fun ω => X ω + Y ω) Z = covMat P X Z + covMat P Y Z := by
  ext i j
  exact covariance_add_left (hX i) (hY i) (hZ j)

theorem covMat_sub_left {X Y : Ω → Fin n → ℝ} {Z : Ω → Fin m → ℝ} (hX : Square P X) (hY : Square P Y) (hZ : Square P Z) :
    covMat P (fun ω => X ω - Y ω) Z = covMat P X Z - covMat P Y Z := by
  ext i j
  exact covariance_sub_left (hX i) (hY i) (hZ j)

theorem covMat_mulVec_left {X : Ω → Fin n → ℝ} {Z : Ω → Fin m → ℝ} (hX : Square P X) (hZ : Square P Z) (A : Matrix (Fin k) (Fin n) ℝ) :
    covMat P (fun ω => A *ᵥ X ω) Z = A * covMat P X Z := by
  ext i j
  show cov[fun ω => ∑ l, A i l * X ω l, fun ω => Z ω j; P] = ∑ l, A i l * cov[fun ω => X ω l, fun ω => Z ω j; P]
  rw [covariance_fun_sum_left (fun l => (hX l).const_mul (A i l)) (hZ j)]
  exact Finset.sum_congr rfl fun l _ => covariance_const_mul_left _

theorem covMat_const_left (c : Fin n → ℝ) (Z : Ω → Fin m → ℝ) : covMat P (fun _ => c) Z = 0 := by
  ext i j
  exact covariance_const_left (c i)

theorem covMat_zero_left (Z : Ω → Fin m → ℝ) : covMat P (fun _ => (0 : Fin n → ℝ)) Z = 0 := covMat_const_left 0 Z

theorem covMat_add_right {X Y : Ω → Fin n → ℝ} {Z : Ω → Fin m → ℝ} (hX : Square P X) (hY : Square P Y) (hZ : Square P Z) :
    covMat P Z (fun ω => X ω + Y ω) = covMat P Z X + covMat P Z Y := by
  rw [covMat_swap, covMat_add_left hX hY hZ, transpose_add, ← covMat_swap, ← covMat_swap]

theorem covMat_sub_right {X Y : Ω → Fin n → ℝ} {Z : Ω → Fin m → ℝ} (hX : Square P X) (hY : Square P Y) (hZ : Square P Z) :
    covMat P Z (fun ω => X ω - Y ω) = covMat P Z X - covMat P Z Y := by
  rw [covMat_swap, covMat_sub_left hX hY hZ, transpose_sub, ← covMat_swap, ← covMat_swap]

theorem covMat_mulVec_right {X : Ω → Fin n → ℝ} {Z : Ω → Fin m → ℝ} (hX : Square P X) (hZ : Square P Z) (A : Matrix (Fin k) (Fin n) ℝ) :
    covMat P Z (fun ω => A *ᵥ X ω) = covMat P Z X * Aᵀ := by
  rw [covMat_swap, covMat_mulVec_left hX hZ, transpose_mul, ← covMat_swap]

theorem covMat_const_right (c : Fin n → ℝ) (Z : Ω → Fin m → ℝ) : covMat P Z (fun _ => c) = 0 := by
  rw [covMat_swap, covMat_const_left, transpose_zero]

/-! ## Means -/

theorem meanVec_add {X Y : Ω → Fin n → ℝ} (hX : Square P X) (hY : Square P Y) : meanVec P (fun ω => X ω + Y ω) = meanVec P X + meanVec P Y := by
  ext i
  exact integral_add ((hX i).integrable one_le_two) ((hY i).integrable one_le_two)

theorem meanVec_sub {X Y : Ω → Fin n → ℝ} (hX : Square P X) (hY : Square P Y) : meanVec P (fun ω => X ω - Y ω) = meanVec P X - meanVec P Y := by
  ext i
  exact integral_sub ((hX i).integrable one_le_two) ((hY i).integrable one_le_two)

theorem meanVec_const (c : Fin n → ℝ) : meanVec P (fun _ => c) = c := by
  ext i
  simp [meanVec]

theorem meanVec_mulVec {X : Ω → Fin n → ℝ} (hX : Square P X) (A : Matrix (Fin k) (Fin n) ℝ) : meanVec P (fun ω => A *ᵥ X ω) = A *ᵥ meanVec P X := by
  ext i
  show ∫ ω, ∑ l, A i l * X ω l ∂P = ∑ l, A i l * ∫ ω, X ω l ∂P
  rw [integral_finset_sum _ fun l _ => ((hX l).integrable one_le_two).const_mul (A i l)]
  exact Finset.sum_congr rfl fun l _ => integral_const_mul _ _

/-! ## Sums of noises -/

theorem noiseSum_cons (v : Noise Ω k) (ns : List (Noise Ω k)) : noiseSum (v :: ns) = fun ω => v.gain *ᵥ v.value ω + noiseSum ns ω := rfl

theorem square_noiseSum {ns : List (Noise Ω k)} (h : ∀ v ∈ ns, Square P v.value) : Square P (noiseSum ns) := by
  induction ns with
  | nil => exact Square.const 0
  | cons v ns ih =>
    rw [noiseSum_cons]
    exact ((h v List.mem_cons_self).mulVec v.gain).add (ih fun w hw => h w (List.mem_cons_of_mem _ hw))

theorem meanVec_noiseSum {ns : List (Noise Ω k)} (h : ∀ v ∈ ns, Square P v.value) :
    meanVec P (noiseSum ns) = (ns.map fun v => v.gain *ᵥ meanVec P v.value).sum := by
  induction ns with
  | nil => exact meanVec_const 0
  | cons v ns ih =>
    have h' := fun w hw => h w (List.mem_cons_of_mem _ hw)
    rw [noiseSum_cons, meanVec_add ((h v List.mem_cons_self).mulVec v.gain) (square_noiseSum h'), meanVec_mulVec (h v List.mem_cons_self), ih h', List.map_cons,
      List.sum_cons]

theorem covMat_noiseSum_left {ns : List (Noise Ω k)} (h : ∀ v ∈ ns, Square P v.value) {Z : Ω → Fin m → ℝ} (hZ : Square P Z)
    (h0 : ∀ v ∈ ns, covMat P v.value Z = 0) : covMat P (noiseSum ns) Z = 0 := by
  induction ns with
  | nil => exact covMat_const_left 0 Z
  | cons v ns ih =>
    have h' := fun w hw => h w (List.mem_cons_of_mem _ hw)
    rw [noiseSum_cons, covMat_add_left ((h v List.mem_cons_self).mulVec v.gain) (square_noiseSum h') hZ, covMat_mulVec_left (h v List.mem_cons_self) hZ,
      h0 v List.mem_cons_self, ih h' fun w hw => h0 w (List.mem_cons_of_mem _ hw)]
    simp

theorem covMat_noiseSum {ns : List (Noise Ω k)} (h : ∀ v ∈ ns, Square P v.value) (hp : ns.Pairwise fun v w => covMat P v.value w.value = 0) :
    covMat P (noiseSum ns) (noiseSum ns) = (ns.map fun v => v.gain * covMat P v.value v.value * v.gainᵀ).sum := by
  induction ns with
  | nil => exact covMat_const_left 0 _
  | cons v ns ih =>
    have h' := fun w hw => h w (List.mem_cons_of_mem _ hw)
    have hv := h v List.mem_cons_self
    have hs := square_noiseSum h'
    obtain ⟨hp1, hp2⟩ := List.pairwise_cons.1 hp
    have hz : covMat P (noiseSum ns) v.value = 0 := covMat_noiseSum_left h' hv fun w hw => by rw [covMat_swap, hp1 w hw, transpose_zero]
    have hz' : covMat P v.value (noiseSum ns) = 0 := by rw [covMat_swap, hz, transpose_zero]
    rw [noiseSum_cons, covMat_add_left (hv.mulVec v.gain) hs ((hv.mulVec v.gain).add hs), covMat_mulVec_left hv ((hv.mulVec v.gain).add hs),
      covMat_add_right (hv.mulVec v.gain) hs hv, covMat_add_right (hv.mulVec v.gain) hs hs, covMat_mulVec_right hv hv, covMat_mulVec_right hv hs, hz, hz', ih h' hp2,
      List.map_cons, List.sum_cons]
    simp [Matrix.mul_assoc]

/-! ## What the filter is told -/

/-- The distribution given to the filter for a noise. -/
noncomputable def told (P : Measure Ω) (v : Noise Ω k) : GaussChol ℝ (Fin k) := ⟨meanVec P v.value, v.factor⟩

/-- The calls of the filter for the measurements made in the case `ω`: `predict` for each move, `update` for each measurement. -/
noncomputable def System.hist (P : Measure Ω) : {n l : ℕ} → System Ω n l → (Ω → Fin n → ℝ) → Ω → Hist ℝ n l
  | _, _, .done, _, _ => .nil
  | _, _, .move A ns s, x, ω => .cons (.predict ⟨A, ns.map Noise.gain⟩ (ns.map (told P))) (s.hist P (moved A ns x) ω)
  | _, _, .measure m C ns s, x, ω => .cons (.update m ⟨C, ns.map Noise.gain⟩ (ns.map (told P)) (moved C ns x ω)) (s.hist P x ω)

theorem zipIdx_getD {A B C D : Type} (l : List A) (f : A → B) (h : A → C) (c : C) (g : C → B → D) :
    (l.map f).zipIdx.map (fun v => g ((l.map h).getD v.2 c) v.1) = l.map fun a => g (h a) (f a) := by
  apply List.ext_getElem
  · simp
  · intro i h1 h2
    have : i < l.length := by simpa using h2
    simp [List.getD_eq_getElem?_getD, this]

theorem told_total {ns : List (Noise Ω k)} (h : ∀ v ∈ ns, Square P v.value) (hp : ns.Pairwise fun v w => covMat P v.value w.value = 0)
    (hf : ∀ v ∈ ns, v.factor * v.factorᵀ = covMat P v.value v.value) (A : Matrix (Fin k) (Fin n) ℝ) :
    noiseTotal ⟨A, ns.map Noise.gain⟩ ((ns.map (told P)).map GaussChol.toGauss) = covMat P (noiseSum ns) (noiseSum ns) ∧
    (((ns.map (told P)).map GaussChol.toGauss).zipIdx.map fun v => (ns.map Noise.gain).getD v.2 1 *ᵥ v.1.mean).sum = meanVec P (noiseSum ns) := by
  rw [List.map_map]
  constructor
  · unfold noiseTotal
    refine (congrArg List.sum (zipIdx_getD ns _ Noise.gain 1 fun B (d : Gauss ℝ (Fin k)) => B * d.cov * Bᴴ)).trans ?_
    rw [covMat_noiseSum h hp]
    congr 1
    refine List.map_congr_left fun v hv => ?_
    show v.gain * (v.factor * v.factorᴴ) * v.gainᴴ = _
    rw [conjTranspose_eq_transpose_of_trivial, conjTranspose_eq_transpose_of_trivial, hf v hv]
  · refine (congrArg List.sum (zipIdx_getD ns _ Noise.gain 1 fun B (d : Gauss ℝ (Fin k)) => B *ᵥ d.mean)).trans ?_
    rw [meanVec_noiseSum h]
    rfl

/-! ## Affine functions of what is known -/

theorem one_mem (Z : Set (Ω → ℝ)) : (fun _ => 1 : Ω → ℝ) ∈ affine Z := Submodule.subset_span (Or.inl rfl)

theorem const_mem (Z : Set (Ω → ℝ)) (c : ℝ) : (fun _ => c : Ω → ℝ) ∈ affine Z := by
  have := (affine Z).smul_mem c (one_mem Z)
  convert this using 1
  funext ω
  simp

theorem mem_affine {Z : Set (Ω → ℝ)} {f : Ω → ℝ} (h : f ∈ Z) : f ∈ affine Z := Submodule.subset_span (Or.inr h)

theorem affine_mono {Z Z' : Set (Ω → ℝ)} (h : Z ⊆ Z') : affine Z ≤ affine Z' := Submodule.span_mono (Set.union_subset_union_right _ h)

theorem affine_square {Z : Set (Ω → ℝ)} (h : ∀ f ∈ Z, MemLp f 2 P) {g : Ω → ℝ} (hg : g ∈ affine Z) : MemLp g 2 P := by
  induction hg using Submodule.span_induction with
  | mem f hf =>
    rcases hf with rfl | hf
    · exact memLp_const 1
    · exact h f hf
  | zero => exact memLp_const 0
  | add f g _ _ hf hg => exact hf.add hg
  | smul c f _ hf => exact hf.const_mul c

theorem affine_cov {Z : Set (Ω → ℝ)} (h : ∀ f ∈ Z, MemLp f 2 P) {e : Ω → ℝ} (he : MemLp e 2 P) (h0 : ∀ f ∈ Z, cov[e, f; P] = 0) {g : Ω → ℝ} (hg : g ∈ affine Z) :
    cov[e, g; P] = 0 := by
  induction hg using Submodule.span_induction with
  | mem f hf =>
    rcases hf with rfl | hf
    · exact covariance_const_right 1
    · exact h0 f hf
  | zero => exact covariance_zero_right
  | add f g hf' hg' hf hg => rw [covariance_add_right he (affine_square h hf') (affine_square h hg'), hf, hg, add_zero]
  | smul c f _ hf => rw [covariance_smul_right, hf, mul_zero]

/-- Linear combinations of affine functions. -/
theorem mulVec_mem {Z : Set (Ω → ℝ)} {X : Ω → Fin n → ℝ} (h : ∀ i, (fun ω => X ω i) ∈ affine Z) (A : Matrix (Fin k) (Fin n) ℝ) (i : Fin k) :
    (fun ω => (A *ᵥ X ω) i) ∈ affine Z := by
  have : (∑ j, A i j • fun ω => X ω j) ∈ affine Z := (affine Z).sum_mem fun j _ => (affine Z).smul_mem _ (h j)
  convert this using 1
  funext ω
  simp [Matrix.mulVec, dotProduct]

theorem covMat_posSemidef {X : Ω → Fin n → ℝ} (hX : Square P X) : (covMat P X X).PosSemidef := by
  refine PosSemidef.of_dotProduct_mulVec_nonneg ?_ fun a => ?_
  · show (covMat P X X)ᴴ = _
    rw [conjTranspose_eq_transpose_of_trivial, ← covMat_swap]
  · let A : Matrix (Fin 1) (Fin n) ℝ := Matrix.of fun _ j => a j
    have h1 := covMat_mulVec_left hX (hX.mulVec A) A
    rw [covMat_mulVec_right hX hX A] at h1
    have h2 := congrFun (congrFun h1 0) 0
    have h3 : (A * (covMat P X X * Aᵀ)) 0 0 = star a ⬝ᵥ covMat P X X *ᵥ a := by
      simp only [Matrix.mul_apply, dotProduct, Matrix.mulVec, A, Matrix.of_apply, Matrix.transpose_apply, Pi.star_apply, star_trivial]
    rw [← h3, ← h2]
    show 0 ≤ cov[fun ω => (A *ᵥ X ω) 0, fun ω => (A *ᵥ X ω) 0; P]
    rw [covariance_self ((hX.mulVec A) 0).1.aemeasurable]
    exact variance_nonneg _ _

/-! ## What holds between the steps -/

/-- `Z` has been measured, the state is `x`, the estimate is `m` with covariance `C`. -/
structure Inv (P : Measure Ω) (Z : Set (Ω → ℝ)) (x m : Ω → Fin n → ℝ) (C : Matrix (Fin n) (Fin n) ℝ) : Prop where
  xs : Square P x
  zs : ∀ f ∈ Z, MemLp f 2 P
  known : ∀ i, (fun ω => m ω i) ∈ affine Z
  mean : meanVec P (fun ω => x ω - m ω) = 0
  cov : covMat P (fun ω => x ω - m ω) (fun ω => x ω - m ω) = C
  orth : ∀ f ∈ Z, ∀ i, cov[fun ω => (x ω - m ω) i, f; P] = 0

/-- A noise that has not been added yet. -/
structure Free (P : Measure Ω) (Z : Set (Ω → ℝ)) (x : Ω → Fin n → ℝ) (w : Ω → Fin k → ℝ) : Prop where
  ws : Square P w
  state : covMat P w x = 0
  known : ∀ f ∈ Z, ∀ i, cov[fun ω => w ω i, f; P] = 0

theorem Inv.ms {Z : Set (Ω → ℝ)} {x m : Ω → Fin n → ℝ} {C : Matrix (Fin n) (Fin n) ℝ} (h : Inv P Z x m C) : Square P m :=
  fun i => affine_square h.zs (h.known i)

theorem Inv.es {Z : Set (Ω → ℝ)} {x m : Ω → Fin n → ℝ} {C : Matrix (Fin n) (Fin n) ℝ} (h : Inv P Z x m C) : Square P fun ω => x ω - m ω :=
  h.xs.sub h.ms

theorem Inv.orth' {Z : Set (Ω → ℝ)} {x m : Ω → Fin n → ℝ} {C : Matrix (Fin n) (Fin n) ℝ} (h : Inv P Z x m C) {Y : Ω → Fin k → ℝ} (hY : ∀ i, (fun ω => Y ω i) ∈ affine Z) :
    covMat P (fun ω => x ω - m ω) Y = 0 := by
  ext i j
  exact affine_cov h.zs (h.es i) (fun f hf => h.orth f hf i) (hY j)

theorem Free.orth' {Z : Set (Ω → ℝ)} {x : Ω → Fin n → ℝ} {w : Ω → Fin k → ℝ} (hz : ∀ f ∈ Z, MemLp f 2 P) (h : Free P Z x w) {Y : Ω → Fin m → ℝ}
    (hY : ∀ i, (fun ω => Y ω i) ∈ affine Z) : covMat P w Y = 0 := by
  ext i j
  exact affine_cov hz (h.ws i) (fun f hf => h.known f hf i) (hY j)

theorem Inv.move {Z : Set (Ω → ℝ)} {x m : Ω → Fin n → ℝ} {C : Matrix (Fin n) (Fin n) ℝ} (h : Inv P Z x m C) {v : Ω → Fin k → ℝ} (hv : Free P Z x v)
    (A : Matrix (Fin k) (Fin n) ℝ) :
    Inv P Z (fun ω => A *ᵥ x ω + v ω) (fun ω => A *ᵥ m ω + meanVec P v) (A * C * Aᵀ + covMat P v v) := by
  have hvs := hv.ws
  have he := h.es
  have e : (fun ω => (A *ᵥ x ω + v ω) - (A *ᵥ m ω + meanVec P v)) = fun ω => A *ᵥ (x ω - m ω) + (v ω - meanVec P v) := by
    funext ω
    rw [Matrix.mulVec_sub]
    abel
  have hc : Square P fun ω => v ω - meanVec P v := hvs.sub (Square.const _)
  have hAe : Square P fun ω => A *ᵥ (x ω - m ω) := he.mulVec A
  have cl : ∀ {l : ℕ} {Y : Ω → Fin l → ℝ}, Square P Y → covMat P (fun ω => v ω - meanVec P v) Y = covMat P v Y := by
    intro l Y hY
    rw [covMat_sub_left hvs (Square.const _) hY, covMat_const_left, sub_zero]
  have cr : ∀ {l : ℕ} {Y : Ω → Fin l → ℝ}, Square P Y → covMat P Y (fun ω => v ω - meanVec P v) = covMat P Y v := by
    intro l Y hY
    rw [covMat_sub_right hvs (Square.const _) hY, covMat_const_right, sub_zero]
  have hve : covMat P v (fun ω => x ω - m ω) = 0 := by
    rw [covMat_sub_right h.xs h.ms hvs, hv.state, hv.orth' h.zs h.known, sub_zero]
  have hev : covMat P (fun ω => x ω - m ω) v = 0 := by rw [covMat_swap, hve, transpose_zero]
  refine ⟨(h.xs.mulVec A).add hvs, h.zs, fun i => ?_, ?_, ?_, fun f hf i => ?_⟩
  · exact (affine Z).add_mem (mulVec_mem h.known A i) (const_mem Z _)
  · rw [e, meanVec_add hAe hc, meanVec_mulVec he, h.mean, meanVec_sub hvs (Square.const _), meanVec_const]
    simp
  · rw [e, covMat_add_left hAe hc (hAe.add hc), covMat_add_right hAe hc hAe, covMat_add_right hAe hc hc, cr hAe, cr hc, cl hAe, cl hvs,
      covMat_mulVec_left he hAe, covMat_mulVec_right he he, covMat_mulVec_left he hvs, hev, covMat_mulVec_right he hvs, hve, h.cov]
    simp [Matrix.mul_assoc]
  · have ei : (fun ω => ((A *ᵥ x ω + v ω) - (A *ᵥ m ω + meanVec P v)) i) = fun ω => (A *ᵥ (x ω - m ω) + (v ω - meanVec P v)) i :=
      funext fun ω => congrFun (congrFun e ω) i
    rw [ei]
    have hf2 := h.zs f hf
    let F : Ω → Fin 1 → ℝ := fun ω _ => f ω
    have hF : Square P F := fun _ => hf2
    have h1 : covMat P (fun ω => x ω - m ω) F = 0 := by ext a b; exact h.orth f hf a
    have h2 : covMat P v F = 0 := by ext a b; exact hv.known f hf a
    have h3 : covMat P (fun ω => A *ᵥ (x ω - m ω) + (v ω - meanVec P v)) F = 0 := by
      rw [covMat_add_left hAe hc hF, covMat_mulVec_left he hF, cl hF, h1, h2]
      simp
    exact congrFun (congrFun h3 i) 0

theorem Inv.measure {Z : Set (Ω → ℝ)} {x m : Ω → Fin n → ℝ} {C : Matrix (Fin n) (Fin n) ℝ} (h : Inv P Z x m C) {v : Ω → Fin k → ℝ} (hv : Free P Z x v)
    (H : Matrix (Fin k) (Fin n) ℝ) (K : Matrix (Fin n) (Fin k) ℝ) (hK : K * (H * C * Hᵀ + covMat P v v) = C * Hᵀ) :
    Inv P (Z ∪ Set.range fun j ω => (H *ᵥ x ω + v ω) j) x (fun ω => m ω + K *ᵥ (H *ᵥ x ω + v ω - (H *ᵥ m ω + meanVec P v))) (C - K * (H * C)) := by
  have hvs := hv.ws
  have he := h.es
  have hz : Square P fun ω => H *ᵥ x ω + v ω := (h.xs.mulVec H).add hvs
  set e : Ω → Fin n → ℝ := fun ω => x ω - m ω with hed
  have hHe : Square P fun ω => H *ᵥ e ω := he.mulVec H
  have hc : Square P fun ω => v ω - meanVec P v := hvs.sub (Square.const _)
  have hI : Square P fun ω => H *ᵥ e ω + (v ω - meanVec P v) := hHe.add hc
  have e' : (fun ω => x ω - (m ω + K *ᵥ (H *ᵥ x ω + v ω - (H *ᵥ m ω + meanVec P v)))) = fun ω => e ω - K *ᵥ (H *ᵥ e ω + (v ω - meanVec P v)) := by
    funext ω
    have : H *ᵥ x ω + v ω - (H *ᵥ m ω + meanVec P v) = H *ᵥ e ω + (v ω - meanVec P v) := by
      rw [hed, Matrix.mulVec_sub]
      abel
    rw [this, sub_add_eq_sub_sub]
  have cl : ∀ {l : ℕ} {Y : Ω → Fin l → ℝ}, Square P Y → covMat P (fun ω => v ω - meanVec P v) Y = covMat P v Y := by
    intro l Y hY
    rw [covMat_sub_left hvs (Square.const _) hY, covMat_const_left, sub_zero]
  have cr : ∀ {l : ℕ} {Y : Ω → Fin l → ℝ}, Square P Y → covMat P Y (fun ω => v ω - meanVec P v) = covMat P Y v := by
    intro l Y hY
    rw [covMat_sub_right hvs (Square.const _) hY, covMat_const_right, sub_zero]
  have hvm : covMat P v m = 0 := hv.orth' h.zs h.known
  have hve : covMat P v e = 0 := by rw [hed, covMat_sub_right h.xs h.ms hvs, hv.state, hvm, sub_zero]
  have hev : covMat P e v = 0 := by rw [covMat_swap, hve, transpose_zero]
  have hem : covMat P e m = 0 := h.orth' h.known
  -- the new error with anything
  have hnew : ∀ {l : ℕ} {Y : Ω → Fin l → ℝ}, Square P Y →
      covMat P (fun ω => e ω - K *ᵥ (H *ᵥ e ω + (v ω - meanVec P v))) Y = covMat P e Y - K * (H * covMat P e Y + covMat P v Y) := by
    intro l Y hY
    rw [covMat_sub_left he (hI.mulVec K) hY, covMat_mulVec_left hI hY, covMat_add_left hHe hc hY, covMat_mulVec_left he hY, cl hY]
  have hnewI : covMat P (fun ω => e ω - K *ᵥ (H *ᵥ e ω + (v ω - meanVec P v))) (fun ω => H *ᵥ e ω + (v ω - meanVec P v)) = 0 := by
    rw [hnew hI, covMat_add_right hHe hc he, covMat_add_right hHe hc hvs, cr he, cr hvs, covMat_mulVec_right he he, covMat_mulVec_right he hvs, hve, hev, h.cov]
    rw [Matrix.zero_mul, zero_add, add_zero, ← Matrix.mul_assoc H, hK, sub_self]
  have hnewm : covMat P (fun ω => e ω - K *ᵥ (H *ᵥ e ω + (v ω - meanVec P v))) m = 0 := by
    rw [hnew h.ms, hem, hvm]
    simp
  have hnewz : covMat P (fun ω => e ω - K *ᵥ (H *ᵥ e ω + (v ω - meanVec P v))) (fun ω => H *ᵥ x ω + v ω) = 0 := by
    have : (fun ω => H *ᵥ x ω + v ω) = fun ω => (H *ᵥ m ω + meanVec P v) + (H *ᵥ e ω + (v ω - meanVec P v)) := by
      funext ω
      rw [hed, Matrix.mulVec_sub]
      abel
    have hn : Square P fun ω => e ω - K *ᵥ (H *ᵥ e ω + (v ω - meanVec P v)) := he.sub (hI.mulVec K)
    have hmr : Square P fun ω => H *ᵥ m ω + meanVec P v := (h.ms.mulVec H).add (Square.const _)
    rw [this, covMat_add_right hmr hI hn, hnewI, covMat_add_right (h.ms.mulVec H) (Square.const _) hn, covMat_mulVec_right h.ms hn, hnewm, covMat_const_right]
    simp
  have hmono : affine Z ≤ affine (Z ∪ Set.range fun j ω => (H *ᵥ x ω + v ω) j) := affine_mono Set.subset_union_left
  refine ⟨h.xs, ?_, fun i => ?_, ?_, ?_, ?_⟩
  · rintro f (hf | ⟨j, rfl⟩)
    · exact h.zs f hf
    · exact hz j
  · refine (affine _).add_mem (hmono (h.known i)) (mulVec_mem (fun j => ?_) K i)
    refine (affine _).sub_mem (mem_affine (Or.inr ⟨j, rfl⟩)) ?_
    exact (affine _).add_mem (mulVec_mem (fun i => hmono (h.known i)) H j) (const_mem _ _)
  · rw [e', meanVec_sub he (hI.mulVec K), meanVec_mulVec hI, meanVec_add hHe hc, meanVec_mulVec he, h.mean, meanVec_sub hvs (Square.const _), meanVec_const]
    simp
  · rw [e', covMat_sub_right he (hI.mulVec K) (he.sub (hI.mulVec K)), covMat_mulVec_right hI (he.sub (hI.mulVec K)), hnewI, hnew he, hve, h.cov]
    simp
  · have ei : ∀ i, (fun ω => (x ω - (m ω + K *ᵥ (H *ᵥ x ω + v ω - (H *ᵥ m ω + meanVec P v)))) i) = fun ω => (e ω - K *ᵥ (H *ᵥ e ω + (v ω - meanVec P v))) i :=
      fun i => funext fun ω => congrFun (congrFun e' ω) i
    rintro f (hf | ⟨j, rfl⟩) i
    · rw [ei]
      have hf2 := h.zs f hf
      let F : Ω → Fin 1 → ℝ := fun ω _ => f ω
      have hF : Square P F := fun _ => hf2
      have h1 : covMat P e F = 0 := by ext a b; exact h.orth f hf a
      have h2 : covMat P v F = 0 := by ext a b; exact hv.known f hf a
      have h3 : covMat P (fun ω => e ω - K *ᵥ (H *ᵥ e ω + (v ω - meanVec P v))) F = 0 := by
        rw [hnew hF, h1, h2]
        simp
      exact congrFun (congrFun h3 i) 0
    · rw [ei]
      exact congrFun (congrFun hnewz i) j

theorem free_noiseSum {Z : Set (Ω → ℝ)} {x : Ω → Fin n → ℝ} (hx : Square P x) (hz : ∀ f ∈ Z, MemLp f 2 P) {ns : List (Noise Ω k)}
    (h : ∀ v ∈ ns, Free P Z x v.value) : Free P Z x (noiseSum ns) := by
  refine ⟨square_noiseSum fun v hv => (h v hv).ws, covMat_noiseSum_left (fun v hv => (h v hv).ws) hx fun v hv => (h v hv).state, fun f hf i => ?_⟩
  let F : Ω → Fin 1 → ℝ := fun ω _ => f ω
  have h3 : covMat P (noiseSum ns) F = 0 := covMat_noiseSum_left (fun v hv => (h v hv).ws) (fun _ => hz f hf) fun v hv => by
    ext a b
    exact (h v hv).known f hf a
  exact congrFun (congrFun h3 i) 0

/-- A noise that comes later is not correlated with what is there after a move or measured in a measurement. -/
theorem Free.moved {Z : Set (Ω → ℝ)} {x : Ω → Fin n → ℝ} (hx : Square P x) {w : Ω → Fin m → ℝ} (hw : Free P Z x w) {ns : List (Noise Ω k)}
    (hs : ∀ v ∈ ns, Square P v.value) (h : ∀ v ∈ ns, covMat P v.value w = 0) (A : Matrix (Fin k) (Fin n) ℝ) : covMat P w (moved A ns x) = 0 := by
  show covMat P w (fun ω => A *ᵥ x ω + noiseSum ns ω) = 0
  rw [covMat_add_right (hx.mulVec A) (square_noiseSum hs) hw.ws, covMat_mulVec_right hx hw.ws, hw.state, covMat_swap (P := P) w, covMat_noiseSum_left hs hw.ws h]
  simp

/-- The filter keeps the invariant through all steps. -/
theorem filter_inv (lib : Lib ℝ) {n l : ℕ} (s : System Ω n l) : ∀ {Z : Set (Ω → ℝ)} {x m : Ω → Fin n → ℝ} {C : Matrix (Fin n) (Fin n) ℝ}, Inv P Z x m C → s.Sound P →
    (∀ w ∈ s.noises, Free P Z x w.2) → s.noises.Pairwise (Uncorrelated P) →
    ∃ m' C', (∀ ω, (s.hist P x ω).run lib ⟨m ω, C⟩ = ⟨m' ω, C'⟩) ∧ Inv P (Z ∪ s.measured x) (s.final x) m' C' := by
  induction s with
  | done =>
    intro Z x m C h _ _ _
    refine ⟨m, C, fun ω => rfl, ?_⟩
    show Inv P (Z ∪ ∅) x m C
    rw [Set.union_empty]
    exact h
  | @move n k l A ns s ih =>
    intro Z x m C h hs hf hp
    obtain ⟨hs1, hs2⟩ := hs
    obtain ⟨hp1, hp2, hp3⟩ := List.pairwise_append.1 hp
    have hn : ∀ v ∈ ns, Free P Z x v.value := fun v hv => hf ⟨k, v.value⟩ (List.mem_append_left _ (List.mem_map_of_mem hv))
    have hsq := fun v hv => (hn v hv).ws
    have hpw : ns.Pairwise fun v w => covMat P v.value w.value = 0 := List.pairwise_map.1 hp1
    have hi := h.move (free_noiseSum h.xs h.zs hn) A
    obtain ⟨m', C', e, hi'⟩ := ih hi hs2 (fun w hw => by
      have hw' := hf w (List.mem_append_right _ hw)
      exact ⟨hw'.ws, hw'.moved h.xs hsq (fun v hv => hp3 ⟨k, v.value⟩ (List.mem_map_of_mem hv) w hw) A, hw'.known⟩) hp2
    refine ⟨m', C', fun ω => ?_, hi'⟩
    rw [← e ω]
    show (s.hist P (moved A ns x) ω).run lib (linearTransform lib ⟨A, ns.map Noise.gain⟩ ⟨m ω, C⟩ ((ns.map (told P)).map GaussChol.toGauss)) = _
    obtain ⟨t1, t2⟩ := told_total hsq hpw hs1 A
    have hC : C.PosSemidef := h.cov ▸ covMat_posSemidef h.es
    rw [linearTransform_eq lib _ _ _ hC.1 fun d hd => (toGauss_mem_hermitian _ d hd).1, ← noiseTotal_eq, t1, apply_eq]
    congr 2
    · show A *ᵥ m ω + _ = _
      rw [List.zipIdx_map, List.map_map]
      congr 1
  | @measure n l k H ns s ih =>
    intro Z x m C h hs hf hp
    obtain ⟨hs1, hR, hs2⟩ := hs
    obtain ⟨hp1, hp2, hp3⟩ := List.pairwise_append.1 hp
    have hn : ∀ v ∈ ns, Free P Z x v.value := fun v hv => hf ⟨k, v.value⟩ (List.mem_append_left _ (List.mem_map_of_mem hv))
    have hsq := fun v hv => (hn v hv).ws
    have hpw : ns.Pairwise fun v w => covMat P v.value w.value = 0 := List.pairwise_map.1 hp1
    have hC : C.PosSemidef := h.cov ▸ covMat_posSemidef h.es
    have hu : IsUnit (H * C * Hᴴ + covMat P (noiseSum ns) (noiseSum ns)).det := measCov_unit hC H hR
    have hi := h.measure (free_noiseSum h.xs h.zs hn) H (C * Hᴴ * (H * C * Hᴴ + covMat P (noiseSum ns) (noiseSum ns))⁻¹) (by
      rw [← conjTranspose_eq_transpose_of_trivial, Matrix.mul_assoc, nonsing_inv_mul _ hu, Matrix.mul_one])
    obtain ⟨m', C', e, hi'⟩ := ih hi hs2 (fun w hw => by
      have hw' := hf w (List.mem_append_right _ hw)
      refine ⟨hw'.ws, hw'.state, ?_⟩
      rintro f (hf' | ⟨j, rfl⟩) i
      · exact hw'.known f hf' i
      · exact congrFun (congrFun (hw'.moved h.xs hsq (fun v hv => hp3 ⟨k, v.value⟩ (List.mem_map_of_mem hv) w hw) H) i) j) hp2
    refine ⟨m', C', fun ω => ?_, ?_⟩
    · rw [← e ω]
      show (s.hist P x ω).run lib (Kalman.update lib ⟨H, ns.map Noise.gain⟩ ((ns.map (told P)).map GaussChol.toGauss) (moved H ns x ω) ⟨m ω, C⟩) = _
      obtain ⟨t1, t2⟩ := told_total hsq hpw hs1 H
      have f := C51_update_form lib ⟨H, ns.map Noise.gain⟩ ((ns.map (told P)).map GaussChol.toGauss) (moved H ns x ω) ⟨m ω, C⟩ hC (toGauss_mem_hermitian (ns.map (told P)))
      rw [t1, t2] at f
      have f2 := linUpdate_eq lib H (covMat P (noiseSum ns) (noiseSum ns)) (meanVec P (noiseSum ns)) (moved H ns x ω) ⟨m ω, C⟩ hC.1 hR.1 hu
      rw [f, f2]
      rfl
    · rw [Set.union_assoc] at hi'
      exact hi'

end OpenKalman.LinSys
