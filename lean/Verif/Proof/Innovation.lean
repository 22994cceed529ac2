import Verif.Spec.Innovation
import Verif.Model.Innovation
import Verif.Theorems.Evidence

/-!
# Proofs for C167
-/

namespace OpenKalman.LinSys
open MeasureTheory ProbabilityTheory Matrix OpenKalman.Kalman

variable {Ω : Type} [MeasurableSpace Ω] {P : Measure Ω} [IsProbabilityMeasure P]

/-- A residual in the case `ω`. -/
def Residual.at (w : Residual Ω) (ω : Ω) : Innovation := ⟨w.size, w.value ω, w.cov⟩

theorem parts_cons (w : Residual Ω) (W : List (Residual Ω)) : parts (w :: W) = (Set.range fun i ω => w.value ω i) ∪ parts W := by
  ext f
  constructor
  · rintro ⟨v, hv, i, rfl⟩
    rcases List.mem_cons.1 hv with rfl | hv
    · exact Or.inl ⟨i, rfl⟩
    · exact Or.inr ⟨v, hv, i, rfl⟩
  · rintro (⟨i, rfl⟩ | ⟨v, hv, i, rfl⟩)
    · exact ⟨w, List.mem_cons_self, i, rfl⟩
    · exact ⟨v, List.mem_cons_of_mem _ hv, i, rfl⟩

theorem parts_nil : parts ([] : List (Residual Ω)) = ∅ := by
  ext f
  constructor
  · rintro ⟨v, hv, _⟩
    cases hv
  · exact fun h => h.elim


/-- The residuals while the filter runs: they are white, not correlated with what was measured before, and tell as much as what is measured. -/
theorem innovations_inv (lib : Lib ℝ) {n l : ℕ} (s : System Ω n l) : ∀ {Z V : Set (Ω → ℝ)} {x m : Ω → Fin n → ℝ} {C : Matrix (Fin n) (Fin n) ℝ}, Inv P Z x m C →
    affine V = affine Z → s.Sound P → (∀ w ∈ s.noises, Free P Z x w.2) → s.noises.Pairwise (Uncorrelated P) →
    ∃ W : List (Residual Ω), (∀ ω, (s.hist P x ω).innovations lib ⟨m ω, C⟩ = W.map fun w => w.at ω) ∧ White P W ∧
      (∀ w ∈ W, ∀ f ∈ Z, ∀ i, cov[fun ω => w.value ω i, f; P] = 0) ∧ affine (V ∪ parts W) = affine (Z ∪ s.measured x) := by
  induction s with
  | done =>
    intro Z V x m C h hV _ _ _
    refine ⟨[], fun ω => rfl, ⟨by simp, by simp, by simp, by simp, List.Pairwise.nil⟩, by simp, ?_⟩
    show affine (V ∪ parts []) = affine (Z ∪ ∅)
    rw [parts_nil, Set.union_empty, Set.union_empty, hV]
  | @move n k l A ns s ih =>
    intro Z V x m C h hV hs hf hp
    obtain ⟨hs1, hs2⟩ := hs
    obtain ⟨hp1, hp2, hp3⟩ := List.pairwise_append.1 hp
    have hn : ∀ v ∈ ns, Free P Z x v.value := fun v hv => hf ⟨k, v.value⟩ (List.mem_append_left _ (List.mem_map_of_mem hv))
    have hsq := fun v hv => (hn v hv).ws
    have hpw : ns.Pairwise fun v w => covMat P v.value w.value = 0 := List.pairwise_map.1 hp1
    have hi := h.move (free_noiseSum h.xs h.zs hn) A
    obtain ⟨W, e, hW⟩ := ih hi hV hs2 (fun w hw => by
      have hw' := hf w (List.mem_append_right _ hw)
      exact ⟨hw'.ws, hw'.moved h.xs hsq (fun v hv => hp3 ⟨k, v.value⟩ (List.mem_map_of_mem hv) w hw) A, hw'.known⟩) hp2
    refine ⟨W, fun ω => ?_, hW⟩
    rw [← e ω]
    show [] ++ (s.hist P (moved A ns x) ω).innovations lib (linearTransform lib ⟨A, ns.map Noise.gain⟩ ⟨m ω, C⟩ ((ns.map (told P)).map GaussChol.toGauss)) = _
    obtain ⟨t1, t2⟩ := told_total hsq hpw hs1 A
    have hC : C.PosSemidef := h.cov ▸ covMat_posSemidef h.es
    rw [List.nil_append, linearTransform_eq lib _ _ _ hC.1 fun d hd => (toGauss_mem_hermitian _ d hd).1, ← noiseTotal_eq, t1, apply_eq]
    congr 2
    · show A *ᵥ m ω + _ = _
      rw [List.zipIdx_map, List.map_map]
      congr 1
  | @measure n l k H ns s ih =>
    intro Z V x m C h hV hs hf hp
    obtain ⟨hs1, hR, hs2⟩ := hs
    obtain ⟨hp1, hp2, hp3⟩ := List.pairwise_append.1 hp
    have hn : ∀ v ∈ ns, Free P Z x v.value := fun v hv => hf ⟨k, v.value⟩ (List.mem_append_left _ (List.mem_map_of_mem hv))
    have hsq := fun v hv => (hn v hv).ws
    have hpw : ns.Pairwise fun v w => covMat P v.value w.value = 0 := List.pairwise_map.1 hp1
    have hC : C.PosSemidef := h.cov ▸ covMat_posSemidef h.es
    have hu : IsUnit (H * C * Hᴴ + covMat P (noiseSum ns) (noiseSum ns)).det := measCov_unit hC H hR
    have hi := h.measure (free_noiseSum h.xs h.zs hn) H (C * Hᴴ * (H * C * Hᴴ + covMat P (noiseSum ns) (noiseSum ns))⁻¹) (by
      rw [← conjTranspose_eq_transpose_of_trivial, Matrix.mul_assoc, nonsing_inv_mul _ hu, Matrix.mul_one])
    have hy := h.move (free_noiseSum h.xs h.zs hn) H
    let w0 : Residual Ω := ⟨k, fun ω => moved H ns x ω - (H *ᵥ m ω + meanVec P (noiseSum ns)), H * C * Hᵀ + covMat P (noiseSum ns) (noiseSum ns)⟩
    have hw0 : Square P w0.value := hy.es
    have hpred : ∀ i, (fun ω => (H *ᵥ m ω + meanVec P (noiseSum ns)) i) ∈ affine Z := hy.known
    have hz1 : ∀ j, (fun ω => w0.value ω j) ∈ affine (Z ∪ Set.range fun j ω => (H *ᵥ x ω + noiseSum ns ω) j) := fun j =>
      (affine _).sub_mem (mem_affine (Or.inr ⟨j, rfl⟩)) (affine_mono Set.subset_union_left (hpred j))
    have hV1 : affine (V ∪ Set.range fun i ω => w0.value ω i) = affine (Z ∪ Set.range fun j ω => (H *ᵥ x ω + noiseSum ns ω) j) := by
      apply le_antisymm
      · refine affine_le ?_
        rintro f (hf' | ⟨j, rfl⟩)
        · exact affine_mono Set.subset_union_left (hV ▸ mem_affine hf')
        · exact hz1 j
      · refine affine_le ?_
        rintro f (hf' | ⟨j, rfl⟩)
        · exact affine_mono Set.subset_union_left (hV.symm ▸ mem_affine hf')
        · have e1 : (fun ω => (H *ᵥ x ω + noiseSum ns ω) j) = (fun ω => w0.value ω j) + fun ω => (H *ᵥ m ω + meanVec P (noiseSum ns)) j := by
            funext ω
            show _ = (moved H ns x ω j - _) + _
            rw [sub_add_cancel]
            rfl
          show (fun ω => (H *ᵥ x ω + noiseSum ns ω) j) ∈ _
          rw [e1]
          exact (affine _).add_mem (mem_affine (Or.inr ⟨j, rfl⟩)) (affine_mono Set.subset_union_left (hV.symm ▸ hpred j))
    obtain ⟨W, e, hW, ho, ha⟩ := ih hi hV1 hs2 (fun w hw => by
      have hw' := hf w (List.mem_append_right _ hw)
      refine ⟨hw'.ws, hw'.state, ?_⟩
      rintro f (hf' | ⟨j, rfl⟩) i
      · exact hw'.known f hf' i
      · exact congrFun (congrFun (hw'.moved h.xs hsq (fun v hv => hp3 ⟨k, v.value⟩ (List.mem_map_of_mem hv) w hw) H) i) j) hp2
    have hpd : w0.cov.PosDef := by
      have h2 := hC.mul_mul_conjTranspose_same H
      rw [conjTranspose_eq_transpose_of_trivial] at h2
      exact PosDef.posSemidef_add h2 hR
    refine ⟨w0 :: W, fun ω => ?_, ⟨?_, ?_, ?_, ?_, ?_⟩, ?_, ?_⟩
    · rw [List.map_cons, ← e ω]
      obtain ⟨t1, t2⟩ := told_total hsq hpw hs1 H
      have hh : ∀ d ∈ (ns.map (told P)).map GaussChol.toGauss, d.cov.IsHermitian := fun d hd => (toGauss_mem_hermitian _ d hd).1
      show Op.innovations lib (.update k ⟨H, ns.map Noise.gain⟩ (ns.map (told P)) (moved H ns x ω)) ⟨m ω, C⟩ ++
        (s.hist P x ω).innovations lib (Kalman.update lib ⟨H, ns.map Noise.gain⟩ ((ns.map (told P)).map GaussChol.toGauss) (moved H ns x ω) ⟨m ω, C⟩) = _
      have f := C51_update_form lib ⟨H, ns.map Noise.gain⟩ ((ns.map (told P)).map GaussChol.toGauss) (moved H ns x ω) ⟨m ω, C⟩ hC (toGauss_mem_hermitian (ns.map (told P)))
      rw [t1, t2] at f
      have f2 := linUpdate_eq lib H (covMat P (noiseSum ns) (noiseSum ns)) (meanVec P (noiseSum ns)) (moved H ns x ω) ⟨m ω, C⟩ hC.1 hR.1 hu
      rw [f, f2]
      have g : linearTransform lib ⟨H, ns.map Noise.gain⟩ ⟨m ω, C⟩ ((ns.map (told P)).map GaussChol.toGauss) =
          ⟨H *ᵥ m ω + meanVec P (noiseSum ns), H * C * Hᵀ + covMat P (noiseSum ns) (noiseSum ns)⟩ := by
        rw [linearTransform_eq lib _ _ _ hC.1 hh, ← noiseTotal_eq, t1, apply_eq]
        refine Gauss.ext ?_ rfl
        show H *ᵥ m ω + _ = H *ᵥ m ω + _
        rw [List.zipIdx_map, List.map_map]
        congr 1
      have g2 : Op.innovations lib (.update k ⟨H, ns.map Noise.gain⟩ (ns.map (told P)) (moved H ns x ω)) ⟨m ω, C⟩ = [w0.at ω] := by
        unfold Op.innovations
        simp only [linearTransformCross_eq lib (⟨H, ns.map Noise.gain⟩ : LinTrans ℝ n k) (⟨m ω, C⟩ : Gauss ℝ (Fin n)) _ hC.1 hh, g]
        rfl
      rw [g2]
      rfl
    · rintro w (_ | ⟨_, hw⟩)
      · exact hw0
      · exact hW.square w hw
    · rintro w (_ | ⟨_, hw⟩)
      · exact hy.mean
      · exact hW.mean w hw
    · rintro w (_ | ⟨_, hw⟩)
      · exact hy.cov
      · exact hW.cov w hw
    · rintro w (_ | ⟨_, hw⟩)
      · exact hpd
      · exact hW.posDef w hw
    · refine List.pairwise_cons.2 ⟨fun w hw => ?_, hW.uncorrelated⟩
      rw [covMat_swap]
      ext i j
      exact affine_cov hi.zs (hW.square w hw j) (fun f hf => ho w hw f hf j) (hz1 i)
    · rintro w (_ | ⟨_, hw⟩) f hf' i
      · exact hy.orth f hf' i
      · exact ho w hw f (Or.inl hf') i
    · rw [parts_cons, ← Set.union_assoc, ha, Set.union_assoc]
      rfl

/-- In Cholesky form the same residuals are computed. -/
theorem innovationsChol_eq (lib : Lib ℝ) {n l : ℕ} (h : Hist ℝ n l) : h.Valid → ∀ p : GaussChol ℝ (Fin n), h.innovationsChol lib p = h.innovations lib p.toGauss := by
  induction h with
  | nil => exact fun _ _ => rfl
  | @cons n k l op h ih =>
    intro hv p
    show op.innovationsChol lib p ++ h.innovationsChol lib (op.runChol lib p) = op.innovations lib p.toGauss ++ h.innovations lib (op.run lib p.toGauss)
    have e : (op.runChol lib p).toGauss = op.run lib p.toGauss := C50_square_root lib (.cons op .nil) ⟨hv.1, trivial⟩ p
    rw [ih hv.2, e]
    congr 1
    cases op with
    | predict F ns => rfl
    | update m H ns z =>
      have h1 := linearTransformChol_toGauss lib H p ns
      unfold Op.innovationsChol Op.innovations
      simp only [linearTransformCrossChol_eq, linearTransformCross_eq lib H _ _ (toGauss_posSemidef p).1 fun d hd => (toGauss_mem_hermitian ns d hd).1, ← h1]
      rfl

/-- As many numbers as are measured. -/
theorem innovations_size (lib : Lib ℝ) {n l : ℕ} (s : System Ω n l) : ∀ (x : Ω → Fin n → ℝ) (ω : Ω) (g : Gauss ℝ (Fin n)),
    (((s.hist P x ω).innovations lib g).map Innovation.size).sum = s.count := by
  induction s with
  | done => exact fun _ _ _ => rfl
  | move A ns s ih => exact fun x ω g => ih _ ω _
  | measure k H ns s ih =>
    intro x ω g
    show (List.map Innovation.size ([_] ++ (s.hist P x ω).innovations lib _)).sum = k + s.count
    rw [List.singleton_append, List.map_cons, List.sum_cons, ih]

/-- The expected square of a random vector measured by its own covariance is its size. -/
theorem integral_squares {k : ℕ} {v : Ω → Fin k → ℝ} (hv : Square P v) (h0 : meanVec P v = 0) {S : Matrix (Fin k) (Fin k) ℝ} (hS : covMat P v v = S) (hp : S.PosDef) :
    Integrable (fun ω => v ω ⬝ᵥ (S⁻¹ *ᵥ v ω)) P ∧ ∫ ω, v ω ⬝ᵥ (S⁻¹ *ᵥ v ω) ∂P = k := by
  have hi : ∀ i j, Integrable (fun ω => v ω i * v ω j) P := fun i j => (hv i).integrable_mul (hv j)
  have hs : ∀ i j, ∫ ω, v ω i * v ω j ∂P = S i j := by
    intro i j
    have h1 := congrFun (congrFun hS i) j
    have h2 : cov[fun ω => v ω i, fun ω => v ω j; P] = S i j := h1
    rw [covariance_eq_sub (hv i) (hv j)] at h2
    have h3 : P[fun ω => v ω i] = 0 := congrFun h0 i
    rw [h3, zero_mul, sub_zero] at h2
    exact h2
  have e : (fun ω => v ω ⬝ᵥ (S⁻¹ *ᵥ v ω)) = fun ω => ∑ i, ∑ j, S⁻¹ i j * (v ω i * v ω j) := by
    funext ω
    simp only [dotProduct, Matrix.mulVec, Finset.mul_sum]
    exact Finset.sum_congr rfl fun i _ => Finset.sum_congr rfl fun j _ => by ring
  have hii : ∀ i, Integrable (fun ω => ∑ j, S⁻¹ i j * (v ω i * v ω j)) P := fun i => integrable_finsetSum _ fun j _ => (hi i j).const_mul _
  rw [e]
  refine ⟨integrable_finsetSum _ fun i _ => hii i, ?_⟩
  rw [integral_finsetSum _ fun i _ => hii i]
  have h4 : ∀ i, ∫ ω, ∑ j, S⁻¹ i j * (v ω i * v ω j) ∂P = (S⁻¹ * S) i i := by
    intro i
    rw [integral_finsetSum _ fun j _ => (hi i j).const_mul _, Matrix.mul_apply]
    refine Finset.sum_congr rfl fun j _ => ?_
    rw [integral_const_mul, hs, ← hp.1.apply i j]
    simp
  rw [Finset.sum_congr rfl fun i _ => h4 i, nonsing_inv_mul _ ((isUnit_iff_isUnit_det S).1 hp.isUnit)]
  simp

end OpenKalman.LinSys
