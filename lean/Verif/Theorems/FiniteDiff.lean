import Verif.Proof.FiniteDiff
import Verif.Theorems.Descriptors

/-!
# C62: linearisation by finite differences

Any number of terms (the input and the perturbations) of any dimensions, any output dimension, any transformation `f` (which may throw).
-/

namespace OpenKalman.FiniteDiff
open Function Act Filter Topology

variable {S : Shape} {k : ℕ} {wrap : (Fin k → ℝ) → Fin k → ℝ}

/-- C62: after `jacobian` or `hessian` has returned, the inputs are as before.  Missing: if the transformation throws, they are not (`C62_throw_violated`). -/
theorem C62_unchanged_partial (f : Inputs S → Option (Fin k → ℝ)) (δ s s' : Inputs S) :
    (∀ J, (jacobian wrap f δ).run s = (s', some J) → s' = s) ∧ (∀ H, (hessian wrap f δ).run s = (s', some H) → s' = s) :=
  ⟨fun J h => all_restores _ (fun t => map_restores _ (all_restores _ fun i => jacColumn_restores ⟨t, i⟩)) s s' J h,
    fun H h => all_restores _ (fun t => map_restores _ (all_restores _ fun i => all_restores _ fun j => hessEntry_restores t i j)) s s' H h⟩

/-- C62: if the transformation does not throw, `jacobian` and `hessian` return, and leave the inputs as they were. -/
theorem C62_returns (g : Inputs S → Fin k → ℝ) (δ s : Inputs S) :
    (∃ J, (jacobian wrap (fun x => some (g x)) δ).run s = (s, some J)) ∧ (∃ H, (hessian wrap (fun x => some (g x)) δ).run s = (s, some H)) :=
  ⟨⟨_, jacobian_reads (fun _ => rfl) s⟩, ⟨_, hessian_reads (fun _ => rfl) s⟩⟩

/-- C62: for quadratic functions and all nonzero steps, the Jacobians of all terms are exact: the coefficients are the partial derivatives. -/
theorem C62_jacobian_quadratic (g : Inputs S → Fin k → ℝ) {c : Fin k → ℝ} {b : Fin k → S.Pos → ℝ} {A : Fin k → S.Pos → S.Pos → ℝ} (hg : ∀ a, IsQuadratic (fun x => g x a) (c a) (b a) (A a))
    (δ s : Inputs S) (hδ : ∀ p, δ p ≠ 0) :
    ∃ J, (jacobian id (fun x => some (g x)) δ).run s = (s, some J) ∧ ∀ t a i, HasPartial (fun x => g x a) ⟨t, i⟩ s (J t a i) ∧
      J t a i = b a ⟨t, i⟩ + ∑ q, (A a ⟨t, i⟩ q + A a q ⟨t, i⟩) * s q := by
  refine ⟨_, jacobian_reads (fun _ => rfl) s, fun t a i => ?_⟩
  have h1 := quadratic_update (hg a) s ⟨t, i⟩ (δ ⟨t, i⟩)
  have h2 := quadratic_update (hg a) s ⟨t, i⟩ (-δ ⟨t, i⟩)
  have h0 := hδ ⟨t, i⟩
  have e : (g (update s ⟨t, i⟩ (s ⟨t, i⟩ + δ ⟨t, i⟩)) a - g (update s ⟨t, i⟩ (s ⟨t, i⟩ - δ ⟨t, i⟩)) a) / (2 * δ ⟨t, i⟩) = b a ⟨t, i⟩ + ∑ q, (A a ⟨t, i⟩ q + A a q ⟨t, i⟩) * s q := by
    rw [sub_eq_add_neg (s ⟨t, i⟩), h1, h2]
    field_simp
    ring
  have e' : (Matrix.of fun a i => (id (g (update s ⟨t, i⟩ (s ⟨t, i⟩ + δ ⟨t, i⟩))) a - id (g (update s ⟨t, i⟩ (s ⟨t, i⟩ - δ ⟨t, i⟩))) a) / (2 * δ ⟨t, i⟩)) a i = _ := e
  simp only [e']
  exact ⟨quadratic_partial (hg a) s ⟨t, i⟩, trivial⟩

/-- C62: for quadratic functions and all nonzero steps, the Hessians of all terms are exact: the coefficients are the second partial derivatives. -/
theorem C62_hessian_quadratic (g : Inputs S → Fin k → ℝ) {c : Fin k → ℝ} {b : Fin k → S.Pos → ℝ} {A : Fin k → S.Pos → S.Pos → ℝ} (hg : ∀ a, IsQuadratic (fun x => g x a) (c a) (b a) (A a))
    (δ s : Inputs S) (hδ : ∀ p, δ p ≠ 0) :
    ∃ H, (hessian id (fun x => some (g x)) δ).run s = (s, some H) ∧ ∀ t a i j, HasPartial₂ (fun x => g x a) ⟨t, i⟩ ⟨t, j⟩ s (H t a i j) ∧
      H t a i j = A a ⟨t, i⟩ ⟨t, j⟩ + A a ⟨t, j⟩ ⟨t, i⟩ := by
  refine ⟨_, hessian_reads (fun _ => rfl) s, fun t a i j => ?_⟩
  have e : hessValue (fun x => id (g x)) δ s ⟨t, i⟩ ⟨t, j⟩ a = A a ⟨t, i⟩ ⟨t, j⟩ + A a ⟨t, j⟩ ⟨t, i⟩ := by
    unfold hessValue
    have hi := hδ ⟨t, i⟩
    have hj := hδ ⟨t, j⟩
    by_cases h : (⟨t, i⟩ : S.Pos) = ⟨t, j⟩
    · rw [if_pos h, ← h]
      have h1 := quadratic_update (hg a) s ⟨t, i⟩ (δ ⟨t, i⟩)
      have h2 := quadratic_update (hg a) s ⟨t, i⟩ (-δ ⟨t, i⟩)
      simp only [id, sub_eq_add_neg (s ⟨t, i⟩), h1, h2]
      field_simp
      ring
    · rw [if_neg h]
      have q := quadratic_update₂ (hg a) s h
      simp only [id, sub_eq_add_neg (s ⟨t, i⟩), sub_eq_add_neg (s ⟨t, j⟩), q]
      field_simp
      ring
  have e' : (Matrix.of fun i j => hessValue (fun x => id (g x)) δ s ⟨t, i⟩ ⟨t, j⟩ a) i j = _ := e
  simp only [e']
  exact ⟨quadratic_partial₂ (hg a) s ⟨t, i⟩ ⟨t, j⟩, trivial⟩

/-- C62: the Hessians are symmetric, for every function, point, output wrapping and nonzero steps. -/
theorem C62_hessian_symmetric (g : Inputs S → Fin k → ℝ) (δ s : Inputs S) (hδ : ∀ p, δ p ≠ 0) :
    ∃ H, (hessian wrap (fun x => some (g x)) δ).run s = (s, some H) ∧ ∀ t a, (H t a).IsSymm := by
  refine ⟨_, hessian_reads (fun _ => rfl) s, fun t a => ?_⟩
  refine Matrix.IsSymm.ext fun i j => ?_
  show hessValue (fun x => wrap (g x)) δ s ⟨t, j⟩ ⟨t, i⟩ a = hessValue (fun x => wrap (g x)) δ s ⟨t, i⟩ ⟨t, j⟩ a
  unfold hessValue
  have hi := hδ ⟨t, i⟩
  have hj := hδ ⟨t, j⟩
  by_cases h : (⟨t, i⟩ : S.Pos) = ⟨t, j⟩
  · rw [if_pos h, if_pos h.symm, h]
  · rw [if_neg h, if_neg (Ne.symm h)]
    simp only [update_comm h]
    field_simp
    ring

/-- C62, small steps: wherever the function has partial derivatives, the Jacobians converge to them as the steps go to zero (in fixed nonzero proportions `δ`). -/
theorem C62_jacobian_limit (g : Inputs S → Fin k → ℝ) (δ s : Inputs S) (hδ : ∀ p, δ p ≠ 0) :
    ∃ J : ℝ → (t : Fin S.terms) → Matrix (Fin k) (Fin (S.dim t)) ℝ, (∀ ε, (jacobian id (fun x => some (g x)) (ε • δ)).run s = (s, some (J ε))) ∧
      ∀ t a i D, HasPartial (fun x => g x a) ⟨t, i⟩ s D → Tendsto (fun ε => J ε t a i) (𝓝[≠] 0) (𝓝 D) := by
  refine ⟨fun ε => _, fun ε => jacobian_reads (fun _ => rfl) s, fun t a i D h => ?_⟩
  exact central_first h (hδ ⟨t, i⟩)

/-- C62, small steps: for twice continuously differentiable functions, the Hessians converge to the second partial derivatives as the steps go to zero. -/
theorem C62_hessian_limit (g : Inputs S → Fin k → ℝ) (hg : ∀ a, ContDiff ℝ 2 fun x => g x a) (δ s : Inputs S) (hδ : ∀ p, δ p ≠ 0) :
    ∃ H : ℝ → (t : Fin S.terms) → Fin k → Matrix (Fin (S.dim t)) (Fin (S.dim t)) ℝ, (∀ ε, (hessian id (fun x => some (g x)) (ε • δ)).run s = (s, some (H ε))) ∧
      ∀ t a i j, ∃ D, HasPartial₂ (fun x => g x a) ⟨t, i⟩ ⟨t, j⟩ s D ∧ Tendsto (fun ε => H ε t a i j) (𝓝[≠] 0) (𝓝 D) := by
  refine ⟨fun ε => _, fun ε => hessian_reads (fun _ => rfl) s, fun t a i j => ?_⟩
  refine ⟨_, hasPartial₂_of_contDiff (hg a) s ⟨t, i⟩ ⟨t, j⟩, ?_⟩
  show Tendsto (fun ε : ℝ => hessValue (fun x => id (g x)) (ε • δ) s ⟨t, i⟩ ⟨t, j⟩ a) _ _
  unfold hessValue
  by_cases h : (⟨t, i⟩ : S.Pos) = ⟨t, j⟩
  · simp only [if_pos h]
    rw [← h]
    exact hess_limit_diag (hg a) δ s ⟨t, i⟩ (hδ _)
  · simp only [if_neg h]
    exact hess_limit_off (hg a) δ s h (hδ _) (hδ _)

/-! ### Where the code fails -/

/-- One term of one dimension. -/
abbrev one : Shape := ⟨1, fun _ => 1⟩

/-- C62 fails if the transformation throws: the input stays perturbed. -/
theorem C62_throw_violated : ∃ (f : Inputs one → Option (Fin 1 → ℝ)) (δ s s' : Inputs one), (∀ p, δ p ≠ 0) ∧ (f s).isSome = true ∧ (jacobian id f δ).run s = (s', none) ∧ s' ≠ s := by
  classical
  refine ⟨fun x => if x ⟨0, 0⟩ = 0 then some 0 else none, fun _ => 1, fun _ => 0, update (fun _ => 0) ⟨0, 0⟩ 1, fun _ => one_ne_zero, by simp, ?_, ?_⟩
  · unfold jacobian
    have h : (jacColumn id (fun x : Inputs one => if x ⟨0, 0⟩ = 0 then some (0 : Fin 1 → ℝ) else none) (fun _ => 1) ⟨0, 0⟩).run (fun _ => 0) = (update (fun _ => 0) ⟨0, 0⟩ 1, none) := by
      unfold jacColumn
      rw [bind_read, bind_write]
      refine bind_none ?_
      show (_, Option.map _ (if _ then _ else _)) = _
      simp
    have h2 : (jacTerm id (fun x : Inputs one => if x ⟨0, 0⟩ = 0 then some (0 : Fin 1 → ℝ) else none) (fun _ => 1) 0).run (fun _ => 0) = (update (fun _ => 0) ⟨0, 0⟩ 1, none) :=
      bind_none (bind_none h)
    exact bind_none h2
  · intro h
    have := congrFun h ⟨0, 0⟩
    simp at this

/-- C62 fails for wrapped outputs: the difference of two wrapped angles is not wrapped, so the derivative of `x + π - 1/2` at 0 (in radians) comes out as `1 - π` with the step 1. -/
theorem C62_wrapped_violated : ∃ (g : Inputs one → Fin 1 → ℝ) (s : Inputs one) (J : (t : Fin one.terms) → Matrix (Fin 1) (Fin (one.dim t)) ℝ),
    (jacobian (fun y _ => OpenKalman.Patterns.radians.wrap (y 0)) (fun x => some (g x)) fun _ => 1).run s = (s, some J) ∧ HasPartial (fun x => g x 0) ⟨0, 0⟩ s 1 ∧ J 0 0 0 = 1 - Real.pi := by
  have hw : OpenKalman.Patterns.radians.wrap (Real.pi + 1 / 2) = -Real.pi + 1 / 2 := by
    refine ((OpenKalman.Patterns.C01_wrap_canonical OpenKalman.Patterns.radians (Real.pi + 1 / 2)).2.2 (-Real.pi + 1 / 2) ?_ ?_).symm
    · exact ⟨by show -Real.pi ≤ _; linarith, by show _ < Real.pi; linarith [Real.pi_gt_three]⟩
    · exact ⟨-1, by show -Real.pi + 1 / 2 = Real.pi + 1 / 2 + _ * (Real.pi - -Real.pi); push_cast; ring⟩
  have hw2 : OpenKalman.Patterns.radians.wrap (Real.pi - 3 / 2) = Real.pi - 3 / 2 := by
    refine ((OpenKalman.Patterns.C01_wrap_canonical OpenKalman.Patterns.radians (Real.pi - 3 / 2)).2.2 (Real.pi - 3 / 2) ?_ ?_).symm
    · exact ⟨by show -Real.pi ≤ _; linarith [Real.pi_gt_three], by show _ < Real.pi; linarith⟩
    · exact ⟨0, by simp⟩
  refine ⟨fun x _ => x ⟨0, 0⟩ + (Real.pi - 1 / 2), fun _ => 0, _, jacobian_reads (fun _ => rfl) _, ?_, ?_⟩
  · unfold HasPartial
    simpa using (hasDerivAt_id (0 : ℝ)).add_const (Real.pi - 1 / 2)
  · show (OpenKalman.Patterns.radians.wrap _ - OpenKalman.Patterns.radians.wrap _) / _ = _
    have e1 : update (fun _ : one.Pos => (0 : ℝ)) ⟨0, 0⟩ (0 + 1) ⟨0, 0⟩ + (Real.pi - 1 / 2) = Real.pi + 1 / 2 := by simp; ring
    have e2 : update (fun _ : one.Pos => (0 : ℝ)) ⟨0, 0⟩ (0 - 1) ⟨0, 0⟩ + (Real.pi - 1 / 2) = Real.pi - 3 / 2 := by simp; ring
    rw [e1, e2, hw, hw2]
    ring

/-! ### The hypotheses can be met -/

/-- An input of two components and a perturbation of one; `x₀ x₁ + 3 w² + 2 x₀`. -/
abbrev exShape : Shape := ⟨2, ![2, 1]⟩

example : ∃ H, (hessian id (fun x : Inputs exShape => some fun _ : Fin 1 => x ⟨0, (0 : Fin 2)⟩ * x ⟨0, (1 : Fin 2)⟩ + 3 * x ⟨1, (0 : Fin 1)⟩ ^ 2 + 2 * x ⟨0, (0 : Fin 2)⟩) fun _ => 1 / 2).run (fun _ => 5) = (fun _ => 5, some H) :=
  (C62_returns _ _ _).2

/-- `3 x² + 2 x + 1` at 5 with the step 1/2: the derivative is 32 and the second derivative 6. -/
example : ∃ J H, (jacobian id (fun x : Inputs one => some fun _ : Fin 1 => 1 + 2 * x ⟨0, 0⟩ + 3 * x ⟨0, 0⟩ ^ 2) fun _ => 1 / 2).run (fun _ => 5) = (fun _ => 5, some J) ∧
    (hessian id (fun x : Inputs one => some fun _ : Fin 1 => 1 + 2 * x ⟨0, 0⟩ + 3 * x ⟨0, 0⟩ ^ 2) fun _ => 1 / 2).run (fun _ => 5) = (fun _ => 5, some H) ∧ J 0 0 0 = 32 ∧ H 0 0 0 0 = 6 := by
  have hg : ∀ a : Fin 1, IsQuadratic (fun x : Inputs one => (fun _ : Fin 1 => 1 + 2 * x ⟨0, 0⟩ + 3 * x ⟨0, 0⟩ ^ 2) a) 1 (fun _ => 2) (fun _ _ => 3) := by
    intro a x
    simp [Fintype.sum_sigma]
    ring
  obtain ⟨J, hJ, hJ2⟩ := C62_jacobian_quadratic _ hg (fun _ => 1 / 2) (fun _ => 5) (by norm_num)
  obtain ⟨H, hH, hH2⟩ := C62_hessian_quadratic _ hg (fun _ => 1 / 2) (fun _ => 5) (by norm_num)
  refine ⟨J, H, hJ, hH, (hJ2 0 0 0).2.trans ?_, (hH2 0 0 0 0).2.trans ?_⟩ <;> norm_num [Fintype.sum_sigma]

end OpenKalman.FiniteDiff
