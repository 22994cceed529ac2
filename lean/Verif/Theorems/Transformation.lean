import Verif.Proof.Transformation
import Verif.Proof.Kalman

/-! # Theorems: transformations (C144, C145) -/

namespace OpenKalman.Transformation

variable {σ X Y J H G : Type}

/-- Nothing exists. -/
def State.empty : State σ X J H := ⟨fun _ => none, fun _ => none⟩

/-- Nothing exists. -/
def SpecState.empty : SpecState σ X J H := ⟨fun _ => none, fun _ => none⟩

/-- The full statement of **C144**: whatever a program does, its transformations yield the values and derivatives of the functions they were made of. -/
def C144_statement : Prop := ∀ (σ X Y J H : Type) (c : Cls σ X Y J H) (ks : List (Call σ X J H)) (os : List (Obs Y J H)),
  specRun c .empty ks = some os → run c .empty ks = .ok os

/-- **C144** if function objects of which transformations were made without giving a Jacobian are left alone, and if transformations that are copied are `const` or
have a Jacobian. -/
theorem C144_partial (c : Cls σ X Y J H) (ks : List (Call σ X J H)) (os : List (Obs Y J H)) (hk : c.jac.isSome = true → SourcesKept ks)
    (hc : CopiesConst ks ∨ c.jac.isSome = true) (h : specRun c .empty ks = some os) : run c .empty ks = .ok os :=
  run_rel c ks _ _ os ⟨rfl, fun t x ht => by simp [SpecState.empty] at ht⟩ hk (hc.imp id fun hj => ⟨hj, fun t x ht => by simp [SpecState.empty] at ht⟩) h

/-- **C144** without a condition on function objects, if Jacobians are passed explicitly. -/
theorem C144_given (c : Cls σ X Y J H) (ks : List (Call σ X J H)) (os : List (Obs Y J H)) (hg : AllGiven ks) (hc : CopiesConst ks)
    (h : specRun c .empty ks = some os) : run c .empty ks = .ok os := by
  refine C144_partial c ks os (fun _ => ?_) (Or.inl hc) h
  clear h hc
  induction ks with
  | nil => trivial
  | cons k ks ih =>
    have ih := ih fun t a hm => hg t a (List.mem_cons_of_mem _ hm)
    cases k with
    | make t a => exact (hg t a (by simp)).elim
    | _ => exact ih

/-- Functions `x ↦ s * x` with their derivatives. -/
def scaling : Cls ℤ ℤ ℤ ℤ ℤ := ⟨fun s xs => s * xs.sum, some fun s _ => s, some fun _ _ => 0⟩

/-- Functions `x ↦ s * x` without derivatives. -/
def scaling0 : Cls ℤ ℤ ℤ ℤ ℤ := ⟨fun s xs => s * xs.sum, none, none⟩

/-- Non-trivial case: two transformations of functions that stay, one of them copied; a third function is changed and destroyed after its transformation was made
with a Jacobian. -/
example : let ks : List (Call ℤ ℤ ℤ ℤ) := [.new 0 3, .make 0 0, .new 1 5, .make 1 1, .copy 2 0 false, .new 2 7, .makeJac 3 2 (fun _ => 7), .assign 2 8, .value 3 [2], .destroy 2,
      .value 2 [2], .jacobian 2 [2], .hessian 1 [2], .jacobian 3 [2]]
    let os := [.nothing, .nothing, .nothing, .nothing, .nothing, .nothing, .nothing, .nothing, .value 14, .nothing, .value 6, .jacobian 3, .hessian 0, .jacobian 7]
    SourcesKept ks ∧ scaling.jac.isSome = true ∧ specRun scaling .empty ks = some os ∧ run scaling .empty ks = .ok os := by
  intro ks os
  have h1 : SourcesKept ks := by simp [ks, SourcesKept, Call.Touches]
  have h2 : specRun scaling .empty ks = some os := by rfl
  exact ⟨h1, rfl, h2, C144_partial scaling ks os (fun _ => h1) (Or.inr rfl) h2⟩

/-- Non-trivial case of `C144_given`. -/
example : let ks : List (Call ℤ ℤ ℤ ℤ) := [.new 2 7, .makeHess 3 2 (fun _ => 7) (fun _ => 0), .destroy 2, .copy 4 3 true, .jacobian 4 [2], .hessian 4 [2]]
    AllGiven ks ∧ CopiesConst ks ∧ specRun scaling .empty ks = some [.nothing, .nothing, .nothing, .nothing, .jacobian 7, .hessian 0] := by
  intro ks
  exact ⟨by simp [ks, AllGiven], by simp [ks, CopiesConst], by rfl⟩

/-- **C144** fails for `Transformation t {F {…}}`: the Jacobian refers to the temporary, for every class with a Jacobian. -/
theorem C144_temporary_violated (c : Cls σ X Y J H) (d : σ → List X → J) (hd : c.jac = some d) (s : σ) (xs : List X) :
    let ks : List (Call σ X J H) := [.new 0 s, .make 0 0, .destroy 0, .value 0 xs, .jacobian 0 xs]
    specRun c .empty ks = some [.nothing, .nothing, .nothing, .value (c.value s xs), .jacobian (d s xs)] ∧ run c .empty ks = .error .undefined := by
  simp [specRun, specStep, run, step, SpecState.empty, State.empty, fromFunction, defaultDeriv, hd, Deriv.call, Except.map]

/-- **C144** fails if the function object is changed: the transformation goes on with the old function, but with the derivatives of the new one. -/
theorem C144_changed_violated (c : Cls σ X Y J H) (d : σ → List X → J) (e : σ → List X → H) (hd : c.jac = some d) (he : c.hess = some e) (s s' : σ) (xs : List X) :
    let ks : List (Call σ X J H) := [.new 0 s, .make 0 0, .assign 0 s', .value 0 xs, .jacobian 0 xs, .hessian 0 xs]
    specRun c .empty ks = some [.nothing, .nothing, .nothing, .value (c.value s xs), .jacobian (d s xs), .hessian (e s xs)] ∧
    run c .empty ks = .ok [.nothing, .nothing, .nothing, .value (c.value s xs), .jacobian (d s' xs), .hessian (e s' xs)] := by
  simp [specRun, specStep, run, step, SpecState.empty, State.empty, fromFunction, defaultDeriv, hd, he, Deriv.call, Except.map]

/-- **C144** fails for copies of transformations that have no Jacobian and are not `const`: they are refused. -/
theorem C144_copy_violated (c : Cls σ X Y J H) (hd : c.jac = none) (s : σ) (xs : List X) :
    let ks : List (Call σ X J H) := [.new 0 s, .make 0 0, .copy 1 0 false, .value 1 xs]
    specRun c .empty ks = some [.nothing, .nothing, .nothing, .value (c.value s xs)] ∧ run c .empty ks = .error .refused := by
  simp [specRun, specStep, run, step, SpecState.empty, State.empty, fromFunction, defaultDeriv, hd, Except.map]

/-- **C144** is false. -/
theorem C144_violated : ¬ C144_statement := by
  intro h
  have h1 := C144_temporary_violated scaling (fun s _ => s) rfl 3 [2]
  have h2 := h _ _ _ _ _ _ _ _ h1.1
  rw [h1.2] at h2
  cases h2

example : (let ks : List (Call ℤ ℤ ℤ ℤ) := [.new 0 3, .make 0 0, .copy 1 0 false, .value 1 [2]]; run scaling0 .empty ks) = .error .refused :=
  (C144_copy_violated scaling0 rfl 3 [2]).2

/-! ## C145 -/

/-- **C145** for `Transformation`: the function (or Jacobian, or Hessian) `f` is called with the perturbations that are vectors as they are, and with one sample of each
that is a distribution, whatever the order in which arguments are evaluated. -/
theorem C145_once {R : Type} (f : List X → R) (x : X) (ps : List (Pert G X)) (order : List ℕ) (ho : order.Perm (List.range ps.length)) (g : G) :
    ∃ xs, Sampled ps g xs (callWith f x ps order g).2 ∧ (callWith f x ps order g).1 = f (x :: xs) :=
  ⟨_, argValues_sampled ps order ho g, rfl⟩

/-- Samples are fixed if there are no distributions. -/
theorem sampled_fixed {xs : List X} {g g' : G} {ys : List X} (h : Sampled (xs.map Pert.fixed) g ys g') : ys = xs ∧ g' = g := by
  obtain ⟨order, ho, hg, hl, hv⟩ := h
  have ha : ∀ (is : List ℕ) (g : G), stateAfter (xs.map Pert.fixed) is g = g := by
    intro is
    induction is with
    | nil => intro g; rfl
    | cons i is ih =>
      intro g
      simp only [stateAfter, ih, List.getElem?_map]
      cases xs[i]? <;> rfl
  refine ⟨List.ext_getElem? fun i => ?_, by rw [hg, ha]⟩
  by_cases hi : i < xs.length
  · obtain ⟨l, r, e⟩ := List.append_of_mem (ho.mem_iff.2 (List.mem_range.2 (by simpa using hi)))
    rw [hv l i r e, List.getElem?_map]
    simp [List.getElem?_eq_getElem hi, Pert.value]
  · rw [List.getElem?_eq_none (by simpa using hl.trans_le (by simpa using hi)), List.getElem?_eq_none (by omega)]

/-- **C145** (same point) if no perturbation is a distribution: value and derivatives are those at the same point, and the generator is not used. -/
theorem C145_same_point_partial {R S : Type} (f : List X → R) (d : List X → S) (x : X) (xs : List X) (o1 o2 : List ℕ) (h1 : o1.Perm (List.range xs.length))
    (h2 : o2.Perm (List.range xs.length)) (g g' : G) :
    callWith f x (xs.map Pert.fixed) o1 g = (f (x :: xs), g) ∧ callWith d x (xs.map Pert.fixed) o2 g' = (d (x :: xs), g') := by
  constructor
  · obtain ⟨ys, hs, hv⟩ := C145_once f x (xs.map (Pert.fixed (G := G))) o1 (by simpa using h1) g
    obtain ⟨rfl, hg⟩ := sampled_fixed hs
    exact Prod.ext hv hg
  · obtain ⟨ys, hs, hv⟩ := C145_once d x (xs.map (Pert.fixed (G := G))) o2 (by simpa using h2) g'
    obtain ⟨rfl, hg⟩ := sampled_fixed hs
    exact Prod.ext hv hg

/-- **C145** (same point) fails with a distribution: value and Jacobian of `x * n` are computed with different samples of `n`. -/
theorem C145_same_point_violated : ∃ (f d : List ℤ → ℤ) (p : Pert ℤ ℤ) (g : ℤ), (∀ x n, f [x, n] = x * n) ∧ (∀ x n, d [x, n] = n) ∧
    ∃ r : ℤ × ℤ, r = callWith f 1 [p] [0] g ∧ r.1 ≠ 1 * (callWith d 1 [p] [0] r.2).1 :=
  ⟨fun xs => xs.prod, fun xs => xs.getD 1 0, .random fun g => (g, g + 1), 5, by simp, by simp, _, rfl, by decide⟩

/-- **C145** for `LinearTransformation`: each distribution is sampled once, and the value is the sum of the products of matrices and arguments, those that were not
given being identities. -/
theorem C145_linear {𝕜 : Type} [RCLike 𝕜] {n p : ℕ} (l : Kalman.LinTrans 𝕜 n p) (x : Fin n → 𝕜) (ps : List (Pert G (Fin p → 𝕜))) (order : List ℕ)
    (ho : order.Perm (List.range ps.length)) (g : G) :
    ∃ xs, Sampled ps g xs (linearCall l x ps order g).2 ∧
      (linearCall l x ps order g).1 = l.A.mulVec x + (xs.zipIdx.map fun v => (l.Bs.getD v.2 1).mulVec v.1).sum := by
  refine ⟨_, argValues_sampled ps order ho g, ?_⟩
  simp only [linearCall]
  rw [Kalman.apply_eq]
  rfl

/-- Non-trivial case: two distributions and a vector, evaluated from the right; the generator counts. -/
example : let ps : List (Pert ℕ ℕ) := [.random fun g => (10 + g, g + 1), .fixed 7, .random fun g => (20 + g, g + 1)]
    callWith (fun xs => xs) 1 ps [2, 1, 0] 0 = ([1, 11, 7, 20], 2) ∧ [2, 1, 0].Perm (List.range ps.length) := by
  intro ps
  exact ⟨by decide, by decide⟩

/-- **C145** for `IdentityTransformation` if no perturbation is a distribution. -/
theorem C145_identity_partial {𝕜 : Type} [RCLike 𝕜] {n : ℕ} (x : Fin n → 𝕜) (xs : List (Fin n → 𝕜)) (g : G) :
    identityCall x (xs.map Pert.fixed) g = .ok (x + xs.sum, g) := by
  have h : (xs.map (Pert.fixed (G := G))).mapM fixedOf = some xs := by
    induction xs with
    | nil => rfl
    | cons a xs ih => simp [List.mapM_cons, ih, fixedOf]
  have hf : ∀ (ys : List (Fin n → 𝕜)) (z : Fin n → 𝕜), ys.foldl (· + ·) z = z + ys.sum := by
    intro ys
    induction ys with
    | nil => intro z; simp
    | cons a ys ih => intro z; simp [ih, add_assoc]
  simp only [identityCall, h, Kalman.identityApply, hf]

/-- **C145** fails for `IdentityTransformation` with a distribution: it does not sample, and the sum is refused. -/
theorem C145_identity_violated {𝕜 : Type} [RCLike 𝕜] {n : ℕ} (x : Fin n → 𝕜) (d : G → (Fin n → 𝕜) × G) (g : G) :
    Sampled [Pert.random d] g [(d g).1] (d g).2 ∧ identityCall x [Pert.random d] g = .error .refused := by
  constructor
  · refine ⟨[0], by simp, rfl, rfl, fun l i r e => ?_⟩
    cases l with
    | nil =>
      simp only [List.nil_append, List.cons.injEq] at e
      obtain ⟨rfl, _⟩ := e
      rfl
    | cons a l => simp at e
  · rfl

end OpenKalman.Transformation
