import Verif.Proof.Lifetimes

/-!
# C169: views of collections and the lives of the objects they are made of

`Store.run` is the model (what views hold), `World.run` the specification (what they mean).
-/

namespace OpenKalman.Lifetimes

variable {α : Type}

/-- **C169**, for programs that do not assign to a view of which another view was made: whatever is read is what is meant; at worst there is nothing to read, because an object is gone.  And the
program is allowed in the model exactly if it is in the specification.  Missing: programs that do (`C169_assigned_violated`). -/
theorem C169_sound_partial (ops : List (Op α)) (h : Keeps False [] [] ops) :
    (Store.run [] ops).isSome = (World.run [] ops).isSome ∧
    ∀ σ τ, Store.run ([] : Store α) ops = some σ → World.run [] ops = some τ → ∀ k, σ.read k = none ∨ σ.read k = τ.read k := by
  rcases Inv.run ops Inv.start h with ⟨e, e'⟩ | ⟨σ', τ', _, _, e, e', I⟩
  · exact ⟨by rw [e, e']; rfl, fun σ τ hσ => by rw [e] at hσ; cases hσ⟩
  · refine ⟨by rw [e, e']; rfl, fun σ τ hσ hτ k => ?_⟩
    rw [e] at hσ
    rw [e'] at hτ
    cases hσ
    cases hτ
    exact (I.read k).imp And.right id

/-- **C169**, for programs that neither assign to, nor destroy, nor move from a view of which another view was made (containers may be changed, destroyed and moved from at will): what is read is
what is meant.  Missing: programs that do (`C169_destroyed_violated`, `C169_moved_violated`, `C169_assigned_violated`). -/
theorem C169_exact_partial (ops : List (Op α)) (h : Keeps True [] [] ops) (σ : Store α) (τ : World α) (hσ : Store.run [] ops = some σ) (hτ : World.run [] ops = some τ) (k : Nat) :
    σ.read k = τ.read k := by
  rcases Inv.run ops Inv.start h with ⟨e, -⟩ | ⟨σ', τ', _, _, e, e', I⟩
  · rw [e] at hσ
    cases hσ
  · rw [e] at hσ
    rw [e'] at hτ
    cases hσ
    cases hτ
    exact (I.read k).resolve_left fun h => h.1 trivial

theorem elements_held (σ : Store α) : ∀ (e : Expr α) {l : List α}, e.elements = some l → ∃ v, e.held σ = some v ∧ ∀ (σ' : Store α) (n : Nat), v.read σ' n = some l := by
  intro e
  induction e with
  | name k => intro l h; cases h
  | moved k => intro l h; cases h
  | temp l =>
    intro l' h
    cases h
    exact ⟨.own l, by simp [Expr.held, all, collectionView, wrapper, Slot.object], fun σ' n => by rw [Held.read]⟩
  | slice e off ext ih =>
    intro l h
    simp only [Expr.elements, Option.map_eq_some_iff] at h
    obtain ⟨l', h', rfl⟩ := h
    obtain ⟨v, hv, hr⟩ := ih h'
    exact ⟨.slice v off ext, by simp [Expr.held, hv], fun σ' n => by rw [Held.read, hr]; rfl⟩
  | replicate e f ih =>
    intro l h
    simp only [Expr.elements, Option.map_eq_some_iff] at h
    obtain ⟨l', h', rfl⟩ := h
    obtain ⟨v, hv, hr⟩ := ih h'
    exact ⟨.replicate v f, by simp [Expr.held, hv], fun σ' n => by rw [Held.read, hr]; rfl⟩
  | cat e e' ih ih' =>
    intro l h
    simp only [Expr.elements] at h
    split at h
    · rename_i a b ha hb
      cases h
      obtain ⟨v, hv, hr⟩ := ih ha
      obtain ⟨w, hw, hs⟩ := ih' hb
      exact ⟨.cat v w, by simp [Expr.held, hv, hw], fun σ' n => by rw [Held.read, hr, hs]⟩
    · cases h

theorem step_spares {σ σ' : Store α} {k : Nat} {v : Held α} (op : Op α) (hs : op.Spares k) (h : σ[k]? = some (.view v)) (e : σ.step op = some σ') : σ'[k]? = some (.view v) := by
  have hl : k < σ.length := (List.getElem?_eq_some_iff.1 h).1
  cases op with
  | container l =>
    cases e
    rw [List.getElem?_append_left hl]
    exact h
  | auto x =>
    simp only [Store.step] at e
    split_ifs at e
    simp only [Option.map_eq_some_iff] at e
    obtain ⟨w, -, rfl⟩ := e
    rw [List.getElem?_append_left (by rw [length_kill]; exact hl), getElem?_kill, if_neg hs]
    exact h
  | copy j =>
    simp only [Store.step] at e
    split at e
    · cases e
      rw [List.getElem?_append_left hl]
      exact h
    · cases e
      rw [List.getElem?_append_left hl]
      exact h
    · cases e
  | set j l =>
    simp only [Store.step] at e
    split at e
    · rename_i l' hj
      cases e
      rw [List.getElem?_set_ne fun (he : j = k) => by rw [he, h] at hj; cases hj]
      exact h
    · cases e
  | assign j x =>
    simp only [Store.step] at e
    split at e
    · split_ifs at e
      simp only [Option.map_eq_some_iff] at e
      obtain ⟨w, -, rfl⟩ := e
      rw [List.getElem?_set_ne hs.1, getElem?_kill, if_neg hs.2]
      exact h
    · cases e
  | destroy j =>
    simp only [Store.step] at e
    split at e
    · cases e
      rw [List.getElem?_set_ne hs]
      exact h
    · cases e
      rw [List.getElem?_set_ne hs]
      exact h
    · cases e

/-- **C169** (temporaries): a view of temporary objects, however many adaptors there are between, shows the same elements after whatever else the program does, until it is itself assigned to,
destroyed or moved from. -/
theorem C169_temporary (σ : Store α) (e : Expr α) (l : List α) (he : e.elements = some l) (ops : List (Op α)) (hs : ∀ op ∈ ops, op.Spares σ.length) (σ' : Store α)
    (h : Store.run σ (.auto e :: ops) = some σ') : σ'.read σ.length = some l := by
  obtain ⟨v, hv, hr⟩ := elements_held σ e he
  simp only [Store.run, Option.bind_eq_some_iff] at h
  obtain ⟨σ₁, h1, h2⟩ := h
  have h1' : σ₁[σ.length]? = some (.view v) := by
    simp only [Store.step, hv] at h1
    split_ifs at h1
    cases h1
    rw [List.getElem?_append_right (by rw [length_kill])]
    simp [length_kill]
  have key : ∀ (ops : List (Op α)) (σ₁ : Store α), (∀ op ∈ ops, op.Spares σ.length) → σ₁[σ.length]? = some (.view v) → σ₁.run ops = some σ' → σ'[σ.length]? = some (.view v) := by
    intro ops
    induction ops with
    | nil =>
      intro σ₁ _ h e
      cases e
      exact h
    | cons op ops ih =>
      intro σ₁ hs h e
      simp only [Store.run, Option.bind_eq_some_iff] at e
      obtain ⟨σ₂, e1, e2⟩ := e
      exact ih σ₂ (fun o ho => hs o (List.mem_cons_of_mem _ ho)) (step_spares op (hs op List.mem_cons_self) h e1) e2
  unfold Store.read
  rw [key ops σ₁ hs h1' h2]
  exact hr σ' _

/-! ## Disagreements -/

/-- A container, a view `v` of it, and a slice of `v`; then the life of `v` ends, as at the end of a function that returns the slice. -/
def returned : List (Op Nat) := [.container [1, 2, 3], .auto (.name 0), .auto (.slice (.name 1) 1 none), .destroy 1]

/-- **C169** is violated: the slice refers to the view that is gone, although the container lives. -/
theorem C169_destroyed_violated : ∃ (ops : List (Op Nat)) (σ : Store Nat) (τ : World Nat), Store.run [] ops = some σ ∧ World.run [] ops = some τ ∧
    σ.read 0 = some [1, 2, 3] ∧ σ.read 2 = none ∧ τ.read 2 = some [2, 3] := by
  refine ⟨returned, [.cont [1, 2, 3], .gone, .view (.slice (.ref 1) 1 none)], [.cont [1, 2, 3], .gone, .view (.slice (.live 0) 1 none)], rfl, rfl, rfl, ?_, rfl⟩
  simp [Store.read, Held.read]

/-- The same if the view is moved from. -/
theorem C169_moved_violated : ∃ (ops : List (Op Nat)) (σ : Store Nat) (τ : World Nat), Store.run [] ops = some σ ∧ World.run [] ops = some τ ∧
    σ.read 2 = none ∧ τ.read 2 = some [1, 1] := by
  refine ⟨[.auto (.temp [1]), .auto (.replicate (.name 0) 2), .auto (.replicate (.name 0) 2), .auto (.moved 0)],
    [.gone, .view (.replicate (.ref 0) 2), .view (.replicate (.ref 0) 2), .view (.own [1])],
    [.gone, .view (.replicate (.fixed [1]) 2), .view (.replicate (.fixed [1]) 2), .view (.fixed [1])], rfl, rfl, ?_, rfl⟩
  simp [Store.read, Held.read]

/-- A view of a slice changes its elements when the slice is assigned another slice of the same container. -/
theorem C169_assigned_violated : ∃ (ops : List (Op Nat)) (σ : Store Nat) (τ : World Nat), Store.run [] ops = some σ ∧ World.run [] ops = some τ ∧
    σ.read 2 = some [2, 3] ∧ τ.read 2 = some [1, 2] := by
  refine ⟨[.container [1, 2, 3], .auto (.slice (.name 0) 0 (some 2)), .auto (.name 1), .assign 1 (.slice (.name 0) 1 (some 2))],
    [.cont [1, 2, 3], .view (.slice (.ref 0) 1 (some 2)), .view (.ref 1)], [.cont [1, 2, 3], .view (.slice (.live 0) 1 (some 2)), .view (.slice (.live 0) 0 (some 2))], rfl, rfl, ?_, rfl⟩
  simp [Store.read, Held.read, cut]

/-! ## Cases -/

/-- Adaptors one after the other in one expression, a view of a view that is kept, a copy, a changed and a destroyed container. -/
def kept : List (Op Nat) := [.container [1, 2, 3], .container [4], .auto (.cat (.replicate (.slice (.name 0) 1 none) 2) (.temp [9])), .auto (.cat (.name 2) (.name 1)), .copy 3,
  .set 0 [5, 6], .auto (.moved 1), .destroy 4]

example : Keeps True [] [] kept := by simp [kept, Keeps, Op.kinds, Op.uses, Expr.names, Expr.moves]

example : ∃ σ, Store.run [] kept = some σ ∧ σ.read 2 = some [6, 6, 9] ∧ σ.read 3 = none ∧ σ.read 5 = some [4] := by
  refine ⟨_, rfl, ?_, ?_, ?_⟩ <;> simp [Store.read, Held.read, cut, repeated, kill, Expr.moves]

/-- `returned` keeps to what `C169_sound_partial` asks for. -/
example : Keeps False [] [] returned := by simp [returned, Keeps, Op.kinds, Op.uses, Expr.names]

example : (Expr.replicate (.slice (.temp [1, 2, 3]) 1 none) 2).elements = some [2, 3, 2, 3] := rfl

end OpenKalman.Lifetimes
