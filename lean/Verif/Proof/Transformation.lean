import Verif.Model.Transformation

/-! # Lemmas on transformations as values -/

namespace OpenKalman.Transformation

variable {σ X Y J H : Type}

/-- `d` computes `want`, and goes on doing so during `ks`. -/
def DerivRel {R : Type} (objs : ℕ → Option σ) (member : Option (σ → List X → R)) (ks : List (Call σ X J H)) (d : Option (Deriv X R)) (want : Option (List X → R)) : Prop :=
  match d, want with
  | none, none => True
  | some (.given g), some w => g = w
  | some (.bound a), some w => (∀ k ∈ ks, ¬ k.Touches a) ∧ ∃ s m, objs a = some s ∧ member = some m ∧ w = m s
  | _, _ => False

structure TransRel (c : Cls σ X Y J H) (objs : ℕ → Option σ) (ks : List (Call σ X J H)) (t : Trans σ X J H) (h : Held σ X J H) : Prop where
  fn : t.fn = h.state
  jac : DerivRel objs c.jac ks t.jac h.jac
  hess : DerivRel objs c.hess ks t.hess h.hess

structure Rel (c : Cls σ X Y J H) (ks : List (Call σ X J H)) (st : State σ X J H) (sp : SpecState σ X J H) : Prop where
  objs : st.objs = sp.objs
  ts : ∀ t h, sp.ts t = some h → ∃ x, st.ts t = some x ∧ TransRel c st.objs ks x h

theorem DerivRel.mono {R : Type} {objs objs' : ℕ → Option σ} {member : Option (σ → List X → R)} {k : Call σ X J H} {ks : List (Call σ X J H)}
    {d : Option (Deriv X R)} {want : Option (List X → R)} (h : DerivRel objs member (k :: ks) d want) (he : ∀ a, ¬ k.Touches a → objs' a = objs a) :
    DerivRel objs' member ks d want := by
  unfold DerivRel at h ⊢
  split <;> simp_all

theorem TransRel.mono {c : Cls σ X Y J H} {objs objs' : ℕ → Option σ} {k : Call σ X J H} {ks : List (Call σ X J H)} {t : Trans σ X J H} {h : Held σ X J H}
    (r : TransRel c objs (k :: ks) t h) (he : ∀ a, ¬ k.Touches a → objs' a = objs a) : TransRel c objs' ks t h :=
  ⟨r.fn, r.jac.mono he, r.hess.mono he⟩

theorem Rel.upd {c : Cls σ X Y J H} {k : Call σ X J H} {ks : List (Call σ X J H)} {st : State σ X J H} {sp : SpecState σ X J H} (r : Rel c (k :: ks) st sp)
    {t : ℕ} {x : Trans σ X J H} {h : Held σ X J H} (n : TransRel c st.objs ks x h) :
    Rel c ks { st with ts := Function.update st.ts t (some x) } { sp with ts := Function.update sp.ts t (some h) } := by
  refine ⟨r.objs, fun u h' hu => ?_⟩
  by_cases e : u = t
  · subst e
    simp only [Function.update_self, Option.some.injEq] at hu ⊢
    subst hu
    exact ⟨x, rfl, n⟩
  · simp only [Function.update_of_ne e] at hu ⊢
    obtain ⟨y, hy, ry⟩ := r.ts u h' hu
    exact ⟨y, hy, ry.mono fun _ _ => rfl⟩

theorem Rel.obj {c : Cls σ X Y J H} {k : Call σ X J H} {ks : List (Call σ X J H)} {st : State σ X J H} {sp : SpecState σ X J H} (r : Rel c (k :: ks) st sp)
    {a : ℕ} {o : Option σ} (ht : ∀ b, ¬ k.Touches b → b ≠ a) :
    Rel c ks { st with objs := Function.update st.objs a o } { sp with objs := Function.update sp.objs a o } := by
  refine ⟨by simp [r.objs], fun u h hu => ?_⟩
  obtain ⟨y, hy, ry⟩ := r.ts u h hu
  exact ⟨y, hy, ry.mono fun b hb => by simp [Function.update_of_ne (ht b hb)]⟩

theorem Rel.tail {c : Cls σ X Y J H} {k : Call σ X J H} {ks : List (Call σ X J H)} {st : State σ X J H} {sp : SpecState σ X J H} (r : Rel c (k :: ks) st sp) :
    Rel c ks st sp := ⟨r.objs, fun t h ht => let ⟨x, hx, rx⟩ := r.ts t h ht; ⟨x, hx, rx.mono fun _ _ => rfl⟩⟩

theorem DerivRel.call {R : Type} {objs : ℕ → Option σ} {member : Option (σ → List X → R)} {ks : List (Call σ X J H)} {d : Option (Deriv X R)} {w : List X → R}
    (h : DerivRel objs member ks d (some w)) (xs : List X) : ∃ e, d = some e ∧ e.call objs member xs = .ok (w xs) := by
  unfold DerivRel at h
  split at h
  · simp_all
  · rename_i g w' hw
    cases hw
    exact ⟨_, rfl, by simp [Deriv.call, h]⟩
  · rename_i a w' hw
    cases hw
    obtain ⟨_, s, m, h1, h2, h3⟩ := h
    exact ⟨_, rfl, by simp [Deriv.call, h1, h2, h3]⟩
  · exact h.elim

theorem DerivRel.isNone {R : Type} {objs : ℕ → Option σ} {member : Option (σ → List X → R)} {ks : List (Call σ X J H)} {d : Option (Deriv X R)} {w : List X → R}
    (h : DerivRel objs member ks d (some w)) : d.isNone = false := by
  cases d with
  | none => exact h.elim
  | some _ => rfl

theorem defaultDeriv_rel {R : Type} {objs : ℕ → Option σ} {member : Option (σ → List X → R)} {ks : List (Call σ X J H)} {a : ℕ} {s : σ} (ho : objs a = some s)
    (hk : ∀ k ∈ ks, ¬ k.Touches a) : DerivRel objs member ks (defaultDeriv member a) (member.map (· s)) := by
  cases member with
  | none => trivial
  | some m => exact ⟨hk, s, m, ho, rfl, rfl⟩

/-- One call. -/
theorem step_rel {c : Cls σ X Y J H} {k : Call σ X J H} {ks : List (Call σ X J H)} {st : State σ X J H} {sp sp' : SpecState σ X J H} {o : Obs Y J H}
    (r : Rel c (k :: ks) st sp) (hs : specStep c sp k = some (sp', o)) (hk : c.jac.isSome = true → ∀ t a, k = .make t a → ∀ k ∈ ks, ¬ k.Touches a)
    (hc : ∀ t u b, k = .copy t u b → b = true ∨ ∀ h, sp.ts u = some h → h.jac.isSome = true) :
    ∃ st', step c st k = .ok (st', o) ∧ Rel c ks st' sp' := by
  cases k with
  | new a s =>
    simp only [specStep] at hs
    split at hs
    · simp only [Option.some.injEq, Prod.mk.injEq] at hs
      obtain ⟨rfl, rfl⟩ := hs
      exact ⟨_, rfl, r.obj fun b hb e => hb e.symm⟩
    · cases hs
  | assign a s =>
    simp only [specStep, Option.bind_eq_some_iff, Option.some.injEq, Prod.mk.injEq] at hs
    obtain ⟨_, _, rfl, rfl⟩ := hs
    exact ⟨_, rfl, r.obj fun b hb e => hb e.symm⟩
  | destroy a =>
    simp only [specStep, Option.bind_eq_some_iff, Option.some.injEq, Prod.mk.injEq] at hs
    obtain ⟨_, _, rfl, rfl⟩ := hs
    exact ⟨_, rfl, r.obj fun b hb e => hb e.symm⟩
  | make t a =>
    simp only [specStep, Option.bind_eq_some_iff, Option.some.injEq, Prod.mk.injEq] at hs
    obtain ⟨s, ho, rfl, rfl⟩ := hs
    have ho' : st.objs a = some s := by rw [r.objs, ho]
    refine ⟨{ st with ts := Function.update st.ts t (some (fromFunction c s a)) }, by simp [step, ho'], r.upd ?_⟩
    cases hj : c.jac with
    | none => exact ⟨rfl, by simp [fromFunction, defaultDeriv, hj, DerivRel], by simp [fromFunction, hj, DerivRel]⟩
    | some d =>
      have hk' := hk (by simp [hj]) t a rfl
      refine ⟨rfl, ?_, ?_⟩
      · have := defaultDeriv_rel (member := c.jac) (J := J) (H := H) ho' hk'
        simp only [fromFunction]
        rw [hj] at this ⊢
        exact this
      · simp only [fromFunction, hj, Option.bind_some]
        exact defaultDeriv_rel (member := c.hess) ho' hk'
  | makeJac t a j =>
    simp only [specStep, Option.bind_eq_some_iff, Option.some.injEq, Prod.mk.injEq] at hs
    obtain ⟨s, ho, rfl, rfl⟩ := hs
    have ho' : st.objs a = some s := by rw [r.objs, ho]
    exact ⟨{ st with ts := Function.update st.ts t (some ⟨s, some (.given j), none⟩) }, by simp only [step, ho'],
      r.upd (x := ⟨s, some (.given j), none⟩) ⟨rfl, rfl, trivial⟩⟩
  | makeHess t a j h =>
    simp only [specStep, Option.bind_eq_some_iff, Option.some.injEq, Prod.mk.injEq] at hs
    obtain ⟨s, ho, rfl, rfl⟩ := hs
    have ho' : st.objs a = some s := by rw [r.objs, ho]
    exact ⟨{ st with ts := Function.update st.ts t (some ⟨s, some (.given j), some (.given h)⟩) }, by simp only [step, ho'],
      r.upd (x := ⟨s, some (.given j), some (.given h)⟩) ⟨rfl, rfl, rfl⟩⟩
  | copy t u b =>
    simp only [specStep, Option.bind_eq_some_iff, Option.some.injEq, Prod.mk.injEq] at hs
    obtain ⟨h, hu, rfl, rfl⟩ := hs
    obtain ⟨x, hx, rx⟩ := r.ts u h hu
    have hn : ¬ (x.jac.isNone = true ∧ b = false) := by
      rintro ⟨h1, h2⟩
      rcases hc t u b rfl with h3 | h3
      · simp [h3] at h2
      · obtain ⟨w, hw⟩ := Option.isSome_iff_exists.1 (h3 h hu)
        have := rx.jac
        rw [hw] at this
        simp [this.isNone] at h1
    exact ⟨_, by simp only [step, hx, if_neg hn], r.upd (rx.mono fun _ _ => rfl)⟩
  | value t xs =>
    simp only [specStep, Option.bind_eq_some_iff, Option.some.injEq, Prod.mk.injEq] at hs
    obtain ⟨h, hu, rfl, rfl⟩ := hs
    obtain ⟨x, hx, rx⟩ := r.ts t h hu
    exact ⟨st, by simp [step, hx, rx.fn], r.tail⟩
  | jacobian t xs =>
    simp only [specStep, Option.bind_eq_some_iff, Option.some.injEq, Prod.mk.injEq] at hs
    obtain ⟨h, hu, w, hw, rfl, rfl⟩ := hs
    obtain ⟨⟨f, d, d'⟩, hx, rx⟩ := r.ts t h hu
    have := rx.jac
    rw [hw] at this
    obtain ⟨e, he, hcall⟩ := this.call xs
    simp only at he
    subst he
    exact ⟨st, by simp [step, hx, hcall, Except.map], r.tail⟩
  | hessian t xs =>
    simp only [specStep, Option.bind_eq_some_iff, Option.some.injEq, Prod.mk.injEq] at hs
    obtain ⟨h, hu, w, hw, rfl, rfl⟩ := hs
    obtain ⟨⟨f, d, d'⟩, hx, rx⟩ := r.ts t h hu
    have := rx.hess
    rw [hw] at this
    obtain ⟨e, he, hcall⟩ := this.call xs
    simp only at he
    subst he
    exact ⟨st, by simp [step, hx, hcall, Except.map], r.tail⟩

/-- Every transformation of a class with a Jacobian has one. -/
theorem spec_linearised {c : Cls σ X Y J H} (hj : c.jac.isSome = true) {k : Call σ X J H} {sp sp' : SpecState σ X J H} {o : Obs Y J H}
    (hs : specStep c sp k = some (sp', o)) (h : ∀ t x, sp.ts t = some x → x.jac.isSome = true) : ∀ t x, sp'.ts t = some x → x.jac.isSome = true := by
  have upd : ∀ (t : ℕ) (y : Held σ X J H), y.jac.isSome = true → ∀ u x, Function.update sp.ts t (some y) u = some x → x.jac.isSome = true := by
    intro t y hy u x hx
    by_cases e : u = t
    · subst e
      simp only [Function.update_self, Option.some.injEq] at hx
      exact hx ▸ hy
    · rw [Function.update_of_ne e] at hx
      exact h u x hx
  cases k with
  | new a s =>
    simp only [specStep] at hs
    split at hs
    · simp only [Option.some.injEq, Prod.mk.injEq] at hs
      obtain ⟨rfl, rfl⟩ := hs
      exact h
    · cases hs
  | assign _ _ | destroy _ =>
    simp only [specStep, Option.bind_eq_some_iff, Option.some.injEq, Prod.mk.injEq] at hs
    obtain ⟨_, _, rfl, rfl⟩ := hs
    exact h
  | make _ _ | makeJac _ _ _ | makeHess _ _ _ _ =>
    simp only [specStep, Option.bind_eq_some_iff, Option.some.injEq, Prod.mk.injEq] at hs
    obtain ⟨_, _, rfl, rfl⟩ := hs
    exact upd _ _ (by simp [hj])
  | copy _ _ _ =>
    simp only [specStep, Option.bind_eq_some_iff, Option.some.injEq, Prod.mk.injEq] at hs
    obtain ⟨x, hx, rfl, rfl⟩ := hs
    exact upd _ _ (h _ _ hx)
  | value _ _ =>
    simp only [specStep, Option.bind_eq_some_iff, Option.some.injEq, Prod.mk.injEq] at hs
    obtain ⟨_, _, rfl, rfl⟩ := hs
    exact h
  | jacobian _ _ | hessian _ _ =>
    simp only [specStep, Option.bind_eq_some_iff, Option.some.injEq, Prod.mk.injEq] at hs
    obtain ⟨_, _, _, _, rfl, rfl⟩ := hs
    exact h

/-- A program. -/
theorem run_rel (c : Cls σ X Y J H) : ∀ (ks : List (Call σ X J H)) (st : State σ X J H) (sp : SpecState σ X J H) (os : List (Obs Y J H)), Rel c ks st sp →
    (c.jac.isSome = true → SourcesKept ks) → (CopiesConst ks ∨ (c.jac.isSome = true ∧ ∀ t x, sp.ts t = some x → x.jac.isSome = true)) → specRun c sp ks = some os →
    run c st ks = .ok os := by
  intro ks
  induction ks with
  | nil =>
    intro st sp os _ _ _ h
    simp only [specRun, Option.some.injEq] at h
    simp [run, ← h]
  | cons k ks ih =>
    intro st sp os r hk hc h
    simp only [specRun, Option.bind_eq_some_iff, Option.map_eq_some_iff] at h
    obtain ⟨⟨sp', o⟩, h1, os', h2, rfl⟩ := h
    obtain ⟨st', h3, r'⟩ := step_rel r h1
      (fun hj t a e => by subst e; exact (hk hj).1)
      (fun t u b e => hc.imp (fun hc => hc t u b (by simp [e])) fun hc h hu => hc.2 u h hu)
    have hk' : c.jac.isSome = true → SourcesKept ks := fun hj => by
      have := hk hj
      cases k <;> first | exact this | exact this.2
    have := ih st' sp' os' r' hk' (hc.imp (fun hc t u b hm => hc t u b (List.mem_cons_of_mem _ hm)) fun hc => ⟨hc.1, spec_linearised hc.1 h1 hc.2⟩) h2
    simp [run, h3, this, Except.map]

/-! ## Perturbations -/

variable {G : Type}

theorem getPerturbation_eq (p : Pert G X) (g : G) : getPerturbation p g = (p.value g, p.after g) := by cases p <;> rfl

theorem evalArgs_snd (ps : List (Pert G X)) (order : List ℕ) (st : (ℕ → Option X) × G) : (evalArgs ps order st).2 = stateAfter ps order st.2 := by
  induction order generalizing st with
  | nil => rfl
  | cons i order ih =>
    simp only [evalArgs, stateAfter]
    cases h : ps[i]? with
    | none => simpa [h] using ih st
    | some p => simpa [h, getPerturbation_eq] using ih (Function.update st.1 i (some (p.value st.2)), p.after st.2)

theorem evalArgs_notMem (ps : List (Pert G X)) (order : List ℕ) (st : (ℕ → Option X) × G) (i : ℕ) (hi : i ∉ order) : (evalArgs ps order st).1 i = st.1 i := by
  induction order generalizing st with
  | nil => rfl
  | cons j order ih =>
    simp only [List.mem_cons, not_or] at hi
    simp only [evalArgs]
    cases h : ps[j]? with
    | none => exact ih st hi.2
    | some p => simp only; rw [ih _ hi.2]; simp only [Function.update_of_ne hi.1]

theorem stateAfter_append (ps : List (Pert G X)) (l r : List ℕ) (g : G) : stateAfter ps (l ++ r) g = stateAfter ps r (stateAfter ps l g) := by
  induction l generalizing g with
  | nil => rfl
  | cons i l ih => simp only [List.cons_append, stateAfter, ih]

theorem evalArgs_append (ps : List (Pert G X)) (l r : List ℕ) (st : (ℕ → Option X) × G) : evalArgs ps (l ++ r) st = evalArgs ps r (evalArgs ps l st) := by
  induction l generalizing st with
  | nil => rfl
  | cons i l ih =>
    simp only [List.cons_append, evalArgs]
    cases ps[i]? <;> simp only [ih]

theorem evalArgs_mem (ps : List (Pert G X)) (l r : List ℕ) (i : ℕ) (g : G) (hi : i ∉ r) (hl : i ∉ l) :
    (evalArgs ps (l ++ i :: r) (fun _ => none, g)).1 i = ps[i]?.map (Pert.value (stateAfter ps l g)) := by
  rw [evalArgs_append]
  simp only [evalArgs]
  cases h : ps[i]? with
  | none =>
    simp only [Option.map_none]
    rw [evalArgs_notMem _ _ _ _ hi, evalArgs_notMem _ _ _ _ hl]
  | some p =>
    simp only [Option.map_some]
    rw [evalArgs_notMem _ _ _ _ hi]
    simp only [Function.update_self, getPerturbation_eq, evalArgs_snd]

theorem argValues_sampled (ps : List (Pert G X)) (order : List ℕ) (ho : order.Perm (List.range ps.length)) (g : G) :
    Sampled ps g (argValues ps order g).1 (argValues ps order g).2 := by
  have hnd : order.Nodup := ho.nodup_iff.2 List.nodup_range
  have split : ∀ l i r, order = l ++ i :: r → i ∉ l ∧ i ∉ r := by
    intro l i r e
    rw [e, List.nodup_append] at hnd
    obtain ⟨_, h2, h3⟩ := hnd
    exact ⟨fun h => h3 i h i (by simp) rfl, (List.nodup_cons.1 h2).1⟩
  have val : ∀ l i r, order = l ++ i :: r → (evalArgs ps order (fun _ => none, g)).1 i = ps[i]?.map (Pert.value (stateAfter ps l g)) := by
    intro l i r e
    obtain ⟨h1, h2⟩ := split l i r e
    rw [e]
    exact evalArgs_mem ps l r i g h2 h1
  have some' : ∀ i, i < ps.length → ∃ x, (evalArgs ps order (fun _ => none, g)).1 i = some x := by
    intro i hi
    obtain ⟨l, r, e⟩ := List.append_of_mem (ho.mem_iff.2 (List.mem_range.2 hi))
    rw [val l i r e, List.getElem?_eq_getElem hi]
    exact ⟨_, rfl⟩
  obtain ⟨F, hF⟩ : ∃ F : ℕ → Option X, F = (evalArgs ps order (fun _ => none, g)).1 := ⟨_, rfl⟩
  have key : ∀ n, n ≤ ps.length → ((List.range n).filterMap F).length = n ∧ ∀ i, i < n → ((List.range n).filterMap F)[i]? = F i := by
    intro n
    induction n with
    | zero => intro _; exact ⟨rfl, fun i h => absurd h (Nat.not_lt_zero _)⟩
    | succ n ih =>
      intro hn
      obtain ⟨h1, h2⟩ := ih (by omega)
      obtain ⟨x, hx⟩ := some' n (by omega)
      rw [← hF] at hx
      rw [List.range_succ, List.filterMap_append]
      refine ⟨by simp [h1, hx], fun i hi => ?_⟩
      rcases Nat.lt_succ_iff_lt_or_eq.1 hi with h | rfl
      · rw [List.getElem?_append_left (by omega), h2 i h]
      · rw [List.getElem?_append_right (by omega)]
        simp [h1, hx]
  obtain ⟨k1, k2⟩ := key ps.length le_rfl
  refine ⟨order, ho, ?_, ?_, ?_⟩
  · simp [argValues, evalArgs_snd]
  · simpa [argValues, ← hF] using k1
  · intro l i r e
    have hi : i < ps.length := List.mem_range.1 (ho.mem_iff.1 (by rw [e]; simp))
    rw [← val l i r e, ← hF, ← k2 i hi]
    simp [argValues, ← hF]

end OpenKalman.Transformation
