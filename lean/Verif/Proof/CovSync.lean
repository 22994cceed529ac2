import Verif.Model.CovSync

/-! Helper lemmas for the synchronisation state machine. -/

namespace OpenKalman.CovSync
variable {N C : Type}

/-- Simulation relation between a believed value and an object. -/
def Rel (e : Env N C) : Val N C → Obj N C → Prop
  | .indet, _ => True
  | .nested n, o => 0 ≤ o.sd ∧ o.nested = n ∧ (o.sd ≤ 0 → o.chol = e.fwd n)
  | .chol c, o => o.sd ≤ 0 ∧ o.chol = c ∧ (0 ≤ o.sd → o.nested = e.rev c)

/-- Simulation relation between stores. -/
def HRel (e : Env N C) (s : SpecHeap N C) (h : Heap N C) : Prop :=
  ∀ x, (s x = none ∧ h x = none) ∨ ∃ v o, s x = some v ∧ h x = some o ∧ Rel e v o

/-- An assignment between distinct objects is unproblematic when the target is synchronised, or both
objects have the same synchronisation direction. -/
def Obj.assignOk (o o' : Obj N C) : Prop := o.sd = 0 ∨ o.sd = o'.sd

/-- The guard on a single call. -/
def opOk (h : Heap N C) : Op N C → Prop
  | .copyAssign x y => x = y ∨ ∀ o o', h x = some o → h y = some o' → o.assignOk o'
  | .moveAssign x y => x = y ∨ ∀ o o', h x = some o → h y = some o' → o.assignOk o'
  | _ => True

/-- The guard on a history, evaluated along its run. -/
def histOk (e : Env N C) : Heap N C → List (Op N C) → Prop
  | _, [] => True
  | h, op :: ops => opOk h op ∧ ∀ h' o, step e h op = some (h', o) → histOk e h' ops

theorem beforeChol_pos (e : Env N C) {o : Obj N C} (h : 0 < o.sd) : o.beforeChol e = o.synchronizeForward e := by
  simp [Obj.beforeChol, h]

theorem beforeChol_nonpos (e : Env N C) {o : Obj N C} (h : o.sd ≤ 0) : o.beforeChol e = o := by
  have : ¬ (o.sd > 0) := by omega
  simp only [Obj.beforeChol, this, if_false]

theorem beforeNested_neg (e : Env N C) {o : Obj N C} (h : o.sd < 0) : o.beforeNested e = o.synchronizeReverse e := by
  simp [Obj.beforeNested, h]

theorem beforeNested_nonneg (e : Env N C) {o : Obj N C} (h : 0 ≤ o.sd) : o.beforeNested e = o := by
  have : ¬ (o.sd < 0) := by omega
  simp only [Obj.beforeNested, this, if_false]

theorem HRel.upd {e : Env N C} {s : SpecHeap N C} {h : Heap N C} (H : HRel e s h) (x : Nat) {v : Val N C} {o : Obj N C}
    (r : Rel e v o) : HRel e (CovSync.upd s x (some v)) (CovSync.upd h x (some o)) := by
  intro y
  by_cases hy : y = x
  · right; exact ⟨v, o, by simp [CovSync.upd, hy], by simp [CovSync.upd, hy], r⟩
  · simpa [CovSync.upd, hy] using H y

theorem HRel.kill {e : Env N C} {s : SpecHeap N C} {h : Heap N C} (H : HRel e s h) (x : Nat) :
    HRel e (CovSync.upd s x none) (CovSync.upd h x none) := by
  intro y
  by_cases hy : y = x
  · left; simp [CovSync.upd, hy]
  · simpa [CovSync.upd, hy] using H y

theorem rel_copyCtor {e : Env N C} {v : Val N C} {o : Obj N C} (r : Rel e v o) : Rel e v (Obj.copyCtor e o) := by
  cases v with
  | indet => trivial
  | nested n =>
    obtain ⟨h1, h2, h3⟩ := r
    refine ⟨h1, ?_, ?_⟩
    · have : ¬ (o.sd < 0) := by omega
      simp only [Obj.copyCtor, this, if_false, h2]
    · intro h; have h : o.sd ≤ 0 := h
      have : ¬ (o.sd > 0) := by omega
      simp only [Obj.copyCtor, this, if_false, h3 h]
  | chol c =>
    obtain ⟨h1, h2, h3⟩ := r
    refine ⟨h1, ?_, ?_⟩
    · have : ¬ (o.sd > 0) := by omega
      simp only [Obj.copyCtor, this, if_false, h2]
    · intro h; have h : 0 ≤ o.sd := h
      have : ¬ (o.sd < 0) := by omega
      simp only [Obj.copyCtor, this, if_false, h3 h]

theorem rel_assign {e : Env N C} {v' : Val N C} {o o' : Obj N C} (r' : Rel e v' o')
    (ok : o.assignOk o') : Rel e v' (o.copyAssign o') := by
  cases v' with
  | indet => trivial
  | nested n =>
    obtain ⟨h1, h2, h3⟩ := r'
    refine ⟨h1, ?_, ?_⟩
    · have : o.sd ≥ 0 := by rcases ok with h | h <;> omega
      simp only [Obj.copyAssign, this, if_true, h2]
    · intro h; have h : o'.sd ≤ 0 := h
      have : o.sd ≤ 0 := by rcases ok with h | h <;> omega
      simp only [Obj.copyAssign, this, if_true, h3 h]
  | chol c =>
    obtain ⟨h1, h2, h3⟩ := r'
    refine ⟨h1, ?_, ?_⟩
    · have : o.sd ≤ 0 := by rcases ok with h | h <;> omega
      simp only [Obj.copyAssign, this, if_true, h2]
    · intro h; have h : 0 ≤ o'.sd := h
      have : o.sd ≥ 0 := by rcases ok with h | h <;> omega
      simp only [Obj.copyAssign, this, if_true, h3 h]

theorem rel_write {e : Env N C} {v : Val N C} {o : Obj N C} (f : C → C) (r : Rel e v o) :
    Rel e (v.write e.fwd f) (o.write e f) := by
  cases v with
  | indet => trivial
  | nested n =>
    obtain ⟨h1, h2, h3⟩ := r
    refine ⟨by simp [Obj.write], ?_, by simp [Obj.write]⟩
    by_cases h : 0 < o.sd
    · simp [Obj.write, beforeChol_pos e h, Obj.synchronizeForward, h2]
    · have h : o.sd ≤ 0 := by omega
      simp [Obj.write, beforeChol_nonpos e h, h3 h]
  | chol c =>
    obtain ⟨h1, h2, h3⟩ := r
    refine ⟨by simp [Obj.write], ?_, by simp [Obj.write]⟩
    simp [Obj.write, beforeChol_nonpos e h1, h2]

theorem rel_readChol {e : Env N C} {v : Val N C} {o : Obj N C} (r : Rel e v o) :
    Rel e v (o.readChol e).1 ∧ v.allowsChol e.fwd (o.readChol e).2 := by
  cases v with
  | indet => exact ⟨trivial, trivial⟩
  | nested n =>
    obtain ⟨h1, h2, h3⟩ := r
    by_cases h : 0 < o.sd
    · simp [Obj.readChol, beforeChol_pos e h, Obj.synchronizeForward, h2, Val.allowsChol, Rel]
    · have h : o.sd ≤ 0 := by omega
      simp only [Obj.readChol, beforeChol_nonpos e h]
      exact ⟨⟨h1, h2, h3⟩, h3 h⟩
  | chol c =>
    obtain ⟨h1, h2, h3⟩ := r
    simp only [Obj.readChol, beforeChol_nonpos e h1]
    exact ⟨⟨h1, h2, h3⟩, h2⟩

theorem rel_readNested {e : Env N C} {v : Val N C} {o : Obj N C} (r : Rel e v o) :
    Rel e v (o.readNested e).1 ∧ v.allowsNested e.rev (o.readNested e).2 := by
  cases v with
  | indet => exact ⟨trivial, trivial⟩
  | nested n =>
    obtain ⟨h1, h2, h3⟩ := r
    simp only [Obj.readNested, beforeNested_nonneg e h1]
    exact ⟨⟨h1, h2, h3⟩, h2⟩
  | chol c =>
    obtain ⟨h1, h2, h3⟩ := r
    by_cases h : o.sd < 0
    · simp [Obj.readNested, beforeNested_neg e h, Obj.synchronizeReverse, h2, Val.allowsNested, Rel]
    · have h : 0 ≤ o.sd := by omega
      simp only [Obj.readNested, beforeNested_nonneg e h]
      exact ⟨⟨h1, h2, h3⟩, h3 h⟩

theorem upd_self {α : Type} (s : Nat → α) (x : Nat) (v : α) (h : s x = v) : upd s x v = s := by
  funext y; by_cases hy : y = x <;> simp [upd, hy, h]

/-- One call preserves the simulation and produces an accepted observation. -/
theorem step_sim {e : Env N C} {s : SpecHeap N C} {h : Heap N C} (H : HRel e s h) (op : Op N C) (ok : opOk h op)
    {h' : Heap N C} {o : Obs N C} (hs : step e h op = some (h', o)) :
    specAllows e.fwd e.rev s op o ∧ ∃ s', specStep e.fwd s op = some s' ∧ HRel e s' h' := by
  have get : ∀ {x o}, h x = some o → ∃ v, s x = some v ∧ Rel e v o := by
    intro x o hx
    rcases H x with ⟨_, h2⟩ | ⟨v, o', h1, h2, h3⟩
    · simp [hx] at h2
    · rw [hx] at h2; cases h2; exact ⟨v, h1, h3⟩
  cases op with
  | newDefault x =>
    simp only [step, Option.some.injEq, Prod.mk.injEq] at hs
    obtain ⟨rfl, rfl⟩ := hs
    exact ⟨trivial, _, rfl, H.upd x (v := .indet) trivial⟩
  | newNested x n =>
    simp only [step, Option.some.injEq, Prod.mk.injEq] at hs
    obtain ⟨rfl, rfl⟩ := hs
    exact ⟨trivial, _, rfl, H.upd x (v := .nested n) ⟨by simp [Obj.newNested], rfl, by simp [Obj.newNested]⟩⟩
  | newChol x c =>
    simp only [step, Option.some.injEq, Prod.mk.injEq] at hs
    obtain ⟨rfl, rfl⟩ := hs
    exact ⟨trivial, _, rfl, H.upd x (v := .chol c) ⟨by simp [Obj.newChol], rfl, by simp [Obj.newChol]⟩⟩
  | copyCtor x y =>
    simp only [step, Option.map_eq_some_iff, Prod.mk.injEq] at hs
    obtain ⟨o', hy, rfl, rfl⟩ := hs
    obtain ⟨v, hv, r⟩ := get hy
    exact ⟨trivial, _, by simp [specStep, hv], H.upd x (rel_copyCtor r)⟩
  | moveCtor x y =>
    simp only [step, Option.map_eq_some_iff, Prod.mk.injEq] at hs
    obtain ⟨o', hy, rfl, rfl⟩ := hs
    obtain ⟨v, hv, r⟩ := get hy
    exact ⟨trivial, _, by simp [specStep, hv], (H.kill y).upd x r⟩
  | assignNested x n =>
    simp only [step, Option.map_eq_some_iff, Prod.mk.injEq] at hs
    obtain ⟨o', hy, rfl, rfl⟩ := hs
    obtain ⟨v, hv, r⟩ := get hy
    exact ⟨trivial, _, by simp [specStep, hv], H.upd x (v := .nested n)
      ⟨by simp [Obj.assignNested], rfl, by simp [Obj.assignNested]⟩⟩
  | assignChol x c =>
    simp only [step, Option.map_eq_some_iff, Prod.mk.injEq] at hs
    obtain ⟨o', hy, rfl, rfl⟩ := hs
    obtain ⟨v, hv, r⟩ := get hy
    exact ⟨trivial, _, by simp [specStep, hv], H.upd x (v := .chol c)
      ⟨by simp [Obj.assignChol], rfl, by simp [Obj.assignChol]⟩⟩
  | copyAssign x y =>
    simp only [step, Option.bind_eq_some_iff, Option.map_eq_some_iff, Prod.mk.injEq] at hs
    obtain ⟨o1, hx, o2, hy, rfl, rfl⟩ := hs
    obtain ⟨v, hv, r⟩ := get hx
    obtain ⟨v', hv', r'⟩ := get hy
    refine ⟨trivial, _, by simp [specStep, hv, hv']; rfl, ?_⟩
    by_cases hxy : x = y
    · subst hxy
      rw [upd_self s x _ hv']; simpa using H
    · simp only [hxy, if_false]
      have ok' : o1.assignOk o2 := by
        rcases ok with h | h
        · exact absurd h hxy
        · exact h _ _ hx hy
      exact H.upd x (rel_assign r' ok')
  | moveAssign x y =>
    simp only [step, Option.bind_eq_some_iff, Option.map_eq_some_iff, Prod.mk.injEq] at hs
    obtain ⟨o1, hx, o2, hy, rfl, rfl⟩ := hs
    obtain ⟨v, hv, r⟩ := get hx
    obtain ⟨v', hv', r'⟩ := get hy
    refine ⟨trivial, _, by simp [specStep, hv, hv']; rfl, ?_⟩
    by_cases hxy : x = y
    · simpa [hxy] using H
    · simp only [hxy, if_false]
      have ok' : o1.assignOk o2 := by
        rcases ok with h | h
        · exact absurd h hxy
        · exact h _ _ hx hy
      exact (H.kill y).upd x (rel_assign r' ok')
  | write x f =>
    simp only [step, Option.map_eq_some_iff, Prod.mk.injEq] at hs
    obtain ⟨o', hy, rfl, rfl⟩ := hs
    obtain ⟨v, hv, r⟩ := get hy
    exact ⟨trivial, _, by simp [specStep, hv], H.upd x (rel_write f r)⟩
  | readChol x =>
    simp only [step, Option.map_eq_some_iff, Prod.mk.injEq] at hs
    obtain ⟨o', hy, rfl, rfl⟩ := hs
    obtain ⟨v, hv, r⟩ := get hy
    refine ⟨⟨v, hv, (rel_readChol r).2⟩, s, by simp [specStep, hv], ?_⟩
    have := H.upd x (rel_readChol r).1
    rwa [upd_self s x _ hv] at this
  | readNested x =>
    simp only [step, Option.map_eq_some_iff, Prod.mk.injEq] at hs
    obtain ⟨o', hy, rfl, rfl⟩ := hs
    obtain ⟨v, hv, r⟩ := get hy
    refine ⟨⟨v, hv, (rel_readNested r).2⟩, s, by simp [specStep, hv], ?_⟩
    have := H.upd x (rel_readNested r).1
    rwa [upd_self s x _ hv] at this

/-- Histories refine the specification. -/
theorem run_sim {e : Env N C} (ops : List (Op N C)) {s : SpecHeap N C} {h : Heap N C} (H : HRel e s h)
    (ok : histOk e h ops) {h' : Heap N C} {os : List (Obs N C)} (hr : run e h ops = some (h', os)) :
    specTrace e.fwd e.rev s ops os := by
  induction ops generalizing s h h' os with
  | nil => simp [run] at hr; obtain ⟨_, rfl⟩ := hr; trivial
  | cons op ops ih =>
    simp only [run, Option.bind_eq_some_iff, Option.map_eq_some_iff, Prod.exists, Prod.mk.injEq] at hr
    obtain ⟨h1, o, hstep, h2, os', hrun, rfl, rfl⟩ := hr
    obtain ⟨okop, okrest⟩ := ok
    obtain ⟨hallow, s', hs', H'⟩ := step_sim H op okop hstep
    exact ⟨hallow, s', hs', ih H' (okrest _ _ hstep) hrun⟩

/-- A call is defined for the object exactly when it is defined for the specification. -/
theorem step_defined {e : Env N C} {s : SpecHeap N C} {h : Heap N C} (live : ∀ x, (s x).isSome = (h x).isSome) (op : Op N C) :
    (specStep e.fwd s op).isSome = (step e h op).isSome := by
  cases op <;> simp [specStep, step, live]
  all_goals
    rename_i x y
    have hx := live x
    have hy := live y
    cases h1 : s x <;> cases h2 : h x <;> cases h3 : s y <;> cases h4 : h y <;> simp_all

theorem empty_rel (e : Env N C) : HRel e (fun _ => none) (fun _ => none) := fun _ => Or.inl ⟨rfl, rfl⟩

end OpenKalman.CovSync
