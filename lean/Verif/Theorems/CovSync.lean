import Verif.Proof.CovSync
import Verif.Proof.CovView
import Verif.Model.CovDet
import Mathlib.LinearAlgebra.Matrix.Block

/-!
# C44, C45, C46: the lazily synchronised covariance
-/

namespace OpenKalman.CovSync
variable {N C : Type}

/-- Is the call an assignment from another covariance object? -/
def Op.isObjectAssign : Op N C → Bool
  | .copyAssign _ _ | .moveAssign _ _ => true
  | _ => false

private theorem sqrt16 : Nat.sqrt 16 = 4 := Nat.sqrt_eq 4

/-! ## C44 -/

/-- **C44** (histories without object-to-object assignment; for those see C45): for all matrix types, all conversions and every finite
history of constructions (default, from either form, copy, move), assignments of matrices of either form, element writes and reads in
either form, every read returns the value most recently written. -/
theorem C44_reads_last_write (e : Env N C) (ops : List (Op N C)) (hno : ∀ op ∈ ops, op.isObjectAssign = false)
    {h : Heap N C} {os : List (Obs N C)} (hr : run e (fun _ => none) ops = some (h, os)) :
    specTrace e.fwd e.rev (fun _ => none) ops os := by
  refine run_sim ops (empty_rel e) ?_ hr
  clear hr
  have key : ∀ (h : Heap N C), histOk e h ops := by
    induction ops with
    | nil => intro h; trivial
    | cons op ops ih =>
      intro h
      refine ⟨?_, fun h' o _ => ih (fun op' m => hno op' (List.mem_cons_of_mem _ m)) h'⟩
      have := hno op (List.mem_cons_self ..)
      cases op <;> simp_all [Op.isObjectAssign, opOk]
  exact key _

/-- The hypotheses of `C44_reads_last_write` are met by a history that forces both synchronisation directions; its read-outs. -/
example : (run (⟨fun n => n * n, Nat.sqrt, 0, 0⟩ : Env Nat Nat) (fun _ => none)
    [.newNested 0 3, .readChol 0, .write 0 (· + 7), .copyCtor 1 0, .readNested 1, .readChol 1]).map (·.2)
    = some [.unit, .chol 9, .unit, .unit, .nested 4, .chol 16] := by
  simp [run, step, upd, Obj.newNested, Obj.readChol, Obj.beforeChol, Obj.synchronizeForward, Obj.write, Obj.copyCtor,
    Obj.readNested, Obj.beforeNested, Obj.synchronizeReverse, sqrt16]

/-- **C44** (liveness): a call is rejected by the model exactly when the specification says a dead variable is used. -/
theorem C44_defined (e : Env N C) {s : SpecHeap N C} {h : Heap N C} (live : ∀ x, (s x).isSome = (h x).isSome) (op : Op N C) :
    (specStep e.fwd s op).isSome = (step e h op).isSome := step_defined live op

example (e : Env Nat Nat) : (step e (fun _ => none) (.readChol 0)).isSome = false := by rfl

/-- The value carried by an object, seen through the `C` form. -/
def SemRel (e : Env N C) (v : C) (o : Obj N C) : Prop := (0 ≤ o.sd → e.fwd o.nested = v) ∧ (o.sd ≤ 0 → o.chol = v)

/-- **C44** (derived objects): an operation applied to both forms (`covariance_op`) gives an object carrying the transformed value, whatever the
synchronisation state, provided the two actions correspond. -/
theorem C44_covariance_op (e : Env N C) (f1 : N → N) (f2 : C → C) (corr : ∀ n, e.fwd (f1 n) = f2 (e.fwd n)) {v : C} {o : Obj N C}
    (r : SemRel e v o) : SemRel e (f2 v) (o.covarianceOp e f1 f2) := by
  obtain ⟨r1, r2⟩ := r
  unfold Obj.covarianceOp
  by_cases h : o.sd ≥ 0
  · by_cases h' : o.sd ≤ 0
    · simp only [h, h', if_true, Obj.newNested, and_true]
      refine ⟨fun _ => ?_, fun _ => ?_⟩
      · simp [corr, r1 h]
      · simp [r2 h']
    · simp only [h, h', if_true, Obj.newNested, and_false, if_false]
      refine ⟨fun _ => ?_, fun hh => ?_⟩
      · simp [corr, r1 h]
      · simp at hh
  · simp only [h, if_false, Obj.newChol]
    refine ⟨fun hh => by simp at hh, fun _ => ?_⟩
    rw [r2 (by omega)]

example : SemRel (⟨fun n => n * n, Nat.sqrt, 0, 0⟩ : Env Nat Nat) 36
    (Obj.covarianceOp ⟨fun n => n * n, Nat.sqrt, 0, 0⟩ (2 * ·) (4 * ·) ⟨3, 9, 0⟩) :=
  C44_covariance_op _ (2 * ·) (4 * ·) (fun n => by show 2 * n * (2 * n) = 4 * (n * n); simp [Nat.mul_left_comm, Nat.mul_assoc, ← Nat.mul_assoc 2 2])
    (v := 9) ⟨fun _ => rfl, fun _ => rfl⟩

open Matrix in
/-- **C44** (determinant, self-adjoint form): whichever side is current, `determinant()` is the determinant of the covariance carried. -/
theorem C44_determinant_self_adjoint {n : ℕ} (rev : Matrix (Fin n) (Fin n) ℝ → Matrix (Fin n) (Fin n) ℝ) (n0 c0 : Matrix (Fin n) (Fin n) ℝ)
    {v : Matrix (Fin n) (Fin n) ℝ} {o : Obj (Matrix (Fin n) (Fin n) ℝ) (Matrix (Fin n) (Fin n) ℝ)}
    (r : SemRel ⟨fun L => L * Lᵀ, rev, n0, c0⟩ v o) : o.detSelfAdjoint = v.det := by
  unfold Obj.detSelfAdjoint
  by_cases h : o.sd > 0
  · have := r.1 (by omega)
    rw [if_pos h, ← this]; simp [Matrix.det_mul]
  · rw [if_neg h, r.2 (by omega)]

open Matrix in
example : ∃ o : Obj (Matrix (Fin 1) (Fin 1) ℝ) (Matrix (Fin 1) (Fin 1) ℝ),
    SemRel ⟨fun L => L * Lᵀ, id, 0, 0⟩ (Matrix.of fun _ _ => 9) o ∧ o.sd > 0 :=
  ⟨⟨Matrix.of fun _ _ => 3, 0, 1⟩, ⟨fun _ => by ext i j; simp [Matrix.mul_apply]; norm_num, fun h => by simp at h⟩, by simp⟩

open Matrix in
/-- **C44** (determinant, square-root form): with a Cholesky factorisation that returns a lower-triangular factor with non-negative
diagonal, `determinant()` is the determinant of the factor carried, whichever side is current. -/
theorem C44_determinant_square_root {n : ℕ} (factor rev : Matrix (Fin n) (Fin n) ℝ → Matrix (Fin n) (Fin n) ℝ) (n0 c0 : Matrix (Fin n) (Fin n) ℝ)
    {v : Matrix (Fin n) (Fin n) ℝ} {o : Obj (Matrix (Fin n) (Fin n) ℝ) (Matrix (Fin n) (Fin n) ℝ)}
    (hf : o.sd > 0 → factor o.nested * (factor o.nested)ᵀ = o.nested)
    (htri : o.sd > 0 → (factor o.nested).BlockTriangular OrderDual.toDual) (hpos : o.sd > 0 → ∀ i, 0 ≤ factor o.nested i i)
    (r : SemRel ⟨factor, rev, n0, c0⟩ v o) : o.detSquareRoot = v.det := by
  unfold Obj.detSquareRoot
  by_cases h : o.sd > 0
  · have hv : factor o.nested = v := r.1 (by omega)
    have h1 := hf h
    rw [if_pos h, ← h1, hv, Matrix.det_mul, Matrix.det_transpose]
    apply Real.sqrt_mul_self
    have h2 := htri h
    rw [hv] at h2
    rw [Matrix.det_of_isLowerTriangular v h2]
    apply Finset.prod_nonneg
    intro i _
    rw [← hv]; exact hpos h i
  · rw [if_neg h, r.2 (by omega)]

open Matrix in
example : ∃ (factor : Matrix (Fin 1) (Fin 1) ℝ → Matrix (Fin 1) (Fin 1) ℝ) (o : Obj (Matrix (Fin 1) (Fin 1) ℝ) (Matrix (Fin 1) (Fin 1) ℝ)),
    o.sd > 0 ∧ factor o.nested * (factor o.nested)ᵀ = o.nested ∧ (factor o.nested).BlockTriangular OrderDual.toDual ∧ (∀ i, 0 ≤ factor o.nested i i) ∧
    SemRel ⟨factor, id, 0, 0⟩ (Matrix.of fun _ _ => 3) o :=
  ⟨fun _ => Matrix.of fun _ _ => 3, ⟨Matrix.of fun _ _ => 9, 0, 1⟩, by simp, by ext i j; simp [Matrix.mul_apply]; norm_num,
    fun i j h => absurd h (by have := Subsingleton.elim i j; subst this; simp), fun i => by simp,
    ⟨fun _ => rfl, fun h => by simp at h⟩⟩

/-- C44 fails for nested matrices that are not assignable (Case 3, subcase 2): after an element write, reading the nested form returns the value before
the write.  For every environment, factor `n` and modification `f`. -/
theorem C44_case32_stale (e : Env N C) (n : N) (f : C → C) :
    (((Obj.newNested e n).write e f).readNested2).2 = n := by
  simp [Obj.newNested, Obj.write, Obj.beforeChol, Obj.synchronizeForward, Obj.readNested2, Obj.synchronizeReverse2]

/-- … and this differs from what the specification demands. -/
theorem C44_case32_violated : ∃ (e : Env Nat Nat) (n : Nat) (f : Nat → Nat),
    ¬ ((Val.nested n).write e.fwd f).allowsNested e.rev (((Obj.newNested e n).write e f).readNested2).2 :=
  ⟨⟨fun n => n * n, Nat.sqrt, 0, 0⟩, 3, fun _ => 16, by
    rw [C44_case32_stale]; simp [Val.write, Val.allowsNested, sqrt16]⟩

/-! ## C45 -/

/-- **C45**, the full statement: every history, assignments between objects included, is accepted by the specification. -/
def C45_statement : Prop :=
  ∀ (N C : Type) (e : Env N C) (ops : List (Op N C)) (h : Heap N C) (os : List (Obs N C)),
    run e (fun _ => none) ops = some (h, os) → specTrace e.fwd e.rev (fun _ => none) ops os

/-- The code violates C45: `a` built from a factor, `b` modified elementwise, `a = b`, read `a`: a default-constructed matrix is returned. -/
theorem C45_violated : ¬ C45_statement := by
  intro H
  have := H Nat Nat ⟨fun n => n * n, Nat.sqrt, 0, 0⟩
    [.newNested 0 2, .newNested 1 3, .write 1 (fun _ => 16), .copyAssign 0 1, .readChol 0] _ _ rfl
  simp [specTrace, specAllows, specStep, upd, Val.write, Val.allowsChol, Obj.copyAssign, Obj.newNested, Obj.write, Obj.readChol,
    Obj.beforeChol, Obj.synchronizeForward] at this

/-- Exactly which synchronisation states go wrong: for states in which the target's and the source's directions differ and the target is not
synchronised, some consistent pair of objects of those directions is assigned wrongly; otherwise assignment is right for all. -/
theorem C45_assign_correct_iff (a b : Int) (ha : a = -1 ∨ a = 0 ∨ a = 1) (hb : b = -1 ∨ b = 0 ∨ b = 1) :
    (∀ (N C : Type) (e : Env N C) (v v' : Val N C) (o o' : Obj N C), o.sd = a → o'.sd = b → Rel e v o → Rel e v' o' →
      Rel e v' (o.copyAssign o')) ↔ (a = 0 ∨ a = b) := by
  constructor
  · intro H
    rcases ha with rfl | rfl | rfl
    · rcases hb with rfl | rfl | rfl
      · simp
      · have := H Bool Bool ⟨id, id, false, false⟩ (.chol false) (.nested true) ⟨false, false, -1⟩ ⟨true, true, 0⟩ rfl rfl
          ⟨by simp, rfl, by simp⟩ ⟨by simp, rfl, fun _ => rfl⟩
        simp [Rel, Obj.copyAssign] at this
      · have := H Bool Bool ⟨id, id, false, false⟩ (.chol false) (.nested true) ⟨false, false, -1⟩ ⟨true, true, 1⟩ rfl rfl
          ⟨by simp, rfl, by simp⟩ ⟨by simp, rfl, by simp⟩
        simp [Rel, Obj.copyAssign] at this
    · simp
    · rcases hb with rfl | rfl | rfl
      · have := H Bool Bool ⟨id, id, false, false⟩ (.nested false) (.chol true) ⟨false, false, 1⟩ ⟨true, true, -1⟩ rfl rfl
          ⟨by simp, rfl, by simp⟩ ⟨by simp, rfl, by simp⟩
        simp [Rel, Obj.copyAssign] at this
      · have := H Bool Bool ⟨id, id, false, false⟩ (.nested false) (.chol true) ⟨false, false, 1⟩ ⟨true, true, 0⟩ rfl rfl
          ⟨by simp, rfl, by simp⟩ ⟨by simp, rfl, fun _ => rfl⟩
        simp [Rel, Obj.copyAssign] at this
      · simp
  · intro h N C e v v' o o' h1 h2 _ r'
    refine rel_assign r' ?_
    subst h1; subst h2; exact h

/-- **C45** (partial): every history in which each assignment between objects meets a synchronised target or equal directions is accepted by the specification.
Missing for the full statement: targets with an out-of-date side and a source of a different direction, where the code is wrong (`C45_violated`). -/
theorem C45_assign_partial (e : Env N C) (ops : List (Op N C)) (ok : histOk e (fun _ => none) ops)
    {h : Heap N C} {os : List (Obs N C)} (hr : run e (fun _ => none) ops = some (h, os)) :
    specTrace e.fwd e.rev (fun _ => none) ops os := run_sim ops (empty_rel e) ok hr

/-- A history meeting the guard that contains an assignment: synchronise `a` by reading it, then assign. -/
example : histOk (⟨fun n => n * n, Nat.sqrt, 0, 0⟩ : Env Nat Nat) (fun _ => none)
    [.newNested 0 2, .readChol 0, .newNested 1 3, .write 1 (fun _ => 16), .copyAssign 0 1, .readChol 0] := by
  simp [histOk, opOk, step, upd, Obj.newNested, Obj.readChol, Obj.beforeChol, Obj.synchronizeForward, Obj.write, Obj.assignOk]

/-- A user-level remedy: reading the target in both forms first makes any assignment correct. -/
theorem C45_read_both_then_assign {e : Env N C} {v' : Val N C} {o o' : Obj N C} (r' : Rel e v' o') :
    Rel e v' ((((o.readNested e).1.readChol e).1).copyAssign o') := by
  refine rel_assign r' (Or.inl ?_)
  by_cases h : o.sd < 0
  · simp [Obj.readNested, beforeNested_neg e h, Obj.synchronizeReverse, Obj.readChol, Obj.beforeChol]
  · by_cases h2 : 0 < o.sd
    · simp [Obj.readNested, beforeNested_nonneg e (show 0 ≤ o.sd by omega), Obj.readChol, beforeChol_pos e h2, Obj.synchronizeForward]
    · simp only [Obj.readNested, beforeNested_nonneg e (show 0 ≤ o.sd by omega), Obj.readChol, beforeChol_nonpos e (show o.sd ≤ 0 by omega)]
      exact Int.le_antisymm (by omega) (by omega)

/-- Assignment from a covariance of another type has the same defect: with the target's cholesky side out of date and the source's nested side out of date
the source is synchronised on the way and the target is marked synchronised with a stale side. -/
theorem C45_assign_other_violated : ∃ (e : Env Nat Nat) (v v' : Val Nat Nat) (o o' : Obj Nat Nat), Rel e v o ∧ Rel e v' o' ∧
    ¬ Rel e v' (o.assignOther e id id o').1 :=
  ⟨⟨fun n => n * n, Nat.sqrt, 0, 0⟩, .nested 2, .chol 16, ⟨2, 0, 1⟩, ⟨0, 16, -1⟩, ⟨by simp, rfl, by simp⟩, ⟨by simp, rfl, by simp⟩, by
    simp [Rel, Obj.assignOther, Obj.readNested, Obj.beforeNested, Obj.synchronizeReverse]⟩

/-- … and is right from a synchronised target or one of the same direction (`cn`, `cc` converting between the storage types compatibly). -/
theorem C45_assign_other_partial {N' C' : Type} (e : Env N C) (e' : Env N' C') (cn : N' → N) (cc : C' → C)
    (hf : ∀ n, e.fwd (cn n) = cc (e'.fwd n)) (hr : ∀ c, e.rev (cc c) = cn (e'.rev c)) {v' : Val N' C'} {o : Obj N C} {o' : Obj N' C'}
    (h0 : o.sd = 0 ∨ o.sd = o'.sd) (r' : Rel e' v' o') :
    Rel e (match v' with | .indet => .indet | .nested n => .nested (cn n) | .chol c => .chol (cc c)) (o.assignOther e' cn cc o').1 := by
  cases v' with
  | indet => trivial
  | nested n =>
    obtain ⟨h1, h2, h3⟩ := r'
    by_cases h : 0 < o'.sd
    · rcases h0 with h0 | h0
      · simp [Rel, Obj.assignOther, h0, Obj.readNested, beforeNested_nonneg e' h1, Obj.readChol, beforeChol_pos e' h, Obj.synchronizeForward, h2, hf]
      · simp [Rel, Obj.assignOther, h0, Obj.readNested, beforeNested_nonneg e' h1, show 0 ≤ o'.sd by omega, show ¬ o'.sd ≤ 0 by omega, h2]
    · have h : o'.sd = 0 := by omega
      have h0 : o.sd = 0 := by omega
      simp [Rel, Obj.assignOther, h0, Obj.readNested, beforeNested_nonneg e' h1, Obj.readChol, beforeChol_nonpos e' (show o'.sd ≤ 0 by omega), h2, hf, h3, h]
  | chol c =>
    obtain ⟨h1, h2, h3⟩ := r'
    by_cases h : o'.sd < 0
    · rcases h0 with h0 | h0
      · simp [Rel, Obj.assignOther, h0, Obj.readNested, beforeNested_neg e' h, Obj.readChol, Obj.beforeChol, Obj.synchronizeReverse, h2, hr]
      · simp [Rel, Obj.assignOther, h0, Obj.readChol, beforeChol_nonpos e' h1, show ¬ 0 ≤ o'.sd by omega, h1, h2]
    · have h : o'.sd = 0 := by omega
      have h0 : o.sd = 0 := by omega
      simp [Rel, Obj.assignOther, h0, Obj.readNested, beforeNested_nonneg e' (show 0 ≤ o'.sd by omega), Obj.readChol, beforeChol_nonpos e' h1, h2, hr, h3, h]

example : Rel (⟨fun n => n * n, Nat.sqrt, 0, 0⟩ : Env Nat Nat) (.chol 16)
    ((⟨2, 4, 0⟩ : Obj Nat Nat).assignOther ⟨fun n => n * n, Nat.sqrt, 0, 0⟩ id id ⟨0, 16, -1⟩).1 :=
  C45_assign_other_partial (v' := .chol 16) _ _ id id (fun _ => rfl) (fun _ => rfl) (Or.inl rfl) ⟨by simp, rfl, by simp⟩

/-- With the cholesky sides of both out of date the target's stays marked so. -/
example : Rel (⟨fun n => n * n, Nat.sqrt, 0, 0⟩ : Env Nat Nat) (.nested 4)
    ((⟨2, 0, 1⟩ : Obj Nat Nat).assignOther ⟨fun n => n * n, Nat.sqrt, 0, 0⟩ id id ⟨4, 0, 1⟩).1 :=
  C45_assign_other_partial (v' := .nested 4) (o := ⟨2, 0, 1⟩) (o' := ⟨4, 0, 1⟩) _ ⟨fun n => n * n, Nat.sqrt, 0, 0⟩ id id (fun _ => rfl) (fun _ => rfl) (Or.inr rfl) ⟨by simp, rfl, by simp⟩

/-! ## C46 -/

/-- **C46**, the full statement for a view on a Case 3 covariance that has been given a value. -/
def C46_statement : Prop :=
  ∀ (N C : Type) (e : Env N C) (n : N) (ops : List (VOp N C)),
    vSpecTrace e.fwd e.rev e.n0 (.nested n) ops (vRun e (Obj.newNested e n) ops)

/-- Violation by a stale read: write an element of the covariance, read the square root through a const view. -/
theorem C46_violated_stale_read : ¬ C46_statement := by
  intro H
  have := H Nat Nat ⟨fun n => n * n, Nat.sqrt, 0, 0⟩ 3 [.baseWrite (fun _ => 16), .viewReadConst]
  simp [vSpecTrace, vSpecAllows, vSpecStep, vRun, vStep, Val.write, Val.allowsNested, Obj.write, Obj.newNested, Obj.beforeChol,
    Obj.synchronizeForward, sqrt16] at this

/-- Violation by a lost update: write an element of the covariance, then `set_component` through the view (here on a different entry of a
pair), then read the covariance: the first write has been lost. -/
theorem C46_violated_lost_update : ∃ (e : Env (Nat × Nat) (Nat × Nat)) (n : Nat × Nat) (f g : Nat × Nat → Nat × Nat),
    vRun e (Obj.newNested e n) [.baseWrite f, .viewSetComponent g, .baseReadChol] = [.unit, .unit, .chol (1, 9)] ∧
    ¬ vSpecTrace e.fwd e.rev e.n0 (.nested n) [.baseWrite f, .viewSetComponent g, .baseReadChol] [.unit, .unit, .chol (1, 9)] :=
  ⟨⟨fun p => (p.1 * p.1, p.2 * p.2), fun p => (Nat.sqrt p.1, Nat.sqrt p.2), (0, 0), (0, 0)⟩, (1, 2),
    fun p => (16, p.2), fun p => (p.1, 3), by
      simp [vRun, vStep, Obj.write, Obj.newNested, Obj.beforeChol, Obj.synchronizeForward, Obj.readChol], by
      simp [vSpecTrace, vSpecAllows, vSpecStep, Val.write, Val.toNested, Val.allowsChol, sqrt16]⟩

/-- **C46** (partial): histories whose unsynchronised calls (`const` element reads and `set_component` through the view) happen only while
the nested side is current are coherent, for every starting value in either form.  In particular every history without those two calls. -/
theorem C46_coherent_partial (e : Env N C) (v : Val N C) (o : Obj N C) (r : Rel e v o) (ops : List (VOp N C)) (ok : vHistOk e o ops) :
    vSpecTrace e.fwd e.rev e.n0 v ops (vRun e o ops) := vRun_sim e.n0 ops r ok

theorem C46_synchronising_partial (e : Env N C) (n : N) (ops : List (VOp N C)) (h : ∀ op ∈ ops, op.synchronising) :
    vSpecTrace e.fwd e.rev e.n0 (.nested n) ops (vRun e (Obj.newNested e n) ops) :=
  vRun_sim e.n0 ops ⟨by simp [Obj.newNested], rfl, by simp [Obj.newNested]⟩ (vHistOk_of_synchronising ops _ h)

example : ∀ op ∈ ([.baseWrite (fun _ => 16), .viewRead, .viewWrite (· + 1), .baseReadChol] : List (VOp Nat Nat)), op.synchronising := by
  simp [VOp.synchronising]

/-- **C46** (Case 4 linked to Case 3): a write through the link is the write of the linked object, so both handles see one value. -/
theorem C46_link_write (e : Env N C) (o : Obj N C) (f : C → C) : o.linkWrite e f = o.write e f := by
  simp [Obj.linkWrite, Obj.write]

/-- **C46** (Case 4 copy assignment): unlike Case 3, it is right in every pair of states. -/
theorem C46_link_assign (e : Env N C) {v' : Val N C} {o o' : Obj N C} (r' : Rel e v' o') : Rel e v' (o.linkAssign e o') := by
  cases v' with
  | indet => trivial
  | nested n =>
    obtain ⟨h1, h2, h3⟩ := r'
    by_cases h : o'.sd > 0
    · simp [Rel, Obj.linkAssign, h, h2]
    · have h : o'.sd = 0 := by omega
      simp [Rel, Obj.linkAssign, h, h2, h3]
  | chol c =>
    obtain ⟨h1, h2, h3⟩ := r'
    by_cases h : o'.sd < 0
    · have h' : ¬ (o'.sd > 0) := by omega
      simp [Rel, Obj.linkAssign, h, h', h2]
    · have h : o'.sd = 0 := by omega
      simp [Rel, Obj.linkAssign, h, h2, h3]

example : Rel (⟨fun n => n * n, Nat.sqrt, 0, 0⟩ : Env Nat Nat) (.chol 16) ((⟨2, 0, 1⟩ : Obj Nat Nat).linkAssign ⟨fun n => n * n, Nat.sqrt, 0, 0⟩ ⟨0, 16, -1⟩) :=
  C46_link_assign _ (v' := .chol 16) ⟨by simp, rfl, by simp⟩

/-- **C46** (owning Case 4): if the conversions are inverse on the `C` side, an owning reference covariance and the matrix it refers to are one value, for every history. -/
theorem C46_owned (e : Env N C) (inv : ∀ c, e.fwd (e.rev c) = c) (n : N) (c : C) (ops : List (VOp N C)) :
    vSpecTrace e.fwd e.rev e.n0 (.nested n) ops (oRun e ⟨n, c⟩ ops) := oRun_sim inv e.n0 ops rfl

example : oRun (⟨fun n => n + 1, fun c => c - 1, 0, 0⟩ : Env Int Int) ⟨3, 0⟩ [.baseReadChol, .baseWrite (· * 2), .viewRead]
    = [.chol 4, .unit, .nested 7] := by
  simp [oRun, oStep, Owned.readChol, Owned.synchronizeForward, Owned.write, Owned.synchronizeReverse]

end OpenKalman.CovSync
