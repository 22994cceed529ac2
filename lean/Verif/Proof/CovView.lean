import Verif.Model.CovView
import Verif.Proof.CovSync

namespace OpenKalman.CovSync
variable {N C : Type}

/-- Calls that synchronise before touching the nested object. -/
def VOp.synchronising : VOp N C → Prop
  | .viewReadConst | .viewSetComponent _ => False
  | _ => True

/-- State in which the nested object is up to date. -/
def VOp.safe (o : Obj N C) : VOp N C → Prop
  | .viewReadConst | .viewSetComponent _ => 0 ≤ o.sd
  | _ => True

/-- Guard along a run. -/
def vHistOk (e : Env N C) : Obj N C → List (VOp N C) → Prop
  | _, [] => True
  | o, op :: ops => op.safe o ∧ vHistOk e (vStep e o op).1 ops

theorem rel_nested_write {e : Env N C} {v : Val N C} {o : Obj N C} (g : N → N) (d : N) (hv : v ≠ .indet) (r : Rel e v o)
    (h0 : 0 ≤ o.sd) : Rel e (.nested (g (v.toNested e.rev d))) { o with nested := g o.nested, sd := 1 } := by
  refine ⟨by simp, ?_, by simp⟩
  cases v with
  | indet => exact absurd rfl hv
  | nested n => simp [Val.toNested, r.2.1]
  | chol c => simp [Val.toNested, r.2.2 h0]

theorem beforeNested_sd (e : Env N C) (o : Obj N C) : 0 ≤ (o.beforeNested e).sd := by
  by_cases h : o.sd < 0
  · simp [beforeNested_neg e h, Obj.synchronizeReverse]
  · rw [beforeNested_nonneg e (by omega)]; omega

theorem vStep_sim {e : Env N C} {v : Val N C} {o : Obj N C} (d : N) (r : Rel e v o) (op : VOp N C) (safe : op.safe o) :
    vSpecAllows e.fwd e.rev v op (vStep e o op).2 ∧ Rel e (vSpecStep e.fwd e.rev d v op) (vStep e o op).1 := by
  cases op with
  | baseWrite f => exact ⟨trivial, rel_write f r⟩
  | baseReadChol => exact ⟨(rel_readChol r).2, (rel_readChol r).1⟩
  | baseReadNested => exact ⟨(rel_readNested r).2, (rel_readNested r).1⟩
  | baseAssignNested n => exact ⟨trivial, by simp [vStep, Obj.assignNested], rfl, by simp [vStep, Obj.assignNested]⟩
  | baseAssignChol c => exact ⟨trivial, by simp [vStep, Obj.assignChol], rfl, by simp [vStep, Obj.assignChol]⟩
  | viewRead => exact ⟨(rel_readNested r).2, (rel_readNested r).1⟩
  | viewReadConst =>
    have h0 : 0 ≤ o.sd := safe
    have := rel_readNested r
    simp only [Obj.readNested, beforeNested_nonneg e h0] at this
    exact ⟨this.2, r⟩
  | viewWrite g =>
    refine ⟨trivial, ?_⟩
    have r' : Rel e v (o.beforeNested e) := (rel_readNested r).1
    cases v with
    | indet => trivial
    | nested n => exact rel_nested_write g d (by simp) r' (beforeNested_sd e o)
    | chol c => exact rel_nested_write g d (by simp) r' (beforeNested_sd e o)
  | viewSetComponent g =>
    have h0 : 0 ≤ o.sd := safe
    refine ⟨trivial, ?_⟩
    cases v with
    | indet => trivial
    | nested n => exact rel_nested_write g d (by simp) r h0
    | chol c => exact rel_nested_write g d (by simp) r h0
  | viewAssign n => exact ⟨trivial, by simp [vStep], rfl, by simp [vStep]⟩

theorem vRun_sim {e : Env N C} (d : N) (ops : List (VOp N C)) {v : Val N C} {o : Obj N C} (r : Rel e v o) (ok : vHistOk e o ops) :
    vSpecTrace e.fwd e.rev d v ops (vRun e o ops) := by
  induction ops generalizing v o with
  | nil => trivial
  | cons op ops ih =>
    have := vStep_sim d r op ok.1
    exact ⟨this.1, ih this.2 ok.2⟩

theorem vHistOk_of_synchronising {e : Env N C} (ops : List (VOp N C)) (o : Obj N C) (h : ∀ op ∈ ops, op.synchronising) :
    vHistOk e o ops := by
  induction ops generalizing o with
  | nil => trivial
  | cons op ops ih =>
    refine ⟨?_, ih _ fun op' h' => h op' (List.mem_cons_of_mem _ h')⟩
    have := h op (List.mem_cons_self ..)
    cases op <;> simp_all [VOp.synchronising, VOp.safe]

/-- Relation for the owning Case 4 object. -/
def ORel (e : Env N C) : Val N C → Owned N C → Prop
  | .indet, _ => True
  | .nested n, o => o.nested = n
  | .chol c, o => o.nested = e.rev c

theorem oRun_sim {e : Env N C} (inv : ∀ c, e.fwd (e.rev c) = c) (d : N) (ops : List (VOp N C)) {v : Val N C} {o : Owned N C}
    (r : ORel e v o) : vSpecTrace e.fwd e.rev d v ops (oRun e o ops) := by
  induction ops generalizing v o with
  | nil => trivial
  | cons op ops ih =>
    refine ⟨?_, ih ?_⟩ <;> cases op <;> cases v <;>
      simp_all [ORel, vSpecAllows, vSpecStep, oStep, Val.allowsChol, Val.allowsNested, Val.write, Owned.write, Owned.readChol,
        Owned.readNested, Owned.assignNested, Owned.assignChol, Owned.synchronizeForward, Owned.synchronizeReverse, Val.toNested]

end OpenKalman.CovSync
