import Verif.Spec.CovSync

/-! # Specification: a covariance and a view on it are one value -/

namespace OpenKalman.CovSync

/-- Calls through the two handles: the covariance itself (`base…`) and a reference view that shows the nested form as its
own value (`view…`, e.g. a `SquareRootCovariance` referring to a `Covariance`). -/
inductive VOp (N C : Type) where
  | baseWrite (f : C → C)
  | baseReadChol
  | baseReadNested
  | baseAssignNested (n : N)
  | baseAssignChol (c : C)
  /-- element read through a non-const view -/
  | viewRead
  /-- element read through a const view -/
  | viewReadConst
  /-- `view(i,j) = s` -/
  | viewWrite (g : N → N)
  /-- `view.set_component(s,i,j)` -/
  | viewSetComponent (g : N → N)
  /-- `view = n` -/
  | viewAssign (n : N)

/-- The value in nested form. -/
def Val.toNested {N C : Type} (rev : C → N) (d : N) : Val N C → N
  | .indet => d
  | .nested n => n
  | .chol c => rev c

/-- Effect on the single shared value. -/
def vSpecStep {N C : Type} (fwd : N → C) (rev : C → N) (d : N) (v : Val N C) : VOp N C → Val N C
  | .baseWrite f => v.write fwd f
  | .baseReadChol | .baseReadNested | .viewRead | .viewReadConst => v
  | .baseAssignNested n | .viewAssign n => .nested n
  | .baseAssignChol c => .chol c
  | .viewWrite g | .viewSetComponent g => match v with
    | .indet => .indet
    | v => .nested (g (v.toNested rev d))

/-- Accepted observations. -/
def vSpecAllows {N C : Type} (fwd : N → C) (rev : C → N) (v : Val N C) : VOp N C → Obs N C → Prop
  | .baseReadChol, .chol c => v.allowsChol fwd c
  | .baseReadNested, .nested n | .viewRead, .nested n | .viewReadConst, .nested n => v.allowsNested rev n
  | .baseReadChol, _ | .baseReadNested, _ | .viewRead, _ | .viewReadConst, _ => False
  | _, .unit => True
  | _, _ => False

/-- Accepted traces. -/
def vSpecTrace {N C : Type} (fwd : N → C) (rev : C → N) (d : N) : Val N C → List (VOp N C) → List (Obs N C) → Prop
  | _, [], [] => True
  | v, op :: ops, o :: os => vSpecAllows fwd rev v op o ∧ vSpecTrace fwd rev d (vSpecStep fwd rev d v op) ops os
  | _, _, _ => False

end OpenKalman.CovSync
