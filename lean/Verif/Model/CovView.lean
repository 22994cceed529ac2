import Verif.Model.CovSync
import Verif.Spec.CovView

/-!
# Model: reference covariances (Cases 2 and 4 of `CovarianceBase`)

`/repo/OpenKalman/linear-algebra/adapters/details/CovarianceBase2.hpp`, `CovarianceBase4.hpp`.
-/

namespace OpenKalman.CovSync
variable {N C : Type}

/-- Case 2 view on a Case 3 object (constructed at CovarianceBase2.hpp:196-203): its nested object is a reference to the base's
nested object, and the synchronisation functions forward to the base.
`viewRead`: 314-319 (`ElementAccessor` get, with reverse synchronisation first).
`viewReadConst`: 326-329 (no synchronisation).
`viewWrite`: 314-319 (`ElementAccessor` set).
`viewSetComponent`: 358-362 (no synchronisation before).
`viewAssign`: 300-305. -/
def vStep (e : Env N C) (o : Obj N C) : VOp N C → Obj N C × Obs N C
  | .baseWrite f => (o.write e f, .unit)
  | .baseReadChol => ((o.readChol e).1, .chol (o.readChol e).2)
  | .baseReadNested => ((o.readNested e).1, .nested (o.readNested e).2)
  | .baseAssignNested n => (o.assignNested n, .unit)
  | .baseAssignChol c => (o.assignChol c, .unit)
  | .viewRead => let t := o.beforeNested e; (t, .nested t.nested)
  | .viewReadConst => (o, .nested o.nested)
  | .viewWrite g => let t := o.beforeNested e; ({ t with nested := g t.nested, sd := 1 }, .unit)
  | .viewSetComponent g => ({ o with nested := g o.nested, sd := 1 }, .unit)
  | .viewAssign n => ({ o with nested := n, sd := 1 }, .unit)

/-- Run a history through the two handles. -/
def vRun (e : Env N C) : Obj N C → List (VOp N C) → List (Obs N C)
  | _, [] => []
  | o, op :: ops => (vStep e o op).2 :: vRun e (vStep e o op).1 ops

/-- Case 4 covariance linked to a Case 3 object (CovarianceBase4.hpp:291-302): writes (`set_component` 622-628, accessor 564-569). -/
def Obj.linkWrite (e : Env N C) (o : Obj N C) (f : C → C) : Obj N C :=
  let t := o.beforeChol e
  let t1 := { t with chol := f t.chol }
  let t2 := { t1 with sd := -1 }
  if t2.sd > 0 then t2.synchronizeReverse e else t2

/-- Case 4 copy assignment between objects linked to Case 3 objects (CovarianceBase4.hpp:399-423). -/
def Obj.linkAssign (e : Env N C) (this other : Obj N C) : Obj N C :=
  if other.sd > 0 then { this with nested := other.nested, sd := 1 }
  else if other.sd < 0 then
    let t := { this with chol := other.chol, sd := -1 }
    if t.sd > 0 then t.synchronizeReverse e else t
  else
    let t := { this with nested := other.nested, sd := 0 }
    if t.sd ≤ 0 then { t with chol := other.chol } else t

/-- Case 4 covariance that owns its cholesky nested matrix (CovarianceBase4.hpp:187-200, 382-395): the direction is always 1 and the
`mark_…` functions are no-ops, so only the (referenced) nested object carries state. -/
structure Owned (N C : Type) where
  nested : N
  store : C

/-- 193-195 `synchronize_forward`. -/
def Owned.synchronizeForward (e : Env N C) (o : Owned N C) : Owned N C := { o with store := e.fwd o.nested }

/-- 153-159, 196 `synchronize_reverse` (assignable nested matrix). -/
def Owned.synchronizeReverse (e : Env N C) (o : Owned N C) : Owned N C := { o with nested := e.rev o.store }

/-- 622-628, 564-569: element write. -/
def Owned.write (e : Env N C) (o : Owned N C) (f : C → C) : Owned N C :=
  let t := o.synchronizeForward e
  ({ t with store := f t.store } : Owned N C).synchronizeReverse e

/-- 579-584, CovarianceImpl.hpp:176-180: read. -/
def Owned.readChol (e : Env N C) (o : Owned N C) : Owned N C × C := (o.synchronizeForward e, (o.synchronizeForward e).store)

/-- CovarianceImpl.hpp:171-175: direction is 1, so no reverse synchronisation. -/
def Owned.readNested (o : Owned N C) : Owned N C × N := (o, o.nested)

/-- 538-542. -/
def Owned.assignNested (o : Owned N C) (n : N) : Owned N C := { o with nested := n }

/-- 543-548. -/
def Owned.assignChol (e : Env N C) (o : Owned N C) (c : C) : Owned N C := ({ o with store := c } : Owned N C).synchronizeReverse e

/-- The calls of `VOp` that go through the owning Case 4 object (`base…`); the `view…` calls act directly on the referenced matrix. -/
def oStep (e : Env N C) (o : Owned N C) : VOp N C → Owned N C × Obs N C
  | .baseWrite f => (o.write e f, .unit)
  | .baseReadChol => ((o.readChol e).1, .chol (o.readChol e).2)
  | .baseReadNested => (o.readNested.1, .nested o.readNested.2)
  | .baseAssignNested n => (o.assignNested n, .unit)
  | .baseAssignChol c => (o.assignChol e c, .unit)
  | .viewRead | .viewReadConst => (o, .nested o.nested)
  | .viewWrite g | .viewSetComponent g => ({ o with nested := g o.nested }, .unit)
  | .viewAssign n => ({ o with nested := n }, .unit)

/-- Run a history. -/
def oRun (e : Env N C) : Owned N C → List (VOp N C) → List (Obs N C)
  | _, [] => []
  | o, op :: ops => (oStep e o op).2 :: oRun e (oStep e o op).1 ops

end OpenKalman.CovSync
