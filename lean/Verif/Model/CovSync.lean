import Verif.Spec.CovSync

/-!
# Model: lazily synchronised covariance (Case 3 of `CovarianceBase`)

`/repo/OpenKalman/linear-algebra/adapters/details/CovarianceBase3Impl.hpp`,
`CovarianceBase3-1.hpp`, `CovarianceBase3-2.hpp`, `CovarianceImpl.hpp`.

Simplifications: the matrix types are arbitrary types `N` (nested) and `C` (cholesky nested); conversion
`to_covariance_nestable` is an arbitrary pair of functions; an element write is an arbitrary function
`C → C`.  A moved-from object is dead (any further use is outside the contract).
-/

namespace OpenKalman.CovSync

/-- Fields of a Case 3 covariance: `nested_object()`, `cholesky_nested`, `synch_direction`
(CovarianceBase3Impl.hpp:54,58; the nested object is in `adapter_base`). -/
structure Obj (N C : Type) where
  nested : N
  chol : C
  /-- 0 synchronised, 1 nested is newer (forward), -1 cholesky nested is newer (reverse) -/
  sd : Int

variable {N C : Type}

/-- Everything the code needs to know about the two matrix types: conversions
(`to_covariance_nestable<CholeskyNestedMatrix>` / `<NestedMatrix>`), and the contents of default-constructed
matrices `NestedMatrix {}`, `CholeskyNestedMatrix {}` (unspecified contents in C++, arbitrary constants here). -/
structure Env (N C : Type) where
  fwd : N → C
  rev : C → N
  n0 : N
  c0 : C

namespace Obj
variable (e : Env N C)

/-- CovarianceBase3Impl.hpp:88-92 `synchronize_forward() const &`. -/
def synchronizeForward (o : Obj N C) : Obj N C := { o with chol := e.fwd o.nested, sd := 0 }

/-- CovarianceBase3-1.hpp:78-82, 94-97 `synchronize_reverse() &`, `const &`. -/
def synchronizeReverse (o : Obj N C) : Obj N C := { o with nested := e.rev o.chol, sd := 0 }

/-- CovarianceBase3-2.hpp:73 `synchronize_reverse`: a no-op when the nested matrix is not assignable. -/
def synchronizeReverse2 (o : Obj N C) : Obj N C := o

/-- CovarianceBase3Impl.hpp:126-131 default constructor. -/
def newDefault : Obj N C := { nested := e.n0, chol := e.c0, sd := 0 }

/-- CovarianceBase3-1.hpp:201-202 with CovarianceBase3Impl.hpp:154-155: construct from matching kind, `sd = 1`,
the cholesky nested matrix is default constructed. -/
def newNested (n : N) : Obj N C := { nested := n, chol := e.c0, sd := 1 }

/-- CovarianceBase3-1.hpp:215-216 with CovarianceBase3Impl.hpp:169-170: non-matching kind, `sd = -1`. -/
def newChol (c : C) : Obj N C := { nested := e.n0, chol := c, sd := -1 }

/-- CovarianceBase3-1.hpp:121-125 copy constructor (`CholeskyNestedMatrix` default initialisable). -/
def copyCtor (other : Obj N C) : Obj N C :=
  { nested := if other.sd < 0 then e.n0 else other.nested
    chol := if other.sd > 0 then e.c0 else other.chol
    sd := other.sd }

/-- CovarianceBase3-1.hpp:129-130 move constructor. -/
def moveCtor (other : Obj N C) : Obj N C := { nested := other.nested, chol := other.chol, sd := other.sd }

/-- CovarianceBase3Impl.hpp:187-196 copy assignment, `this != &other` (and 200-209 move assignment): note that the
tests are on the synchronisation direction of `*this`, not of `other`. -/
def copyAssign (this other : Obj N C) : Obj N C :=
  { nested := if this.sd ≥ 0 then other.nested else this.nested
    chol := if this.sd ≤ 0 then other.chol else this.chol
    sd := other.sd }

/-- CovarianceBase3Impl.hpp:273-277 assignment from a nestable of the nested kind. -/
def assignNested (this : Obj N C) (n : N) : Obj N C := { this with nested := n, sd := 1 }

/-- CovarianceBase3Impl.hpp:278-282 assignment from a nestable of the other kind. -/
def assignChol (this : Obj N C) (c : C) : Obj N C := { this with chol := c, sd := -1 }

/-- CovarianceBase3Impl.hpp:298, 341, 353 `if (synch_direction > 0) synchronize_forward();` -/
def beforeChol (this : Obj N C) : Obj N C := if this.sd > 0 then this.synchronizeForward e else this

/-- CovarianceImpl.hpp:173 `if (synchronization_direction() < 0) synchronize_reverse();` -/
def beforeNested (this : Obj N C) : Obj N C := if this.sd < 0 then this.synchronizeReverse e else this

/-- CovarianceBase3Impl.hpp:339-355 `set_component`, and 294-303, 317-326 `operator()`/`operator[]` written
through `ElementAccessor::operator=` (adapters/internal/ElementAccessor.hpp:63-68). -/
def write (this : Obj N C) (f : C → C) : Obj N C :=
  let t := this.beforeChol e
  { t with chol := f t.chol, sd := -1 }

/-- `ElementAccessor::operator Scalar()` (ElementAccessor.hpp:55-59) and
CovarianceImpl.hpp:176-180 / 192-196 `get_nested_matrix_impl<false>`. -/
def readChol (this : Obj N C) : Obj N C × C :=
  let t := this.beforeChol e
  (t, t.chol)

/-- CovarianceImpl.hpp:171-175 / 187-191 `get_nested_matrix_impl<true>`. -/
def readNested (this : Obj N C) : Obj N C × N :=
  let t := this.beforeNested e
  (t, t.nested)

/-- As `readNested` for Case 3 subcase 2 (CovarianceBase3-2.hpp:73). -/
def readNested2 (this : Obj N C) : Obj N C × N :=
  let t := if this.sd < 0 then this.synchronizeReverse2 else this
  (t, t.nested)

end Obj

/-- Store of live objects. -/
abbrev Heap (N C : Type) := Nat → Option (Obj N C)

/-- One API call on the store. `none`: a variable that is not alive is used. -/
def step (e : Env N C) (h : Heap N C) : Op N C → Option (Heap N C × Obs N C)
  | .newDefault x => some (upd h x (some (Obj.newDefault e)), .unit)
  | .newNested x n => some (upd h x (some (Obj.newNested e n)), .unit)
  | .newChol x c => some (upd h x (some (Obj.newChol e c)), .unit)
  | .copyCtor x y => (h y).map fun o => (upd h x (some (Obj.copyCtor e o)), .unit)
  | .moveCtor x y => (h y).map fun o => (upd (upd h y none) x (some o.moveCtor), .unit)
  | .assignNested x n => (h x).map fun o => (upd h x (some (o.assignNested n)), .unit)
  | .assignChol x c => (h x).map fun o => (upd h x (some (o.assignChol c)), .unit)
  | .copyAssign x y => (h x).bind fun o => (h y).map fun o' =>
      (if x = y then h else upd h x (some (o.copyAssign o')), .unit)
  | .moveAssign x y => (h x).bind fun o => (h y).map fun o' =>
      (if x = y then h else upd (upd h y none) x (some (o.copyAssign o')), .unit)
  | .write x f => (h x).map fun o => (upd h x (some (o.write e f)), .unit)
  | .readChol x => (h x).map fun o => (upd h x (some (o.readChol e).1), .chol (o.readChol e).2)
  | .readNested x => (h x).map fun o => (upd h x (some (o.readNested e).1), .nested (o.readNested e).2)

/-- Run a history, collecting observations. -/
def run (e : Env N C) : Heap N C → List (Op N C) → Option (Heap N C × List (Obs N C))
  | h, [] => some (h, [])
  | h, op :: ops => (step e h op).bind fun (h', o) => (run e h' ops).map fun (h'', os) => (h'', o :: os)

/-- Assignment between Case 3 objects of different types (CovarianceBase3Impl.hpp:242-254), the conversions being
`to_covariance_nestable<NestedMatrix>(arg)` and `<CholeskyNestedMatrix>(arg)`, which first synchronise `arg` as
`get_nested_matrix_impl` does. `cn : N' → N`, `cc : C' → C` convert the storage types. Returns the new `*this` and `arg`. -/
def Obj.assignOther {N' C' : Type} (e' : Env N' C') (cn : N' → N) (cc : C' → C)
    (this : Obj N C) (arg : Obj N' C') : Obj N C × Obj N' C' :=
  let (arg1, this1) := if this.sd ≥ 0 then
      let r := arg.readNested e'
      (r.1, { this with nested := cn r.2 }) else (arg, this)
  let (arg2, this2) := if this.sd ≤ 0 then
      let r := arg1.readChol e'
      (r.1, { this1 with chol := cc r.2 }) else (arg1, this1)
  ({ this2 with sd := arg2.sd }, arg2)

/-- `covariance_op` (CovarianceImpl.hpp:84-106) with result of the same matrix kinds: `f1` acts on the nested form, `f2`
on the other form. -/
def Obj.covarianceOp (e : Env N C) (f1 : N → N) (f2 : C → C) (this : Obj N C) : Obj N C :=
  if this.sd ≥ 0 then
    let r := Obj.newNested e (f1 this.nested)
    if r.sd > 0 ∧ this.sd ≤ 0 then { r with chol := f2 this.chol, sd := 0 } else r
  else Obj.newChol e (f2 this.chol)

end OpenKalman.CovSync
