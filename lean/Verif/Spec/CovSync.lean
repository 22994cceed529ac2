/-!
# Specification: a covariance object is a single value

API-level operations on covariance objects, and what a user expects of them.  No reference to the
implementation (two stored matrices plus a synchronisation flag).

`N` is the type of the *nested* matrix (the form in which the user built the object, e.g. a triangular
Cholesky factor), `C` the type of the *other* form (e.g. the self-adjoint covariance), and
`fwd : N → C`, `rev : C → N` are the conversions between the forms.
-/

namespace OpenKalman.CovSync

/-- Operations available on covariance variables (named by natural numbers). -/
inductive Op (N C : Type) where
  /-- default constructor: contents unspecified -/
  | newDefault (x : Nat)
  /-- construct from a matrix of the nested kind -/
  | newNested (x : Nat) (n : N)
  /-- construct from a matrix of the other kind -/
  | newChol (x : Nat) (c : C)
  /-- `T x {y}` -/
  | copyCtor (x y : Nat)
  /-- `T x {std::move(y)}` -/
  | moveCtor (x y : Nat)
  /-- `x = n` with `n` of the nested kind -/
  | assignNested (x : Nat) (n : N)
  /-- `x = c` with `c` of the other kind -/
  | assignChol (x : Nat) (c : C)
  /-- `x = y` -/
  | copyAssign (x y : Nat)
  /-- `x = std::move(y)` -/
  | moveAssign (x y : Nat)
  /-- `x(i,j) = s` or `x.set_component(s,i,j)`: any in-place modification of the `C` form -/
  | write (x : Nat) (f : C → C)
  /-- read (an element of) the `C` form -/
  | readChol (x : Nat)
  /-- read the nested form -/
  | readNested (x : Nat)

/-- What an operation lets the user see. -/
inductive Obs (N C : Type) where
  | unit
  | nested (n : N)
  | chol (c : C)

/-- The value a user believes a variable to hold: whatever was written last, in the form it was written. -/
inductive Val (N C : Type) where
  /-- unspecified (default constructed, not yet written) -/
  | indet
  | nested (n : N)
  | chol (c : C)

namespace Val
variable {N C : Type}

/-- Modify the `C` form. -/
def write (fwd : N → C) (f : C → C) : Val N C → Val N C
  | indet => indet
  | nested n => chol (f (fwd n))
  | chol c => chol (f c)

/-- Acceptable results of reading the `C` form. -/
def allowsChol (fwd : N → C) : Val N C → C → Prop
  | indet, _ => True
  | nested n, c => c = fwd n
  | chol c', c => c = c'

/-- Acceptable results of reading the nested form. -/
def allowsNested (rev : C → N) : Val N C → N → Prop
  | indet, _ => True
  | nested n', n => n = n'
  | chol c, n => n = rev c

end Val

/-- Store of variables; `none` is a variable that is not alive (never constructed, or moved from). -/
abbrev SpecHeap (N C : Type) := Nat → Option (Val N C)

/-- Pointwise update. -/
def upd {α : Type} (h : Nat → α) (x : Nat) (v : α) : Nat → α := fun y => if y = x then v else h y

/-- Effect of an operation on the believed values; `none` when the operation uses a variable that is not alive. -/
def specStep {N C : Type} (fwd : N → C) (h : SpecHeap N C) : Op N C → Option (SpecHeap N C)
  | .newDefault x => some (upd h x (some .indet))
  | .newNested x n => some (upd h x (some (.nested n)))
  | .newChol x c => some (upd h x (some (.chol c)))
  | .copyCtor x y => (h y).map fun v => upd h x (some v)
  | .moveCtor x y => (h y).map fun v => upd (upd h y none) x (some v)
  | .assignNested x n => (h x).map fun _ => upd h x (some (.nested n))
  | .assignChol x c => (h x).map fun _ => upd h x (some (.chol c))
  | .copyAssign x y => (h x).bind fun _ => (h y).map fun v => upd h x (some v)
  | .moveAssign x y => (h x).bind fun _ => (h y).map fun v =>
      if x = y then h else upd (upd h y none) x (some v)
  | .write x f => (h x).map fun v => upd h x (some (v.write fwd f))
  | .readChol x => (h x).map fun _ => h
  | .readNested x => (h x).map fun _ => h

/-- Observations the user accepts from an operation, given the believed values before it. -/
def specAllows {N C : Type} (fwd : N → C) (rev : C → N) (h : SpecHeap N C) : Op N C → Obs N C → Prop
  | .readChol x, .chol c => ∃ v, h x = some v ∧ v.allowsChol fwd c
  | .readNested x, .nested n => ∃ v, h x = some v ∧ v.allowsNested rev n
  | .readChol _, _ => False
  | .readNested _, _ => False
  | _, .unit => True
  | _, _ => False

/-- `specTrace h ops os`: a user starting from beliefs `h` accepts the observations `os` of the history `ops`. -/
def specTrace {N C : Type} (fwd : N → C) (rev : C → N) : SpecHeap N C → List (Op N C) → List (Obs N C) → Prop
  | _, [], [] => True
  | h, op :: ops, o :: os =>
    specAllows fwd rev h op o ∧ ∃ h', specStep fwd h op = some h' ∧ specTrace fwd rev h' ops os
  | _, _, _ => False

end OpenKalman.CovSync
