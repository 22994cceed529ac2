import Verif.Spec.Transformation
import Verif.Model.Kalman

/-!
# Model of `Transformation` (`OpenKalman/transformations/Transformation.hpp`, `details/TransformationTraits.hpp`)

A function object is what is stored at an address.  Simplifications: all function objects are of one class; a Jacobian or Hessian that is passed to a
constructor is taken to be a function that refers to nothing else; patterns are left out.
-/

namespace OpenKalman.Transformation

variable {σ X Y J H : Type}

/-- Ways of failing: the program is refused by the compiler, or it refers to an object that no longer exists; `misuse` is a name that was never given. -/
inductive Err
  | refused
  | undefined
  | misuse
deriving DecidableEq

/-- What is kept as `jacobian_fun` or `hessian_fun`: a function that was passed, or the lambda of `get_Taylor_term` (TransformationTraits.hpp:103-113), which
holds a reference to a function object. -/
inductive Deriv (X R : Type)
  | given (g : List X → R)
  | bound (a : ℕ)

/-- A transformation: a copy of the function (Transformation.hpp:83) and, depending on its order, `jacobian_fun` (141) and `hessian_fun` (208). -/
structure Trans (σ X J H : Type) where
  fn : σ
  jac : Option (Deriv X J)
  hess : Option (Deriv X H)

structure State (σ X J H : Type) where
  objs : ℕ → Option σ
  ts : ℕ → Option (Trans σ X J H)

/-- Transformation.hpp:102-106 `default_Jacobian` and 162-166 `default_Hessian`: a reference to the argument of the constructor. -/
def defaultDeriv {D R : Type} (d : Option D) (a : ℕ) : Option (Deriv X R) := d.map fun _ => .bound a

/-- The constructors from a function, Transformation.hpp:65-66 (order 0), 116-118 (order 1), 177-179 (order 2).  The order is found by the deduction guides
217-250 from the members of the class; a Hessian counts only if there is a Jacobian (TransformationTraits.hpp:83-91). -/
def fromFunction (c : Cls σ X Y J H) (s : σ) (a : ℕ) : Trans σ X J H :=
  ⟨s, defaultDeriv c.jac a, c.jac.bind fun _ => defaultDeriv c.hess a⟩

/-- Calling `jacobian_fun` or `hessian_fun`. -/
def Deriv.call {R : Type} (objs : ℕ → Option σ) (member : Option (σ → List X → R)) (xs : List X) : Deriv X R → Except Err R
  | .given g => .ok (g xs)
  | .bound a =>
    match objs a, member with
    | some s, some m => .ok (m s xs)
    | none, _ => .error .undefined
    | _, none => .error .refused

/-- One call of a program.
`make`: 65-66, 116-118, 177-179.  `makeJac`: 122-124 (for order 2, lines 183-185, the parameter `J` cannot be deduced; the deduction guide 217-219 makes it
order 1).
`makeHess`: 189-191.
`copy`: the copy constructors are implicit, but for order 0 the unconstrained constructor 65-66 is a better match for an lvalue that is not `const`, and
initialises the function from the transformation.
`value`: 76-79.  `jacobian`: 134-137.  `hessian`: 201-204. -/
def step (c : Cls σ X Y J H) (st : State σ X J H) : Call σ X J H → Except Err (State σ X J H × Obs Y J H)
  | .new a s => .ok ({ st with objs := Function.update st.objs a (some s) }, .nothing)
  | .assign a s => .ok ({ st with objs := Function.update st.objs a (some s) }, .nothing)
  | .destroy a => .ok ({ st with objs := Function.update st.objs a none }, .nothing)
  | .make t a =>
    match st.objs a with
    | some s => .ok ({ st with ts := Function.update st.ts t (some (fromFunction c s a)) }, .nothing)
    | none => .error .undefined
  | .makeJac t a j =>
    match st.objs a with
    | some s => .ok ({ st with ts := Function.update st.ts t (some ⟨s, some (.given j), none⟩) }, .nothing)
    | none => .error .undefined
  | .makeHess t a j h =>
    match st.objs a with
    | some s => .ok ({ st with ts := Function.update st.ts t (some ⟨s, some (.given j), some (.given h)⟩) }, .nothing)
    | none => .error .undefined
  | .copy t u const =>
    match st.ts u with
    | some x => if x.jac.isNone = true ∧ const = false then .error .refused else .ok ({ st with ts := Function.update st.ts t (some x) }, .nothing)
    | none => .error .misuse
  | .value t xs =>
    match st.ts t with
    | some x => .ok (st, .value (c.value x.fn xs))
    | none => .error .misuse
  | .jacobian t xs =>
    match st.ts t with
    | some ⟨_, some d, _⟩ => (d.call st.objs c.jac xs).map fun r => (st, .jacobian r)
    | some ⟨_, none, _⟩ => .error .refused
    | none => .error .misuse
  | .hessian t xs =>
    match st.ts t with
    | some ⟨_, _, some d⟩ => (d.call st.objs c.hess xs).map fun r => (st, .hessian r)
    | some ⟨_, _, none⟩ => .error .refused
    | none => .error .misuse

/-- A program. -/
def run (c : Cls σ X Y J H) (st : State σ X J H) : List (Call σ X J H) → Except Err (List (Obs Y J H))
  | [] => .ok []
  | k :: ks => match step c st k with
    | .ok r => (run c r.1 ks).map (r.2 :: ·)
    | .error e => .error e

/-! ## Perturbations -/

variable {G : Type}

/-- TransformationTraits.hpp:203-210 `get_perturbation`. -/
def getPerturbation (p : Pert G X) (g : G) : X × G :=
  match p with
  | .fixed x => (x, g)
  | .random d => d g

/-- `get_perturbation(ps)...`: arguments of a function, evaluated in an order the language does not specify; `xs` holds what has been evaluated. -/
def evalArgs (ps : List (Pert G X)) : (order : List ℕ) → (ℕ → Option X) × G → (ℕ → Option X) × G
  | [], st => st
  | i :: order, st =>
    match ps[i]? with
    | some p => evalArgs ps order (Function.update st.1 i (some (getPerturbation p st.2).1), (getPerturbation p st.2).2)
    | none => evalArgs ps order st

/-- The values of the arguments in their places. -/
def argValues (ps : List (Pert G X)) (order : List ℕ) (g : G) : List X × G :=
  let r := evalArgs ps order (fun _ => none, g)
  ((List.range ps.length).filterMap r.1, r.2)

/-- Transformation.hpp:76-79, and in the same way 134-137 and 201-204. -/
def callWith {R : Type} (f : List X → R) (x : X) (ps : List (Pert G X)) (order : List ℕ) (g : G) : R × G :=
  let r := argValues ps order g
  (f (x :: r.1), r.2)

/-- LinearTransformation.hpp:175-181 with perturbations that may be distributions: the Jacobian does not sample them. -/
def linearCall {𝕜 : Type} [RCLike 𝕜] {n p : ℕ} (l : Kalman.LinTrans 𝕜 n p) (x : Fin n → 𝕜) (ps : List (Pert G (Fin p → 𝕜))) (order : List ℕ) (g : G) :
    (Fin p → 𝕜) × G :=
  let r := argValues ps order g
  (l.apply x r.1, r.2)

/-- What can be added to a vector. -/
def fixedOf : Pert G X → Option X
  | .fixed x => some x
  | .random _ => none

/-- IdentityTransformation.hpp:53-56: perturbations are added as they are; no vector can be added to a distribution. -/
def identityCall {𝕜 : Type} [RCLike 𝕜] {n : ℕ} (x : Fin n → 𝕜) (ps : List (Pert G (Fin n → 𝕜))) (g : G) : Except Err ((Fin n → 𝕜) × G) :=
  match ps.mapM fixedOf with
  | some ys => .ok (Kalman.identityApply x ys, g)
  | none => .error .refused

end OpenKalman.Transformation
