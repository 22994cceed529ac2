import Mathlib.Data.List.Basic

/-!
# Specification: transformations as values

What a user of `Transformation` may expect, without any reference to how it is stored.
-/

namespace OpenKalman.Transformation

/-- A class of function objects with state `σ`: value and, if the class has them, Jacobian and Hessian.  The arguments are the input and the perturbations. -/
structure Cls (σ X Y J H : Type) where
  value : σ → List X → Y
  jac : Option (σ → List X → J)
  hess : Option (σ → List X → H)

/-- What a program may do with function objects (named by addresses `a`) and transformations (named `t`, `u`). -/
inductive Call (σ X J H : Type)
  /-- a function object comes into being -/
  | new (a : ℕ) (s : σ)
  /-- a function object is assigned -/
  | assign (a : ℕ) (s : σ)
  /-- a function object ceases to be (a temporary does at the end of the expression) -/
  | destroy (a : ℕ)
  /-- `Transformation t {f}` -/
  | make (t a : ℕ)
  /-- `Transformation t {f, j}` -/
  | makeJac (t a : ℕ) (j : List X → J)
  /-- `Transformation t {f, j, h}` -/
  | makeHess (t a : ℕ) (j : List X → J) (h : List X → H)
  /-- `auto t {u}`, where `u` is `const` or not -/
  | copy (t u : ℕ) (const : Bool)
  | value (t : ℕ) (xs : List X)
  | jacobian (t : ℕ) (xs : List X)
  | hessian (t : ℕ) (xs : List X)

/-- What a call lets the program see. -/
inductive Obs (Y J H : Type)
  | nothing
  | value (y : Y)
  | jacobian (j : J)
  | hessian (h : H)
deriving DecidableEq

/-- What a transformation stands for: a function and its derivatives. -/
structure Held (σ X J H : Type) where
  state : σ
  jac : Option (List X → J)
  hess : Option (List X → H)

structure SpecState (σ X J H : Type) where
  objs : ℕ → Option σ
  ts : ℕ → Option (Held σ X J H)

variable {σ X Y J H : Type}

/-- One call; `none` if the program makes no sense. -/
def specStep (c : Cls σ X Y J H) (st : SpecState σ X J H) : Call σ X J H → Option (SpecState σ X J H × Obs Y J H)
  | .new a s => if (st.objs a).isNone then some ({ st with objs := Function.update st.objs a (some s) }, .nothing) else none
  | .assign a s => (st.objs a).bind fun _ => some ({ st with objs := Function.update st.objs a (some s) }, .nothing)
  | .destroy a => (st.objs a).bind fun _ => some ({ st with objs := Function.update st.objs a none }, .nothing)
  | .make t a => (st.objs a).bind fun s =>
      some ({ st with ts := Function.update st.ts t (some ⟨s, c.jac.map (· s), c.jac.bind fun _ => c.hess.map (· s)⟩) }, .nothing)
  | .makeJac t a j => (st.objs a).bind fun s => some ({ st with ts := Function.update st.ts t (some ⟨s, some j, none⟩) }, .nothing)
  | .makeHess t a j h => (st.objs a).bind fun s => some ({ st with ts := Function.update st.ts t (some ⟨s, some j, some h⟩) }, .nothing)
  | .copy t u _ => (st.ts u).bind fun x => some ({ st with ts := Function.update st.ts t (some x) }, .nothing)
  | .value t xs => (st.ts t).bind fun x => some (st, .value (c.value x.state xs))
  | .jacobian t xs => (st.ts t).bind fun x => x.jac.bind fun j => some (st, .jacobian (j xs))
  | .hessian t xs => (st.ts t).bind fun x => x.hess.bind fun h => some (st, .hessian (h xs))

/-- What a program should see. -/
def specRun (c : Cls σ X Y J H) (st : SpecState σ X J H) : List (Call σ X J H) → Option (List (Obs Y J H))
  | [] => some []
  | k :: ks => (specStep c st k).bind fun r => (specRun c r.1 ks).map (r.2 :: ·)

/-- The call changes the function object at `a`. -/
def Call.Touches (a : ℕ) : Call σ X J H → Prop
  | .new b _ => b = a
  | .assign b _ => b = a
  | .destroy b => b = a
  | _ => False

/-- The function objects of which transformations are made without giving a Jacobian are left alone from then on. -/
def SourcesKept : List (Call σ X J H) → Prop
  | [] => True
  | .make _ a :: ks => (∀ k ∈ ks, ¬ k.Touches a) ∧ SourcesKept ks
  | _ :: ks => SourcesKept ks

/-- Only constant transformations are copied. -/
def CopiesConst (ks : List (Call σ X J H)) : Prop := ∀ t u b, Call.copy t u b ∈ ks → b = true

/-- No transformation is made without giving a Jacobian. -/
def AllGiven (ks : List (Call σ X J H)) : Prop := ∀ t a, Call.make t a ∉ ks

/-! ## Perturbations -/

/-- A perturbation: a vector or a distribution, which is sampled with a generator of state `G`. -/
inductive Pert (G X : Type)
  | fixed (x : X)
  | random (d : G → X × G)

variable {G : Type}

/-- The value of a perturbation in a state of the generator. -/
def Pert.value (g : G) : Pert G X → X
  | .fixed x => x
  | .random d => (d g).1

/-- The state of the generator after a perturbation has been used. -/
def Pert.after (g : G) : Pert G X → G
  | .fixed _ => g
  | .random d => (d g).2

/-- The state of the generator after the distributions at the places `is` have each been sampled once, in this order. -/
def stateAfter (ps : List (Pert G X)) : List ℕ → G → G
  | [], g => g
  | i :: is, g => stateAfter ps is ((ps[i]?.map (Pert.after g)).getD g)

/-- `xs` are the values of the perturbations `ps`, and `g'` the state of the generator, if each distribution is sampled exactly once, in some order. -/
def Sampled (ps : List (Pert G X)) (g : G) (xs : List X) (g' : G) : Prop :=
  ∃ order : List ℕ, order.Perm (List.range ps.length) ∧ g' = stateAfter ps order g ∧ xs.length = ps.length ∧
    ∀ l i r, order = l ++ i :: r → xs[i]? = ps[i]?.map (Pert.value (stateAfter ps l g))

end OpenKalman.Transformation
