import Mathlib.Data.List.Basic
import Mathlib.Data.List.Nodup

/-!
# Specification: programs that make, keep and drop views of collections (C169)

A program declares objects one after the other; an object is known by the number of declarations before it.  What a view means is said here as the standard library says it for
`std::views::all`: a view of a named container shows what the container holds, for as long as it lives; a view of a temporary object keeps that object; and views are values: a view made of
a view has the meaning which that view had at that time.
-/

namespace OpenKalman.Lifetimes

/-- Expressions: a named object, `std::move` of one, a temporary container, and adaptors. -/
inductive Expr (α : Type)
  | name (k : Nat)
  | moved (k : Nat)
  | temp (l : List α)
  | slice (e : Expr α) (off : Nat) (ext : Option Nat)
  | replicate (e : Expr α) (f : Nat)
  | cat (e e' : Expr α)

variable {α : Type}

/-- Which objects are named, and which are moved from. -/
def Expr.names : Expr α → List Nat
  | .name k => [k]
  | .moved _ => []
  | .temp _ => []
  | .slice e _ _ => e.names
  | .replicate e _ => e.names
  | .cat e e' => e.names ++ e'.names

def Expr.moves : Expr α → List Nat
  | .name _ => []
  | .moved k => [k]
  | .temp _ => []
  | .slice e _ _ => e.moves
  | .replicate e _ => e.moves
  | .cat e e' => e.moves ++ e'.moves

/-- An object that is moved from occurs only once. -/
def Expr.Once (e : Expr α) : Prop := e.moves.Nodup ∧ ∀ k ∈ e.names, k ∉ e.moves

instance (e : Expr α) : Decidable e.Once := by unfold Expr.Once; infer_instance

/-- What a program does: `container` declares a container, `auto` a view of an expression, `copy` a copy of an object; `set` changes a container, `assign` assigns to a view, and
`destroy` ends the life of an object. -/
inductive Op (α : Type)
  | container (l : List α)
  | auto (e : Expr α)
  | copy (k : Nat)
  | set (k : Nat) (l : List α)
  | assign (k : Nat) (e : Expr α)
  | destroy (k : Nat)

/-- An object: a container, a view, or one that was destroyed or moved from. -/
inductive Slot (α ν : Type)
  | cont (l : List α)
  | view (v : ν)
  | gone

/-- The objects that were moved from are gone. -/
def kill {ν : Type} (ks : List Nat) (σ : List (Slot α ν)) : List (Slot α ν) := σ.mapIdx fun i s => if i ∈ ks then .gone else s

/-- Elements of slices and of repetitions. -/
def cut (off : Nat) (ext : Option Nat) (l : List α) : List α := match ext with
  | none => l.drop off
  | some n => (l.drop off).take n

def repeated (f : Nat) (l : List α) : List α := (List.replicate f l).flatten

/-! ## Meanings -/

/-- What a view means: the contents of a container, a fixed list, or what an adaptor makes of these. -/
inductive Meaning (α : Type)
  | live (k : Nat)
  | fixed (l : List α)
  | slice (m : Meaning α) (off : Nat) (ext : Option Nat)
  | replicate (m : Meaning α) (f : Nat)
  | cat (m m' : Meaning α)

abbrev World (α : Type) := List (Slot α (Meaning α))

def Meaning.read (τ : World α) : Meaning α → Option (List α)
  | .live k => match τ[k]? with
    | some (.cont l) => some l
    | _ => none
  | .fixed l => some l
  | .slice m off ext => (m.read τ).map (cut off ext)
  | .replicate m f => (m.read τ).map (repeated f)
  | .cat m m' => match m.read τ, m'.read τ with
    | some l, some l' => some (l ++ l')
    | _, _ => none

/-- What an object shows; nothing if it is gone or depends on something that is gone. -/
def World.read (τ : World α) (k : Nat) : Option (List α) := match τ[k]? with
  | some (.cont l) => some l
  | some (.view m) => m.read τ
  | _ => none

def Expr.meaning (τ : World α) : Expr α → Option (Meaning α)
  | .name k => match τ[k]? with
    | some (.cont _) => some (.live k)
    | some (.view m) => some m
    | _ => none
  | .moved k => match τ[k]? with
    | some (.cont l) => some (.fixed l)
    | some (.view m) => some m
    | _ => none
  | .temp l => some (.fixed l)
  | .slice e off ext => (e.meaning τ).map fun m => .slice m off ext
  | .replicate e f => (e.meaning τ).map fun m => .replicate m f
  | .cat e e' => match e.meaning τ, e'.meaning τ with
    | some m, some m' => some (.cat m m')
    | _, _ => none

/-- One step; nothing if the program uses an object in a way that is not allowed. -/
def World.step (τ : World α) : Op α → Option (World α)
  | .container l => some (τ ++ [.cont l])
  | .auto e => if e.Once then (e.meaning τ).map fun m => kill e.moves τ ++ [.view m] else none
  | .copy k => match τ[k]? with
    | some (.cont l) => some (τ ++ [.cont l])
    | some (.view m) => some (τ ++ [.view m])
    | _ => none
  | .set k l => match τ[k]? with
    | some (.cont _) => some (τ.set k (.cont l))
    | _ => none
  | .assign k e => match τ[k]? with
    | some (.view _) => if e.Once ∧ ∀ i ∈ e.names ++ e.moves, i < k then (e.meaning τ).map fun m => (kill e.moves τ).set k (.view m) else none
    | _ => none
  | .destroy k => match τ[k]? with
    | some (.cont _) => some (τ.set k .gone)
    | some (.view _) => some (τ.set k .gone)
    | _ => none

def World.run (τ : World α) : List (Op α) → Option (World α)
  | [] => some τ
  | op :: ops => (τ.step op).bind fun τ' => World.run τ' ops

/-! ## Programs that keep the views they have named -/

/-- Which objects are views, after a step. -/
def Op.kinds (kinds : List Bool) : Op α → List Bool
  | .container _ => kinds ++ [false]
  | .auto _ => kinds ++ [true]
  | .copy k => kinds ++ [kinds.getD k false]
  | _ => kinds

/-- Which objects a step names. -/
def Op.uses : Op α → List Nat
  | .auto e => e.names
  | .assign _ e => e.names
  | _ => []

/-- A view that was named when another view was made is not assigned to and, if `strict`, neither destroyed nor moved from. -/
def Keeps (strict : Prop) : List Bool → List Nat → List (Op α) → Prop
  | _, _, [] => True
  | kinds, named, op :: ops => (match op with
      | .auto e => strict → ∀ k ∈ e.moves, kinds[k]? = some true → k ∉ named
      | .assign k e => k ∉ named ∧ (strict → ∀ k ∈ e.moves, kinds[k]? = some true → k ∉ named)
      | .destroy k => strict → kinds[k]? = some true → k ∉ named
      | _ => True) ∧ Keeps strict (op.kinds kinds) (op.uses ++ named) ops

/-- The elements of an expression made of temporary containers only. -/
def Expr.elements : Expr α → Option (List α)
  | .name _ => none
  | .moved _ => none
  | .temp l => some l
  | .slice e off ext => e.elements.map (cut off ext)
  | .replicate e f => e.elements.map (repeated f)
  | .cat e e' => match e.elements, e'.elements with
    | some l, some l' => some (l ++ l')
    | _, _ => none

/-- A step does not assign to, destroy or move from an object. -/
def Op.Spares (k : Nat) : Op α → Prop
  | .auto e => k ∉ e.moves
  | .assign j e => j ≠ k ∧ k ∉ e.moves
  | .destroy j => j ≠ k
  | _ => True

end OpenKalman.Lifetimes
