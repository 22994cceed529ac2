import Verif.Spec.Lifetimes

/-!
# Model: what views of collections hold

/repo/OpenKalman/collections/views (all.hpp, from_range.hpp, from_tuple_like.hpp, slice.hpp, replicate.hpp, concat.hpp, internal/movable_wrapper.hpp, internal/tuple_wrapper.hpp).

Objects are numbered in the order of their declaration.  Which elements a slice, a repetition or a concatenation shows is C18; here only what they hold.  Simplified: an expression that is
assigned to a view names objects declared before that view (types make a cycle of references impossible, but not every other order); collections that are not `viewable_collection`, and
writing elements through views, are not modelled; reading an object that is gone, or has been moved from, has no outcome.
-/

namespace OpenKalman.Lifetimes

variable {α : Type}

/-- What a view holds: a pointer to a named object (movable_wrapper.hpp:139-187 and tuple_wrapper.hpp:223-269, `reference_wrapper`), an object of its own (movable_wrapper.hpp:31-131,
tuple_wrapper.hpp:139-220, `movable_box`), or other views (slice.hpp:248 `v_`; replicate.hpp: `replicate_view` has its base as a member; concat.hpp:131 `tup`). -/
inductive Held (α : Type)
  | ref (k : Nat)
  | own (l : List α)
  | slice (v : Held α) (off : Nat) (ext : Option Nat)
  | replicate (v : Held α) (f : Nat)
  | cat (v v' : Held α)

abbrev Store (α : Type) := List (Slot α (Held α))

/-- Reading a view that was declared as object number `n`: a pointer is followed to an object declared before. -/
def Held.read (σ : Store α) (n : Nat) : Held α → Option (List α)
  | .ref k => if k < n then match σ[k]? with
      | some (.cont l) => some l
      | some (.view v) => v.read σ k
      | _ => none
    else none
  | .own l => some l
  | .slice v off ext => (v.read σ n).map (cut off ext)
  | .replicate v f => (v.read σ n).map (repeated f)
  | .cat v v' => match v.read σ n, v'.read σ n with
    | some l, some l' => some (l ++ l')
    | _, _ => none
termination_by v => (n, sizeOf v)

def Store.read (σ : Store α) (k : Nat) : Option (List α) := match σ[k]? with
  | some (.cont l) => some l
  | some (.view v) => v.read σ k
  | _ => none

/-- `collection_view<R>` (collection_view.hpp:29-34) of a forwarding reference's type `R`: `stdex::ranges::view<R>` (view-concepts.hpp:64-66) asks for `movable<R>`, hence for an object type
(object-concepts.hpp:33-37), which a reference, that is, the `R` of a named argument, is not. -/
def collectionView (named : Bool) : Slot α (Held α) → Bool
  | .view _ => !named
  | _ => false

/-- The object itself, copied or moved. -/
def Slot.object : Slot α (Held α) → Option (Held α)
  | .cont l => some (.own l)
  | .view v => some v
  | .gone => none

/-- `from_range {std::forward<R>(r)}` and `from_tuple_like {std::forward<R>(r)}` with their deduction guides (from_range.hpp:405-406, from_tuple_like.hpp:345-346): a `movable_wrapper<R>` or
`tuple_wrapper<R>`, which for a named argument, where `R` is a reference, holds a pointer. -/
def wrapper (named : Bool) (k : Nat) (s : Slot α (Held α)) : Option (Held α) :=
  if named then match s with
    | .gone => none
    | _ => some (.ref k)
  else s.object

/-- `views::all` (all.hpp:39-54).  That line 42 asks for more of a view makes no difference to what is held: an unnamed view is moved into a `from_range` or `from_tuple_like`. -/
def all (named : Bool) (k : Nat) (s : Slot α (Held α)) : Option (Held α) :=
  if collectionView named s then s.object else wrapper named k s

/-- The view that an expression makes: `slice` (slice.hpp:325-336), `replicate` (replicate.hpp:393-398, 427-432) and `concat` (concat.hpp:180-198, for two operands; `concat_tuple_view` wraps its
operands as `all` does) pass their operands on to `all`; the result of an adaptor is a temporary, which `all` takes as it is. -/
def Expr.held (σ : Store α) : Expr α → Option (Held α)
  | .name k => σ[k]?.bind (all true k)
  | .moved k => σ[k]?.bind (all false k)
  | .temp l => all false 0 (.cont l)
  | .slice e off ext => (e.held σ).map fun v => .slice v off ext
  | .replicate e f => (e.held σ).map fun v => .replicate v f
  | .cat e e' => match e.held σ, e'.held σ with
    | some v, some v' => some (.cat v v')
    | _, _ => none

/-- One step of a program.  Copies and assignments are member-wise (the views declare none of their own; movable_box is C102). -/
def Store.step (σ : Store α) : Op α → Option (Store α)
  | .container l => some (σ ++ [.cont l])
  | .auto e => if e.Once then (e.held σ).map fun v => kill e.moves σ ++ [.view v] else none
  | .copy k => match σ[k]? with
    | some (.cont l) => some (σ ++ [.cont l])
    | some (.view v) => some (σ ++ [.view v])
    | _ => none
  | .set k l => match σ[k]? with
    | some (.cont _) => some (σ.set k (.cont l))
    | _ => none
  | .assign k e => match σ[k]? with
    | some (.view _) => if e.Once ∧ ∀ i ∈ e.names ++ e.moves, i < k then (e.held σ).map fun v => (kill e.moves σ).set k (.view v) else none
    | _ => none
  | .destroy k => match σ[k]? with
    | some (.cont _) => some (σ.set k .gone)
    | some (.view _) => some (σ.set k .gone)
    | _ => none

def Store.run (σ : Store α) : List (Op α) → Option (Store α)
  | [] => some σ
  | op :: ops => (σ.step op).bind fun σ' => Store.run σ' ops

end OpenKalman.Lifetimes
