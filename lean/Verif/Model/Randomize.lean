import Verif.Spec.Randomize
import Verif.Model.NAry

/-!
# Model of `randomize` (`OpenKalman/linear-algebra/functions/randomize.hpp`)

`randomize` is `n_ary_operation` (`Model/NAry.lean`) with operations that have an effect: they change the state `σ` of the generator and of the copies of
the distributions (`RandomizeOp::distribution` is `mutable`).  None of the operations can be called with indices, so that the interface's own
`n_ary_operation` is not used.  Patterns are Euclidean.  The overloads that take the patterns of a matrix or a generator of their own (lines 161-165, 215-219, 238-242)
forward to the one modelled here; they find patterns by `all_vector_space_descriptors`, which is not declared at this commit.
-/

namespace OpenKalman.Randomize
open OpenKalman.NAry

variable {σ α : Type}

/-- An argument: a number or a distribution, and whether it is passed as an lvalue. -/
structure Given (σ α : Type) where
  source : Source σ α
  lvalue : Bool

/-- randomize.hpp:48-66 `RandomizeOp::operator()`: the template parameter deduced for an lvalue (line 70) is a reference, which is not arithmetic, so that a
number passed as an lvalue is called like a function. -/
def call (d : Given σ α) (s : σ) : Res (α × σ) :=
  match d.source with
  | .number v => if d.lvalue then .refused else .ok (v, s)
  | .sampled f => .ok (f s)

/-- `set_component(m, op(), is...)` -/
def setDraw (d : Given σ α) (j : List ℕ) (st : σ × (List ℕ → α)) : Res (σ × (List ℕ → α)) :=
  (call d st.1).bind fun r => .ok (r.2, setComponent st.2 r.1 j)

/-- n_ary_operation.hpp:512-530 `nullary_set_components`; as `NAry.nullarySet`, for any operation with an effect on a state. -/
def visitSet {S : Type} (body : List ℕ → S → Res S) (indices ks : List ℕ) : (k : ℕ) → (es : List ℕ) → List ℕ → S → Res S
  | _, [], is, st => body is st
  | k, e :: es, is, st =>
    if k ∈ indices then visitSet body indices ks (k + 1) es (is ++ [chosen indices ks k]) st
    else loop (fun i st => visitSet body indices ks (k + 1) es (is ++ [i]) st) (List.range e) st

/-- n_ary_operation.hpp:533-554 `nullary_iterate`; as `NAry.nullaryIterate`. -/
def iterateDraws (ds : List (Given σ α)) (es indices : List ℕ) : (todo : List ℕ) → (cur factor : ℕ) → (ks : List ℕ) → σ × (List ℕ → α) → Res (σ × (List ℕ → α))
  | [], cur, _, ks, st =>
    match ds[cur]? with
    | some d => visitSet (setDraw d) indices ks 0 es [] st
    | none => .refused
  | i :: todo, cur, factor, ks, st =>
    let n := es.getD i 1
    loop (fun x st => iterateDraws ds es indices todo (cur + factor / n * x) (factor / n) (ks ++ [x]) st) (List.range n) st

/-- n_ary_operation.hpp:659 `operations()...`: the operations are called as arguments of a function, in an order that the language does not specify. -/
def callAll (ds : List (Given σ α)) : (order : List ℕ) → σ × (ℕ → α) → Res (σ × (ℕ → α))
  | [], st => .ok st
  | k :: order, st =>
    match ds[k]? with
    | some d => (call d st.1).bind fun r => callAll ds order (r.2, fun i => if i = k then r.1 else st.2 i)
    | none => .refused

/-- `((not dynamic_pattern<Ds>) and ...)` -/
def allFixed (dims : List Dim) : Bool := dims.all fun d => match d with | .fixed _ => true | _ => false

/-- n_ary_operation.hpp:653-676, several distributions; `evaluated` is the order in which arguments are evaluated. -/
def drawMany (l : Layout) (dims : List Dim) (indices : List ℕ) (ds : List (Given σ α)) (evaluated : List ℕ) (init : List ℕ → α) (s : σ) :
    Res (σ × (List ℕ → α)) :=
  let es := dims.map Dim.val
  if allFixed dims && ds.length == es.prod then
    (callAll ds evaluated (s, fun _ => init [])).bind fun st => .ok (st.1, denseFrom l es ((List.range ds.length).map st.2) init)
  else iterateDraws ds es indices indices 0 ds.length [] (s, init)

/-- randomize.hpp:135-140 `randomize(gen, ds_tuple, dists...)` with n_ary_operation.hpp:632-676.  For one distribution (197-242) the elements are visited by
nested loops, unless there is only one element; the result is dense already, so that `to_dense_object` draws nothing. -/
def randomize (l : Layout) (dims : List Dim) (indices : List ℕ) (ds : List (Given σ α)) (evaluated : List ℕ) (init : List ℕ → α) (s : σ) :
    Res (σ × (List ℕ → α)) :=
  let es := dims.map Dim.val
  if (indices.any fun i => !fixedAt dims i) || ds.length != (indices.map fun i => es.getD i 1).prod then .refused
  else match ds with
    | [d] =>
      if dims.all (· == .fixed 1) then (call d s).bind fun r => .ok (r.2, fun _ => r.1)
      else loops (setDraw d) es [] (s, init)
    | _ => drawMany l dims indices ds evaluated init s

end OpenKalman.Randomize
