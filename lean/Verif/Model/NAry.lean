import Mathlib.Data.Nat.Notation
import Verif.Spec.NAry

/-!
# Model of component-wise operations (`OpenKalman/linear-algebra/functions/n_ary_operation.hpp`)

Patterns are Euclidean, so they are dimensions, and a "uniform component" of one is a dimension of 1; the concept
`equivalent_to_uniform_pattern_component_of`, which is not declared at this commit, is read as the compile-time form of
`is_uniform_pattern_component_of`.  `access` and `set_component` reach the element at a position, and `make_dense_object` makes an object with arbitrary
elements.
-/

namespace OpenKalman.NAry

/-- The outcome of a call: a value, an exception, or a program that does not compile. -/
inductive Res (α : Type) | ok (a : α) | throws | refused

/-- Sequencing. -/
def Res.bind {α β : Type} (x : Res α) (f : α → Res β) : Res β :=
  match x with
  | .ok a => f a
  | .throws => .throws
  | .refused => .refused

/-- All of a list. -/
def Res.all {α : Type} : List (Res α) → Res (List α)
  | [] => .ok []
  | x :: xs => x.bind fun a => (Res.all xs).bind fun as => .ok (a :: as)

/-- A Euclidean pattern: a dimension in the type, or one known only at run time. -/
inductive Dim | fixed (n : ℕ) | dyn (n : ℕ)
  deriving DecidableEq

/-- `get_dimension`. -/
def Dim.val : Dim → ℕ
  | .fixed n => n
  | .dyn n => n

variable {α : Type}

/-- An argument: its patterns, its elements, and its constant if it is a `constant_object`. -/
structure Arg (α : Type) where
  dims : List Dim
  get : List ℕ → α
  const : Option α

/-- traits/get_index_extent.hpp:36-62: an index past the end has extent 1. -/
def Arg.dim (a : Arg α) (k : ℕ) : Dim := a.dims.getD k (.fixed 1)

/-- An operation, by whether it can be called with the elements only, with elements and indices, or both. -/
structure Op (α : Type) where
  plain : Option (List α → α)
  indexed : Option (List α → List ℕ → α)

/-! ## Loops -/

/-- A loop over a list of values. -/
def loop {S : Type} (body : ℕ → S → Res S) : List ℕ → S → Res S
  | [], s => .ok s
  | i :: is, s => (body i s).bind (loop body is)

/-- Nested loops, the first outermost; `j`: the positions so far. -/
def loops {S : Type} (body : List ℕ → S → Res S) : List ℕ → List ℕ → S → Res S
  | [], j, s => body j s
  | n :: ns, j, s => loop (fun i s => loops body ns (j ++ [i]) s) (List.range n) s

/-! ## Operations with arguments -/

/-- n_ary_operation.hpp:138-149 `n_ary_operation_get_component_impl`: an index beyond the extent becomes 0.  An argument with more indices than the
result makes `std::get` ill-formed. -/
def component (a : Arg α) (j : List ℕ) : Res α :=
  if a.dims.length ≤ j.length then .ok (a.get (List.zipWith (fun d i => if i < d.val then i else 0) a.dims j)) else .refused

/-- Lines 152-165 `n_ary_operation_get_component`. -/
def applyOp (op : Op α) (args : List (Arg α)) (j : List ℕ) : Res α :=
  (Res.all (args.map fun a => component a j)).bind fun vs =>
    match op.indexed with
    | some f => .ok (f vs j)
    | none =>
      match op.plain with
      | some f => .ok (f vs)
      | none => .refused

/-- `set_component` on a dense object. -/
def setComponent (m : List ℕ → α) (v : α) (j : List ℕ) : List ℕ → α := fun x => if x = j then v else m x

/-- Lines 168-181 `n_ary_operation_iterate`. -/
def iterate (op : Op α) (args : List (Arg α)) (es : List ℕ) (m : List ℕ → α) : Res (List ℕ → α) :=
  loops (fun j m => (applyOp op args j).bind fun v => .ok (setComponent m v j)) es [] m

/-- The constants of the arguments, if all are constant. -/
def constants : List (Arg α) → Option (List α)
  | [] => some []
  | a :: as => match a.const, constants as with
    | some c, some cs => some (c :: cs)
    | _, _ => none

/-- Lines 197-242 `n_ary_operation_impl`; `hook`: the interface has `n_ary_operation` for these arguments; `init`: the elements of a new dense object.
In the branch of the hook, `replicate_arg` (184-194) has no `return` statement, so its type is `void` and the call is ill-formed if there is an argument. -/
def impl (hook : Bool) (ds : List Dim) (op : Op α) (args : List (Arg α)) (init : List ℕ → α) : Res (List ℕ → α) :=
  match (if args.isEmpty || op.indexed.isSome then none else constants args) with
  | some cs =>
    match op.plain with
    | some f => .ok fun _ => f cs
    | none => .refused
  | none =>
    match (if hook then op.indexed else none) with
    | some f => if args.isEmpty then .ok fun j => f [] j else .refused
    | none =>
      if ds.all (· == .fixed 1) then
        match op.plain with
        | some f => .ok fun _ => f (args.map fun a => a.get (List.replicate a.dims.length 0))
        | none => .refused
      else iterate op args (ds.map Dim.val) init

/-- Lines 33-63 `check_n_ary_dims`, for one argument and one index. -/
def checkDim (d : Dim) (a : Dim) : Res Unit :=
  match a, d with
  | .fixed n, .fixed m => if n = m ∨ n = 1 then .ok () else .refused
  | _, _ => if ¬ a.val = d.val ∧ ¬ a.val = 1 then .throws else .ok ()

/-- All the checks: what does not compile does not run. -/
def checks (ds : List Dim) (args : List (Arg α)) : Res Unit :=
  let cs := (List.range ds.length).flatMap fun k => args.map fun a => checkDim (ds.getD k (.fixed 1)) (a.dim k)
  if cs.any (fun c => match c with | .refused => true | _ => false) then .refused
  else if cs.any (fun c => match c with | .throws => true | _ => false) then .throws
  else .ok ()

/-- Lines 312-330, with a collection of patterns; the constraint refuses a fixed dimension of 0 and an operation that cannot be called. -/
def withPatterns (hook : Bool) (ds : List Dim) (op : Op α) (args : List (Arg α)) (init : List ℕ → α) : Res (List ℕ → α) :=
  if args.isEmpty || ds.any (· == .fixed 0) || (op.plain.isNone && op.indexed.isNone) then .refused
  else (checks ds args).bind fun _ => impl hook ds op args init

/-- Lines 354-401: the patterns of one argument and of the arguments after it. -/
def join (a m : Dim) : Res Dim :=
  match a, m with
  | .fixed x, .fixed y => if x = y ∨ x = 1 then .ok m else if y = 1 then .refused else .ok a
  | .fixed x, .dyn y => if ¬ x = y ∧ ¬ x = 1 ∧ ¬ y = 1 then .throws else if x = 1 then .ok m else .ok a
  | .dyn x, .fixed y => if ¬ x = y ∧ ¬ x = 1 ∧ ¬ y = 1 then .throws else if y = 1 then .ok a else .ok m
  | .dyn x, .dyn y => if x = y ∨ x = 1 then .ok (.dyn y) else if y = 1 ∧ y ≤ x then .ok (.dyn x) else .throws

/-- Lines 335-423 `find_max_dim`. -/
def findMaxDim : List Dim → Res Dim
  | [] => .refused
  | [.fixed n] => if n = 0 then .refused else .ok (.fixed n)
  | [.dyn n] => if n = 0 then .throws else .ok (.dyn n)
  | a :: rest => (findMaxDim rest).bind fun m => join a m

/-- Lines 426-430 `find_max_dims`, for `r` indices. -/
def findMaxDims (r : ℕ) (args : List (Arg α)) : Res (List Dim) :=
  Res.all ((List.range r).map fun k => findMaxDim (args.map fun a => a.dim k))

/-- The largest index count. -/
def maxRank (args : List (Arg α)) : ℕ := args.foldr (fun a n => max a.dims.length n) 0

/-- Lines 482-496, without patterns. -/
def withoutPatterns (hook : Bool) (op : Op α) (args : List (Arg α)) (init : List ℕ → α) : Res (List Dim × (List ℕ → α)) :=
  if args.isEmpty || (op.plain.isNone && op.indexed.isNone) then .refused
  else (findMaxDims (maxRank args) args).bind fun ds => (impl hook ds op args init).bind fun m => .ok (ds, m)

/-! ## Operations without arguments -/

/-- Lines 501-509: one operation at one position. -/
def setNullary (op : Op α) (j : List ℕ) (m : List ℕ → α) : Res (List ℕ → α) :=
  match op.indexed with
  | some f => .ok (setComponent m (f [] j) j)
  | none =>
    match op.plain with
    | some f => .ok (setComponent m (f []) j)
    | none => .refused

/-- Line 518: the position along index `k` that was chosen. -/
def chosen (indices ks : List ℕ) (k : ℕ) : ℕ := (List.zipWith (fun i x => if k = i then x else 0) indices ks).sum

/-- Lines 512-530 `nullary_set_components`, at index `k`, with the dimensions of `k` and the indices after it. -/
def nullarySet (op : Op α) (indices ks : List ℕ) : (k : ℕ) → (es : List ℕ) → List ℕ → (List ℕ → α) → Res (List ℕ → α)
  | _, [], is, m => setNullary op is m
  | k, e :: es, is, m =>
    if k ∈ indices then nullarySet op indices ks (k + 1) es (is ++ [chosen indices ks k]) m
    else loop (fun i m => nullarySet op indices ks (k + 1) es (is ++ [i]) m) (List.range e) m

/-- Lines 533-554 `nullary_iterate`; `todo`: the indices left, `cur`: `CurrentOpIndex`. -/
def nullaryIterate (ops : List (Op α)) (es indices : List ℕ) : (todo : List ℕ) → (cur factor : ℕ) → (ks : List ℕ) → (List ℕ → α) → Res (List ℕ → α)
  | [], cur, _, ks, m =>
    match ops[cur]? with
    | some op => nullarySet op indices ks 0 es [] m
    | none => .refused
  | i :: todo, cur, factor, ks, m =>
    let n := es.getD i 1
    loop (fun x m => nullaryIterate ops es indices todo (cur + factor / n * x) (factor / n) (ks ++ [x]) m) (List.range n) m

/-- The layout of the pattern matrix, as far as it matters for filling it. -/
inductive Layout | right | left
  deriving DecidableEq

/-- make_dense_object_from.obsolete.hpp:50-58 with eigen-library-interface.hpp:422-426: fill in the order of the layout. -/
def denseFrom (l : Layout) (es : List ℕ) (vs : List α) (init : List ℕ → α) : List ℕ → α := fun j =>
  vs.getD (match l with | .right => rowMajor es j | .left => rowMajor es.reverse j.reverse) (init j)

/-- The values of operations that take no indices. -/
def plainValues : List (Op α) → Res (List α)
  | [] => .ok []
  | op :: ops => match op.plain with
    | some f => (plainValues ops).bind fun vs => .ok (f [] :: vs)
    | none => .refused

/-- `fixed_pattern` for index `i`. -/
def fixedAt (ds : List Dim) (i : ℕ) : Bool :=
  match ds[i]? with
  | some (.fixed _) => true
  | _ => false

/-- Lines 632-676: operations without arguments, one for each position along `indices`. -/
def nullary (hook : Bool) (l : Layout) (ds : List Dim) (indices : List ℕ) (ops : List (Op α)) (init : List ℕ → α) : Res (List ℕ → α) :=
  let es := ds.map Dim.val
  if (indices.any fun i => !fixedAt ds i) || ops.length != (indices.map fun i => es.getD i 1).prod ||
    (ops.any fun op => op.plain.isNone && op.indexed.isNone) then .refused
  else match ops with
    | [op] => impl hook ds op [] init
    | _ =>
      if (ds.all fun d => match d with | .fixed _ => true | _ => false) && ops.length == es.prod && ops.all fun op => op.indexed.isNone then
        (plainValues ops).bind fun vs => .ok (denseFrom l es vs init)
      else nullaryIterate ops es indices indices 0 ops.length [] init

/-! ## Operations in place -/

/-- A writable object with state `S`. -/
structure Place (S α : Type) where
  read : S → List ℕ → α
  write : S → List ℕ → α → S

/-- Lines 750-792: `unary_operation_in_place_impl`.  An element that is a reference is changed where it is; one that is a value is changed and written
back. -/
def inPlace {S : Type} (p : Place S α) (f : α → List ℕ → α) (es : List ℕ) (s : S) : Res S :=
  loops (fun j s => .ok (p.write s j (f (p.read s j) j))) es [] s

end OpenKalman.NAry
