import Mathlib.Algebra.BigOperators.Group.Finset.Basic
import Mathlib.Algebra.Ring.Defs
import Verif.Spec.InPlace
import Verif.Model.LinAlg
import Verif.Model.Shape

/-!
# Model of the functions that change an object in place
(`OpenKalman/linear-algebra/functions/internal/set_triangle.hpp`, `contract_in_place.hpp`, `copy_from.hpp` and their hooks in
`interfaces/eigen/eigen-library-interface.hpp`)

Elements are in a commutative ring with conjugation; rounding is not modelled.  That the elements of the
adapters are those of `Obj.view` is C23.
-/

namespace OpenKalman.InPlace

open LinAlg (Tri)

variable {𝕜 : Type}

/-! ## set_triangle -/

/-- A writable object: a dense Eigen matrix, any other dense object with `set_component`, and adapters (those of the library and the views of Eigen:
`triangular_adapter`, `hermitian_adapter_concept`, a diagonal matrix with a nested vector). -/
inductive Obj (𝕜 : Type) where
  | eigen (m : ℕ → ℕ → 𝕜)
  | other (m : ℕ → ℕ → 𝕜)
  | triangular (q : Part) (n : Obj 𝕜)
  | hermitian (q : Part) (n : Obj 𝕜)
  | diagonal (v : ℕ → 𝕜)

/-- The matrix to copy from, with what `triangular_matrix` knows about it. -/
structure Source (𝕜 : Type) where
  get : ℕ → ℕ → 𝕜
  tri : Tri

/-- concepts/triangular_matrix.hpp: a diagonal matrix is triangular both ways. -/
def Source.isTri (b : Source 𝕜) (t : Tri) : Bool := b.tri == t || b.tri == .diagonal

/-- functions/conjugate_transpose.hpp: elements and triangle. -/
def Source.adjoint [Star 𝕜] (b : Source 𝕜) : Source 𝕜 :=
  ⟨fun i j => star (b.get j i), match b.tri with | .lower => .upper | .upper => .lower | t => t⟩

/-- set_triangle.hpp:38-39, the constraint on the source. -/
def accepts (t : Part) (b : Source 𝕜) : Bool :=
  (t != .lower || !b.isTri .upper) && (t != .upper || !b.isTri .lower)

/-- What a call that changes an object does: a new state, an exception, no compilation, or undefined behaviour. -/
inductive Copied (S : Type) | done (s : S) | throws | illFormed | undefined

/-- The outcome with the state transformed. -/
def Copied.map {S S' : Type} (f : S → S') : Copied S → Copied S'
  | .done s => .done (f s)
  | .throws => .throws
  | .illFormed => .illFormed
  | .undefined => .undefined

/-- A `for` loop over `0 … k - 1`. -/
def forLoop {S : Type} (body : ℕ → S → Copied S) : ℕ → S → Copied S
  | 0, s => .done s
  | k + 1, s => match forLoop body k s with
    | .done s' => body k s'
    | x => x

/-- `set_component` on a dense object with `r` rows and `c` columns; the bounds are not checked. -/
def setComponent (r c : ℕ) (m : ℕ → ℕ → 𝕜) (s : 𝕜) (i j : ℕ) : Copied (ℕ → ℕ → 𝕜) :=
  if i < r ∧ j < c then .done fun a b => if a = i ∧ b = j then s else m a b else .undefined

/-- set_triangle.hpp:79-94, the loops over components, for an object with `r` rows and `c` columns. -/
def setLoop (t : Part) (r c : ℕ) (m : ℕ → ℕ → 𝕜) (b : Source 𝕜) : Copied (ℕ → ℕ → 𝕜) :=
  match t with
  | .upper => forLoop (fun i m => forLoop (fun _ m => setComponent r c m (b.get i i) i i) (c - i) m) r m
  | .lower => forLoop (fun i m => forLoop (fun _ m => setComponent r c m (b.get i i) i i) i m) r m
  | .diag => forLoop (fun i m => setComponent r c m (b.get i i) i i) r m

/-- eigen-library-interface.hpp:649-661 (diagonal) and 681-694 (`triangularView<…>() = b`). -/
def setEigen (t : Part) (m : ℕ → ℕ → 𝕜) (b : Source 𝕜) : ℕ → ℕ → 𝕜 := fun i j =>
  match t with
  | .diag => if i = j then b.get i j else m i j
  | .upper => if i ≤ j then b.get i j else m i j
  | .lower => if j ≤ i then b.get i j else m i j

/-- set_triangle.hpp:48-96 with the hooks at eigen-library-interface.hpp:629-694, for an object with `r` rows and `c` columns. -/
def setTriangle [Star 𝕜] (t : Part) (r c : ℕ) : Obj 𝕜 → Source 𝕜 → Copied (Obj 𝕜)
  | .eigen m, b => if accepts t b then .done (.eigen (setEigen t m b)) else .illFormed
  | .other m, b => if accepts t b then (setLoop t r c m b).map .other else .illFormed
  | .triangular q n, b => if accepts t b then (setTriangle t r c n b).map (.triangular q) else .illFormed
  | .hermitian q n, b =>
    if accepts t b then
      if (t = .lower ∧ q = .upper) ∨ (t = .upper ∧ q = .lower) then (setTriangle t r c n b.adjoint).map (.hermitian q)
      else (setTriangle t r c n b).map (.hermitian q)
    else .illFormed
  | .diagonal _, b => if accepts t b then .done (.diagonal fun i => b.get i i) else .illFormed

/-- What an object stands for. -/
def Obj.view : Obj 𝕜 → View 𝕜
  | .eigen m => .full m
  | .other m => .full m
  | .triangular q n => .part q n.view
  | .hermitian q n => .hermitian q n.view
  | .diagonal v => .vector v

/-! ## contract_in_place -/

/-- The kind of the left object: no hook, a dense Eigen matrix, an Eigen diagonal matrix or wrapper, an Eigen triangular view. -/
inductive Hook | noHook | dense | diagonal | view
  deriving DecidableEq

/-- The product of two matrices with `n` rows and columns (`contract`, C36). -/
def product [CommRing 𝕜] (n : ℕ) (A B : ℕ → ℕ → 𝕜) : ℕ → ℕ → 𝕜 := fun i j => ∑ k ∈ Finset.range n, A i k * B k j

/-- eigen-library-interface.hpp:1178-1204.  A dense matrix calls `applyOnTheRight` or `applyOnTheLeft`, which multiply in place; a diagonal matrix is
multiplied elementwise with the diagonal; the matrix nested in a triangular view becomes the product. -/
def contractHook [CommRing 𝕜] (right : Bool) (n : ℕ) (A B : ℕ → ℕ → 𝕜) : Hook → Option (ℕ → ℕ → 𝕜)
  | .noHook => none
  | .dense => some (if right then product n A B else product n B A)
  | .diagonal => some fun i j => if i = j then A i i * B i i else 0
  | .view => some (product n A B)

/-- contract_in_place.hpp:38-60 for an `ra`-by-`ca` and an `rb`-by-`cb` matrix; `zeroA`, `idB`, `zeroB`, `writable`: what the types say.  Lines 40-41
compare the sizes of the two objects with each other if the types do not settle that they are square and the same.  The product of matrices that are
not square is undefined (Eigen asserts that the inner sizes agree). -/
def contractInPlace [CommRing 𝕜] (right zeroA idB zeroB writable : Bool) (h : Hook) (ra ca rb cb : ℕ) (A B : ℕ → ℕ → 𝕜) : Copied (ℕ → ℕ → 𝕜) :=
  if ¬ (ra = rb ∧ ca = cb) then .throws
  else if zeroA || idB then .done A
  else if zeroB && writable then .done B
  else if ra ≠ ca then .undefined
  else match contractHook right ra A B h with
    | some M => .done M
    | none => .done (product ra A B)

/-! ## copy_from -/

open Shape (Extent Access Indices indexCount statics getIndexExtent)

/-- The elements of an object, by index array of the length of its rank. -/
abbrev Elems (𝕜 : Type) := List ℕ → 𝕜

/-- copy_from.hpp:38-42: one element.  The source may look at the destination (`read`). -/
def copyElement (md ms : List Extent) (read : Elems 𝕜 → List ℕ → 𝕜) (j : List ℕ) (s : Elems 𝕜) : Copied (Elems 𝕜) :=
  match Shape.access md ⟨true, j⟩, Shape.access ms ⟨true, j⟩ with
  | .component d, .component e => .done (Function.update s d (read s e))
  | .illFormed, _ => .illFormed
  | _, .illFormed => .illFormed
  | _, _ => .undefined

/-- copy_from.hpp:45-50: `copy_tensor_elements` over the indices `I, I + 1, …` (`todo` many), inside the positions `j`. -/
def copyElements (md ms : List Extent) (read : Elems 𝕜 → List ℕ → 𝕜) : (todo : ℕ) → (I : ℕ) → List ℕ → Elems 𝕜 → Copied (Elems 𝕜)
  | 0, _, j, s => copyElement md ms read j s
  | todo + 1, I, j, s =>
    match getIndexExtent ms true I with
    | none => .undefined
    | some k => forLoop (fun i s => copyElements md ms read todo (I + 1) (j ++ [i]) s) k s

/-- copy_from.hpp:68-85 without a specialised interface. -/
def copyFrom (md ms : List Extent) (read : Elems 𝕜 → List ℕ → 𝕜) (s : Elems 𝕜) : Copied (Elems 𝕜) :=
  copyElements md ms read (indexCount (statics md)) 0 [] s

end OpenKalman.InPlace
