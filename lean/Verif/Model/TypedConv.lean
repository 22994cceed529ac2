import Verif.Model.Angular

/-!
# Conversions among typed matrices: `adapters/Matrix.hpp`, `Mean.hpp`, `EuclideanMean.hpp` (C115)

One column, as in `Model/Angular.lean`.  The base class `TypedMatrixBase` is not defined in the repository; it is read as holding the nested matrix, with
construction and assignment passing the value on.  Nested matrices fixed to be zero or an identity, for which assignment does nothing, are left out.
-/

namespace OpenKalman.TypedConv
open OpenKalman.Angular OpenKalman.Patterns

/-- Matrix.hpp:58-77 `Matrix(Arg&&)` from `Matrix` or `Mean`: the numbers are kept; 80-94 from a Euclidean-transformed matrix: they are decoded.
The assignments 138-192 are the same. -/
noncomputable def toMatrix (es : List Elem) (v : Typed) : Option Typed :=
  match v.kind with
  | .euclidean => do return ⟨.matrix, ← decode es v.col⟩
  | _ => some ⟨.matrix, v.col⟩

/-- EuclideanMean.hpp:57-71 `EuclideanMean(Arg&&)` from a Euclidean-transformed matrix; 74-89 from another typed matrix. -/
noncomputable def toEuclidean (es : List Elem) (v : Typed) : Option Typed :=
  match v.kind with
  | .euclidean => some ⟨.euclidean, v.col⟩
  | _ => do return ⟨.euclidean, ← encode es v.col⟩

/-- Construction of a typed matrix of kind `k` from another one; for a `Mean` see Mean.hpp:57-103. -/
noncomputable def convert (es : List Elem) (k : Angular.Kind) (v : Typed) : Option Typed :=
  match k with
  | .matrix => toMatrix es v
  | .mean => ofTyped es v
  | .euclidean => toEuclidean es v

/-- A chain of conversions. -/
noncomputable def chain (es : List Elem) (v : Typed) (ks : List Angular.Kind) : Option Typed := ks.foldlM (fun v k => convert es k v) v

/-- EuclideanMean.hpp:105-129: this assignment takes a typed matrix whose numbers need not be encoded. -/
def plainAssignment (es : List Elem) (k : Angular.Kind) : Bool := k == .euclidean || es.all (·.staticEuclidean)

/-- EuclideanMean.hpp:132-157: this one encodes. -/
def encodingAssignment (_es : List Elem) (k : Angular.Kind) : Bool := !(k == .euclidean)

/-- EuclideanMean.hpp:105-157 `operator=`: neither of the two templates is more constrained than the other, so that the assignment is refused if both are
viable. -/
noncomputable def assignEuclidean (es : List Elem) (v : Typed) : Option Typed :=
  if plainAssignment es v.kind then
    if encodingAssignment es v.kind then none else some ⟨.euclidean, v.col⟩
  else if encodingAssignment es v.kind then do return ⟨.euclidean, ← encode es v.col⟩
  else none

end OpenKalman.TypedConv
