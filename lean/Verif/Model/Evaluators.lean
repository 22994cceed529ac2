import Verif.Spec.Evaluators

/-!
# Model: the evaluators through which Eigen reads and writes adapters
(`OpenKalman/linear-algebra/interfaces/eigen/native-traits/` and `native-evaluators/`, files HermitianAdapter.hpp, TriangularAdapter.hpp, DiagonalAdapter.hpp)

Packets are not modelled: they are enabled and computed like access by a single index.  The evaluator of Eigen for the matrix or expression inside returns the
element itself, by reference if and only if it is an lvalue.
-/

namespace OpenKalman.Evaluators

variable {𝕜 : Type}

/-- `one_dimensional` at compile time: passed on by the adapters. -/
def Tower.one : Tower → Bool
  | .leaf l => l.one
  | .hermitian _ t => t.one
  | .triangular _ t => t.one
  | .diagonal t => t.one

/-- `LvalueBit` in `native_traits<…>::Flags`: native-traits/HermitianAdapter.hpp:35-38, TriangularAdapter.hpp:35-37, DiagonalAdapter.hpp:34-36. -/
def Tower.lvalue (N : Numbers 𝕜) : Tower → Bool
  | .leaf l => l.lvalue
  | .hermitian _ t => t.lvalue N && !N.complex
  | .triangular _ t => t.lvalue N
  | .diagonal t => t.lvalue N

/-- `LinearAccessBit` in `native_traits<…>::Flags`, same lines. -/
def Tower.linear : Tower → Bool
  | .leaf l => l.linear
  | .hermitian _ t => t.linear && t.one
  | .triangular _ t => t.linear && t.one
  | .diagonal t => t.linear && t.one

/-- `LinearAccessBit` in `evaluator<…>::Flags`: native-evaluators/HermitianAdapter.hpp:36, TriangularAdapter.hpp:33 (those of the traits), DiagonalAdapter.hpp:33. -/
def Tower.evalLinear : Tower → Bool
  | .diagonal _ => false
  | t => t.linear

/-- The result of reading an element. -/
inductive Read (𝕜 : Type)
  | value (x : 𝕜)
  /-- A reference to a temporary object that no longer exists. -/
  | dangling
  /-- Does not compile. -/
  | illFormed
  deriving DecidableEq

def Read.map (f : 𝕜 → 𝕜) : Read 𝕜 → Read 𝕜
  | .value x => .value (f x)
  | .dangling => .dangling
  | .illFormed => .illFormed

/-- `coeff(Index i)`: native-evaluators/HermitianAdapter.hpp:107-110, TriangularAdapter.hpp:81-87, DiagonalAdapter.hpp:75-81. -/
def Tower.coeffAt (m : ℕ → ℕ → 𝕜) : Tower → ℕ → Read 𝕜
  | .leaf l, i => .value (m (l.position i).1 (l.position i).2)
  | .hermitian _ t, i => t.coeffAt m i
  | .triangular _ t, i => if t.one then t.coeffAt m i else .illFormed
  | .diagonal t, i => if t.one then t.coeffAt m i else .illFormed

/-- `conj(…)` of the nested element, returned as `CoeffReturnType`, the return type of the nested object: a reference if that is an lvalue. -/
def conjugated (N : Numbers 𝕜) (ref : Bool) (r : Read 𝕜) : Read 𝕜 :=
  if N.complex then (if ref then .dangling else r.map N.conj) else r

/-- `coeff(Index row, Index col)`: native-evaluators/HermitianAdapter.hpp:76-104, TriangularAdapter.hpp:62-78, DiagonalAdapter.hpp:59-73. -/
def Tower.coeff [Zero 𝕜] (N : Numbers 𝕜) (m : ℕ → ℕ → 𝕜) : Tower → ℕ → ℕ → Read 𝕜
  | .leaf _, i, j => .value (m i j)
  | .hermitian true t, i, j =>
    if i > j then conjugated N (t.lvalue N) (t.coeff N m j i)
    else if i = j ∧ N.complex = true ∧ t.lvalue N = false then (t.coeff N m i j).map N.re
    else t.coeff N m i j
  | .hermitian false t, i, j =>
    if i < j then conjugated N (t.lvalue N) (t.coeff N m j i)
    else if i = j ∧ N.complex = true ∧ t.lvalue N = false then (t.coeff N m i j).map N.re
    else t.coeff N m i j
  | .triangular .diagonal t, i, j => if i ≠ j then .value 0 else t.coeff N m i j
  | .triangular .upper t, i, j => if i > j then .value 0 else t.coeff N m i j
  | .triangular .lower t, i, j => if i < j then .value 0 else t.coeff N m i j
  | .diagonal t, i, j => if i = j then t.coeffAt m i else .value 0

/-- What `coeffRef` refers to. -/
inductive Ref
  | element (i j : ℕ)
  /-- The static variable `dummy`. -/
  | dummy
  | illFormed
  deriving DecidableEq

/-- `coeffRef(Index i)`: native-evaluators/HermitianAdapter.hpp:64-73, TriangularAdapter.hpp:53-59, DiagonalAdapter.hpp:51-57. -/
def Tower.refAt (N : Numbers 𝕜) : Tower → ℕ → Ref
  | .leaf l, i => if l.lvalue then .element (l.position i).1 (l.position i).2 else .illFormed
  | .hermitian _ t, i => if t.one && !N.complex then t.refAt N i else .illFormed
  | .triangular _ t, i => if t.one then t.refAt N i else .illFormed
  | .diagonal t, i => if t.one then t.refAt N i else .illFormed

/-- `coeffRef(Index row, Index col)`: native-evaluators/HermitianAdapter.hpp:44-61, TriangularAdapter.hpp:43-50, DiagonalAdapter.hpp:39-49. -/
def Tower.ref (N : Numbers 𝕜) : Tower → ℕ → ℕ → Ref
  | .leaf l, i, j => if l.lvalue then .element i j else .illFormed
  | .hermitian true t, i, j => if N.complex then .illFormed else if i > j then t.ref N j i else t.ref N i j
  | .hermitian false t, i, j => if N.complex then .illFormed else if i < j then t.ref N j i else t.ref N i j
  | .triangular tri t, i, j =>
    match t.ref N i j with
    | .illFormed => .illFormed
    | r =>
      match tri with
      | .diagonal => if i ≠ j then .dummy else r
      | .upper => if i > j then .dummy else r
      | .lower => if i < j then .dummy else r
  | .diagonal t, i, j =>
    match t.refAt N i with
    | .illFormed => .illFormed
    | r => if i = j then r else .dummy

/-- `coeffRef(row, col) = x`: the elements of the base afterwards; the value of `dummy` is not read by `coeff`. -/
def Tower.write (N : Numbers 𝕜) (m : ℕ → ℕ → 𝕜) (t : Tower) (i j : ℕ) (x : 𝕜) : Option (ℕ → ℕ → 𝕜) :=
  match t.ref N i j with
  | .element p q => some fun k l => if k = p ∧ l = q then x else m k l
  | .dummy => some m
  | .illFormed => none

end OpenKalman.Evaluators
