import Verif.Spec.Contraction

/-!
# Model: what `object_traits` reports about contractions of tensors
(`OpenKalman/linear-algebra/interfaces/eigen-tensor/traits/TensorContractionOp.hpp`)

Storage is column-major, numbers are exact.
-/

namespace OpenKalman.Contraction

variable {𝕜 : Type}

/-- `std::accumulate(…, Scalar{1}, f)` with `f(a, b) = a * dims[b.first]` (TensorContractionOp.hpp:67-68, 82-83, 91-92), where `dims` are the extents of the
*contraction*; `none` if an index is beyond its rank (the behaviour is undefined). -/
def factor [Mul 𝕜] [One 𝕜] [NatCast 𝕜] (dims : List ℕ) : List (ℕ × ℕ) → 𝕜 → Option 𝕜
  | [], a => some a
  | p :: ps, a =>
    match dims[p.1]? with
    | some d => factor dims ps (a * (d : 𝕜))
    | none => none

/-- What is reported: a constant, nothing, or the behaviour is undefined. -/
inductive Report (𝕜 : Type)
  | value (c : 𝕜)
  | nothing
  | undefined
  deriving DecidableEq

/-- `factor * c`. -/
def Report.scaled [Mul 𝕜] (c : 𝕜) : Option 𝕜 → Report 𝕜
  | some f => .value (f * c)
  | none => .undefined

/-- `get_constant`, TensorContractionOp.hpp:45-95; `dims` are the extents of the contraction.  With no pairs at all, `++indices.cbegin()` is undefined. -/
def getConstant [Mul 𝕜] [One 𝕜] [Zero 𝕜] [NatCast 𝕜] (ka kb : Claims 𝕜) (dims : List ℕ) (ps : List (ℕ × ℕ)) : Report 𝕜 :=
  if ka.zero then .value 0
  else if kb.zero then .value 0
  else
    match ka.diag, kb.const, ka.const, kb.diag with
    | some c, some k, _, _ => if ps.length = 0 then .undefined else if ps.length = 1 then .value (c * k) else .scaled (c * k) (factor dims ps.tail 1)
    | _, _, some k, some c => if ps.length = 0 then .undefined else if ps.length = 1 then .value (k * c) else .scaled (k * c) (factor dims ps.tail 1)
    | _, some k, some c, _ => .scaled (c * k) (factor dims ps 1)
    | _, _, _, _ => .nothing

/-- `is_hermitian`, TensorContractionOp.hpp:127-129. -/
def isHermitian (ka kb : Claims 𝕜) (ps : List (ℕ × ℕ)) : Bool :=
  ps.length == 1 && ((ka.diag.isSome && kb.herm) || (kb.diag.isSome && ka.herm))

end OpenKalman.Contraction
