import Verif.Spec.EigenAccess

/-!
# Model of component access, diagonals and replication in the Eigen interface
(`OpenKalman/linear-algebra/interfaces/eigen/eigen-library-interface.hpp`, `OpenKalman/linear-algebra/functions/broadcast.hpp`)

A view is on a dense matrix, as Eigen requires.  The evaluators of dense expressions are not modelled: they give the element.
-/

namespace OpenKalman.EigenAccess

variable {𝕜 : Type}

/-- The outcome of a call. -/
inductive Res (α : Type) | ok (a : α) | throws | illFormed | undefined

/-- `Eigen::UpLoType` bits of a mode. -/
structure Mode where
  lower : Bool
  upper : Bool
  unitDiag : Bool
  zeroDiag : Bool
  deriving DecidableEq

/-- The six modes that Eigen accepts for a triangular view. -/
def Mode.legal (m : Mode) : Bool := (m.lower != m.upper) && !(m.unitDiag && m.zeroDiag)

/-- An Eigen object with `rows` and `cols` of the (nested) dense matrix. -/
inductive Obj (𝕜 : Type) where
  | dense (m : ℕ → ℕ → 𝕜)
  | diagonal (rows cols : ℕ) (m : ℕ → ℕ → 𝕜)
  | triangular (mode : Mode) (m : ℕ → ℕ → 𝕜)
  | selfAdjoint (mode : Mode) (m : ℕ → ℕ → 𝕜)

/-- eigen-library-interface.hpp:52-87 `get_coeff`.  The vector nested in a diagonal object is read at `(i, 0)`, which is beyond the end of a row
vector for `i > 0`. -/
def getCoeff [Zero 𝕜] : Obj 𝕜 → ℕ → ℕ → Res 𝕜
  | .diagonal rows cols m, i, j => if i = j then (if i < rows ∧ 0 < cols then .ok (m i 0) else .undefined) else .ok 0
  | .triangular mode m, i, j =>
    if (decide (i > j) && mode.upper) || (decide (i < j) && mode.lower) then .ok 0 else .ok (m i j)
  | .selfAdjoint _ m, i, j => .ok (m i j)
  | .dense m, i, j => .ok (m i j)

/-- Lines 90-102 `extract_indices`. -/
def extractIndices : List ℕ → Option (ℕ × ℕ)
  | [] => some (0, 0)
  | [i] => some (i, 0)
  | [i, j] => some (i, j)
  | _ => none

/-- Line 123 and 164: whether the element is found on the other side of the diagonal. -/
def transp (mode : Mode) (i j : ℕ) : Bool := (decide (i > j) && mode.upper) || (decide (i < j) && mode.lower)

/-- The outcome, transformed. -/
def Res.map {α β : Type} (f : α → β) : Res α → Res β
  | .ok a => .ok (f a)
  | .throws => .throws
  | .illFormed => .illFormed
  | .undefined => .undefined

/-- Lines 116-139 `get_component`; `cplx`: complex scalars. -/
def getComponent [Zero 𝕜] [Star 𝕜] (cplx : Bool) (o : Obj 𝕜) (indices : List ℕ) : Res 𝕜 :=
  match extractIndices indices with
  | none => .throws
  | some (i, j) =>
    match o with
    | .selfAdjoint mode _ =>
      if cplx then (if transp mode i j then (getCoeff o j i).map star else getCoeff o i j)
      else if transp mode i j then getCoeff o j i else getCoeff o i j
    | _ => getCoeff o i j

/-- An element of a dense matrix is given a value. -/
def put (m : ℕ → ℕ → 𝕜) (i j : ℕ) (s : 𝕜) : ℕ → ℕ → 𝕜 := fun a b => if a = i ∧ b = j then s else m a b

/-- Lines 142-180 `set_component`.  `get_coeff` of a diagonal object or triangular view returns a value, to which nothing can be assigned, so the call
does not compile. -/
def setComponent [Star 𝕜] (cplx : Bool) (o : Obj 𝕜) (s : 𝕜) (indices : List ℕ) : Res (Obj 𝕜) :=
  match o with
  | .dense m =>
    match extractIndices indices with
    | none => .throws
    | some (i, j) => .ok (.dense (put m i j s))
  | .selfAdjoint mode m =>
    match extractIndices indices with
    | none => .throws
    | some (i, j) =>
      if cplx then (if transp mode i j then .ok (.selfAdjoint mode (put m j i (star s))) else .ok (.selfAdjoint mode (put m i j s)))
      else if transp mode i j then .ok (.selfAdjoint mode (put m j i s)) else .ok (.selfAdjoint mode (put m i j s))
  | _ => .illFormed

/-- What Eigen's object stands for. -/
def Obj.meaning : Obj 𝕜 → Meaning 𝕜
  | .dense m => .matrix m
  | .diagonal rows cols m => .diagonal (fun i => if cols = 1 then m i 0 else if rows = 1 then m 0 i else m i 0)
  | .triangular mode m => .triangle mode.upper (if mode.unitDiag then .unit else if mode.zeroDiag then .zero else .stored) m
  | .selfAdjoint mode m => .selfAdjoint mode.upper m

/-! ## Diagonals -/

/-- Lines 752-819 `diagonal_of`, for a diagonal object on a row vector, a view and a dense matrix; a diagonal object on a column vector is taken by
functions/diagonal_of.hpp. -/
def diagonalOf : Obj 𝕜 → Res (ℕ → 𝕜)
  | .diagonal rows cols m =>
    if cols = 1 then .illFormed else if rows = 1 then .ok (fun i => m 0 i) else .ok (fun i => m (i % rows) (i / rows))
  | .triangular _ m => .ok fun i => m i i
  | .selfAdjoint _ m => .ok fun i => m i i
  | .dense m => .ok fun i => m i i

/-- Lines 697-749 `to_diagonal` of an object with `rows` and `cols`: a dense column vector; a self-adjoint view that keeps its lower triangle or a
triangular view of the lower triangle gives way to its nested matrix.  Other views have no hook.  An object that is not a column vector throws. -/
def toDiagonal (rows cols : ℕ) : Obj 𝕜 → Res (Obj 𝕜)
  | .dense m => if cols ≠ 1 then .throws else if rows = 1 then .ok (.dense m) else .ok (.diagonal rows cols m)
  | .selfAdjoint mode m =>
    if mode.upper then .illFormed
    else if cols ≠ 1 then .throws else if rows = 1 then .ok (.dense m) else .ok (.diagonal rows cols m)
  | .triangular mode m =>
    if mode.upper then .illFormed
    else if cols ≠ 1 then .throws else if rows = 1 then .ok (.dense m) else .ok (.diagonal rows cols m)
  | .diagonal _ _ _ => .illFormed

/-! ## Replication -/

/-- A factor: its value, and whether the type fixes it (then it is not negative). -/
structure Factor where
  fixed : Bool
  value : Int

/-- `Eigen::Replicate`: the size and the elements.  A negative factor is not possible. -/
def replicate (r c : ℕ) (m : ℕ → ℕ → 𝕜) (f0 f1 : Int) : Res (ℕ × ℕ × (ℕ → ℕ → 𝕜)) :=
  if f0 < 0 ∨ f1 < 0 then .undefined else .ok (r * f0.toNat, c * f1.toNat, fun i j => m (i % r) (j % c))

/-- eigen-library-interface.hpp:822-844: at most two factors; a missing factor is 1. -/
def broadcastEigen (r c : ℕ) (m : ℕ → ℕ → 𝕜) : List Factor → Res (ℕ × ℕ × (ℕ → ℕ → 𝕜))
  | [] => replicate r c m 1 1
  | [f0] => replicate r c m f0.value 1
  | [f0, f1] => replicate r c m f0.value f1.value
  | _ => .illFormed

/-- broadcast.hpp:49-77. -/
def broadcast (r c : ℕ) (m : ℕ → ℕ → 𝕜) (fs : List Factor) : Res (ℕ × ℕ × (ℕ → ℕ → 𝕜)) :=
  match h : fs.getLast? with
  | none => .ok (r, c, m)
  | some f =>
    if f.fixed && f.value == 1 then broadcast r c m fs.dropLast
    else if fs.any (fun f => !f.fixed) && fs.any (fun f => decide (f.value ≤ 0)) then .throws
    else broadcastEigen r c m fs
termination_by fs.length
decreasing_by
  have : 0 < fs.length := by
    cases fs with
    | nil => simp at h
    | cons a l => simp
  rw [List.length_dropLast]; omega

end OpenKalman.EigenAccess
