import Verif.Spec.Arr
import Mathlib.Analysis.RCLike.Basic

/-!
# Specification of linear equations and matrix square roots (C42, C43)
-/

namespace OpenKalman.LinAlg
open Finset

variable {F : Type}

/-- `x` has the right shape and `a x = b`. -/
def Solves [NonUnitalNonAssocSemiring F] (a b x : Arr F) : Prop := x.rows = a.cols ∧ x.cols = b.cols ∧ (a.mul x).Same b

/-- The sum of the squared magnitudes of the elements of `a x - b`. -/
noncomputable def residual [RCLike F] (a b x : Arr F) : ℝ :=
  ∑ i ∈ range b.rows, ∑ j ∈ range b.cols, ‖(a.mul x).get i j - b.get i j‖ ^ 2

/-- `x` has the right shape and no other array of that shape has a smaller residual. -/
def LeastSquares [RCLike F] (a b x : Arr F) : Prop :=
  x.rows = a.cols ∧ x.cols = b.cols ∧ ∀ y : Arr F, y.rows = a.cols → y.cols = b.cols → residual a b x ≤ residual a b y

/-- Conjugate transpose. -/
def Arr.adj [Star F] (a : Arr F) : Arr F := a.transpose.conj

/-- Elements above the main diagonal are zero. -/
def Arr.IsLower [Zero F] (a : Arr F) : Prop := ∀ i < a.rows, ∀ j < a.cols, i < j → a.get i j = 0

/-- Elements below the main diagonal are zero. -/
def Arr.IsUpper [Zero F] (a : Arr F) : Prop := ∀ i < a.rows, ∀ j < a.cols, j < i → a.get i j = 0

/-- The Gram matrix a triangular factor stands for: `L L*` for a lower, `U* U` for an upper triangle. -/
def Arr.gram [NonUnitalNonAssocSemiring F] [Star F] (upper : Bool) (a : Arr F) : Arr F := if upper then a.adj.mul a else a.mul a.adj

/-- `l` is a square lower (upper) triangle that stands for `a`. -/
def IsFactor [NonUnitalNonAssocSemiring F] [Star F] (upper : Bool) (a l : Arr F) : Prop :=
  l.rows = a.rows ∧ l.cols = a.rows ∧ (if upper then l.IsUpper else l.IsLower) ∧ (l.gram upper).Same a

/-- Multiplication of all elements by a number. -/
def Arr.smul [Mul F] (s : F) (a : Arr F) : Arr F := a.map (s * ·)

end OpenKalman.LinAlg
