import Verif.Spec.TypedConv

/-!
# Specification: points in columns (C147–C149)

A typed matrix stands for a list of points, one for each column.
-/

namespace OpenKalman.TypedOps

/-- The points that the columns of several matrices, one below the other, stand for: the numbers follow each other. -/
def below : List (List (List ℝ)) → List (List ℝ)
  | [] => []
  | [a] => a
  | a :: b :: as => List.zipWith (· ++ ·) a (below (b :: as))

end OpenKalman.TypedOps
