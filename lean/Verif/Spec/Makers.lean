import Mathlib.Data.List.Basic
import Mathlib.Algebra.BigOperators.Group.List.Basic

/-!
# Specification: objects spelt as lists of components

A list of components spells a matrix row by row, or column by column.  It fits a shape, of which some extents may be open, if there are extents with as many
components as there are in the list.
-/

namespace OpenKalman.Makers

variable {α : Type}

/-- Row by row: the element in row `i` and column `j` of a matrix with `cols` columns. -/
def byRows (cols : ℕ) (xs : List α) (i j : ℕ) : Option α := xs[i * cols + j]?

/-- Column by column: the element in row `i` and column `j` of a matrix with `rows` rows. -/
def byColumns (rows : ℕ) (xs : List α) (i j : ℕ) : Option α := xs[j * rows + i]?

/-- The extents `ss` complete the shape `ds` (in which `none` is open), and have room for exactly `N` components. -/
def Fits (ds : List (Option ℕ)) (N : ℕ) (ss : List ℕ) : Prop := List.Forall₂ (fun d s => ∀ k, d = some k → s = k) ds ss ∧ ss.prod = N

/-- The number of components determines the shape. -/
def Determined (ds : List (Option ℕ)) (N : ℕ) : Prop := ∃ ss, Fits ds N ss ∧ ∀ ss', Fits ds N ss' → ss' = ss

end OpenKalman.Makers
