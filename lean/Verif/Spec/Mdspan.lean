import Mathlib.Data.List.Forall2
import Mathlib.Algebra.BigOperators.Group.List.Basic

/-!
# Specification for multidimensional extents, layouts and slices (C110–C113)

A shape is the list of the extents of a multidimensional array, an index is a list of the same
length, and a position is a place in the memory behind the array.
-/

namespace OpenKalman.Mdspan

/-- An index lies within a shape. -/
def InBounds (shape idx : List ℕ) : Prop := List.Forall₂ (fun i e => i < e) idx shape

/-- What the type of the extents says about a shape is true of the shape: as many extents, and each
fixed extent is what it is. -/
def Agrees (statics : List (Option ℕ)) (shape : List ℕ) : Prop :=
  List.Forall₂ (fun s n => ∀ v, s = some v → n = v) statics shape

/-- The extents of a shape that its type leaves open. -/
def openExtents : List (Option ℕ) → List ℕ → List ℕ
  | none :: l, n :: ns => n :: openExtents l ns
  | some _ :: l, _ :: ns => openExtents l ns
  | _, _ => []

/-- The sum of the products of indices and strides. -/
def weigh (idx strides : List ℕ) : ℕ := (List.zipWith (· * ·) idx strides).sum

/-- In column-major order the stride of a rank is the product of the extents before it. -/
def columnStrides (shape : List ℕ) : List ℕ :=
  (List.range shape.length).map fun r => (shape.take r).prod

/-- In row-major order the stride of a rank is the product of the extents after it. -/
def rowStrides (shape : List ℕ) : List ℕ :=
  (List.range shape.length).map fun r => (shape.drop (r + 1)).prod

/-- Different indices have different positions. -/
def Unique (shape : List ℕ) (pos : List ℕ → ℕ) : Prop :=
  ∀ i j, InBounds shape i → InBounds shape j → pos i = pos j → i = j

/-- Every position below `n` belongs to an index. -/
def Onto (shape : List ℕ) (pos : List ℕ → ℕ) (n : ℕ) : Prop :=
  ∀ p, p < n → ∃ i, InBounds shape i ∧ pos i = p

/-- `n` is the size of the memory that the positions need. -/
def NeededSize (shape : List ℕ) (pos : List ℕ → ℕ) (n : ℕ) : Prop :=
  (∀ i, InBounds shape i → pos i < n) ∧
    ∀ m, (∀ i, InBounds shape i → pos i < m) → n ≤ m

/-- The condition that the documentation of strided layouts puts on the strides: they are positive,
and the ranks can be ordered so that each stride is at least the stride before it times the extent
before it. -/
def Nested (shape strides : List ℕ) : Prop :=
  (∀ s ∈ strides, 0 < s) ∧
  ∃ order : List ℕ, order.Perm (List.range shape.length) ∧
    order.IsChain fun a b => strides.getD a 0 * shape.getD a 0 ≤ strides.getD b 0

/-- What is to be kept of one rank of an array. -/
inductive Part
  /-- One index: the rank disappears. -/
  | one (i : ℕ)
  /-- All indices. -/
  | all
  /-- The indices from `first` up to, but not including, `last`. -/
  | between (first last : ℕ)
  /-- Of the `span` indices from `first` on, every `step`-th. -/
  | every (first span step : ℕ)

/-- The indices that are kept, as a list. -/
def Part.kept (extent : ℕ) : Part → List ℕ
  | .one i => [i]
  | .all => List.range extent
  | .between a b => (List.range extent).filter fun i => decide (a ≤ i ∧ i < b)
  | .every a n s => (List.range extent).filter fun i => decide (a ≤ i ∧ i < a + n ∧ (i - a) % s = 0)

/-- Whether the rank remains. -/
def Part.keepsRank : Part → Bool
  | .one _ => false
  | _ => true

/-- The parts lie within the shape. -/
def Part.Within (extent : ℕ) : Part → Prop
  | .one i => i < extent
  | .all => True
  | .between a b => a ≤ b ∧ b ≤ extent
  | .every a n s => a + n ≤ extent ∧ (0 < n → 0 < s)

/-- The shape that remains: how many indices are kept of each rank that remains. -/
def keptShape : List ℕ → List Part → List ℕ
  | e :: es, p :: ps =>
    if p.keepsRank then (p.kept e).length :: keptShape es ps else keptShape es ps
  | _, _ => []

/-- The index in the original array of an index in what is kept. -/
def original : List ℕ → List Part → List ℕ → List ℕ
  | _ :: es, .one i :: ps, js => i :: original es ps js
  | e :: es, p :: ps, j :: js => (p.kept e).getD j 0 :: original es ps js
  | _, _, _ => []

end OpenKalman.Mdspan
