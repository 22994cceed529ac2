import Mathlib.Data.List.Basic
import Mathlib.Data.List.Range
import Mathlib.Data.List.Nodup

/-!
# Specification vocabulary for slices, chips, tiles, concatenation and splitting (C40, C41)

A tensor is a list of dimensions and an element function; `none` is an element that has never been given a value.
-/

namespace OpenKalman.Slices

variable {F : Type}

/-- A dense tensor.  `writes` counts, for each position, how often an element has been stored there. -/
structure Ten (F : Type) where
  dims : List ℕ
  get : List ℕ → Option F
  writes : List ℕ → ℕ

/-- The position lies within the dimensions. -/
def InBox (dims ix : List ℕ) : Prop := List.Forall₂ (· < ·) ix dims

instance (dims ix : List ℕ) : Decidable (InBox dims ix) := inferInstanceAs (Decidable (List.Forall₂ _ _ _))

/-- Position `js` of a block that starts at `bs`. -/
def shift (bs js : List ℕ) : List ℕ := List.zipWith (· + ·) bs js

/-- Equal dimensions and equal elements within them. -/
def Same (a b : Ten F) : Prop := a.dims = b.dims ∧ ∀ ix, InBox a.dims ix → a.get ix = b.get ix

/-- Every element within the dimensions has a value. -/
def Full (a : Ten F) : Prop := ∀ ix, InBox a.dims ix → (a.get ix).isSome

/-- A matrix: a tensor with two indices. -/
def IsMat (a : Ten F) : Prop := a.dims.length = 2

/-- Number of rows. -/
def Ten.rows (a : Ten F) : ℕ := a.dims.getD 0 1
/-- Number of columns. -/
def Ten.cols (a : Ten F) : ℕ := a.dims.getD 1 1

/-- `full` lists, for every index below the rank, the value given for it in `vals` (in the order of `indices`), or else the default. -/
structure Expands (rank : ℕ) (indices vals : List ℕ) (dflt : ℕ → ℕ) (full : List ℕ) : Prop where
  len : full.length = rank
  given : ∀ q < indices.length, full.getD (indices.getD q 0) 0 = vals.getD q 0
  other : ∀ k < rank, k ∉ indices → full.getD k 0 = dflt k

/-- Blocks of the given sizes at the given offsets lie within the dimensions. -/
def Within (offs exts dims : List ℕ) : Prop := List.Forall₂ (fun (oe : ℕ × ℕ) n => oe.1 + oe.2 ≤ n) (offs.zip exts) dims

/-! ### Block matrices -/

/-- Element `(i, j)` of blocks laid side by side. -/
def rowGet : List (Ten F) → ℕ → ℕ → Option F
  | [], _, _ => none
  | b :: bs, i, j => if j < b.cols then b.get [i, j] else rowGet bs i (j - b.cols)

/-- The height of a row of blocks is that of its first block. -/
def rowHeight : List (Ten F) → ℕ
  | [] => 0
  | b :: _ => b.rows

/-- Element `(i, j)` of rows of blocks laid one below the other. -/
def gridGet : List (List (Ten F)) → ℕ → ℕ → Option F
  | [], _, _ => none
  | r :: rs, i, j => if i < rowHeight r then rowGet r i j else gridGet rs (i - rowHeight r) j

/-- Total width of a list of blocks. -/
def widths (l : List (Ten F)) : ℕ := (l.map Ten.cols).sum
/-- Total height of a list of blocks. -/
def heights (l : List (Ten F)) : ℕ := (l.map Ten.rows).sum

/-- The rows of blocks exactly cover an `R × C` matrix: every block is a nonempty matrix, the blocks of a row are equally high and together `C` wide, and the
rows together are `R` high. -/
structure Fits (R C : ℕ) (rows : List (List (Ten F))) : Prop where
  nonempty : ∀ r ∈ rows, r ≠ []
  mats : ∀ r ∈ rows, ∀ b ∈ r, IsMat b ∧ 0 < b.rows ∧ 0 < b.cols
  level : ∀ r ∈ rows, ∀ b ∈ r, b.rows = rowHeight r
  wide : ∀ r ∈ rows, widths r = C
  high : (rows.map rowHeight).sum = R

/-- Element `(i, j)` of the block-diagonal matrix of the given blocks, zero off the blocks. -/
def blockDiagGet [Zero F] : List (Ten F) → ℕ → ℕ → Option F
  | [], _, _ => none
  | b :: bs, i, j =>
    if i < b.rows then (if j < b.cols then b.get [i, j] else some 0)
    else if j < b.cols then some 0 else blockDiagGet bs (i - b.rows) (j - b.cols)

end OpenKalman.Slices
