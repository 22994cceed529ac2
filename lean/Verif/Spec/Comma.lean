import Mathlib.Data.List.Basic
import Mathlib.Algebra.BigOperators.Group.List.Basic

/-!
# Specification: matrices written as a tableau of blocks

`x << a, b, c, …` writes the matrix that the blocks form if they are laid out in rows, each of full width.
-/

namespace OpenKalman.Comma

/-- A block; a number is a block with one row and one column. -/
structure Block (α : Type) where
  rows : ℕ
  cols : ℕ
  val : ℕ → ℕ → α

variable {α : Type}

/-- A number as a block. -/
def Block.num (a : α) : Block α := ⟨1, 1, fun _ _ => a⟩

/-- The block has elements. -/
def Block.Proper (b : Block α) : Prop := 0 < b.rows ∧ 0 < b.cols

/-- The width of blocks side by side. -/
def width (bs : List (Block α)) : ℕ := (bs.map Block.cols).sum

/-- The element of blocks side by side. -/
def rowVal : List (Block α) → ℕ → ℕ → Option α
  | [], _, _ => none
  | b :: bs, i, j => if j < b.cols then some (b.val i j) else rowVal bs i (j - b.cols)

/-- A row of a tableau: its height, and blocks. -/
structure Row (α : Type) where
  height : ℕ
  blocks : List (Block α)

/-- All the blocks of a row are of its height, and they fill `cols` columns. -/
def Row.Fills (cols : ℕ) (r : Row α) : Prop := r.blocks ≠ [] ∧ (∀ b ∈ r.blocks, b.rows = r.height) ∧ width r.blocks = cols

/-- The height of rows on top of each other. -/
def total (t : List (Row α)) : ℕ := (t.map Row.height).sum

/-- A tableau of `rows` rows and `cols` columns. -/
def Tableau (rows cols : ℕ) (t : List (Row α)) : Prop := (∀ r ∈ t, r.Fills cols) ∧ total t = rows

/-- The blocks in the order in which they are written. -/
def blocksOf (t : List (Row α)) : List (Block α) := (t.map Row.blocks).flatten

/-- The element of a tableau. -/
def tabVal : List (Row α) → ℕ → ℕ → Option α
  | [], _, _ => none
  | r :: t, i, j => if i < r.height then rowVal r.blocks i j else tabVal t (i - r.height) j

end OpenKalman.Comma
