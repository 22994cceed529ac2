import Verif.Spec.NAry

/-!
# Specification of objects filled with random values (C129, C130)

A source of values is a number, or something that draws a value and changes a state (that of the generator and of the distributions).
-/

namespace OpenKalman.Randomize
open OpenKalman.NAry

inductive Source (σ α : Type)
  | number (v : α)
  | sampled (f : σ → α × σ)

/-- The value a source gives in a state, and the state after that. -/
def Source.next {σ α : Type} : Source σ α → σ → α × σ
  | .number v, s => (v, s)
  | .sampled f, s => f s

/-- From state `s` the sources with these numbers give these values, one after the other; the state is `s'` in the end. -/
inductive Draws {σ α : Type} (sources : List (Source σ α)) : σ → List (ℕ × α) → σ → Prop
  | nil (s : σ) : Draws sources s [] s
  | cons {s s' s'' : σ} {k : ℕ} {v : α} {d : Source σ α} {l : List (ℕ × α)} (hd : sources[k]? = some d) (hv : d.next s = (v, s'))
      (hl : Draws sources s' l s'') : Draws sources s ((k, v) :: l) s''

/-- The source for position `j`, if there is one for each position along `indices`: the first of these indices is the most significant. -/
def sourceOf (es indices j : List ℕ) : ℕ := rowMajor (dimsAt es indices) (posAt j indices)

/-- `order` lists each position of an object with extents `es` once. -/
def Covers (es : List ℕ) (order : List (List ℕ)) : Prop := order.Nodup ∧ ∀ j, j ∈ order ↔ InBounds es j

/-- Sources that read a stream of random items: one item for each value drawn. -/
def Source.ofStream {Ω α : Type} : α ⊕ (Ω → α) → Source (ℕ → Ω) α
  | .inl v => .number v
  | .inr g => .sampled fun ω => (g (ω 0), fun n => ω (n + 1))

end OpenKalman.Randomize
