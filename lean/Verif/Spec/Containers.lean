import Verif.Spec.Mdspan

/-!
# Specification for views of sequences and for arrays that own their elements (C153, C154)
-/

namespace OpenKalman.Containers

variable {α : Type}

/-- What may be asked of a view of a list: another view. -/
inductive Step
  | first (n : ℕ)
  | last (n : ℕ)
  | rest (off : ℕ)
  | part (off n : ℕ)
  /-- The number of elements is to be known beforehand. -/
  | exactly (n : ℕ)
  | whole

/-- The elements of the new view, if there are enough. -/
def Step.on (l : List α) : Step → Option (List α)
  | .first n => if n ≤ l.length then some (l.take n) else none
  | .last n => if n ≤ l.length then some (l.drop (l.length - n)) else none
  | .rest off => if off ≤ l.length then some (l.drop off) else none
  | .part off n => if off + n ≤ l.length then some ((l.drop off).take n) else none
  | .exactly n => if l.length = n then some l else none
  | .whole => some l

/-- Views of views. -/
def steps : List Step → List α → Option (List α)
  | [], l => some l
  | s :: ss, l => (s.on l).bind (steps ss)

/-- An array as a value: its shape, and its elements by index. -/
structure Value (α : Type) where
  shape : List ℕ
  at_ : List ℕ → α

/-- What is done with some named arrays. -/
inductive Act (α : Type)
  /-- Writes one element. -/
  | write (v : ℕ) (idx : List ℕ) (x : α)
  /-- The first becomes a copy of the second. -/
  | copy (v w : ℕ)
  /-- The first becomes what the second was, and the second is not to be used before it is given another value. -/
  | move (v w : ℕ)

/-- Arrays are values: nothing else changes. `none` if an array is used that has no value, or an index that is outside. -/
noncomputable def Act.on (σ : List (Option (Value α))) : Act α → Option (List (Option (Value α)))
  | .write v idx x =>
    match σ[v]? with
    | some (some a) =>
      open Classical in
      if Mdspan.InBounds a.shape idx then some (σ.set v (some ⟨a.shape, fun j => if j = idx then x else a.at_ j⟩)) else none
    | _ => none
  | .copy v w =>
    match σ[w]? with
    | some (some a) => if v < σ.length then some (σ.set v (some a)) else none
    | _ => none
  | .move v w =>
    match σ[w]? with
    | some (some a) => if v < σ.length then some ((σ.set v (some a)).set w none) else none
    | _ => none

noncomputable def acts : List (Act α) → List (Option (Value α)) → Option (List (Option (Value α)))
  | [], σ => some σ
  | a :: as, σ => (a.on σ).bind (acts as)

end OpenKalman.Containers
