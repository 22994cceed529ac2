import Mathlib.Data.Real.Basic
import Mathlib.Data.Fin.Tuple.Basic
import Mathlib.Data.Matrix.Basic

/-!
# Model: linearisation by finite differences

/repo/OpenKalman/transformations/FiniteDifferenceLinearization.hpp.  The tuple of inputs is perturbed in place and restored (the inputs may be references to the caller's objects), so the
functions are programs with a state; the transformation may throw, in which case the state stays as it is at that moment.  Scalars are real numbers.  `Mean {…}` wraps the output (parameter `wrap`); the
difference of two means is not wrapped (typed-matrix-arithmetic.hpp:39-59; its result type names a member that no longer exists).  Writing to a component of a wrapped mean
(Mean.hpp:593-611) calls a function that no longer exists, so the inputs are vectors whose components are stored as given.
-/

namespace OpenKalman.FiniteDiff

/-- Programs with a state that may throw. -/
structure Act (σ α : Type) where
  run : σ → σ × Option α

namespace Act
variable {σ α β : Type}

def pure (a : α) : Act σ α := ⟨fun s => (s, some a)⟩

def bind (m : Act σ α) (k : α → Act σ β) : Act σ β := ⟨fun s =>
  match m.run s with
  | (s', some a) => (k a).run s'
  | (s', none) => (s', none)⟩

instance : Monad (Act σ) where
  pure := pure
  bind := bind

/-- The elements of a braced list, in order. -/
def all : {n : ℕ} → {β : Fin n → Type} → ((i : Fin n) → Act σ (β i)) → Act σ ((i : Fin n) → β i)
  | 0, _, _ => pure fun i => i.elim0
  | _ + 1, _, f => do
    let a ← f 0
    let as ← all fun i => f i.succ
    return Fin.cons a as

end Act

/-- The shape of the inputs: the input itself and the perturbations, with their dimensions. -/
structure Shape where
  terms : ℕ
  dim : Fin terms → ℕ

/-- A component of a term. -/
abbrev Shape.Pos (S : Shape) := (t : Fin S.terms) × Fin (S.dim t)

/-- `std::tuple<Inputs...>`: every component of every term. -/
abbrev Inputs (S : Shape) := S.Pos → ℝ

variable {S : Shape} {k : ℕ}

/-- `col[i]` -/
def read (p : S.Pos) : Act (Inputs S) ℝ := ⟨fun s => (s, some (s p))⟩

/-- `col[i] = v` -/
def write (p : S.Pos) (v : ℝ) : Act (Inputs S) Unit := ⟨fun s => (Function.update s p v, some ())⟩

/-- `Mean {std::apply(transformation, inputs)}`; `none`: the transformation throws. -/
def call (wrap : (Fin k → ℝ) → Fin k → ℝ) (f : Inputs S → Option (Fin k → ℝ)) : Act (Inputs S) (Fin k → ℝ) := ⟨fun s => (s, (f s).map wrap)⟩

/-- A column of `jac_term` (FiniteDifferenceLinearization.hpp:92-101). -/
noncomputable def jacColumn (wrap : (Fin k → ℝ) → Fin k → ℝ) (f : Inputs S → Option (Fin k → ℝ)) (δ : Inputs S) (p : S.Pos) : Act (Inputs S) (Fin k → ℝ) := do
  let h := δ p
  let x ← read p
  write p (x + h)
  let fp ← call wrap f
  write p (x - h)
  let fm ← call wrap f
  write p x
  return fun a => (fp a - fm a) / (2 * h)

/-- `jac_term` (FiniteDifferenceLinearization.hpp:84-102): `apply_columnwise` from the first column to the last. -/
noncomputable def jacTerm (wrap : (Fin k → ℝ) → Fin k → ℝ) (f : Inputs S → Option (Fin k → ℝ)) (δ : Inputs S) (t : Fin S.terms) : Act (Inputs S) (Matrix (Fin k) (Fin (S.dim t)) ℝ) := do
  let cols ← Act.all fun i => jacColumn wrap f δ ⟨t, i⟩
  return Matrix.of fun a i => cols i a

/-- `jacobian`, `jacobian_impl` (FiniteDifferenceLinearization.hpp:105-114, 238-258). -/
noncomputable def jacobian (wrap : (Fin k → ℝ) → Fin k → ℝ) (f : Inputs S → Option (Fin k → ℝ)) (δ : Inputs S) : Act (Inputs S) ((t : Fin S.terms) → Matrix (Fin k) (Fin (S.dim t)) ℝ) :=
  Act.all fun t => jacTerm wrap f δ t

/-- `h_j` (FiniteDifferenceLinearization.hpp:117-156). -/
noncomputable def hessEntry (wrap : (Fin k → ℝ) → Fin k → ℝ) (f : Inputs S → Option (Fin k → ℝ)) (δ : Inputs S) (t : Fin S.terms) (i j : Fin (S.dim t)) : Act (Inputs S) (Fin k → ℝ) := do
  let hi := δ ⟨t, i⟩
  let xi ← read ⟨t, i⟩
  if i = j then
    let f0 ← call wrap f
    write ⟨t, i⟩ (xi + hi)
    let fp ← call wrap f
    write ⟨t, i⟩ (xi - hi)
    let fm ← call wrap f
    write ⟨t, i⟩ xi
    return fun a => ((fp a - f0 a) - (f0 a - fm a)) / (hi * hi)
  else
    let hj := δ ⟨t, j⟩
    let xj ← read ⟨t, j⟩
    write ⟨t, i⟩ (xi + hi)
    write ⟨t, j⟩ (xj + hj)
    let fpp ← call wrap f
    write ⟨t, j⟩ (xj - hj)
    let fpm ← call wrap f
    write ⟨t, i⟩ (xi - hi)
    let fmm ← call wrap f
    write ⟨t, j⟩ (xj + hj)
    let fmp ← call wrap f
    write ⟨t, i⟩ xi
    write ⟨t, j⟩ xj
    return fun a => ((fpp a - fpm a) - (fmp a - fmm a)) / (4 * hi * hj)

/-- `h_i`, `h_k` and `h_term` (FiniteDifferenceLinearization.hpp:159-190): the array of one matrix for each output component. -/
noncomputable def hessTerm (wrap : (Fin k → ℝ) → Fin k → ℝ) (f : Inputs S → Option (Fin k → ℝ)) (δ : Inputs S) (t : Fin S.terms) :
    Act (Inputs S) (Fin k → Matrix (Fin (S.dim t)) (Fin (S.dim t)) ℝ) := do
  let e ← Act.all fun i => Act.all fun j => hessEntry wrap f δ t i j
  return fun a => Matrix.of fun i j => e i j a

/-- `hessian`, `hessian_impl` (FiniteDifferenceLinearization.hpp:193-200, 261-281). -/
noncomputable def hessian (wrap : (Fin k → ℝ) → Fin k → ℝ) (f : Inputs S → Option (Fin k → ℝ)) (δ : Inputs S) :
    Act (Inputs S) ((t : Fin S.terms) → Fin k → Matrix (Fin (S.dim t)) (Fin (S.dim t)) ℝ) :=
  Act.all fun t => hessTerm wrap f δ t

end OpenKalman.FiniteDiff
