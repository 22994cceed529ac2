import Mathlib.LinearAlgebra.Matrix.NonsingularInverse
import Mathlib.LinearAlgebra.Matrix.ConjTranspose
import Mathlib.LinearAlgebra.Matrix.DotProduct
import Mathlib.Analysis.RCLike.Basic

/-!
# Specification vocabulary for changes of coordinates and for explanations of measurements (C160, C161)
-/

namespace OpenKalman.Frames
open Matrix

variable {𝕜 : Type} [RCLike 𝕜]

/-- An affine map from `n` to `k` coordinates: other units, axes and origins; a selection of components; redundant components. -/
structure Affine (𝕜 : Type) (n k : ℕ) where
  T : Matrix (Fin k) (Fin n) 𝕜
  c : Fin k → 𝕜

/-- Where a point is. -/
def Affine.point {n k : ℕ} (f : Affine 𝕜 n k) (x : Fin n → 𝕜) : Fin k → 𝕜 := f.T *ᵥ x + f.c

/-- The covariance of a variable in the new coordinates. -/
def Affine.spread {n k : ℕ} (f : Affine 𝕜 n k) (P : Matrix (Fin n) (Fin n) 𝕜) : Matrix (Fin k) (Fin k) 𝕜 := f.T * P * f.Tᴴ

/-- The coordinates can be changed back. -/
def Affine.Invertible {n : ℕ} (f : Affine 𝕜 n n) : Prop := IsUnit f.T.det

/-- What is known about a state from `n` coordinates in the beginning to `l` in the end.  In a move, `x' = A x + b + G w` for a disturbance `w`, whose components are uncorrelated and of
variance 1; in a look, `z = H x + b + v` is measured, where `v` has covariance `R`. -/
inductive Record (𝕜 : Type) : ℕ → ℕ → Type
  | nil {n : ℕ} : Record 𝕜 n n
  | move {n k l : ℕ} (j : ℕ) (A : Matrix (Fin k) (Fin n) 𝕜) (b : Fin k → 𝕜) (G : Matrix (Fin k) (Fin j) 𝕜) (rest : Record 𝕜 k l) : Record 𝕜 n l
  | look {n l : ℕ} (m : ℕ) (H : Matrix (Fin m) (Fin n) 𝕜) (b : Fin m → 𝕜) (R : Matrix (Fin m) (Fin m) 𝕜) (z : Fin m → 𝕜) (rest : Record 𝕜 n l) : Record 𝕜 n l

/-- The disturbances of all moves. -/
def Story : {n l : ℕ} → Record 𝕜 n l → Type
  | _, _, .nil => Unit
  | _, _, .move j _ _ _ rest => (Fin j → 𝕜) × Story rest
  | _, _, .look _ _ _ _ _ rest => Story rest

/-- The last state, if the first and the disturbances are these. -/
def ending : {n l : ℕ} → (r : Record 𝕜 n l) → (Fin n → 𝕜) → Story r → Fin l → 𝕜
  | _, _, .nil, x, _ => x
  | _, _, .move j A b G rest, x, s =>
    let p : (Fin j → 𝕜) × Story rest := s
    ending rest (A *ᵥ x + b + G *ᵥ p.1) p.2
  | _, _, .look _ _ _ _ _ rest, x, s => ending rest x s

/-- The squares of the disturbances, and those of the errors of measurement, weighted by their inverse covariance. -/
noncomputable def cost : {n l : ℕ} → (r : Record 𝕜 n l) → (Fin n → 𝕜) → Story r → 𝕜
  | _, _, .nil, _, _ => 0
  | _, _, .move j A b G rest, x, s =>
    let p : (Fin j → 𝕜) × Story rest := s
    star p.1 ⬝ᵥ p.1 + cost rest (A *ᵥ x + b + G *ᵥ p.1) p.2
  | _, _, .look _ H b R z rest, x, s => star (z - (H *ᵥ x + b)) ⬝ᵥ R⁻¹ *ᵥ (z - (H *ᵥ x + b)) + cost rest x s

end OpenKalman.Frames
