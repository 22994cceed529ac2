import Mathlib.Data.Matrix.Basic
import Mathlib.Data.Fin.Tuple.Basic

/-!
# Specification of two systems side by side (C168)
-/

namespace OpenKalman.Joint
open Matrix

variable {𝕜 : Type} [Zero 𝕜]

/-- Two matrices as the diagonal blocks of one. -/
def side {a b c d : ℕ} (A : Matrix (Fin a) (Fin b) 𝕜) (B : Matrix (Fin c) (Fin d) 𝕜) : Matrix (Fin (a + c)) (Fin (b + d)) 𝕜 :=
  Matrix.of (Fin.append (fun i => Fin.append (A i) 0) fun i => Fin.append 0 (B i))

/-- A matrix that looks at the first system only. -/
def first {a b : ℕ} (d : ℕ) (A : Matrix (Fin a) (Fin b) 𝕜) : Matrix (Fin a) (Fin (b + d)) 𝕜 := Matrix.of fun i => Fin.append (A i) 0

/-- A matrix that looks at the second system only. -/
def second {a d : ℕ} (b : ℕ) (A : Matrix (Fin a) (Fin d) 𝕜) : Matrix (Fin a) (Fin (b + d)) 𝕜 := Matrix.of fun i => Fin.append 0 (A i)

end OpenKalman.Joint
