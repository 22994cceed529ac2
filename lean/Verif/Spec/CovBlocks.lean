import Verif.Spec.CovArith

/-!
# Specification: block-diagonal matrices and diagonal blocks
-/

namespace OpenKalman.CovArith
open Matrix

variable {𝕜 : Type} [RCLike 𝕜] {n m : ℕ}

/-- `C` is the block-diagonal matrix with blocks `A` and `B`. -/
def IsBlockDiag (A : Mat 𝕜 n) (B : Mat 𝕜 m) (C : Mat 𝕜 (n + m)) : Prop :=
  (∀ i j, C (Fin.castAdd m i) (Fin.castAdd m j) = A i j) ∧ (∀ i j, C (Fin.natAdd n i) (Fin.natAdd n j) = B i j) ∧
    (∀ i j, C (Fin.castAdd m i) (Fin.natAdd n j) = 0) ∧ (∀ i j, C (Fin.natAdd n i) (Fin.castAdd m j) = 0)

/-- `C` (of any size) is the block-diagonal matrix with the blocks `A`, then `As` in turn. -/
def IsBlockDiagAll : (Σ n, Mat 𝕜 n) → List (Σ n, Mat 𝕜 n) → (Σ n, Mat 𝕜 n) → Prop
  | A, [], C => C = A
  | A, B :: Bs, C => ∃ D : Mat 𝕜 (A.1 + B.1), IsBlockDiag A.2 B.2 D ∧ IsBlockDiagAll ⟨_, D⟩ Bs C

/-- `B` is the diagonal block of `A` that starts at row and column `off`. -/
def IsBlockAt (A : Mat 𝕜 n) (off : ℕ) (B : Mat 𝕜 m) : Prop :=
  ∃ h : off + m ≤ n, ∀ i j : Fin m, B i j = A ⟨off + i, by omega⟩ ⟨off + j, by omega⟩

/-- The `k` rows from `off` on have no entries outside their diagonal block, in either direction. -/
def Isolated (A : Mat 𝕜 n) (off k : ℕ) : Prop :=
  ∀ i j : Fin n, (off ≤ i.1 ∧ i.1 < off + k) → ¬ (off ≤ j.1 ∧ j.1 < off + k) → A i j = 0 ∧ A j i = 0

end OpenKalman.CovArith
