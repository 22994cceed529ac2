import Mathlib.Probability.Moments.Covariance
import Mathlib.LinearAlgebra.Matrix.PosDef
import Mathlib.Analysis.RCLike.Basic

/-!
# Specification of estimation in linear systems (C131, C132)

A linear system moves and is measured in steps.  Each step adds noise, which is a random vector.
-/

namespace OpenKalman.LinSys
open MeasureTheory ProbabilityTheory Matrix

variable {Ω : Type} [MeasurableSpace Ω]

/-- The expectation of a random vector. -/
noncomputable def meanVec (P : Measure Ω) {n : ℕ} (X : Ω → Fin n → ℝ) : Fin n → ℝ := fun i => ∫ ω, X ω i ∂P

/-- The covariances of the components of two random vectors. -/
noncomputable def covMat (P : Measure Ω) {n m : ℕ} (X : Ω → Fin n → ℝ) (Y : Ω → Fin m → ℝ) : Matrix (Fin n) (Fin m) ℝ :=
  Matrix.of fun i j => cov[fun ω => X ω i, fun ω => Y ω j; P]

/-- The expectations of the products of the components of a random vector: of an error, how large it is. -/
noncomputable def squares (P : Measure Ω) {n : ℕ} (X : Ω → Fin n → ℝ) : Matrix (Fin n) (Fin n) ℝ := Matrix.of fun i j => ∫ ω, X ω i * X ω j ∂P

/-- The components are square integrable. -/
def Square (P : Measure Ω) {n : ℕ} (X : Ω → Fin n → ℝ) : Prop := ∀ i, MemLp (fun ω => X ω i) 2 P

/-- Random vectors of any sizes. -/
abbrev AnyVec (Ω : Type) : Type := (n : ℕ) × (Ω → Fin n → ℝ)

def Uncorrelated (P : Measure Ω) (X Y : AnyVec Ω) : Prop := covMat P X.2 Y.2 = 0

/-- Noise that enters by a matrix, and a factor of its covariance. -/
structure Noise (Ω : Type) (k : ℕ) where
  gain : Matrix (Fin k) (Fin k) ℝ
  value : Ω → Fin k → ℝ
  factor : Matrix (Fin k) (Fin k) ℝ

/-- What several noises add. -/
def noiseSum {k : ℕ} (ns : List (Noise Ω k)) (ω : Ω) : Fin k → ℝ := (ns.map fun v => v.gain *ᵥ v.value ω).sum

/-- The steps of a system.  The size of the state may change. -/
inductive System (Ω : Type) : ℕ → ℕ → Type
  | done {n : ℕ} : System Ω n n
  | move {n k l : ℕ} (A : Matrix (Fin k) (Fin n) ℝ) (ns : List (Noise Ω k)) (next : System Ω k l) : System Ω n l
  | measure {n l : ℕ} (m : ℕ) (C : Matrix (Fin m) (Fin n) ℝ) (ns : List (Noise Ω m)) (next : System Ω n l) : System Ω n l

/-- The state after a move. -/
def moved {n k : ℕ} (A : Matrix (Fin k) (Fin n) ℝ) (ns : List (Noise Ω k)) (x : Ω → Fin n → ℝ) (ω : Ω) : Fin k → ℝ := A *ᵥ x ω + noiseSum ns ω

/-- The state in the end, for a given one in the beginning. -/
def System.final : {n l : ℕ} → System Ω n l → (Ω → Fin n → ℝ) → Ω → Fin l → ℝ
  | _, _, .done, x => x
  | _, _, .move A ns s, x => s.final (moved A ns x)
  | _, _, .measure _ _ _ s, x => s.final x

/-- All numbers measured. -/
def System.measured : {n l : ℕ} → System Ω n l → (Ω → Fin n → ℝ) → Set (Ω → ℝ)
  | _, _, .done, _ => ∅
  | _, _, .move A ns s, x => s.measured (moved A ns x)
  | _, _, .measure _ C ns s, x => (Set.range fun j ω => moved C ns x ω j) ∪ s.measured x

/-- All noises. -/
def System.noises : {n l : ℕ} → System Ω n l → List (AnyVec Ω)
  | _, _, .done => []
  | _, _, .move (k := k) _ ns s => (ns.map fun v => ⟨k, v.value⟩) ++ s.noises
  | _, _, .measure m _ ns s => (ns.map fun v => ⟨m, v.value⟩) ++ s.noises

/-- The factors are those of the covariances, and no linear combination of the numbers of one measurement is free of noise. -/
def System.Sound (P : Measure Ω) : {n l : ℕ} → System Ω n l → Prop
  | _, _, .done => True
  | _, _, .move _ ns s => (∀ v ∈ ns, v.factor * v.factorᵀ = covMat P v.value v.value) ∧ s.Sound P
  | _, _, .measure _ _ ns s => (∀ v ∈ ns, v.factor * v.factorᵀ = covMat P v.value v.value) ∧ (covMat P (noiseSum ns) (noiseSum ns)).PosDef ∧ s.Sound P

/-- What the filter is told of the noises is no less than what they are, and it is told noise in every combination of the numbers of a measurement. -/
def System.Covered (P : Measure Ω) : {n l : ℕ} → System Ω n l → Prop
  | _, _, .done => True
  | _, _, .move _ ns s => (∀ v ∈ ns, (v.factor * v.factorᵀ - covMat P v.value v.value).PosSemidef) ∧ s.Covered P
  | _, _, .measure _ _ ns s => (∀ v ∈ ns, (v.factor * v.factorᵀ - covMat P v.value v.value).PosSemidef) ∧
      (ns.map fun (v : Noise Ω _) => v.gain * (v.factor * v.factorᵀ) * v.gainᵀ).sum.PosDef ∧ s.Covered P

/-- Affine functions of some random variables. -/
def affine (Z : Set (Ω → ℝ)) : Submodule ℝ (Ω → ℝ) := Submodule.span ℝ ({fun _ => 1} ∪ Z)

/-- The initial state and all noises. -/
def System.vectors {n l : ℕ} (s : System Ω n l) (x : Ω → Fin n → ℝ) : List (AnyVec Ω) := ⟨n, x⟩ :: s.noises

/-- Their components. -/
def System.sources {n l : ℕ} (s : System Ω n l) (x : Ω → Fin n → ℝ) : Set (Ω → ℝ) := {f | ∃ w ∈ s.vectors x, ∃ i, f = fun ω => w.2 ω i}

end OpenKalman.LinSys
