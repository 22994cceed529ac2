import Verif.Model.Kalman
import Verif.Spec.MonteCarlo

/-!
# Model of the Monte Carlo transform (C59)

transforms/MonteCarloTransform.hpp.  The samples are given (the random generator is not modelled), outputs have Euclidean patterns (for others
`OutputEuclideanMeanMatrix`, line 57, has the wrong number of rows), and scalars are exact.
-/

namespace OpenKalman.MonteCarlo
open Matrix Kalman

variable {𝕜 : Type} [RCLike 𝕜] {n m : ℕ}

/-- MonteCarloTransform.hpp:79-86 `MonteCarloSum1`. -/
@[ext] structure MSum (𝕜 : Type) (n m : ℕ) where
  count : ℕ
  x : Fin n → 𝕜
  y : Fin m → 𝕜
  yy : Matrix (Fin m) (Fin m) 𝕜
  xy : Matrix (Fin n) (Fin m) 𝕜

/-- A vector as a column. -/
def col {k : ℕ} (v : Fin k → 𝕜) : Matrix (Fin k) (Fin 1) 𝕜 := fun a _ => v a

/-- MonteCarloTransform.hpp:93-104 `zero`. -/
def MSum.zero : MSum 𝕜 n m := ⟨0, 0, 0, 0, 0⟩

/-- MonteCarloTransform.hpp:107-117 `one`. -/
def MSum.one (s : Sample 𝕜 n m) : MSum 𝕜 n m := ⟨1, s.x, s.y, 0, 0⟩

/-- MonteCarloTransform.hpp:120-163 `MonteCarloBinaryOp`; `none` where it divides by zero. -/
noncomputable def MSum.op (lib : Lib 𝕜) (s1 s2 : MSum 𝕜 n m) : Option (MSum 𝕜 n m) :=
  if s2.count = 1 then
    let count := s1.count + 1
    let s_count : 𝕜 := count
    let x := s_count⁻¹ • ((s1.count : 𝕜) • s1.x + s2.x)
    let y := s_count⁻¹ • ((s1.count : 𝕜) • s1.y + s2.y)
    let delta := col (s2.y - s1.y)
    let delta_adj_factor := s_count⁻¹ • ((s1.count : 𝕜) • deltaᴴ)
    let yy := lib.herm (s1.yy + delta * delta_adj_factor)
    let xy := s1.xy + col (s2.x - s1.x) * delta_adj_factor
    some ⟨count, x, y, yy, xy⟩
  else
    let count := s1.count + s2.count
    if count = 0 then none
    else
      let s_count : 𝕜 := count
      let x := s_count⁻¹ • ((s1.count : 𝕜) • s1.x + (s2.count : 𝕜) • s2.x)
      let y := s_count⁻¹ • ((s1.count : 𝕜) • s1.y + (s2.count : 𝕜) • s2.y)
      let delta := col (s2.y - s1.y)
      let delta_adj_factor := s_count⁻¹ • ((s2.count : 𝕜) • (s1.count : 𝕜) • deltaᴴ)
      let yy := lib.herm (s1.yy + s2.yy + delta * delta_adj_factor)
      let xy := s1.xy + s2.xy + col (s2.x - s1.x) * delta_adj_factor
      some ⟨count, x, y, yy, xy⟩

/-- A way `std::reduce` (line 252, 285) may combine the samples and the initial value, in any order and grouping. -/
inductive Tree (𝕜 : Type) (n m : ℕ)
  | init
  | leaf (s : Sample 𝕜 n m)
  | node (l r : Tree 𝕜 n m)

/-- The reduction. -/
noncomputable def Tree.reduce (lib : Lib 𝕜) : Tree 𝕜 n m → Option (MSum 𝕜 n m)
  | .init => some .zero
  | .leaf s => some (.one s)
  | .node l r => (l.reduce lib).bind fun a => (r.reduce lib).bind fun b => a.op lib b

/-- The samples of a tree. -/
def Tree.samples : Tree 𝕜 n m → List (Sample 𝕜 n m)
  | .init => []
  | .leaf s => [s]
  | .node l r => l.samples ++ r.samples

/-- How many times the initial value is used. -/
def Tree.inits : Tree 𝕜 n m → ℕ
  | .init => 1
  | .leaf _ => 0
  | .node l r => l.inits + r.inits

/-- MonteCarloTransform.hpp:277-292 `transform_with_cross_covariance`: mean, covariance and cross-covariance from the reduction of `size` samples; `none`
where it divides by zero. -/
noncomputable def result (size : ℕ) (s : MSum 𝕜 n m) : Option ((Fin m → 𝕜) × Matrix (Fin m) (Fin m) 𝕜 × Matrix (Fin n) (Fin m) 𝕜) :=
  if size = 1 then none else some (s.y, ((size : 𝕜) - 1)⁻¹ • s.yy, ((size : 𝕜) - 1)⁻¹ • s.xy)

end OpenKalman.MonteCarlo
