import Verif.Model.Angular
import Verif.Model.MonteCarlo

/-!
# Model of the Monte Carlo transform with angular inputs (C114)

transforms/MonteCarloTransform.hpp, as in `Model/MonteCarlo.lean`, but the input `x` of a sum is a `Mean` with the pattern `es` of `n` rows, so that its
arithmetic is that of typed-matrix-arithmetic.hpp.  The outputs are Euclidean: with an angular output the code does not compile, because
`OutputEuclideanMeanMatrix` (line 57) has the number of rows of the pattern and not of its statistical space.  `none` is a division by zero.
-/

namespace OpenKalman.MonteAngle
open Matrix Kalman OpenKalman.Angular OpenKalman.MonteCarlo OpenKalman.Patterns

variable {n m : ℕ}

/-- A `Mean` that already holds these numbers. -/
def held (x : Fin n → ℝ) : Typed := ⟨.mean, List.ofFn x⟩

/-- The numbers of a typed column. -/
def numbers (v : Typed) : Fin n → ℝ := fun a => v.col.getD a 0

/-- MonteCarloTransform.hpp:128 `(set1.count * set1.x + set2.x) / s_count`. -/
noncomputable def meanWithOne (es : List Elem) (s1 s2 : MSum ℝ n m) (s_count : ℝ) : Option (Fin n → ℝ) := do
  let a ← scale es s1.count (held s1.x)
  let t ← Angular.add es a (held s2.x)
  let q ← divide es s_count t
  return numbers q

/-- MonteCarloTransform.hpp:147 `(set1.count * set1.x + set2.count * set2.x) / s_count`. -/
noncomputable def meanWithMany (es : List Elem) (s1 s2 : MSum ℝ n m) (s_count : ℝ) : Option (Fin n → ℝ) := do
  let a ← scale es s1.count (held s1.x)
  let b ← scale es s2.count (held s2.x)
  let t ← Angular.add es a b
  let q ← divide es s_count t
  return numbers q

/-- MonteCarloTransform.hpp:120-163 `MonteCarloBinaryOp`. -/
noncomputable def op (es : List Elem) (lib : Lib ℝ) (s1 s2 : MSum ℝ n m) : Option (MSum ℝ n m) :=
  if s2.count = 1 then
    let count := s1.count + 1
    let s_count : ℝ := count
    (meanWithOne es s1 s2 s_count).bind fun x =>
    let y := s_count⁻¹ • ((s1.count : ℝ) • s1.y + s2.y)
    let delta := col (s2.y - s1.y)
    let delta_adj_factor := s_count⁻¹ • ((s1.count : ℝ) • deltaᴴ)
    let yy := lib.herm (s1.yy + delta * delta_adj_factor)
    (sub (held s2.x) (held s1.x)).bind fun d =>
    let xy := s1.xy + col (numbers d) * delta_adj_factor
    some ⟨count, x, y, yy, xy⟩
  else
    let count := s1.count + s2.count
    let s_count : ℝ := count
    (meanWithMany es s1 s2 s_count).bind fun x =>
    let y := s_count⁻¹ • ((s1.count : ℝ) • s1.y + (s2.count : ℝ) • s2.y)
    let delta := col (s2.y - s1.y)
    let delta_adj_factor := s_count⁻¹ • ((s2.count : ℝ) • (s1.count : ℝ) • deltaᴴ)
    let yy := lib.herm (s1.yy + s2.yy + delta * delta_adj_factor)
    (sub (held s2.x) (held s1.x)).bind fun d =>
    let xy := s1.xy + s2.xy + col (numbers d) * delta_adj_factor
    some ⟨count, x, y, yy, xy⟩

/-- MonteCarloTransform.hpp:107-117 `one`: the input drawn from the distribution is a `Mean`. -/
noncomputable def one (es : List Elem) (s : Sample ℝ n m) : Option (MSum ℝ n m) :=
  (ofNested es (List.ofFn s.x)).bind fun x => some ⟨1, numbers x, s.y, 0, 0⟩

/-- The reduction (line 250, 286), for a way to combine samples and initial value. -/
noncomputable def reduce (es : List Elem) (lib : Lib ℝ) : Tree ℝ n m → Option (MSum ℝ n m)
  | .init => some .zero
  | .leaf s => one es s
  | .node l r => (reduce es lib l).bind fun a => (reduce es lib r).bind fun b => op es lib a b

end OpenKalman.MonteAngle
