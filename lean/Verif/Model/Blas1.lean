import Verif.Model.Loops
import Mathlib.Analysis.RCLike.Basic
import Mathlib.Analysis.Complex.Basic

/-!
# The bundled linear algebra library, part 1: vectors and norms

/repo/OpenKalman/basics/compatibility/std-lib-reference/linalg-reference-implementation/include/experimental/__p1673_bits/blas1_*.hpp, the overloads taking
`impl::inline_exec_t` (the others forward to them).  Numbers are real or complex numbers without rounding; `std::abs` of a complex number is its
norm.  Output arrays do not overlap with input arrays, unless they are the same argument.
-/

namespace OpenKalman.Blas

variable {𝕜 : Type*}

/-- blas1_dot.hpp:66-82 `dot`. -/
def dot [NonUnitalNonAssocSemiring 𝕜] (n : ℕ) (v1 v2 : ℕ → 𝕜) (init : 𝕜) : 𝕜 := loop 0 n (fun k init => init + v1 k * v2 k) init

/-- blas1_dot.hpp:147-153 `dotc`: `dot(conjugated(v1), v2, init)`. -/
def dotc [NonUnitalNonAssocSemiring 𝕜] [Star 𝕜] (n : ℕ) (v1 v2 : ℕ → 𝕜) (init : 𝕜) : 𝕜 := dot n (fun i => star (v1 i)) v2 init

/-- blas1_vector_abs_sum.hpp:70-74 `vector_abs_sum` for real numbers. -/
noncomputable def absSum (n : ℕ) (v : ℕ → ℝ) (init : ℝ) : ℝ := loop 0 n (fun i init => init + |v i|) init

/-- blas1_vector_abs_sum.hpp:75-80 `vector_abs_sum` for complex numbers. -/
noncomputable def absSumC (n : ℕ) (v : ℕ → ℂ) (init : ℝ) : ℝ := loop 0 n (fun i init => (init + |(v i).re|) + |(v i).im|) init

/-- blas1_vector_idx_abs_max.hpp:64-71 and 76-88: the loop, of which the state is `maxInd`, `maxVal`; `m i` is the magnitude of `v(i)`.  -/
noncomputable def idxLoop (n : ℕ) (m : ℕ → ℝ) : ℕ × ℝ := loop 1 n (fun i s => if s.2 < m i then (i, m i) else s) (0, m 0)

/-- blas1_vector_idx_abs_max.hpp:50-92: `none` is `numeric_limits<SizeType>::max()`.  Real numbers. -/
noncomputable def idxAbsMax (n : ℕ) (v : ℕ → ℝ) : Option ℕ := if n = 0 then none else some (idxLoop n (fun i => |v i|)).1

/-- blas1_vector_idx_abs_max.hpp:50-92, complex numbers. -/
noncomputable def idxAbsMaxC (n : ℕ) (v : ℕ → ℂ) : Option ℕ := if n = 0 then none else some (idxLoop n (fun i => |(v i).re| + |(v i).im|)).1

/-- blas1_vector_sum_of_squares.hpp:32-35 `sum_of_squares_result`. -/
structure Scaled where
  scale : ℝ
  ssq : ℝ

/-- blas1_vector_sum_of_squares.hpp:83-94: one pass for a number of magnitude `a`. -/
noncomputable def Scaled.add (s : Scaled) (a : ℝ) : Scaled :=
  if a ≠ 0 then
    if s.scale < a then
      let quotient := s.scale / a
      ⟨a, 1 + s.ssq * quotient * quotient⟩
    else
      let quotient := a / s.scale
      ⟨s.scale, s.ssq + quotient * quotient⟩
  else s

/-- blas1_vector_sum_of_squares.hpp:66-101 `vector_sum_of_squares`. -/
noncomputable def sumOfSquares [RCLike 𝕜] (n : ℕ) (x : ℕ → 𝕜) (init : Scaled) : Scaled :=
  if n = 0 then init else loop 0 n (fun i s => s.add ‖x i‖) init

/-- blas1_vector_norm2.hpp:58-75 `vector_two_norm`. -/
noncomputable def twoNorm [RCLike 𝕜] (n : ℕ) (x : ℕ → 𝕜) (init : ℝ) : ℝ :=
  let r := sumOfSquares n x ⟨0, 1⟩
  init + r.scale * Real.sqrt r.ssq

/-- blas1_matrix_frob_norm.hpp:86-96: one pass for a component of magnitude `a`. -/
noncomputable def Scaled.addFrob (s : Scaled) (a : ℝ) : Scaled :=
  if a ≠ 0 then
    let quotient := s.scale / a
    if s.scale < a then ⟨a, 1 + s.ssq * quotient * quotient⟩ else ⟨s.scale, s.ssq + quotient * quotient⟩
  else s

/-- blas1_matrix_frob_norm.hpp:62-101 `matrix_frob_norm`. -/
noncomputable def frobNorm [RCLike 𝕜] (m n : ℕ) (a : ℕ → ℕ → 𝕜) (init : ℝ) : ℝ :=
  if m = 0 ∨ n = 0 then init
  else if m = 1 ∧ n = 1 then init + ‖a 0 0‖
  else
    let r : Scaled := loop 0 m (fun i (s : Scaled) => loop 0 n (fun j (s : Scaled) => s.addFrob ‖a i j‖) s) ⟨0, 1⟩
    init + r.scale * Real.sqrt r.ssq

/-- blas1_matrix_inf_norm.hpp:63-90 `matrix_inf_norm`; `std::max(a, b)` is `b` only if `a < b`. -/
noncomputable def infNorm [RCLike 𝕜] (m n : ℕ) (a : ℕ → ℕ → 𝕜) (init : ℝ) : ℝ :=
  if m = 0 ∨ n = 0 then init
  else if m = 1 ∧ n = 1 then init + ‖a 0 0‖
  else loop 0 m (fun i result => let rowSum := loop 0 n (fun j s => s + ‖a i j‖) init; if rowSum < result then result else rowSum) init

/-- blas1_matrix_one_norm.hpp:64-93 `matrix_one_norm`. -/
noncomputable def oneNorm [RCLike 𝕜] (m n : ℕ) (a : ℕ → ℕ → 𝕜) (init : ℝ) : ℝ :=
  if m = 0 ∨ n = 0 then init
  else if m = 1 ∧ n = 1 then init + ‖a 0 0‖
  else loop 0 n (fun j result => let colSum := loop 0 m (fun i s => s + ‖a i j‖) init; if colSum < result then result else colSum) init

/-! ## Component-wise loops -/

/-- blas1_linalg_add.hpp:58-61 `add_rank_1`. -/
def addRank1 [Add 𝕜] (n : ℕ) (x y z : ℕ → 𝕜) : ℕ → 𝕜 := loop 0 n (fun i z => Function.update z i (x i + y i)) z

/-- blas1_linalg_add.hpp:107-112 `add_rank_2`. -/
def addRank2 [Add 𝕜] (m n : ℕ) (x y z : ℕ → ℕ → 𝕜) : ℕ → ℕ → 𝕜 :=
  loop 0 n (fun j z => loop 0 m (fun i z => Function.update z i (Function.update (z i) j (x i j + y i j))) z) z

/-- blas1_linalg_add.hpp:58-61 with `z` the same array as `x`. -/
def addRank1Onto [Add 𝕜] (n : ℕ) (y z : ℕ → 𝕜) : ℕ → 𝕜 := loop 0 n (fun i z => Function.update z i (z i + y i)) z

/-- blas1_linalg_copy.hpp:46-48 `copy_rank_1`. -/
def copyRank1 (n : ℕ) (x y : ℕ → 𝕜) : ℕ → 𝕜 := loop 0 n (fun i y => Function.update y i (x i)) y

/-- blas1_linalg_swap.hpp:51-53 `swap_rank_1`; the state is the two arrays. -/
def swapRank1 (n : ℕ) (s : (ℕ → 𝕜) × (ℕ → 𝕜)) : (ℕ → 𝕜) × (ℕ → 𝕜) :=
  loop 0 n (fun i s => (Function.update s.1 i (s.2 i), Function.update s.2 i (s.1 i))) s

/-- blas1_scale.hpp:38-40 `scale_rank_1`. -/
def scaleRank1 [Mul 𝕜] (n : ℕ) (alpha : 𝕜) (x : ℕ → 𝕜) : ℕ → 𝕜 := loop 0 n (fun i x => Function.update x i (x i * alpha)) x

/-- blas1_scale.hpp:54-58 `scale_rank_2`. -/
def scaleRank2 [Mul 𝕜] (m n : ℕ) (alpha : 𝕜) (a : ℕ → ℕ → 𝕜) : ℕ → ℕ → 𝕜 :=
  loop 0 n (fun j a => loop 0 m (fun i a => Function.update a i (Function.update (a i) j (a i j * alpha))) a) a

end OpenKalman.Blas
