import Verif.Model.Loops
import Verif.Spec.Blas2

/-!
# The bundled linear algebra library, part 2: matrices and vectors

/repo/OpenKalman/basics/compatibility/std-lib-reference/linalg-reference-implementation/include/experimental/__p1673_bits/blas2_matrix_vector_product.hpp and
blas2_matrix_vector_solve.hpp, the overloads taking `impl::inline_exec_t` (the others forward to them).  Numbers are exact.  The output does not overlap with
the inputs, unless the function has one argument for both.  Only the names of the two triangles and of the two kinds of diagonal are taken from the specification.
-/

namespace OpenKalman.Blas

variable {𝕜 : Type*}

/-- `y(i) += v` -/
def addTo [Add 𝕜] (y : ℕ → 𝕜) (i : ℕ) (v : 𝕜) : ℕ → 𝕜 := Function.update y i (y i + v)

/-- blas2_matrix_vector_product.hpp:276-281 `matrix_vector_product(A, x, y)`. -/
def gemv [NonUnitalNonAssocSemiring 𝕜] (m n : ℕ) (A : ℕ → ℕ → 𝕜) (x y : ℕ → 𝕜) : ℕ → 𝕜 :=
  loop 0 m (fun i y => loop 0 n (fun j y => addTo y i (A i j * x j)) (Function.update y i 0)) y

/-- blas2_matrix_vector_product.hpp:395-400 `matrix_vector_product(A, x, y, z)`. -/
def gemvAdd [NonUnitalNonAssocSemiring 𝕜] (m n : ℕ) (A : ℕ → ℕ → 𝕜) (x y z : ℕ → 𝕜) : ℕ → 𝕜 :=
  loop 0 m (fun i z => loop 0 n (fun j z => addTo z i (A i j * x j)) (Function.update z i (y i))) z

/-- blas2_matrix_vector_product.hpp:509-511 and 764-766, 1024-1026: the output is filled with zeros. -/
def fillZero [Zero 𝕜] (n : ℕ) (y : ℕ → 𝕜) : ℕ → 𝕜 := loop 0 n (fun i y => Function.update y i 0) y

/-- blas2_matrix_vector_product.hpp:632-634 and 892-894, 1169-1171: the output is filled with `y`. -/
def fillWith (n : ℕ) (y z : ℕ → 𝕜) : ℕ → 𝕜 := loop 0 n (fun i z => Function.update z i (y i)) z

/-- blas2_matrix_vector_product.hpp:513-532 and 636-655: the loops of `symmetric_matrix_vector_product`. -/
def symvLoop [NonUnitalNonAssocSemiring 𝕜] (n : ℕ) (A : ℕ → ℕ → 𝕜) (x : ℕ → 𝕜) : Tri → (ℕ → 𝕜) → ℕ → 𝕜
  | .lower => loop 0 n fun j y =>
      loop (j + 1) n (fun i y => addTo (addTo y i (A i j * x j)) j (A i j * x i)) (addTo y j (A j j * x j))
  | .upper => loop 0 n fun j y =>
      addTo (loop 0 j (fun i y => addTo (addTo y i (A i j * x j)) j (A i j * x i)) y) j (A j j * x j)

/-- blas2_matrix_vector_product.hpp:498-533 `symmetric_matrix_vector_product(A, t, x, y)`. -/
def symv [NonUnitalNonAssocSemiring 𝕜] (n : ℕ) (A : ℕ → ℕ → 𝕜) (t : Tri) (x y : ℕ → 𝕜) : ℕ → 𝕜 := symvLoop n A x t (fillZero n y)

/-- blas2_matrix_vector_product.hpp:618-656 `symmetric_matrix_vector_product(A, t, x, y, z)`. -/
def symvAdd [NonUnitalNonAssocSemiring 𝕜] (n : ℕ) (A : ℕ → ℕ → 𝕜) (t : Tri) (x y z : ℕ → 𝕜) : ℕ → 𝕜 := symvLoop n A x t (fillWith n y z)

/-- blas2_matrix_vector_product.hpp:768-786 and 896-915: the loops of `hermitian_matrix_vector_product`; `real_if_needed`, `conj_if_needed` are the real part
and the conjugate. -/
noncomputable def hemvLoop [RCLike 𝕜] (n : ℕ) (A : ℕ → ℕ → 𝕜) (x : ℕ → 𝕜) : Tri → (ℕ → 𝕜) → ℕ → 𝕜
  | .lower => loop 0 n fun j y =>
      loop (j + 1) n (fun i y => addTo (addTo y i (A i j * x j)) j ((starRingEnd 𝕜) (A i j) * x i)) (addTo y j (((RCLike.re (A j j) : ℝ) : 𝕜) * x j))
  | .upper => loop 0 n fun j y =>
      addTo (loop 0 j (fun i y => addTo (addTo y i (A i j * x j)) j ((starRingEnd 𝕜) (A i j) * x i)) y) j (((RCLike.re (A j j) : ℝ) : 𝕜) * x j)

/-- blas2_matrix_vector_product.hpp:751-787 `hermitian_matrix_vector_product(A, t, x, y)`. -/
noncomputable def hemv [RCLike 𝕜] (n : ℕ) (A : ℕ → ℕ → 𝕜) (t : Tri) (x y : ℕ → 𝕜) : ℕ → 𝕜 := hemvLoop n A x t (fillZero n y)

/-- blas2_matrix_vector_product.hpp:878-916 `hermitian_matrix_vector_product(A, t, x, y, z)`. -/
noncomputable def hemvAdd [RCLike 𝕜] (n : ℕ) (A : ℕ → ℕ → 𝕜) (t : Tri) (x y z : ℕ → 𝕜) : ℕ → 𝕜 := hemvLoop n A x t (fillWith n y z)

/-- blas2_matrix_vector_product.hpp:1030-1051 and 1175-1196: the loops of `triangular_matrix_vector_product`. -/
def trmvLoop [NonUnitalNonAssocSemiring 𝕜] (n : ℕ) (A : ℕ → ℕ → 𝕜) (d : Diag) (x : ℕ → 𝕜) : Tri → (ℕ → 𝕜) → ℕ → 𝕜
  | .lower => loop 0 n fun j y =>
      let iLower := if d = .explicit then j else j + 1
      let y := loop iLower n (fun i y => addTo y i (A i j * x j)) y
      if d = .explicit then y else Function.update y j (y j + x j)
  | .upper => loop 0 n fun j y =>
      let iUpper := if d = .explicit then j + 1 else j
      let y := loop 0 iUpper (fun i y => addTo y i (A i j * x j)) y
      if d = .explicit then y else Function.update y j (y j + x j)

/-- blas2_matrix_vector_product.hpp:1012-1052 `triangular_matrix_vector_product(A, t, d, x, y)`. -/
def trmv [NonUnitalNonAssocSemiring 𝕜] (n : ℕ) (A : ℕ → ℕ → 𝕜) (t : Tri) (d : Diag) (x y : ℕ → 𝕜) : ℕ → 𝕜 := trmvLoop n A d x t (fillZero n y)

/-- blas2_matrix_vector_product.hpp:1152-1197 `triangular_matrix_vector_product(A, t, d, x, y, z)`. -/
def trmvAdd [NonUnitalNonAssocSemiring 𝕜] (n : ℕ) (A : ℕ → ℕ → 𝕜) (t : Tri) (d : Diag) (x y z : ℕ → 𝕜) : ℕ → 𝕜 := trmvLoop n A d x t (fillWith n y z)

/-- blas2_matrix_vector_product.hpp:1308-1331: one pass of the in-place loops, after `tmp = y(j)`. -/
def trmvStep [NonUnitalNonAssocSemiring 𝕜] (A : ℕ → ℕ → 𝕜) (d : Diag) (j lo hi : ℕ) (y : ℕ → 𝕜) : ℕ → 𝕜 :=
  let tmp := y j
  let y := loop lo hi (fun i y => addTo y i (A i j * tmp)) y
  if d = .explicit then Function.update y j (y j * A j j) else y

/-- blas2_matrix_vector_product.hpp:1297-1332 `triangular_matrix_vector_product(A, t, d, y)`, in place. -/
def trmvInPlace [NonUnitalNonAssocSemiring 𝕜] (n : ℕ) (A : ℕ → ℕ → 𝕜) (d : Diag) : Tri → (ℕ → 𝕜) → ℕ → 𝕜
  | .lower => loop 0 n fun k y => let j := n - (k + 1); trmvStep A d j (j + 1) n y
  | .upper => loop 0 n fun j y => trmvStep A d j 0 j y

/-- blas2_matrix_vector_solve.hpp:45-79 `trsv_upper_triangular_left_side`. -/
def trsvUpper [Ring 𝕜] (n : ℕ) (divide : 𝕜 → 𝕜 → 𝕜) (A : ℕ → ℕ → 𝕜) (d : Diag) (B X : ℕ → 𝕜) : ℕ → 𝕜 :=
  loopDown n (fun i X =>
    let t := loop (i + 1) n (fun j t => t - A i j * X j) (B i)
    Function.update X i (if d = .explicit then divide t (A i i) else t)) X

/-- blas2_matrix_vector_solve.hpp:121-152 `trsv_lower_triangular_left_side`. -/
def trsvLower [Ring 𝕜] (n : ℕ) (divide : 𝕜 → 𝕜 → 𝕜) (A : ℕ → ℕ → 𝕜) (d : Diag) (B X : ℕ → 𝕜) : ℕ → 𝕜 :=
  loop 0 n (fun i X =>
    let t := loop 0 i (fun j t => t - A i j * X j) (B i)
    Function.update X i (if d = .explicit then divide t (A i i) else t)) X

/-- blas2_matrix_vector_solve.hpp:220-235 `triangular_matrix_vector_solve(A, t, d, b, x, divide)`. -/
def trsv [Ring 𝕜] (n : ℕ) (divide : 𝕜 → 𝕜 → 𝕜) (A : ℕ → ℕ → 𝕜) (t : Tri) (d : Diag) (b x : ℕ → 𝕜) : ℕ → 𝕜 :=
  match t with
  | .lower => trsvLower n divide A d b x
  | .upper => trsvUpper n divide A d b x

end OpenKalman.Blas
