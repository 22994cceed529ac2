import Verif.Model.Loops
import Verif.Spec.Blas2

/-!
# The bundled linear algebra library, part 3: products of matrices and solutions for matrices

/repo/OpenKalman/basics/compatibility/std-lib-reference/linalg-reference-implementation/include/experimental/__p1673_bits/blas3_matrix_product.hpp and
blas3_triangular_matrix_matrix_solve.hpp, the overloads taking `impl::inline_exec_t` (the others forward to them).  Numbers are exact.  The output does not
overlap with the inputs, unless the function has one argument for both.  Only the names of the triangles and of the kinds of diagonal are taken from
the specification.  `E = none` is the overload without a matrix to add.
-/

namespace OpenKalman.Blas

variable {𝕜 : Type*}

/-- `C(i,j) = v` -/
def set2 (C : ℕ → ℕ → 𝕜) (i j : ℕ) (v : 𝕜) : ℕ → ℕ → 𝕜 := Function.update C i (Function.update (C i) j v)

/-- `C(i,j) += v` -/
def add2 [Add 𝕜] (C : ℕ → ℕ → 𝕜) (i j : ℕ) (v : 𝕜) : ℕ → ℕ → 𝕜 := set2 C i j (C i j + v)

/-- `C(i,j) = ElementType_C{}` or `C(i,j) = E(i,j)`, the first statement for each component. -/
def start [Zero 𝕜] (E : Option (ℕ → ℕ → 𝕜)) (C : ℕ → ℕ → 𝕜) (i j : ℕ) : ℕ → ℕ → 𝕜 := set2 C i j (match E with | none => 0 | some e => e i j)

/-- blas3_matrix_product.hpp:744-751 and 829-836 `matrix_product(A, B, C)` and `matrix_product(A, B, E, C)`; `A` has `K` columns. -/
def gemm [NonUnitalNonAssocSemiring 𝕜] (m n K : ℕ) (A B : ℕ → ℕ → 𝕜) (E : Option (ℕ → ℕ → 𝕜)) (C : ℕ → ℕ → 𝕜) : ℕ → ℕ → 𝕜 :=
  loop 0 m (fun i C => loop 0 n (fun j C => loop 0 K (fun k C => add2 C i j (A i k * B k j)) (start E C i j)) C) C

/-- blas3_matrix_product.hpp:919-958 and 1154-1192 `triangular_matrix_product(A, t, d, B, …)`.  `k <= k_upper` with a signed `k_upper` is `k < i + 1` or
`k < i`. -/
def trmmLeft [NonUnitalNonAssocSemiring 𝕜] (m n : ℕ) (A : ℕ → ℕ → 𝕜) (t : Tri) (d : Diag) (B : ℕ → ℕ → 𝕜) (E : Option (ℕ → ℕ → 𝕜)) (C : ℕ → ℕ → 𝕜) : ℕ → ℕ → 𝕜 :=
  loop 0 n (fun j C => loop 0 m (fun i C =>
    let C := start E C i j
    let C := match t with
      | .lower => loop 0 (if d = .explicit then i + 1 else i) (fun k C => add2 C i j (A i k * B k j)) C
      | .upper => loop (if d = .explicit then i else i + 1) m (fun k C => add2 C i j (A i k * B k j)) C
    if d = .explicit then C else add2 C i j (B i j)) C) C

/-- blas3_matrix_product.hpp:1033-1070 and 1283-1321 `triangular_matrix_product(B, A, t, d, …)`. -/
def trmmRight [NonUnitalNonAssocSemiring 𝕜] (m n : ℕ) (A : ℕ → ℕ → 𝕜) (t : Tri) (d : Diag) (B : ℕ → ℕ → 𝕜) (E : Option (ℕ → ℕ → 𝕜)) (C : ℕ → ℕ → 𝕜) : ℕ → ℕ → 𝕜 :=
  loop 0 n (fun j C => loop 0 m (fun i C =>
    let C := start E C i j
    let C := match t with
      | .lower => loop (if d = .explicit then j else j + 1) n (fun k C => add2 C i j (B i k * A k j)) C
      | .upper => loop 0 (if d = .explicit then j + 1 else j) (fun k C => add2 C i j (B i k * A k j)) C
    if d = .explicit then C else add2 C i j (B i j)) C) C

/-- blas3_matrix_product.hpp:1407-1437 `triangular_matrix_left_product(A, t, d, C)`, in place. -/
def trmmLeftInPlace [NonUnitalNonAssocSemiring 𝕜] (m n : ℕ) (A : ℕ → ℕ → 𝕜) (t : Tri) (d : Diag) (C : ℕ → ℕ → 𝕜) : ℕ → ℕ → 𝕜 :=
  loop 0 n (fun j C =>
    match t with
    | .upper => loop 0 m (fun k C =>
        let C := loop 0 k (fun i C => add2 C i j (A i k * C k j)) C
        if d = .explicit then set2 C k j (A k k * C k j) else C) C
    | .lower => loopDown m (fun k C =>
        let C := loop (k + 1) m (fun i C => add2 C i j (A i k * C k j)) C
        if d = .explicit then set2 C k j (A k k * C k j) else C) C) C

/-- blas3_matrix_product.hpp:1515-1519, 1529-1533: a column is multiplied by the diagonal component. -/
def scaleCol [Mul 𝕜] (m : ℕ) (a : 𝕜) (j : ℕ) (C : ℕ → ℕ → 𝕜) : ℕ → ℕ → 𝕜 := loop 0 m (fun i C => set2 C i j (C i j * a)) C

/-- blas3_matrix_product.hpp:1501-1540 `triangular_matrix_right_product(A, t, d, C)`, in place. -/
def trmmRightInPlace [NonUnitalNonAssocSemiring 𝕜] (m n : ℕ) (A : ℕ → ℕ → 𝕜) (t : Tri) (d : Diag) (C : ℕ → ℕ → 𝕜) : ℕ → ℕ → 𝕜 :=
  match t with
  | .upper => loopDown n (fun j C =>
      let C := if d = .explicit then scaleCol m (A j j) j C else C
      loop 0 j (fun k C => loop 0 m (fun i C => add2 C i j (C i k * A k j)) C) C) C
  | .lower => loop 0 n (fun j C =>
      let C := if d = .explicit then scaleCol m (A j j) j C else C
      loop (j + 1) n (fun k C => loop 0 m (fun i C => add2 C i j (C i k * A k j)) C) C) C

/-- blas3_matrix_product.hpp:1605-1633 and 1815-1844 `symmetric_matrix_product(A, t, B, …)`. -/
def symmLeft [NonUnitalNonAssocSemiring 𝕜] (m n : ℕ) (A : ℕ → ℕ → 𝕜) (t : Tri) (B : ℕ → ℕ → 𝕜) (E : Option (ℕ → ℕ → 𝕜)) (C : ℕ → ℕ → 𝕜) : ℕ → ℕ → 𝕜 :=
  loop 0 n (fun j C => loop 0 m (fun i C => loop 0 m (fun k C =>
    let aik := match t with
      | .lower => if i ≤ k then A k i else A i k
      | .upper => if i ≥ k then A k i else A i k
    add2 C i j (aik * B k j)) (start E C i j)) C) C

/-- blas3_matrix_product.hpp:1708-1736 and 1932-1961 `symmetric_matrix_product(B, A, t, …)`. -/
def symmRight [NonUnitalNonAssocSemiring 𝕜] (m n : ℕ) (A : ℕ → ℕ → 𝕜) (t : Tri) (B : ℕ → ℕ → 𝕜) (E : Option (ℕ → ℕ → 𝕜)) (C : ℕ → ℕ → 𝕜) : ℕ → ℕ → 𝕜 :=
  loop 0 n (fun j C => loop 0 m (fun i C => loop 0 n (fun k C =>
    let akj := match t with
      | .lower => if j ≤ k then A k j else A j k
      | .upper => if j ≥ k then A k j else A j k
    add2 C i j (B i k * akj)) (start E C i j)) C) C

/-- blas3_matrix_product.hpp:2045-2079 and 2266-2301 `hermitian_matrix_product(A, t, B, …)`. -/
noncomputable def hemmLeft [RCLike 𝕜] (m n : ℕ) (A : ℕ → ℕ → 𝕜) (t : Tri) (B : ℕ → ℕ → 𝕜) (E : Option (ℕ → ℕ → 𝕜)) (C : ℕ → ℕ → 𝕜) : ℕ → ℕ → 𝕜 :=
  loop 0 n (fun j C => loop 0 m (fun i C =>
    let C := start E C i j
    match t with
    | .lower =>
      let C := loop 0 i (fun k C => add2 C i j (A i k * B k j)) C
      let C := add2 C i j (((RCLike.re (A i i) : ℝ) : 𝕜) * B i j)
      loop (i + 1) m (fun k C => add2 C i j ((starRingEnd 𝕜) (A k i) * B k j)) C
    | .upper =>
      let C := loop 0 i (fun k C => add2 C i j ((starRingEnd 𝕜) (A k i) * B k j)) C
      let C := add2 C i j (((RCLike.re (A i i) : ℝ) : 𝕜) * B i j)
      loop (i + 1) m (fun k C => add2 C i j (A i k * B k j)) C) C) C

/-- blas3_matrix_product.hpp:2153-2187 and 2389-2424 `hermitian_matrix_product(B, A, t, …)`. -/
noncomputable def hemmRight [RCLike 𝕜] (m n : ℕ) (A : ℕ → ℕ → 𝕜) (t : Tri) (B : ℕ → ℕ → 𝕜) (E : Option (ℕ → ℕ → 𝕜)) (C : ℕ → ℕ → 𝕜) : ℕ → ℕ → 𝕜 :=
  loop 0 n (fun j C => loop 0 m (fun i C =>
    let C := start E C i j
    match t with
    | .lower =>
      let C := loop 0 j (fun k C => add2 C i j (B i k * (starRingEnd 𝕜) (A j k))) C
      let C := add2 C i j (B i j * ((RCLike.re (A j j) : ℝ) : 𝕜))
      loop (j + 1) n (fun k C => add2 C i j (B i k * A k j)) C
    | .upper =>
      let C := loop 0 j (fun k C => add2 C i j (B i k * A k j)) C
      let C := add2 C i j (B i j * ((RCLike.re (A j j) : ℝ) : 𝕜))
      loop (j + 1) n (fun k C => add2 C i j (B i k * (starRingEnd 𝕜) (A j k))) C) C) C

/-- blas3_triangular_matrix_matrix_solve.hpp:34-107 `trsm_upper_triangular_left_side`, `trsm_lower_triangular_left_side`, and 264-278
`triangular_matrix_matrix_left_solve`; `A` is m × m and `B` is m × n. -/
def trsmLeft [DivisionRing 𝕜] (m n : ℕ) (A : ℕ → ℕ → 𝕜) (t : Tri) (d : Diag) (B X : ℕ → ℕ → 𝕜) : ℕ → ℕ → 𝕜 :=
  match t with
  | .lower => loop 0 n (fun k X => loop 0 m (fun i X =>
      let t := loop 0 i (fun j t => t - A i j * X j k) (B i k)
      set2 X i k (if d = .explicit then t / A i i else t)) X) X
  | .upper => loop 0 n (fun k X => loopDown m (fun i X =>
      let t := loop (i + 1) m (fun j t => t - A i j * X j k) (B i k)
      set2 X i k (if d = .explicit then t / A i i else t)) X) X

/-- blas3_triangular_matrix_matrix_solve.hpp:115-181 `trsm_upper_triangular_right_side`, `trsm_lower_triangular_right_side`, and 333-347
`triangular_matrix_matrix_right_solve`; `A` is n × n and `B` is m × n. -/
def trsmRight [DivisionRing 𝕜] (m n : ℕ) (A : ℕ → ℕ → 𝕜) (t : Tri) (d : Diag) (B X : ℕ → ℕ → 𝕜) : ℕ → ℕ → 𝕜 :=
  match t with
  | .upper => loop 0 m (fun i X => loop 0 n (fun j X =>
      let t := loop 0 j (fun k t => t - X i k * A k j) (B i j)
      set2 X i j (if d = .explicit then t / A j j else t)) X) X
  | .lower => loop 0 m (fun i X => loopDown n (fun j X =>
      let t := loop (j + 1) n (fun k t => t - X i k * A k j) (B i j)
      set2 X i j (if d = .explicit then t / A j j else t)) X) X

end OpenKalman.Blas
