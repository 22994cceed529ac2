import Verif.Model.Blas3

/-!
# The bundled linear algebra library, part 4: updates of a matrix by products of low rank

/repo/OpenKalman/basics/compatibility/std-lib-reference/linalg-reference-implementation/include/experimental/__p1673_bits/blas2_matrix_rank_1_update.hpp,
blas2_matrix_rank_2_update.hpp, blas3_matrix_rank_k_update.hpp and blas3_matrix_rank_2k_update.hpp, the overloads taking `impl::inline_exec_t`.  `fix` is whether
`LINALG_FIX_RANK_UPDATES` is defined; it is not by default.  `alpha = none` is the overload without a scale factor.
-/

namespace OpenKalman.Blas

variable {𝕜 : Type*}

/-- blas2_matrix_rank_1_update.hpp:366-379 `matrix_rank_1_update(x, y, A)`. -/
def ger [NonUnitalNonAssocSemiring 𝕜] (fix : Bool) (m n : ℕ) (x y : ℕ → 𝕜) (A : ℕ → ℕ → 𝕜) : ℕ → ℕ → 𝕜 :=
  loop 0 m (fun i A => loop 0 n (fun j A => set2 A i j (if fix then x i * y j else A i j + x i * y j)) A) A

/-- blas2_matrix_rank_1_update.hpp:406-417 `matrix_rank_1_update(x, y, E, A)`. -/
def gerE [NonUnitalNonAssocSemiring 𝕜] (m n : ℕ) (x y : ℕ → 𝕜) (E A : ℕ → ℕ → 𝕜) : ℕ → ℕ → 𝕜 :=
  loop 0 m (fun i A => loop 0 n (fun j A => set2 A i j (E i j + x i * y j)) A) A

/-- blas2_matrix_rank_1_update.hpp:578-584 `matrix_rank_1_update_c(x, y, A)`: the same with `conjugated(y)`. -/
def gerc [NonUnitalNonAssocSemiring 𝕜] [Star 𝕜] (fix : Bool) (m n : ℕ) (x y : ℕ → 𝕜) (A : ℕ → ℕ → 𝕜) : ℕ → ℕ → 𝕜 := ger fix m n x (fun j => star (y j)) A

/-- The loops over a triangle by rows: `for i < n, for j <= i` (lower only). -/
def rowsLower (n : ℕ) (f : ℕ → ℕ → (ℕ → ℕ → 𝕜) → ℕ → ℕ → 𝕜) : (ℕ → ℕ → 𝕜) → ℕ → ℕ → 𝕜 := loop 0 n fun i A => loop 0 (i + 1) (fun j A => f i j A) A

/-- One column of a triangle: `for i_lower <= i < i_upper`, with something done before. -/
def colTri (n : ℕ) (t : Tri) (before : ℕ → (ℕ → ℕ → 𝕜) → ℕ → ℕ → 𝕜) (f : ℕ → ℕ → (ℕ → ℕ → 𝕜) → ℕ → ℕ → 𝕜) (j : ℕ) (A : ℕ → ℕ → 𝕜) : ℕ → ℕ → 𝕜 :=
  match t with
  | .lower => loop j n (fun i A => f i j A) (before j A)
  | .upper => loop 0 (j + 1) (fun i A => f i j A) (before j A)

/-- The loops over a triangle by columns: `for j < n, for i_lower <= i < i_upper`. -/
def colsTri (n : ℕ) (t : Tri) (before : ℕ → (ℕ → ℕ → 𝕜) → ℕ → ℕ → 𝕜) (f : ℕ → ℕ → (ℕ → ℕ → 𝕜) → ℕ → ℕ → 𝕜) : (ℕ → ℕ → 𝕜) → ℕ → ℕ → 𝕜 :=
  loop 0 n (colTri n t before f)

/-- Nothing done before. -/
def skip (_ : ℕ) (A : ℕ → ℕ → 𝕜) : ℕ → ℕ → 𝕜 := A

/-- `alpha * a * b` or `a * b` -/
def scaled [Mul 𝕜] (alpha : Option 𝕜) (a b : 𝕜) : 𝕜 := match alpha with | some s => s * a * b | none => a * b

/-- `if (fix) A(i,j) = 0; A(i,j) += v` -/
def bump [Add 𝕜] [Zero 𝕜] (fix : Bool) (A : ℕ → ℕ → 𝕜) (i j : ℕ) (v : 𝕜) : ℕ → ℕ → 𝕜 := add2 (if fix then set2 A i j 0 else A) i j v

/-- blas2_matrix_rank_1_update.hpp:690-718 and 960-988 `symmetric_matrix_rank_1_update([alpha,] x, A, t)`. -/
def syr [NonUnitalNonAssocSemiring 𝕜] (fix : Bool) (n : ℕ) (alpha : Option 𝕜) (x : ℕ → 𝕜) (t : Tri) : (ℕ → ℕ → 𝕜) → ℕ → ℕ → 𝕜 :=
  match t with
  | .lower => rowsLower n (fun i j A => bump fix A i j (scaled alpha (x i) (x j)))
  | .upper => colsTri n .upper skip (fun i j A => bump fix A i j (scaled alpha (x i) (x j)))

/-- blas2_matrix_rank_1_update.hpp:746-768 and 1015-1036 `symmetric_matrix_rank_1_update([alpha,] x, E, A, t)`: with `alpha` the lower triangle is visited
by columns, without by rows. -/
def syrE [NonUnitalNonAssocSemiring 𝕜] (n : ℕ) (alpha : Option 𝕜) (x : ℕ → 𝕜) (E : ℕ → ℕ → 𝕜) (t : Tri) : (ℕ → ℕ → 𝕜) → ℕ → ℕ → 𝕜 :=
  match t, alpha with
  | .lower, some s => colsTri n .lower skip (fun i j A => set2 A i j (E i j + s * x i * x j))
  | .lower, none => rowsLower n (fun i j A => set2 A i j (E i j + x i * x j))
  | .upper, alpha => colsTri n .upper skip (fun i j A => set2 A i j (E i j + scaled alpha (x i) (x j)))

/-- `real_if_needed(A(j,j))` -/
noncomputable def re' [RCLike 𝕜] (a : 𝕜) : 𝕜 := ((RCLike.re a : ℝ) : 𝕜)

/-- blas2_matrix_rank_1_update.hpp:1224-1226: `alpha = real_if_needed(alpha)` if fixed. -/
noncomputable def fixAlpha [RCLike 𝕜] (fix : Bool) (alpha : Option 𝕜) : Option 𝕜 := if fix then alpha.map re' else alpha

/-- blas2_matrix_rank_1_update.hpp:1218-1257 and 1514-1548 `hermitian_matrix_rank_1_update([alpha,] x, A, t)`. -/
noncomputable def her [RCLike 𝕜] (fix : Bool) (n : ℕ) (alpha : Option 𝕜) (x : ℕ → 𝕜) (t : Tri) : (ℕ → ℕ → 𝕜) → ℕ → ℕ → 𝕜 :=
  match t with
  | .lower => rowsLower n (fun i j A =>
      let v := scaled (fixAlpha fix alpha) (x i) ((starRingEnd 𝕜) (x j))
      set2 A i j (if fix then v else (if i = j then re' (A i j) else A i j) + v))
  | .upper => colsTri n .upper skip (fun i j A =>
      let v := scaled (fixAlpha fix alpha) (x i) ((starRingEnd 𝕜) (x j))
      add2 (if fix then set2 A i j 0 else if i = j then set2 A j j (re' (A j j)) else A) i j v)

/-- blas2_matrix_rank_1_update.hpp:1284-1322 and 1574-1604 `hermitian_matrix_rank_1_update([alpha,] x, E, A, t)`. -/
noncomputable def herE [RCLike 𝕜] (fix : Bool) (n : ℕ) (alpha : Option 𝕜) (x : ℕ → 𝕜) (E : ℕ → ℕ → 𝕜) (t : Tri) : (ℕ → ℕ → 𝕜) → ℕ → ℕ → 𝕜 :=
  match t, alpha with
  | .lower, some s => colsTri n .lower skip (fun i j A =>
      add2 (if i = j then set2 A j j (re' (E j j)) else set2 A i j (E i j)) i j (scaled (fixAlpha fix (some s)) (x i) ((starRingEnd 𝕜) (x j))))
  | .upper, some s => colsTri n .upper skip (fun i j A =>
      add2 (if i = j then set2 A j j (re' (E j j)) else set2 A i j (E i j)) i j (scaled (fixAlpha fix (some s)) (x i) ((starRingEnd 𝕜) (x j))))
  | .lower, none => rowsLower n (fun i j A => set2 A i j (if i = j then re' (E i j) + x i * (starRingEnd 𝕜) (x j) else E i j + x i * (starRingEnd 𝕜) (x j)))
  | .upper, none => colsTri n .upper skip (fun i j A => set2 A i j (if i = j then re' (E i j) + x i * (starRingEnd 𝕜) (x j) else E i j + x i * (starRingEnd 𝕜) (x j)))

/-- blas2_matrix_rank_2_update.hpp:195-214 `symmetric_matrix_rank_2_update(x, y, A, t)`. -/
def syr2 [NonUnitalNonAssocSemiring 𝕜] (fix : Bool) (n : ℕ) (x y : ℕ → 𝕜) (t : Tri) : (ℕ → ℕ → 𝕜) → ℕ → ℕ → 𝕜 :=
  colsTri n t skip (fun i j A => set2 A i j (if fix then x i * y j + y i * x j else A i j + (x i * y j + y i * x j)))

/-- blas2_matrix_rank_2_update.hpp:247-264 `symmetric_matrix_rank_2_update(x, y, E, A, t)`. -/
def syr2E [NonUnitalNonAssocSemiring 𝕜] (n : ℕ) (x y : ℕ → 𝕜) (E : ℕ → ℕ → 𝕜) (t : Tri) : (ℕ → ℕ → 𝕜) → ℕ → ℕ → 𝕜 :=
  colsTri n t skip (fun i j A => set2 A i j (E i j + x i * y j + y i * x j))

/-- The diagonal component is replaced by its real part. -/
noncomputable def realDiag [RCLike 𝕜] (j : ℕ) (A : ℕ → ℕ → 𝕜) : ℕ → ℕ → 𝕜 := set2 A j j (re' (A j j))

/-- blas2_matrix_rank_2_update.hpp:470-493 `hermitian_matrix_rank_2_update(x, y, A, t)`. -/
noncomputable def her2 [RCLike 𝕜] (fix : Bool) (n : ℕ) (x y : ℕ → 𝕜) (t : Tri) : (ℕ → ℕ → 𝕜) → ℕ → ℕ → 𝕜 :=
  colsTri n t realDiag (fun i j A =>
    let v := x i * (starRingEnd 𝕜) (y j) + y i * (starRingEnd 𝕜) (x j)
    set2 A i j (if fix then v else A i j + v))

/-- blas2_matrix_rank_2_update.hpp:525-550 `hermitian_matrix_rank_2_update(x, y, E, A, t)`. -/
noncomputable def her2E [RCLike 𝕜] (n : ℕ) (x y : ℕ → 𝕜) (E : ℕ → ℕ → 𝕜) (t : Tri) : (ℕ → ℕ → 𝕜) → ℕ → ℕ → 𝕜 :=
  colsTri n t skip (fun i j A => set2 A i j
    (if i = j then re' (E i j) + x i * (starRingEnd 𝕜) (y j) + y i * (starRingEnd 𝕜) (x j) else E i j + x i * (starRingEnd 𝕜) (y j) + y i * (starRingEnd 𝕜) (x j)))

/-- blas3_matrix_rank_k_update.hpp:264-284 and 376-396 `symmetric_matrix_rank_k_update([alpha,] A, C, t)`; `A` has `K` columns. -/
def syrk [NonUnitalNonAssocSemiring 𝕜] (fix : Bool) (n K : ℕ) (alpha : Option 𝕜) (A : ℕ → ℕ → 𝕜) (t : Tri) : (ℕ → ℕ → 𝕜) → ℕ → ℕ → 𝕜 :=
  colsTri n t skip (fun i j C => loop 0 K (fun k C => add2 C i j (scaled alpha (A i k) (A j k))) (if fix then set2 C i j 0 else C))

/-- blas3_matrix_rank_k_update.hpp:488-508 and 607-626 `symmetric_matrix_rank_k_update([alpha,] A, E, C, t)`. -/
def syrkE [NonUnitalNonAssocSemiring 𝕜] (n K : ℕ) (alpha : Option 𝕜) (A E : ℕ → ℕ → 𝕜) (t : Tri) : (ℕ → ℕ → 𝕜) → ℕ → ℕ → 𝕜 :=
  colsTri n t skip (fun i j C => loop 0 K (fun k C => add2 C i j (scaled alpha (A i k) (A j k))) (set2 C i j (E i j)))

/-- blas3_matrix_rank_k_update.hpp:720-746 and 835-860 `hermitian_matrix_rank_k_update([alpha,] A, C, t)`. -/
noncomputable def herk [RCLike 𝕜] (fix : Bool) (n K : ℕ) (alpha : Option 𝕜) (A : ℕ → ℕ → 𝕜) (t : Tri) : (ℕ → ℕ → 𝕜) → ℕ → ℕ → 𝕜 :=
  colsTri n t (if fix then skip else realDiag) (fun i j C =>
    loop 0 K (fun k C => add2 C i j (scaled alpha (A i k) ((starRingEnd 𝕜) (A j k)))) (if fix then set2 C i j 0 else C))

/-- blas3_matrix_rank_k_update.hpp:951-973 and 1074-1095 `hermitian_matrix_rank_k_update([alpha,] A, E, C, t)`. -/
noncomputable def herkE [RCLike 𝕜] (n K : ℕ) (alpha : Option 𝕜) (A E : ℕ → ℕ → 𝕜) (t : Tri) : (ℕ → ℕ → 𝕜) → ℕ → ℕ → 𝕜 :=
  colsTri n t skip (fun i j C =>
    loop 0 K (fun k C => add2 C i j (scaled alpha (A i k) ((starRingEnd 𝕜) (A j k)))) (set2 C i j (if i = j then re' (E i j) else E i j)))

/-- blas3_matrix_rank_2k_update.hpp:162-189 `symmetric_matrix_rank_2k_update(A, B, C, t)`. -/
def syr2k [NonUnitalNonAssocSemiring 𝕜] (fix : Bool) (n K : ℕ) (A B : ℕ → ℕ → 𝕜) (t : Tri) : (ℕ → ℕ → 𝕜) → ℕ → ℕ → 𝕜 :=
  colsTri n t skip (fun i j C => loop 0 K (fun k C => add2 C i j (A i k * B j k + B i k * A j k)) (if fix then set2 C i j 0 else C))

/-- blas3_matrix_rank_2k_update.hpp:266-292 `symmetric_matrix_rank_2k_update(A, B, E, C, t)`. -/
def syr2kE [NonUnitalNonAssocSemiring 𝕜] (n K : ℕ) (A B E : ℕ → ℕ → 𝕜) (t : Tri) : (ℕ → ℕ → 𝕜) → ℕ → ℕ → 𝕜 :=
  colsTri n t skip (fun i j C => loop 0 K (fun k C => add2 C i j (A i k * B j k + B i k * A j k)) (set2 C i j (E i j)))

/-- blas3_matrix_rank_2k_update.hpp:371-401 `hermitian_matrix_rank_2k_update(A, B, C, t)`. -/
noncomputable def her2k [RCLike 𝕜] (fix : Bool) (n K : ℕ) (A B : ℕ → ℕ → 𝕜) (t : Tri) : (ℕ → ℕ → 𝕜) → ℕ → ℕ → 𝕜 :=
  colsTri n t (if fix then skip else realDiag) (fun i j C =>
    loop 0 K (fun k C => add2 C i j (A i k * (starRingEnd 𝕜) (B j k) + B i k * (starRingEnd 𝕜) (A j k))) (if fix then set2 C i j 0 else C))

/-- blas3_matrix_rank_2k_update.hpp:478-504 `hermitian_matrix_rank_2k_update(A, B, E, C, t)`. -/
noncomputable def her2kE [RCLike 𝕜] (n K : ℕ) (A B E : ℕ → ℕ → 𝕜) (t : Tri) : (ℕ → ℕ → 𝕜) → ℕ → ℕ → 𝕜 :=
  colsTri n t skip (fun i j C =>
    loop 0 K (fun k C => add2 C i j (A i k * (starRingEnd 𝕜) (B j k) + B i k * (starRingEnd 𝕜) (A j k))) (set2 C i j (if i = j then re' (E i j) else E i j)))

end OpenKalman.Blas
