{
 "claims": [
  {
   "property": "C01",
   "status": "proved",
   "theorems": [
    "OpenKalman.Patterns.C01_wrap_canonical",
    "OpenKalman.Patterns.C01_wrap_laws"
   ],
   "note": "For all limits min<=0<max and all reals; the canonical value is characterised as unique."
  },
  {
   "property": "C02",
   "status": "partial",
   "theorems": [
    "OpenKalman.Patterns.C02_round_trip_partial",
    "OpenKalman.Patterns.C02_round_trip_unscaled",
    "OpenKalman.Patterns.C02_violated_at_pi"
   ],
   "note": "Proved for the scaled branch (all limits). In the unscaled branch (limits exactly [-pi,pi)) it is false: C02_violated_at_pi; C02_round_trip_unscaled gives the exact result there."
  },
  {
   "property": "C03",
   "status": "proved",
   "theorems": [
    "OpenKalman.Patterns.C03_identify",
    "OpenKalman.Patterns.C03_decode"
   ],
   "note": "Identification iff whole periods apart; decoding scale-invariant, range, and re-encoding normalises."
  },
  {
   "property": "C04",
   "status": "proved",
   "theorems": [
    "OpenKalman.Patterns.C04_wrap_canonical",
    "OpenKalman.Patterns.C04_wrap_laws",
    "OpenKalman.Patterns.C04_round_trip",
    "OpenKalman.Patterns.C04_encoding"
   ],
   "note": "Canonical, unique, idempotent, even, periodic, equal to decode of encode, injective on the range."
  },
  {
   "property": "C05",
   "status": "partial",
   "theorems": [
    "OpenKalman.Patterns.C05_wrap_partial",
    "OpenKalman.Patterns.C05_decode_can_be_negative"
   ],
   "note": "Wrap and round trip proved. Decoding an arbitrary statistical value does not enforce non-negativity: C05_decode_can_be_negative."
  },
  {
   "property": "C06",
   "status": "proved",
   "theorems": [
    "OpenKalman.Patterns.C06_wrap",
    "OpenKalman.Patterns.C06_wrap_laws",
    "OpenKalman.Patterns.C06_round_trip",
    "OpenKalman.Patterns.C06_round_trip_unscaled",
    "OpenKalman.Patterns.C06_order"
   ],
   "note": "Point preservation, canonicity, uniqueness for positive radius, round trip outside the unscaled branch; exact result inside it."
  },
  {
   "property": "C07",
   "status": "proved",
   "theorems": [
    "OpenKalman.Patterns.C07_wrap",
    "OpenKalman.Patterns.C07_wrap_laws",
    "OpenKalman.Patterns.C07_order"
   ],
   "note": "Point and direction preserved, ranges, fixed points, idempotence."
  },
  {
   "property": "C08",
   "status": "proved",
   "theorems": [
    "OpenKalman.Patterns.C08_round_trip"
   ],
   "note": "Round trip preserves radius magnitude and direction; equals wrap exactly away from the poles, and azimuth 0 at the poles."
  },
  {
   "property": "C09",
   "status": "partial",
   "theorems": [
    "OpenKalman.Patterns.C09_blocks",
    "OpenKalman.Patterns.C09_to_stat",
    "OpenKalman.Patterns.C09_wrap",
    "OpenKalman.Patterns.C09_from_stat_partial",
    "OpenKalman.Patterns.C09_from_stat_dynamic_violated",
    "OpenKalman.Patterns.C09_append",
    "OpenKalman.Patterns.C09_append_from_stat",
    "OpenKalman.Patterns.C09_presentation",
    "OpenKalman.Patterns.C09_round_trip",
    "OpenKalman.Patterns.C09_wrap_idempotent"
   ],
   "note": "Blockwise action, lengths, concatenation and whole-pattern round trip for every pattern; from_stat_space of a dynamic pattern under __cpp_lib_containers_ranges is shown to be wrong (C09_from_stat_dynamic_violated)."
  },
  {
   "property": "C10",
   "status": "partial",
   "theorems": [
    "OpenKalman.Patterns.C10_dimension",
    "OpenKalman.Patterns.C10_append",
    "OpenKalman.Patterns.C10_euclidean_partial",
    "OpenKalman.Patterns.C10_euclidean_empty_violated",
    "OpenKalman.Patterns.C10_euclidean_identity"
   ],
   "note": "Additivity and identity for all presentations; an empty dynamic range of a non-Euclidean type is shown to be reported as non-Euclidean."
  },
  {
   "property": "C11",
   "status": "proved",
   "theorems": [
    "OpenKalman.Patterns.C11_prefix",
    "OpenKalman.Patterns.C11_prefix_fixed",
    "OpenKalman.Patterns.C11_order_laws"
   ],
   "note": "Keys of non-Euclidean descriptors are their hash codes (see C13)."
  },
  {
   "property": "C12",
   "status": "partial",
   "theorems": [
    "OpenKalman.Patterns.C12_dispatch_partial",
    "OpenKalman.Patterns.C12_unbounded_partial",
    "OpenKalman.Patterns.C12_violated"
   ],
   "note": "Dispatcher equals the prefix order except for four presentations shown to disagree (C12_violated)."
  },
  {
   "property": "C13",
   "status": "partial",
   "theorems": [
    "OpenKalman.Patterns.C13_kind_partial",
    "OpenKalman.Patterns.C13_violated",
    "OpenKalman.Patterns.C13_predefined_partial"
   ],
   "note": "Equal hash implies equal kind; collisions within a kind are exhibited (C13_violated), so the full claim is false."
  },
  {
   "property": "C14",
   "status": "partial",
   "theorems": [
    "OpenKalman.PatternColl.C14_compare_partial",
    "OpenKalman.PatternColl.C14_violated",
    "OpenKalman.PatternColl.C14_strip",
    "OpenKalman.PatternColl.C14_strip_versions",
    "OpenKalman.PatternColl.C14_equal_iff_strip",
    "OpenKalman.PatternColl.C14_equivalence"
   ],
   "note": "Comparison is entry-by-entry with padding when both sizes are compile-time, or sizes agree and are non-zero, or the types leave the answer open; C14_violated proves the compile-time shortcut wrong otherwise (collections of two and of three distances compare equal). Stripping, the versions of stripping, equality via stripping and the equivalence relation are proved in full."
  },
  {
   "property": "C15",
   "status": "partial",
   "theorems": [
    "OpenKalman.PatternColl.C15_access",
    "OpenKalman.PatternColl.C15_involution",
    "OpenKalman.PatternColl.C15_closure",
    "OpenKalman.PatternColl.C15_subscript_partial",
    "OpenKalman.PatternColl.C15_subscript_violated"
   ],
   "note": "Compile-time access, iteration, size, involution and the closure's shortcut are proved; iterator subscripts (used for run-time indexing) are proved only where the offset does not cross a swapped position, and C15_subscript_violated shows the code reading the wrong entry otherwise."
  },
  {
   "property": "C16",
   "status": "proved",
   "theorems": [
    "OpenKalman.PatternColl.C16_diagonal_of",
    "OpenKalman.PatternColl.C16_round_trip",
    "OpenKalman.PatternColl.C16_short",
    "OpenKalman.PatternColl.C16_dimension"
   ],
   "note": "Any pattern comparison obeying the partial-order laws (proved for descriptor lists in C11). The dimension statement needs hash codes to determine dimensions (see C13)."
  },
  {
   "property": "C17",
   "status": "partial",
   "theorems": [
    "OpenKalman.PatternColl.C17_largest",
    "OpenKalman.PatternColl.C17_smallest",
    "OpenKalman.PatternColl.C17_versions",
    "OpenKalman.Patterns.C17_is_uniform_partial",
    "OpenKalman.Patterns.C17_uniform_partial",
    "OpenKalman.Patterns.C17_uniform_violated"
   ],
   "note": "Largest/smallest proved for both versions. Uniform components: a one-dimensional answer is right (C17_uniform_partial), the membership test is exact for ranges with at least one axis; C17_uniform_violated gives a two-dimensional answer and missing answers."
  },
  {
   "property": "C18",
   "status": "proved",
   "theorems": [
    "OpenKalman.Collections.C18_views",
    "OpenKalman.Collections.C18_laws",
    "OpenKalman.Collections.C18_iota",
    "OpenKalman.Collections.C18_slice_unchecked"
   ],
   "note": "By structural induction over nested view expressions: size, compile-time access, iterator access at any position and offset, and iteration agree with list operations. An out-of-range slice is undefined behaviour (C18_slice_unchecked)."
  },
  {
   "property": "C19",
   "status": "proved",
   "theorems": [
    "OpenKalman.Collections.C19_agree",
    "OpenKalman.Collections.C19_meaning",
    "OpenKalman.Collections.C19_order"
   ],
   "note": "Recursive and loop versions agree for every fixed/dynamic combination; result characterised as lexicographic order; order laws inherited from the element comparison."
  },
  {
   "property": "C20",
   "status": "proved",
   "theorems": [
    "OpenKalman.Collections.C20_common_prefix",
    "OpenKalman.Collections.C20_pointwise",
    "OpenKalman.Collections.C20_prefix_not_transitive"
   ],
   "note": "Characterised for all fixed/dynamic/unsized combinations with at least one sized argument; C20_prefix_not_transitive shows why transitivity is restricted to equal lengths."
  },
  {
   "property": "C21",
   "status": "proved",
   "theorems": [
    "OpenKalman.Layout.C21_span",
    "OpenKalman.Layout.C21_in_span_ordered",
    "OpenKalman.Layout.C21_bijection",
    "OpenKalman.Layout.C21_nonsquare_collision",
    "OpenKalman.Layout.C21_stack_collision"
   ],
   "note": "All n, both triangles, both orders: in span, strictly ordered, bijective, symmetric. Collisions for non-square extents and for stacks of matrices are proved as scope limits."
  },
  {
   "property": "C22",
   "status": "proved",
   "theorems": [
    "OpenKalman.Layout.C22_zones",
    "OpenKalman.Layout.C22_in_span",
    "OpenKalman.Layout.C22_unique",
    "OpenKalman.Layout.C22_rank1",
    "OpenKalman.Layout.C22_nonsquare_out_of_span",
    "OpenKalman.Layout.C22_nonsquare_collision"
   ],
   "note": "Square matrices and stacks of them over an arbitrary nested mapping; rank-1 too. Failure for non-square matrices proved with witnesses."
  },
  {
   "property": "C23",
   "status": "proved",
   "theorems": [
    "OpenKalman.Layout.C23_triangular",
    "OpenKalman.Layout.C23_hermitian",
    "OpenKalman.Layout.C23_hermitian_selfadjoint"
   ],
   "note": "Layout and accessor composed, arbitrary nested layout and content."
  },
  {
   "property": "C24",
   "status": "partial",
   "theorems": [
    "OpenKalman.Layout.C24_violated",
    "OpenKalman.Layout.C24_statement_false",
    "OpenKalman.Layout.C24_offset_past_partition",
    "OpenKalman.Layout.C24_zero_partial",
    "OpenKalman.Layout.C24_constant"
   ],
   "note": "The code violates the law for every offset 0<i<P (proved); it holds at offset 0 and for the constant accessor."
  },
  {
   "property": "C25",
   "status": "partial",
   "theorems": [
    "OpenKalman.Layout.C25_diagonal_of",
    "OpenKalman.Layout.C25_to_diagonal_map",
    "OpenKalman.Layout.C25_to_diagonal_read",
    "OpenKalman.Layout.C25_diagonal_of_to_diagonal",
    "OpenKalman.Layout.C25_to_diagonal_span_partial",
    "OpenKalman.Layout.C25_to_diagonal_span_violated",
    "OpenKalman.Layout.C25_to_diagonal_unique_violated",
    "OpenKalman.Layout.C25_to_diagonal_unique_partial",
    "OpenKalman.Layout.C25_diagonal_of_stride_partial",
    "OpenKalman.Layout.C25_diagonal_of_stride_violated"
   ],
   "note": "Reads, round trip, uniqueness of diagonal_of proved. Declared span fails for nested span 1, is_unique fails for rank 3, diagonal_of strides fail for rank > 2: each refuted with a witness and proved on the remaining cases."
  },
  {
   "property": "C26",
   "status": "partial",
   "theorems": [
    "OpenKalman.Layout.C26_reads",
    "OpenKalman.Layout.C26_span_unique",
    "OpenKalman.Layout.C26_involution",
    "OpenKalman.Layout.C26_strides_partial",
    "OpenKalman.Layout.C26_strides_violated"
   ],
   "note": "Reads, span, uniqueness, involution proved for all ranks; strides proved when both indices exist in the nested object, and refuted when the second is an implicit trailing index."
  },
  {
   "property": "C27",
   "status": "partial",
   "theorems": [
    "OpenKalman.Values.C27_power",
    "OpenKalman.Values.C27_standard",
    "OpenKalman.Values.C27_least_exponent_violated",
    "OpenKalman.Values.C27_real_exponent",
    "OpenKalman.Values.C27_real_exponent_violated"
   ],
   "note": "Proved for every base of a field and every exponent except the least of its type, whose negation overflows (negation proved). The overload with a real exponent disagrees with the standard for exponents of integral value: negations proved."
  },
  {
   "property": "C28",
   "status": "partial",
   "theorems": [
    "OpenKalman.Values.C28_scaling_down",
    "OpenKalman.Values.C28_scaling_up",
    "OpenKalman.Values.C28_log",
    "OpenKalman.Values.C28_log1p",
    "OpenKalman.Values.C28_exp_partial",
    "OpenKalman.Values.C28_exp_violated",
    "OpenKalman.Values.C28_integral_exp"
   ],
   "note": "Logarithm: termination, core interval and exactness proved for every positive real. Exponential: proved for arguments within the range of int; outside the conversion is undefined (negation proved)."
  },
  {
   "property": "C29",
   "status": "proved",
   "theorems": [
    "OpenKalman.Values.C29_hypot",
    "OpenKalman.Values.C29_abs",
    "OpenKalman.Values.C29_complex",
    "OpenKalman.Values.C29_complex_not_norm"
   ],
   "note": "For every non-empty list of reals, and the complex overload as principal root of the sum of squares; exact arithmetic."
  },
  {
   "property": "C30",
   "status": "proved",
   "theorems": [
    "OpenKalman.Values.C30_sqrt",
    "OpenKalman.Values.C30_principal"
   ],
   "note": "Every complex number, with uniqueness of the root; exact arithmetic without signed zeros."
  },
  {
   "property": "C31",
   "status": "partial",
   "theorems": [
    "OpenKalman.Values.C31_remainder",
    "OpenKalman.Values.C31_unique",
    "OpenKalman.Values.C31_exceptions",
    "OpenKalman.Values.C31_bound_violated"
   ],
   "note": "Remainder contract, exceptions and NaN proved; a quotient of exactly 2^63 passes the test and its conversion is undefined (negation proved)."
  },
  {
   "property": "C32",
   "status": "partial",
   "theorems": [
    "OpenKalman.Values.C32_atan2",
    "OpenKalman.Values.C32_direction",
    "OpenKalman.Values.C32_inverse_real",
    "OpenKalman.Values.C32_complex_partial",
    "OpenKalman.Values.C32_complex_violated"
   ],
   "note": "Real overload proved for all arguments. The complex overload agrees only on or right of the imaginary axis and on the real axis; to the left it is always half a turn off (negation proved)."
  },
  {
   "property": "C33",
   "status": "proved",
   "theorems": [
    "OpenKalman.Values.C33_log",
    "OpenKalman.Values.C33_asin",
    "OpenKalman.Values.C33_acos",
    "OpenKalman.Values.C33_real"
   ],
   "note": "Every complex number, with the principal range of the real part and agreement with the real functions."
  },
  {
   "property": "C34",
   "status": "partial",
   "theorems": [
    "OpenKalman.LinAlg.C34_trace_sound",
    "OpenKalman.LinAlg.C34_trace_partial",
    "OpenKalman.LinAlg.C34_trace_constant_triangle_violated",
    "OpenKalman.LinAlg.C34_trace_empty_violated"
   ],
   "note": "Whenever trace returns a value it is the sum of the diagonal, for every shape and truthful tagging, with no side condition. It returns a value for everything except two cases, both proved to fail: a constant on a proper triangle does not compile, and a triangular object empty at run time is reduced over nothing."
  },
  {
   "property": "C35",
   "status": "partial",
   "theorems": [
    "OpenKalman.LinAlg.C35_determinant_sound",
    "OpenKalman.LinAlg.C35_determinant_partial",
    "OpenKalman.LinAlg.C35_empty_violated"
   ],
   "note": "Whenever determinant returns a value the argument is square and the value is Mathlib's Matrix.det. It returns a value for every square argument except the two cases of C34; the empty run-time triangle is shown to fail. The library determinant of an untagged matrix is taken to be exact."
  },
  {
   "property": "C36",
   "status": "partial",
   "theorems": [
    "OpenKalman.LinAlg.C36_contract_partial",
    "OpenKalman.LinAlg.C36_contract_square",
    "OpenKalman.LinAlg.C36_contract_general",
    "OpenKalman.LinAlg.C36_contract_mismatch",
    "OpenKalman.LinAlg.C36_diagonal_constant_iff",
    "OpenKalman.LinAlg.C36_constant_diagonal_iff",
    "OpenKalman.LinAlg.C36_diagonal_diagonal_iff",
    "OpenKalman.LinAlg.C36_diagonal_constant_violated",
    "OpenKalman.LinAlg.C36_diagonal_diagonal_violated"
   ],
   "note": "contract equals the matrix product with truthful tags on all three library paths for all nonempty square operands, for all operands that are not diagonal, and for rectangular diagonal ones exactly when a stated shape condition holds (iff theorems). The code loses the shape of a 3x2 diagonal times a constant and of a product of rectangular diagonals; both are exhibited."
  },
  {
   "property": "C37",
   "status": "partial",
   "theorems": [
    "OpenKalman.LinAlg.C37_sum_partial",
    "OpenKalman.LinAlg.C37_order_partial",
    "OpenKalman.LinAlg.C37_rectangular_violated"
   ],
   "note": "Sum of any nonempty list with any tags equals the elementwise sum and does not depend on the order, for square shapes or if at most one argument is a nonzero diagonal. Two 2x3 diagonals are shown to sum to a 2x2 result."
  },
  {
   "property": "C38",
   "status": "partial",
   "theorems": [
    "OpenKalman.LinAlg.C38_transpose",
    "OpenKalman.LinAlg.C38_transpose_twice",
    "OpenKalman.LinAlg.C38_conjugate",
    "OpenKalman.LinAlg.C38_conjugate_transpose",
    "OpenKalman.LinAlg.C38_conjugate_tags_partial",
    "OpenKalman.LinAlg.C38_conjugate_tags_violated",
    "OpenKalman.LinAlg.C38_tensor_transpose",
    "OpenKalman.LinAlg.C38_tensor_conjugate_transpose",
    "OpenKalman.LinAlg.C38_tensor_other_partial",
    "OpenKalman.LinAlg.C38_tensor_violated"
   ],
   "note": "Matrices: values, shapes and involution without side condition; transpose keeps tags truthful; conjugate keeps them truthful except for nonreal constants on a proper triangle, where the negation is proved. Tensors of any rank: indices 0 and 1 for all tags, other pairs for untagged and constant tensors; a 2x2x2 tensor with symmetric slices is shown to be returned unchanged by transpose<0,2>."
  },
  {
   "property": "C39",
   "status": "partial",
   "theorems": [
    "OpenKalman.LinAlg.C39_reduce_constant",
    "OpenKalman.LinAlg.C39_reduce_general",
    "OpenKalman.LinAlg.C39_reduce_diagonal_plus_partial",
    "OpenKalman.LinAlg.C39_reduce_diagonal_plus_violated",
    "OpenKalman.LinAlg.C39_reduce_diagonal_times_partial",
    "OpenKalman.LinAlg.C39_reduce_all_times_violated",
    "OpenKalman.LinAlg.C39_reduce_column_times_violated",
    "OpenKalman.LinAlg.C39_reduce_all_partial",
    "OpenKalman.LinAlg.C39_reduce_empty_times_violated",
    "OpenKalman.LinAlg.C39_average_partial",
    "OpenKalman.LinAlg.C39_average_all_partial"
   ],
   "note": "Any operation over any indices on constants and on non-diagonal objects; sums and products of diagonal ones under stated shape conditions; reduction to a scalar; averages along indices and over everything. Violations proved: row sums of a static n x n diagonal come back 1x1, the total product of a static diagonal does not compile (n x n) or recurses for ever (n x 1), product over an empty zero object is 0."
  },
  {
   "property": "C40",
   "status": "partial",
   "theorems": [
    "OpenKalman.Slices.C40_concatenate_triangular",
    "OpenKalman.Slices.C40_concatenate_hermitian_partial",
    "OpenKalman.Slices.C40_concatenate_hermitian_violated",
    "OpenKalman.Slices.C40_concatenate_diagonal_matrices_violated",
    "OpenKalman.Slices.C40_concatenate_mixed_violated",
    "OpenKalman.Slices.C40_concatenate_zero",
    "OpenKalman.Slices.C40_tile",
    "OpenKalman.Slices.C40_tile_accepts",
    "OpenKalman.Slices.C40_tile_iff",
    "OpenKalman.Slices.C40_tile_violated",
    "OpenKalman.Slices.C40_tile_rank3_violated",
    "OpenKalman.Slices.C40_concatenate_vertical_partial",
    "OpenKalman.Slices.C40_concatenate_empty_violated",
    "OpenKalman.Slices.C40_concatenate_mismatch",
    "OpenKalman.Slices.C40_concatenate_horizontal_partial",
    "OpenKalman.Slices.C40_concatenate_diagonal_partial",
    "OpenKalman.Slices.C40_split_concatenate_diagonal_partial",
    "OpenKalman.Slices.C40_split_concatenate_vertical_partial",
    "OpenKalman.Slices.C40_split_concatenate_horizontal_partial",
    "OpenKalman.Slices.C40_split_vertical_violated",
    "OpenKalman.Slices.C40_split_horizontal_violated",
    "OpenKalman.Slices.C40_split_too_large"
   ],
   "note": "Tiling is exact when the blocks fit (C40_tile, C40_tile_iff); vertical, horizontal and diagonal concatenation and their splitting are proved for column-shaped or diagonal cases. The rest is false and shown by the _violated theorems: split<0>/split<1> shapes, empty last block, misfit detected after the write, rank 3, diagonal operands ill-formed, mixed diagonal/triangular operands, complex Hermitian operands with different storage triangles."
  },
  {
   "property": "C41",
   "status": "partial",
   "theorems": [
    "OpenKalman.Slices.C41_set_slice_get_slice",
    "OpenKalman.Slices.C41_set_slice_out_of_range",
    "OpenKalman.Slices.C41_get_slice_named_partial",
    "OpenKalman.Slices.C41_get_slice_rows_violated",
    "OpenKalman.Slices.C41_get_chip_row_violated",
    "OpenKalman.Slices.C41_get_slice_leading_violated",
    "OpenKalman.Slices.C41_set_chip",
    "OpenKalman.Slices.C41_set_chip_indices",
    "OpenKalman.Slices.C41_get_chip_column",
    "OpenKalman.Slices.C41_set_chip_get_chip_column",
    "OpenKalman.Slices.C41_chipwise_columns",
    "OpenKalman.Slices.C41_chipwise_nullary_partial",
    "OpenKalman.Slices.C41_chipwise_nullary_violated"
   ],
   "note": "set_slice/get_slice round trip, untouched elements and rejection of out-of-range blocks are proved; get_slice with explicitly named indices and get_chip<0> give the wrong shape (C41_get_slice_rows_violated, C41_get_chip_row_violated, C41_get_slice_leading_violated), and nullary chipwise with zero chips writes out of range."
  },
  {
   "property": "C42",
   "status": "partial",
   "theorems": [
    "OpenKalman.LinAlg.C42_solve_shortcuts",
    "OpenKalman.LinAlg.C42_solve_partial",
    "OpenKalman.LinAlg.C42_solve_unique",
    "OpenKalman.LinAlg.C42_solve_mismatch",
    "OpenKalman.LinAlg.C42_solve_least_squares_partial",
    "OpenKalman.LinAlg.C42_solve_rectangular_violated",
    "OpenKalman.LinAlg.C42_solve_exact_zero_violated",
    "OpenKalman.LinAlg.C42_solve_hermitian_complex_violated",
    "OpenKalman.LinAlg.C42_solve_mismatch_violated"
   ],
   "note": "Exact shortcuts (one-dimensional, diagonal, constant-diagonal, constant with constant right-hand side) proved for every input with nonzero divisors; least squares proved for a square constant matrix; the code returns the wrong shape for rectangular constant matrices, wraps complex solutions as Hermitian, ignores must_be_exact for a zero matrix and accepts mismatched rows in the diagonal branch."
  },
  {
   "property": "C43",
   "status": "partial",
   "theorems": [
    "OpenKalman.LinAlg.C43_cholesky_round_trip",
    "OpenKalman.LinAlg.C43_cholesky_factor",
    "OpenKalman.LinAlg.C43_cholesky_square",
    "OpenKalman.LinAlg.C43_LQ_partial",
    "OpenKalman.LinAlg.C43_QR_partial",
    "OpenKalman.LinAlg.C43_constant_decompositions",
    "OpenKalman.LinAlg.C43_rank_update_hermitian",
    "OpenKalman.LinAlg.C43_rank_update_triangular_partial",
    "OpenKalman.LinAlg.C43_rank_update_diagonal",
    "OpenKalman.LinAlg.C43_LQ_column_violated",
    "OpenKalman.LinAlg.C43_cholesky_one_violated",
    "OpenKalman.LinAlg.C43_rank_update_complex_violated",
    "OpenKalman.LinAlg.C43_rank_update_zero_violated"
   ],
   "note": "Cholesky factor and square, LQ, QR and both rank updates; shortcuts proved to accept and be right without the library, other branches given a correct library. Missing and shown to fail: LQ of a static column, a constant of run-time size one, complex 1x1 triangular update (missing conjugate), zero A with tall diagonal or static column U."
  },
  {
   "property": "C44",
   "status": "partial",
   "theorems": [
    "OpenKalman.CovSync.C44_reads_last_write",
    "OpenKalman.CovSync.C44_defined",
    "OpenKalman.CovSync.C44_covariance_op",
    "OpenKalman.CovSync.C44_determinant_self_adjoint",
    "OpenKalman.CovSync.C44_determinant_square_root",
    "OpenKalman.CovSync.C44_case32_stale",
    "OpenKalman.CovSync.C44_case32_violated"
   ],
   "note": "Refinement proved for every history on covariances with an assignable nested matrix; for a non-assignable nested matrix the code returns stale values (negation proved)."
  },
  {
   "property": "C45",
   "status": "partial",
   "theorems": [
    "OpenKalman.CovSync.C45_violated",
    "OpenKalman.CovSync.C45_assign_correct_iff",
    "OpenKalman.CovSync.C45_assign_partial",
    "OpenKalman.CovSync.C45_read_both_then_assign",
    "OpenKalman.CovSync.C45_assign_other_violated",
    "OpenKalman.CovSync.C45_assign_other_partial"
   ],
   "note": "The code violates the property: copy/move assignment tests the target's synchronisation flag instead of the source's. Negation proved with a history; proved for all histories meeting the guard; exact set of bad flag pairs proved."
  },
  {
   "property": "C46",
   "status": "partial",
   "theorems": [
    "OpenKalman.CovSync.C46_violated_stale_read",
    "OpenKalman.CovSync.C46_violated_lost_update",
    "OpenKalman.CovSync.C46_coherent_partial",
    "OpenKalman.CovSync.C46_synchronising_partial",
    "OpenKalman.CovSync.C46_link_write",
    "OpenKalman.CovSync.C46_link_assign",
    "OpenKalman.CovSync.C46_owned"
   ],
   "note": "Const reads and set_component through a reference view skip synchronisation: stale read and lost update proved. All other interleavings proved coherent."
  },
  {
   "property": "C47",
   "status": "partial",
   "theorems": [
    "OpenKalman.CovArith.C47_add",
    "OpenKalman.CovArith.C47_sub",
    "OpenKalman.CovArith.C47_mul",
    "OpenKalman.CovArith.C47_scalar_partial",
    "OpenKalman.CovArith.C47_scalar_negative",
    "OpenKalman.CovArith.C47_neg",
    "OpenKalman.CovArith.C47_scale_partial",
    "OpenKalman.CovArith.C47_scale_matrix",
    "OpenKalman.CovArith.C47_in_place_add_partial",
    "OpenKalman.CovArith.C47_in_place_scalar",
    "OpenKalman.CovArith.C47_in_place_root_partial",
    "OpenKalman.CovArith.C47_in_place_same_kind",
    "OpenKalman.CovArith.C47_scalar_violated",
    "OpenKalman.CovArith.C47_scale_violated",
    "OpenKalman.CovArith.C47_scale_complex_violated",
    "OpenKalman.CovArith.C47_in_place_diagonal_violated",
    "OpenKalman.CovArith.C47_in_place_complex_violated",
    "OpenKalman.CovArith.C47_in_place_root_violated"
   ],
   "note": "Covariance arithmetic for every size, stored form (self-adjoint, diagonal, either triangle), plain or square root, over real and complex scalars: sum, difference, products, scalar product and quotient, negation, scale and inverse scale by scalars and matrices, and the in-place versions in every synchronisation state. Partial because the code differs from the property for scalar products of square roots, negative scaling of square roots stored as squares, complex scale factors and some in-place arguments (each with a proved counterexample)."
  },
  {
   "property": "C48",
   "status": "proved",
   "theorems": [
    "OpenKalman.Kalman.C48_gain",
    "OpenKalman.Kalman.C48_optimal",
    "OpenKalman.Kalman.C48_solver",
    "OpenKalman.Kalman.C48_solvable",
    "OpenKalman.Kalman.C48_unique_optimum"
   ],
   "note": "For every solver meeting its specification; singular measurement covariances included (C48_solvable). Exact arithmetic."
  },
  {
   "property": "C49",
   "status": "proved",
   "theorems": [
    "OpenKalman.Kalman.C49_update",
    "OpenKalman.Kalman.C49_history",
    "OpenKalman.Kalman.C49_identity_predict"
   ],
   "note": "By induction over histories with changing dimensions; updates need positive definite total measurement noise. Exact arithmetic."
  },
  {
   "property": "C50",
   "status": "proved",
   "theorems": [
    "OpenKalman.Kalman.C50_square_root",
    "OpenKalman.Kalman.C50_cycle",
    "OpenKalman.Kalman.C50_start"
   ],
   "note": "By induction over histories; the LQ decomposition and rank update are specified, not modelled step by step. Exact arithmetic. C50_cycle is about what operator() means; as written it cannot be instantiated (KalmanFilter.hpp:178)."
  },
  {
   "property": "C51",
   "status": "proved",
   "theorems": [
    "OpenKalman.Kalman.C51_update_form",
    "OpenKalman.Kalman.C51_batch",
    "OpenKalman.Kalman.C51_order"
   ],
   "note": "Stacked = sequential for any Hermitian prior with invertible innovation covariances; order independence for positive definite noise."
  },
  {
   "property": "C52",
   "status": "proved",
   "theorems": [
    "OpenKalman.Kalman.C52_information",
    "OpenKalman.Kalman.C52_square",
    "OpenKalman.Kalman.C52_bayes"
   ],
   "note": "Information form, completion of the square, and Bayes' rule for the normal densities."
  },
  {
   "property": "C53",
   "status": "partial",
   "theorems": [
    "OpenKalman.Kalman.C53_moments",
    "OpenKalman.Kalman.C53_padding",
    "OpenKalman.Kalman.C53_cholesky",
    "OpenKalman.Kalman.C53_consecutive",
    "OpenKalman.Kalman.C53_cross_partial",
    "OpenKalman.Kalman.C53_cross_violated",
    "OpenKalman.Kalman.C53_identity",
    "OpenKalman.Kalman.C53_identity_violated"
   ],
   "note": "Moments, padding, Cholesky form and composition proved for any number of noise terms and transforms. The cross-covariance of consecutive transforms and the noise of LinearTransform with an IdentityTransformation are wrong in the code: negations proved."
  },
  {
   "property": "C54",
   "status": "proved",
   "theorems": [
    "OpenKalman.Kalman.C54_transform",
    "OpenKalman.Kalman.C54_information",
    "OpenKalman.Kalman.C54_least_squares"
   ],
   "note": "Closed form of the information matrix and unique minimisation of the weighted sum of squares for every history and every positive forgetting factor."
  },
  {
   "property": "C55",
   "status": "proved",
   "theorems": [
    "OpenKalman.Kalman.C55_posSemidef",
    "OpenKalman.Kalman.C55_zero",
    "OpenKalman.Kalman.C55_total",
    "OpenKalman.Kalman.C55_mean",
    "OpenKalman.Kalman.C55_covariance"
   ],
   "note": "Positive semidefinite, zero for zero Hessians, exact mean for every quadratic function; covariance exact for variables with normal moments up to order four."
  },
  {
   "property": "C56",
   "status": "proved",
   "theorems": [
    "OpenKalman.SigmaPoints.C56_points",
    "OpenKalman.SigmaPoints.C56_affine",
    "OpenKalman.SigmaPoints.C56_consecutive",
    "OpenKalman.SigmaPoints.C56_cross_violated",
    "OpenKalman.SigmaPoints.C56_cholesky",
    "OpenKalman.SigmaPoints.C56_quadratic"
   ],
   "note": "For every number of blocks (an input and any noise terms) of positive dimension: points exist, match mean and covariance, weights add up to one, affine functions are propagated exactly with cross-covariance, means of quadratic functions are exact, consecutive functions of any kind equal their composite, Cholesky form agrees. Euclidean outputs, exact scalars. The cross-covariance of consecutive transformations is wrong (C56_cross_violated)."
  },
  {
   "property": "C57",
   "status": "proved",
   "theorems": [
    "OpenKalman.SigmaPoints.C57_points",
    "OpenKalman.SigmaPoints.C57_weights",
    "OpenKalman.SigmaPoints.C57_affine",
    "OpenKalman.SigmaPoints.C57_cholesky",
    "OpenKalman.SigmaPoints.C57_quadratic"
   ],
   "note": "For all alpha /= 0, beta, and kappa with dim + kappa > 0, and every block structure. The Cholesky form with a negative first weight agrees whenever the covariance is positive semidefinite. Euclidean outputs, exact scalars."
  },
  {
   "property": "C58",
   "status": "partial",
   "theorems": [
    "OpenKalman.SigmaPoints.C58_default_violated",
    "OpenKalman.SigmaPoints.C58_violated",
    "OpenKalman.SigmaPoints.C58_formula"
   ],
   "note": "The claim is false for the code: the coefficient is a quotient of integers. Proved: with the default parameters it divides by zero in every dimension; with any other weight the points, if defined, never match the moments; the published formula does match them."
  },
  {
   "property": "C59",
   "status": "proved",
   "theorems": [
    "OpenKalman.MonteCarlo.C59_reduction",
    "OpenKalman.MonteCarlo.C59_schedule",
    "OpenKalman.MonteCarlo.C59_init_twice"
   ],
   "note": "For every list of at least two samples, and every order and grouping with the initial value used once (as std::reduce does). Euclidean outputs; samples are given; exact scalars."
  },
  {
   "property": "C60",
   "status": "partial",
   "theorems": [
    "OpenKalman.Gaussian.C60_sum",
    "OpenKalman.Gaussian.C60_matrix",
    "OpenKalman.Gaussian.C60_scalar",
    "OpenKalman.Gaussian.C60_concatenate",
    "OpenKalman.Gaussian.C60_split_partial",
    "OpenKalman.Gaussian.C60_difference_partial",
    "OpenKalman.Gaussian.C60_difference_violated",
    "OpenKalman.Gaussian.C60_in_place_partial",
    "OpenKalman.Gaussian.C60_split_violated",
    "OpenKalman.Gaussian.C60_of_root"
   ],
   "note": "Stated with actual Gaussian random vectors (Mathlib's multivariateGaussian and independence): sum, matrix and scalar multiples, division, concatenation and in-place operators proved for every stored form and synchronisation state; splitting proved except for Cholesky factors that are not block diagonal, where it is shown to fail. operator- is shown never to describe the difference of independent vectors (covariances are subtracted) unless the subtrahend is certain; it is shown to undo operator+."
  },
  {
   "property": "C61",
   "status": "proved",
   "theorems": [
    "OpenKalman.Gaussian.C61_log_likelihood",
    "OpenKalman.Gaussian.C61_entropy"
   ],
   "note": "For every positive definite covariance in every stored form and every list of observations: log_likelihood is the sum of the logarithms of a function proved to be the density of the Gaussian law with respect to Lebesgue measure; entropy is half log2 of (2 pi e)^n det P and is proved equal to the differential entropy integral. solve is assumed to solve positive definite systems."
  },
  {
   "property": "C62",
   "status": "partial",
   "theorems": [
    "OpenKalman.FiniteDiff.C62_unchanged_partial",
    "OpenKalman.FiniteDiff.C62_returns",
    "OpenKalman.FiniteDiff.C62_jacobian_quadratic",
    "OpenKalman.FiniteDiff.C62_hessian_quadratic",
    "OpenKalman.FiniteDiff.C62_hessian_symmetric",
    "OpenKalman.FiniteDiff.C62_jacobian_limit",
    "OpenKalman.FiniteDiff.C62_hessian_limit",
    "OpenKalman.FiniteDiff.C62_throw_violated",
    "OpenKalman.FiniteDiff.C62_wrapped_violated"
   ],
   "note": "Finite-difference jacobian and hessian of LinearizedTransformation: inputs restored on normal return for any transformation, exact on quadratics, symmetric Hessians, limits to derivatives. Missing: the code leaves inputs perturbed when the transformation throws and does not wrap differences of angular outputs (both shown as violations)."
  },
  {
   "property": "C65",
   "status": "proved",
   "theorems": [
    "OpenKalman.Values.C65_sqrt",
    "OpenKalman.Values.C65_log",
    "OpenKalman.Values.C65_series"
   ],
   "note": "Limits of the exact iterations; floating-point stopping is not modelled except for the comparison of the Halley iteration."
  },
  {
   "property": "C66",
   "status": "partial",
   "theorems": [
    "OpenKalman.Values.C66_reduction",
    "OpenKalman.Values.C66_sin_cos",
    "OpenKalman.Values.C66_half_turn_violated",
    "OpenKalman.Values.C66_bound_violated"
   ],
   "note": "Termination, congruence and correctness of sin and cos proved below 2^63 turns. The documented half turn and the boundary of exactly 2^63 turns fail: negations proved."
  },
  {
   "property": "C67",
   "status": "proved",
   "theorems": [
    "OpenKalman.Values.C67_hyperbolic",
    "OpenKalman.Values.C67_hyperbolic_real",
    "OpenKalman.Values.C67_trigonometric",
    "OpenKalman.Values.C67_inverse",
    "OpenKalman.Values.C67_inverse_real"
   ],
   "note": "Forward functions within the range of the integer conversions, inverse functions everywhere they can exist."
  },
  {
   "property": "C63",
   "status": "partial",
   "theorems": [
    "OpenKalman.CovArith.C63_concatenate_partial",
    "OpenKalman.CovArith.C63_concatenate_defined",
    "OpenKalman.CovArith.C63_split_partial",
    "OpenKalman.CovArith.C63_split_square_root",
    "OpenKalman.CovArith.C63_split_concatenate",
    "OpenKalman.CovArith.C63_split_cholesky_violated",
    "OpenKalman.CovArith.C63_split_root_violated",
    "OpenKalman.CovArith.C63_concatenate_mixed_violated",
    "OpenKalman.CovArith.C63_concatenate_complex_violated"
   ],
   "note": "Concatenation of any number of covariances or square roots represents the block-diagonal matrix, splitting the diagonal blocks, and splitting undoes concatenation. Partial because the code differs for Cholesky factors with entries outside the block, one-dimensional pieces of diagonal square roots, mixed operands and complex storage triangles (each with a proved counterexample)."
  },
  {
   "property": "C64",
   "status": "partial",
   "theorems": [
    "OpenKalman.StoredForm.C64_transform_partial",
    "OpenKalman.StoredForm.C64_transform_upper",
    "OpenKalman.StoredForm.C64_update_partial",
    "OpenKalman.StoredForm.C64_identity_partial",
    "OpenKalman.StoredForm.C64_identity_violated",
    "OpenKalman.StoredForm.C64_history_partial",
    "OpenKalman.StoredForm.C64_forms_partial",
    "OpenKalman.StoredForm.C64_points_partial",
    "OpenKalman.StoredForm.C64_points_upper",
    "OpenKalman.StoredForm.C64_transform_violated",
    "OpenKalman.StoredForm.C64_points_violated"
   ],
   "note": "Exact moments for every combination of self-adjoint, diagonal and lower-factor storage: linear transforms, the update step, updates through the identity transform, runs of any length, cubature and unscented points. Upper triangular storage breaks all of them: proved exactly how (C64_transform_upper, C64_points_upper) and refuted with witnesses (C64_*_violated). Patterns Euclidean."
  },
  {
   "property": "C68",
   "status": "proved",
   "theorems": [
    "OpenKalman.Gaussian.C68_sample"
   ],
   "note": "The law of the sample is proved to be the Gaussian law with the mean and covariance of the distribution. The random number generator itself is not modelled: its output is assumed to be a standard normal vector."
  },
  {
   "property": "C69",
   "status": "partial",
   "theorems": [
    "OpenKalman.EigenTraits.C69_unary_real",
    "OpenKalman.EigenTraits.C69_unary_complex_partial",
    "OpenKalman.EigenTraits.C69_unary_hermitian_violated",
    "OpenKalman.EigenTraits.C69_unary_arg_violated",
    "OpenKalman.EigenTraits.C69_binary_real_partial",
    "OpenKalman.EigenTraits.C69_binary_complex_partial",
    "OpenKalman.EigenTraits.C69_difference_violated",
    "OpenKalman.EigenTraits.C69_neutral_violated",
    "OpenKalman.EigenTraits.C69_product_of_constants_violated",
    "OpenKalman.EigenTraits.C69_bound_real_partial",
    "OpenKalman.EigenTraits.C69_bound_complex_partial",
    "OpenKalman.EigenTraits.C69_bound_scalar_violated",
    "OpenKalman.EigenTraits.C69_nullary_violated",
    "OpenKalman.EigenTraits.C69_triangle_algebra"
   ],
   "note": "Real unary functors without exception; complex unary, binary and bound functors outside the cases in which the tables are wrong, which are exhibited."
  },
  {
   "property": "C70",
   "status": "partial",
   "theorems": [
    "OpenKalman.EigenTraits.C70_transpose_real",
    "OpenKalman.EigenTraits.C70_transpose_complex",
    "OpenKalman.EigenTraits.C70_selfAdjointView_real",
    "OpenKalman.EigenTraits.C70_selfAdjointView_complex",
    "OpenKalman.EigenTraits.C70_select_real",
    "OpenKalman.EigenTraits.C70_select_complex",
    "OpenKalman.EigenTraits.C70_diagonal",
    "OpenKalman.EigenTraits.C70_diagonal_throws_violated",
    "OpenKalman.EigenTraits.C70_expressions_real_partial",
    "OpenKalman.EigenTraits.C70_expressions_complex_partial",
    "OpenKalman.EigenTraits.C70_replicate_violated",
    "OpenKalman.EigenTraits.C70_replicate_hermitian_violated",
    "OpenKalman.EigenTraits.C70_reverse_violated",
    "OpenKalman.EigenTraits.C70_reverse_vector_violated",
    "OpenKalman.EigenTraits.C70_product_violated",
    "OpenKalman.EigenTraits.C70_triangularView_violated"
   ],
   "note": "Transposes, self-adjoint views, selections and diagonals without exception; the rest and whole expressions outside the cases in which the traits are wrong, which are exhibited."
  },
  {
   "property": "C71",
   "status": "partial",
   "theorems": [
    "OpenKalman.EigenTraits.C71_reductions_real_partial",
    "OpenKalman.EigenTraits.C71_reductions_complex_partial",
    "OpenKalman.EigenTraits.C71_constants",
    "OpenKalman.EigenTraits.C71_composition_violated",
    "OpenKalman.EigenTraits.C71_product_violated",
    "OpenKalman.EigenTraits.C71_minimum_violated"
   ],
   "note": "Through any expression outside the cases in which the code is wrong, which are exhibited; constants without exception."
  },
  {
   "property": "C72",
   "status": "partial",
   "theorems": [
    "OpenKalman.Shape.C72_index_count",
    "OpenKalman.Shape.C72_extent",
    "OpenKalman.Shape.C72_dimension_guaranteed",
    "OpenKalman.Shape.C72_dimension_permitted",
    "OpenKalman.Shape.C72_size_compares",
    "OpenKalman.Shape.C72_size_unbounded",
    "OpenKalman.Shape.C72_order_partial",
    "OpenKalman.Shape.C72_order_loop",
    "OpenKalman.Shape.C72_order_violated",
    "OpenKalman.Shape.C72_max_order",
    "OpenKalman.Shape.C72_is_vector",
    "OpenKalman.Shape.C72_vector",
    "OpenKalman.Shape.C72_empty",
    "OpenKalman.Shape.C72_dynamic_count"
   ],
   "note": "Everything but the tensor order of objects with a zero extent after an extent above 1, which is wrong (C72_order_violated)."
  },
  {
   "property": "C73",
   "status": "partial",
   "theorems": [
    "OpenKalman.Shape.C73_access_at_partial",
    "OpenKalman.Shape.C73_access_partial",
    "OpenKalman.Shape.C73_access_violated"
   ],
   "note": "For collections of at least as many indices as the rank; shorter ones that the concept admits are ill-formed or undefined (C73_access_violated)."
  },
  {
   "property": "C74",
   "status": "partial",
   "theorems": [
    "OpenKalman.Shape.C74_match_partial",
    "OpenKalman.Shape.C74_match",
    "OpenKalman.Shape.C74_match_violated"
   ],
   "note": "Exact up to the largest index count, and in full if later patterns are equivalent to Dimensions<1>; C74_match_violated shows that this is needed."
  },
  {
   "property": "C75",
   "status": "partial",
   "theorems": [
    "OpenKalman.Shape.C75_to_extents",
    "OpenKalman.Shape.C75_rank_partial",
    "OpenKalman.Shape.C75_rank_violated"
   ],
   "note": "Same shape, instantiability and default rank in full; the rank asked for is not honoured for some extents (C75_rank_violated)."
  },
  {
   "property": "C76",
   "status": "partial",
   "theorems": [
    "OpenKalman.PatternDims.C76_compare_partial",
    "OpenKalman.PatternDims.C76_compare_violated",
    "OpenKalman.PatternDims.C76_common_partial",
    "OpenKalman.PatternDims.C76_common_violated",
    "OpenKalman.PatternDims.C76_compare_concept",
    "OpenKalman.PatternDims.C76_compare_concept_partial",
    "OpenKalman.PatternDims.C76_compare_concept_violated",
    "OpenKalman.PatternDims.C76_same_concept_partial",
    "OpenKalman.PatternDims.C76_same_concept_dynamic_partial",
    "OpenKalman.PatternDims.C76_same_concept_violated"
   ],
   "note": "Functions: all collections with a size or a fixed common dimension; concepts: exact for compile-time sizes but for one case. The remaining cases are wrong (C76_*_violated)."
  },
  {
   "property": "C77",
   "status": "partial",
   "theorems": [
    "OpenKalman.StatSpace.C77_range_of",
    "OpenKalman.StatSpace.C77_to_stat_space_partial",
    "OpenKalman.StatSpace.C77_from_stat_space_partial",
    "OpenKalman.StatSpace.C77_round_trip_partial",
    "OpenKalman.StatSpace.C77_one_component_violated",
    "OpenKalman.StatSpace.C77_dynamic_violated",
    "OpenKalman.StatSpace.C77_rank_violated",
    "OpenKalman.StatSpace.C77_copy_partial",
    "OpenKalman.StatSpace.C77_copy_violated"
   ],
   "note": "Conversion, back conversion and round trip for all ranks, shapes and patterns with compile-time dimensions; the other cases and copies are wrong (C77_*_violated)."
  },
  {
   "property": "C78",
   "status": "partial",
   "theorems": [
    "OpenKalman.Angular.C78_construct",
    "OpenKalman.Angular.C78_add",
    "OpenKalman.Angular.C78_sub_partial",
    "OpenKalman.Angular.C78_sub_violated",
    "OpenKalman.Angular.C78_scale",
    "OpenKalman.Angular.C78_kinds",
    "OpenKalman.Angular.C78_invariant",
    "OpenKalman.Angular.C78_value",
    "OpenKalman.Angular.C78_scale_violated",
    "OpenKalman.Angular.C78_euclidean",
    "OpenKalman.Angular.C78_distance_violated"
   ],
   "note": "Construction, sums, in-place operations and any history of them proved for axes and angles; plain differences, fractions and distances disproved by witnesses."
  },
  {
   "property": "C79",
   "status": "partial",
   "theorems": [
    "OpenKalman.Angular.C79_mean",
    "OpenKalman.Angular.C79_deviations",
    "OpenKalman.Angular.C79_representation",
    "OpenKalman.Angular.C79_concentrated",
    "OpenKalman.Angular.C79_euclidean",
    "OpenKalman.Angular.C79_rotation_partial",
    "OpenKalman.Angular.C79_rotation_violated",
    "OpenKalman.Angular.C79_distance_violated",
    "OpenKalman.Angular.C79_update_partial",
    "OpenKalman.Angular.C79_update_violated"
   ],
   "note": "Mean, deviations, independence of representatives and Euclidean case proved; invariance of covariance and update under rotation disproved by witnesses."
  },
  {
   "property": "C80",
   "status": "partial",
   "theorems": [
    "OpenKalman.Adapters.C80_tower_partial",
    "OpenKalman.Adapters.C80_transpose_square_violated",
    "OpenKalman.Adapters.C80_transpose_triangle_violated",
    "OpenKalman.Adapters.C80_conjugate_violated",
    "OpenKalman.Adapters.C80_pattern_constant_violated",
    "OpenKalman.Adapters.C80_pattern_rank1_violated",
    "OpenKalman.Adapters.C80_diagonal_constant_violated",
    "OpenKalman.Adapters.C80_hermitian_square_violated",
    "OpenKalman.Adapters.C80_pattern_square_violated"
   ],
   "note": "Proved by induction over all towers in which transpositions exchange indices 0 and 1, constants under a conjugate are real, and patterns put on objects with a constant fix the same dimensions. Outside these the code is wrong: see the theorems ending in violated."
  },
  {
   "property": "C81",
   "status": "partial",
   "theorems": [
    "OpenKalman.Adapters.C81_hermitian",
    "OpenKalman.Adapters.C81_to_hermitian",
    "OpenKalman.Adapters.C81_pattern_partial",
    "OpenKalman.Adapters.C81_pattern_mismatch",
    "OpenKalman.Adapters.C81_assertions_violated"
   ],
   "note": "Proved for Hermitian adapters, and for pattern and to-diagonal adapters with compile-time dimensions. For run-time patterns the assertions are wrong (C81_assertions_violated)."
  },
  {
   "property": "C82",
   "status": "partial",
   "theorems": [
    "OpenKalman.InPlace.C82_set_triangle_partial",
    "OpenKalman.InPlace.C82_refused",
    "OpenKalman.InPlace.C82_hermitian_violated",
    "OpenKalman.InPlace.C82_loop_violated"
   ],
   "note": "Proved for every tower of adapters on dense Eigen matrices whose Hermitian adapters keep the triangle written (and for the diagonal in general). For Hermitian adapters that keep the other triangle and for the loops without a hook the code is wrong, which is proved."
  },
  {
   "property": "C83",
   "status": "partial",
   "theorems": [
    "OpenKalman.InPlace.C83_product_partial",
    "OpenKalman.InPlace.C83_left_violated",
    "OpenKalman.InPlace.C83_sizes",
    "OpenKalman.InPlace.C83_square_violated"
   ],
   "note": "Proved on the right for all operands and on the left where the code has a hook that respects it. On the left without such a hook the code computes the wrong product, and non-square operands are not refused; both are proved."
  },
  {
   "property": "C84",
   "status": "partial",
   "theorems": [
    "OpenKalman.InPlace.C84_copy_partial",
    "OpenKalman.InPlace.C84_extents_violated",
    "OpenKalman.InPlace.C84_column_violated",
    "OpenKalman.InPlace.C84_alias_violated"
   ],
   "note": "Proved for all ranks and matching extents, for sources whose elements depend on no other element of the destination. Mismatched run-time extents, destinations ending in a fixed 1 and overlapping sources are violations, which are proved."
  },
  {
   "property": "C85",
   "status": "partial",
   "theorems": [
    "OpenKalman.EigenAccess.C85_get_partial",
    "OpenKalman.EigenAccess.C85_too_many",
    "OpenKalman.EigenAccess.C85_set",
    "OpenKalman.EigenAccess.C85_set_refused",
    "OpenKalman.EigenAccess.C85_get_violated"
   ],
   "note": "Setting is proved in full. Getting is proved except for unit and strict triangular views and diagonal objects on row vectors, where the violation is proved."
  },
  {
   "property": "C86",
   "status": "partial",
   "theorems": [
    "OpenKalman.EigenAccess.C86_diagonal_of_partial",
    "OpenKalman.EigenAccess.C86_to_diagonal_partial",
    "OpenKalman.EigenAccess.C86_diagonal_of_violated",
    "OpenKalman.EigenAccess.C86_to_diagonal_violated"
   ],
   "note": "Proved except for unit and strict triangular views, where the violation is proved."
  },
  {
   "property": "C87",
   "status": "partial",
   "theorems": [
    "OpenKalman.EigenAccess.C87_broadcast",
    "OpenKalman.EigenAccess.C87_throws_partial",
    "OpenKalman.EigenAccess.C87_zero_violated"
   ],
   "note": "Repetition is proved for all positive factors, refusal if a factor is known only at run time; a fixed factor 0 is accepted, which is proved."
  },
  {
   "property": "C88",
   "status": "partial",
   "theorems": [
    "OpenKalman.NAry.C88_extents_partial",
    "OpenKalman.NAry.C88_runtime",
    "OpenKalman.NAry.C88_result_partial",
    "OpenKalman.NAry.C88_fixed_violated",
    "OpenKalman.NAry.C88_zero_violated"
   ],
   "note": "Proved for all run-time extents including 0, and for fixed extents that agree (ones first). For other fixed extents, and for some zeros, the code is wrong, which is proved."
  },
  {
   "property": "C89",
   "status": "partial",
   "theorems": [
    "OpenKalman.NAry.C89_elements_partial",
    "OpenKalman.NAry.C89_refused",
    "OpenKalman.NAry.C89_hook_violated",
    "OpenKalman.NAry.C89_one_by_one_violated"
   ],
   "note": "Proved for operations without indices in all branches and for operations with indices in the loops; the two branches in which operations with indices do not compile are proved to fail."
  },
  {
   "property": "C90",
   "status": "partial",
   "theorems": [
    "OpenKalman.NAry.C90_nullary_partial",
    "OpenKalman.NAry.C90_layout_violated",
    "OpenKalman.NAry.C90_single_violated"
   ],
   "note": "Proved for all selections of indices and ranks; the branch for one operation per element is wrong for column-major layouts and reordered indices, which is proved."
  },
  {
   "property": "C91",
   "status": "partial",
   "theorems": [
    "OpenKalman.NAry.C91_in_place_partial",
    "OpenKalman.NAry.C91_symmetric_violated"
   ],
   "note": "Proved for every object whose elements can be written independently; for objects that share elements the violation is proved."
  },
  {
   "property": "C92",
   "status": "partial",
   "theorems": [
    "OpenKalman.Scalars.C92_fixed",
    "OpenKalman.Scalars.C92_near_floating",
    "OpenKalman.Scalars.C92_near_complex",
    "OpenKalman.Scalars.C92_near_integral_partial",
    "OpenKalman.Scalars.C92_err_partial",
    "OpenKalman.Scalars.C92_err_complex",
    "OpenKalman.Scalars.C92_unsigned_violated",
    "OpenKalman.Scalars.C92_sign_violated",
    "OpenKalman.Scalars.C92_overflow_violated",
    "OpenKalman.Scalars.C92_negative_violated"
   ],
   "note": "Characterised for floating and complex numbers and for integral numbers within stated bounds. Missing cases are proved violations: unsigned errors, mixed signs, overflow, negative errors."
  },
  {
   "property": "C93",
   "status": "partial",
   "theorems": [
    "OpenKalman.Scalars.C93_compare_partial",
    "OpenKalman.Scalars.C93_convert_violated"
   ],
   "note": "Holds if the type of the value can represent the number; otherwise violated (C93_convert_violated)."
  },
  {
   "property": "C94",
   "status": "partial",
   "theorems": [
    "OpenKalman.Scalars.C94_cast",
    "OpenKalman.Scalars.C94_cast_complex_partial",
    "OpenKalman.Scalars.C94_make",
    "OpenKalman.Scalars.C94_update",
    "OpenKalman.Scalars.C94_cast_complex_violated",
    "OpenKalman.Scalars.C94_update_violated"
   ],
   "note": "Casting to complex types with integral parts and mixing signed and unsigned parts are violated; the rest is proved."
  },
  {
   "property": "C95",
   "status": "partial",
   "theorems": [
    "OpenKalman.PatTypes.C95_guaranteed_partial",
    "OpenKalman.PatTypes.C95_permitted_partial",
    "OpenKalman.PatTypes.C95_decided",
    "OpenKalman.PatTypes.C95_bank_violated",
    "OpenKalman.PatTypes.C95_any_violated",
    "OpenKalman.PatTypes.C95_strict_violated",
    "OpenKalman.PatTypes.C95_range_violated"
   ],
   "note": "Soundness of guaranteed and permitted verdicts with Any non-Euclidean, run-time dimensions apart, no zero-dimensional elements beside ranges, strict comparisons closed; each restriction is needed (violations proved). C95_decided is complete for closed types."
  },
  {
   "property": "C96",
   "status": "partial",
   "theorems": [
    "OpenKalman.PatTypes.C96_guaranteed",
    "OpenKalman.PatTypes.C96_complete_partial",
    "OpenKalman.PatTypes.C96_same_violated",
    "OpenKalman.PatTypes.C96_permitted_partial",
    "OpenKalman.PatTypes.C96_possible_partial",
    "OpenKalman.PatTypes.C96_zero_violated",
    "OpenKalman.PatTypes.C96_first_violated"
   ],
   "note": "C96_guaranteed holds in full. Completeness fails for two types of one descriptor; permitted fails for zero-dimensional elements, empty ranges and a multi-dimensional first element; otherwise proved both ways."
  },
  {
   "property": "C97",
   "status": "partial",
   "theorems": [
    "OpenKalman.PatTypes.C97_most_fixed",
    "OpenKalman.PatTypes.C97_accepted_partial",
    "OpenKalman.PatTypes.C97_pairs_violated"
   ],
   "note": "The choice is proved in full; acceptance under the conditions of C95; rejection fails because later patterns are not compared with each other."
  },
  {
   "property": "C98",
   "status": "proved",
   "theorems": [
    "OpenKalman.Compat.C98_integers",
    "OpenKalman.Compat.C98_three_way",
    "OpenKalman.Compat.C98_ordering",
    "OpenKalman.Compat.C98_lexicographic",
    "OpenKalman.Compat.C98_from_number_violated"
   ],
   "note": "All pairs of integer types of 8 to 64 bits and all values; orderings made from other numbers than the constants are shown inconsistent (C98_from_number_violated)."
  },
  {
   "property": "C99",
   "status": "partial",
   "theorems": [
    "OpenKalman.Compat.C99_by",
    "OpenKalman.Compat.C99_to",
    "OpenKalman.Compat.C99_bounded_partial",
    "OpenKalman.Compat.C99_sized_exact",
    "OpenKalman.Compat.C99_bounded_violated"
   ],
   "note": "Proved for unsized sentinels and for advance by n and to a bound; with sized sentinels the code has the test inverted: right exactly if the steps equal the distance (C99_sized_exact, C99_bounded_violated)."
  },
  {
   "property": "C100",
   "status": "proved",
   "theorems": [
    "OpenKalman.Compat.C100_elements",
    "OpenKalman.Compat.C100_walk",
    "OpenKalman.Compat.C100_ends",
    "OpenKalman.Compat.C100_adaptors",
    "OpenKalman.Compat.C100_stale_violated"
   ],
   "note": "All compositions of views of ranges that do not change in size after construction; if they do the tables of concat_view are stale (C100_stale_violated)."
  },
  {
   "property": "C101",
   "status": "partial",
   "theorems": [
    "OpenKalman.Compat.C101_arithmetic",
    "OpenKalman.Compat.C101_walk",
    "OpenKalman.Compat.C101_size_partial",
    "OpenKalman.Compat.C101_size_violated",
    "OpenKalman.Compat.C101_distance_partial",
    "OpenKalman.Compat.C101_distance_violated"
   ],
   "note": "Arithmetic and walk proved; size fails for the least number of a type of 32 bits or more, the distance to the sentinel for more numbers than the signed type has (violations proved)."
  },
  {
   "property": "C102",
   "status": "partial",
   "theorems": [
    "OpenKalman.Compat.C102_copy20",
    "OpenKalman.Compat.C102_copy17_partial",
    "OpenKalman.Compat.C102_copy17_violated",
    "OpenKalman.Compat.C102_copy17_throwing_violated",
    "OpenKalman.Compat.C102_move20_exact",
    "OpenKalman.Compat.C102_move_violated",
    "OpenKalman.Compat.C102_move_partial"
   ],
   "note": "C++20 copy proved; C++17 copy does nothing for types that cannot be assigned and does not compile for throwing ones; moving fails for some types (violations proved)."
  },
  {
   "property": "C103",
   "status": "partial",
   "theorems": [
    "OpenKalman.Gets.C103_extent_partial",
    "OpenKalman.Gets.C103_fixed_partial",
    "OpenKalman.Gets.C103_size_partial",
    "OpenKalman.Gets.C103_subrange_violated",
    "OpenKalman.Gets.C103_unknown_bound_violated"
   ],
   "note": "Proved for all towers of views over tuples, arrays and ranges. Missing because of the code: std::ranges::subrange (size always 2) and arrays of unknown bound (size 0), shown by C103_subrange_violated and C103_unknown_bound_violated."
  },
  {
   "property": "C104",
   "status": "partial",
   "theorems": [
    "OpenKalman.Gets.C104_fixed_partial",
    "OpenKalman.Gets.C104_agree_partial",
    "OpenKalman.Gets.C104_subrange_violated",
    "OpenKalman.Gets.C104_apply_partial",
    "OpenKalman.Gets.C104_extents"
   ],
   "note": "Proved for all towers of views, for apply and for mdspan extents. Missing because of the code: subranges, which give iterators for constant indices (C104_subrange_violated)."
  },
  {
   "property": "C105",
   "status": "proved",
   "theorems": [
    "OpenKalman.Gets.C105_flatten",
    "OpenKalman.Gets.C105_flat"
   ],
   "note": "All nestings of standard tuples; other tuple-like types do not compile."
  },
  {
   "property": "C106",
   "status": "partial",
   "theorems": [
    "OpenKalman.Contraction.C106_zero",
    "OpenKalman.Contraction.C106_constant_partial",
    "OpenKalman.Contraction.C106_constant_violated",
    "OpenKalman.Contraction.C106_undefined_violated",
    "OpenKalman.Contraction.C106_diagonal_partial",
    "OpenKalman.Contraction.C106_pairs_partial",
    "OpenKalman.Contraction.C106_pairs_violated",
    "OpenKalman.Contraction.C106_diagonal_violated"
   ],
   "note": "Zero operands; constants when the extents of the result agree with those contracted; square constant-diagonal matrices with one pair, and with two pairs when the extents agree. The code uses the extents of the result, and does not require diagonal matrices to be square: counterexamples proved."
  },
  {
   "property": "C107",
   "status": "partial",
   "theorems": [
    "OpenKalman.Contraction.C107_hermitian_partial",
    "OpenKalman.Contraction.C107_hermitian_violated"
   ],
   "note": "Proved for real constants on the diagonal; the code also accepts others: counterexample proved."
  },
  {
   "property": "C108",
   "status": "partial",
   "theorems": [
    "OpenKalman.Evaluators.C108_read_partial",
    "OpenKalman.Evaluators.C108_linear_partial",
    "OpenKalman.Evaluators.C108_dangling_violated",
    "OpenKalman.Evaluators.C108_diagonal_violated",
    "OpenKalman.Evaluators.C108_linear_violated",
    "OpenKalman.Evaluators.C108_nested_violated"
   ],
   "note": "Proved for all towers with real numbers, without Hermitian adapters, or around expressions. Complex Hermitian adapters around matrices return dangling references and keep imaginary parts: counterexamples proved."
  },
  {
   "property": "C109",
   "status": "proved",
   "theorems": [
    "OpenKalman.Evaluators.C109_write",
    "OpenKalman.Evaluators.C109_writable"
   ],
   "note": "For all towers in which diagonal adapters directly contain a column."
  },
  {
   "property": "C110",
   "status": "partial",
   "theorems": [
    "OpenKalman.Mdspan.C110_construct",
    "OpenKalman.Mdspan.C110_refused",
    "OpenKalman.Mdspan.C110_convert",
    "OpenKalman.Mdspan.C110_defined",
    "OpenKalman.Mdspan.C110_equal_partial",
    "OpenKalman.Mdspan.C110_equal_violated"
   ],
   "note": "extents of different ranks can compare as equal"
  },
  {
   "property": "C111",
   "status": "proved",
   "theorems": [
    "OpenKalman.Mdspan.C111_bijection",
    "OpenKalman.Mdspan.C111_strides",
    "OpenKalman.Mdspan.C111_size"
   ],
   "note": "index type unsigned, number of elements representable"
  },
  {
   "property": "C112",
   "status": "partial",
   "theorems": [
    "OpenKalman.Mdspan.C112_span",
    "OpenKalman.Mdspan.C112_unique_partial",
    "OpenKalman.Mdspan.C112_unique_violated",
    "OpenKalman.Mdspan.C112_exhaustive",
    "OpenKalman.Mdspan.C112_toStride",
    "OpenKalman.Mdspan.C112_fromStride_partial",
    "OpenKalman.Mdspan.C112_fromStride_violated",
    "OpenKalman.Mdspan.C112_roundTrip",
    "OpenKalman.Mdspan.C112_equal"
   ],
   "note": "uniqueness is reported without checking strides; conversions from strides are unchecked with NDEBUG"
  },
  {
   "property": "C113",
   "status": "proved",
   "theorems": [
    "OpenKalman.Mdspan.C113_part"
   ],
   "note": "slices within the extents, as documented; positions representable"
  },
  {
   "property": "C114",
   "status": "partial",
   "theorems": [
    "OpenKalman.MonteAngle.C114_output",
    "OpenKalman.MonteAngle.C114_cross_partial",
    "OpenKalman.MonteAngle.C114_euclidean",
    "OpenKalman.MonteAngle.C114_cross_violated",
    "OpenKalman.MonteAngle.C114_order_violated"
   ],
   "note": "Outputs proved for all patterns of axes and angles; the cross-covariance where positive and negative inputs each add up to canonical angles. Otherwise false: C114_cross_violated, C114_order_violated."
  },
  {
   "property": "C115",
   "status": "partial",
   "theorems": [
    "OpenKalman.TypedConv.C115_convert",
    "OpenKalman.TypedConv.C115_chain",
    "OpenKalman.TypedConv.C115_confluent",
    "OpenKalman.TypedConv.C115_faithful",
    "OpenKalman.TypedConv.C115_assign_partial",
    "OpenKalman.TypedConv.C115_assign_violated"
   ],
   "note": "Every chain of conversions keeps the point. Assignment of a Mean to a EuclideanMean with a Euclidean pattern is ambiguous (C115_assign_violated), the rest is C115_assign_partial."
  },
  {
   "property": "C116",
   "status": "partial",
   "theorems": [
    "OpenKalman.EigenShapes.C116_dimension",
    "OpenKalman.EigenShapes.C116_dimension_complete",
    "OpenKalman.EigenShapes.C116_constant",
    "OpenKalman.EigenShapes.C116_constant_diagonal",
    "OpenKalman.EigenShapes.C116_triangle",
    "OpenKalman.EigenShapes.C116_one_dimensional",
    "OpenKalman.EigenShapes.C116_square_partial",
    "OpenKalman.EigenShapes.C116_square_violated",
    "OpenKalman.EigenShapes.C116_square_permitted",
    "OpenKalman.EigenShapes.C116_empty_violated",
    "OpenKalman.EigenShapes.C116_hermitian_partial",
    "OpenKalman.EigenShapes.C116_hermitian_complete",
    "OpenKalman.EigenShapes.C116_hermitian_violated"
   ],
   "note": "Dimensions, constants, diagonals, triangles, one-dimensionality and permitted squares hold in full. Guaranteed squares fail for dynamic rows, empty matrices are ill-formed, Hermitian fails for nested matrices that are not square (violated theorems)."
  },
  {
   "property": "C117",
   "status": "partial",
   "theorems": [
    "OpenKalman.EigenShapes.C117_dimension",
    "OpenKalman.EigenShapes.C117_diagonal",
    "OpenKalman.EigenShapes.C117_one_dimensional",
    "OpenKalman.EigenShapes.C117_square_guaranteed",
    "OpenKalman.EigenShapes.C117_square_permitted_partial",
    "OpenKalman.EigenShapes.C117_square_violated",
    "OpenKalman.EigenShapes.C117_matrix_partial",
    "OpenKalman.EigenShapes.C117_matrix_violated",
    "OpenKalman.EigenShapes.C117_count",
    "OpenKalman.EigenShapes.C117_count_violated"
   ],
   "note": "Dimensions, constant diagonals, one-dimensionality and guaranteed squares of wrappers hold. A wrapper is not permitted to be square for N = 2, DiagonalMatrix is guaranteed square for N >= 3, VectorBlock counts its indices wrongly (violated theorems)."
  },
  {
   "property": "C118",
   "status": "proved",
   "theorems": [
    "OpenKalman.Blas.C118_dot",
    "OpenKalman.Blas.C118_dotc_self",
    "OpenKalman.Blas.C118_abs_sum",
    "OpenKalman.Blas.C118_idx_abs_max",
    "OpenKalman.Blas.C118_componentwise"
   ],
   "note": "Exact arithmetic; arrays that are different arguments do not overlap, except the sum stored onto one of its terms."
  },
  {
   "property": "C119",
   "status": "partial",
   "theorems": [
    "OpenKalman.Blas.C119_sum_of_squares",
    "OpenKalman.Blas.C119_two_norm",
    "OpenKalman.Blas.C119_inf_one_norm",
    "OpenKalman.Blas.C119_frob_norm_partial",
    "OpenKalman.Blas.C119_frob_norm_violated"
   ],
   "note": "Sum of squares, two-norm, infinity norm and one-norm hold for all inputs; the Frobenius norm is exact just if the magnitudes do not decrease, row by row (C119_frob_norm_violated otherwise)."
  },
  {
   "property": "C120",
   "status": "proved",
   "theorems": [
    "OpenKalman.Blas.C120_general",
    "OpenKalman.Blas.C120_symmetric",
    "OpenKalman.Blas.C120_hermitian",
    "OpenKalman.Blas.C120_hermitian_is",
    "OpenKalman.Blas.C120_triangular"
   ],
   "note": "All loops of blas2_matrix_vector_product.hpp, exact arithmetic, output not overlapping the inputs (except the in-place form)."
  },
  {
   "property": "C121",
   "status": "proved",
   "theorems": [
    "OpenKalman.Blas.C121_solve",
    "OpenKalman.Blas.C121_unique"
   ],
   "note": "Exact arithmetic; for any division that is one for the diagonal components."
  },
  {
   "property": "C122",
   "status": "proved",
   "theorems": [
    "OpenKalman.Blas.C122_general",
    "OpenKalman.Blas.C122_triangular",
    "OpenKalman.Blas.C122_symmetric_hermitian"
   ],
   "note": "All loops of blas3_matrix_product.hpp, exact arithmetic, output not overlapping the inputs (except the in-place forms)."
  },
  {
   "property": "C123",
   "status": "proved",
   "theorems": [
    "OpenKalman.Blas.C123_left",
    "OpenKalman.Blas.C123_right",
    "OpenKalman.Blas.C123_undo"
   ],
   "note": "Exact arithmetic, non-zero stored diagonal."
  },
  {
   "property": "C124",
   "status": "proved",
   "theorems": [
    "OpenKalman.Blas.C124_general",
    "OpenKalman.Blas.C124_symmetric_rank1",
    "OpenKalman.Blas.C124_symmetric_more",
    "OpenKalman.Blas.C124_hermitian_rank1",
    "OpenKalman.Blas.C124_hermitian_more",
    "OpenKalman.Blas.C124_factor_must_be_real"
   ],
   "note": "Exact arithmetic; for Hermitian updates a real factor (or the overwriting rank-1 form, which takes its real part); that this is needed is proved too."
  },
  {
   "property": "C125",
   "status": "proved",
   "theorems": [
    "OpenKalman.Givens.C125_setup",
    "OpenKalman.Givens.C125_setup_unique",
    "OpenKalman.Givens.C125_apply",
    "OpenKalman.Givens.C125_clears"
   ],
   "note": "Exact finite arithmetic; infinities, for which the loops of the code do not end, are not modelled."
  },
  {
   "property": "C126",
   "status": "partial",
   "theorems": [
    "OpenKalman.Givens.C126_rotation",
    "OpenKalman.Givens.C126_r_partial",
    "OpenKalman.Givens.C126_small_wrong",
    "OpenKalman.Givens.C126_r_violated",
    "OpenKalman.Givens.C126_apply"
   ],
   "note": "r is wrong for numbers at most safmn2\u00b2 in size (C126_r_violated, C126_small_wrong); everything else holds. In the branch for a tiny f unitarity holds up to safmin/safmn2\u00b2 (2^-52 for double)."
  },
  {
   "property": "C127",
   "status": "partial",
   "theorems": [
    "OpenKalman.LinalgViews.C127_transposed",
    "OpenKalman.LinalgViews.C127_twice_partial",
    "OpenKalman.LinalgViews.C127_twice_violated"
   ],
   "note": "Extents, places in memory and strides proved for all layouts; twice proved for the three standard layouts. For other layouts a second transposition does not compile (C127_twice_violated)."
  },
  {
   "property": "C128",
   "status": "proved",
   "theorems": [
    "OpenKalman.LinalgViews.C128_conjugated",
    "OpenKalman.LinalgViews.C128_conjugated_twice",
    "OpenKalman.LinalgViews.C128_scaled",
    "OpenKalman.LinalgViews.C128_conjugate_transposed"
   ],
   "note": "All nestings of accessors."
  },
  {
   "property": "C129",
   "status": "partial",
   "theorems": [
    "OpenKalman.Randomize.C129_filled_partial",
    "OpenKalman.Randomize.C129_layout_violated",
    "OpenKalman.Randomize.C129_lvalue_violated"
   ],
   "note": "Holds but for one distribution per element in a column-major matrix, and numbers passed as lvalues; both negations are proved."
  },
  {
   "property": "C130",
   "status": "partial",
   "theorems": [
    "OpenKalman.Randomize.C130_independent_partial"
   ],
   "note": "Independence and laws under the preconditions of C129; the cases missing are those in which C129 fails."
  },
  {
   "property": "C131",
   "status": "proved",
   "theorems": [
    "OpenKalman.LinSys.C131_error",
    "OpenKalman.LinSys.C131_best"
   ],
   "note": "Exact arithmetic; numbers real; the filter is the model of Model/Kalman.lean with any library routines that meet their specifications; Euclidean patterns; the covariance of the noise of each measurement is positive definite."
  },
  {
   "property": "C132",
   "status": "proved",
   "theorems": [
    "OpenKalman.LinSys.C132_conditional",
    "OpenKalman.LinSys.C132_independent"
   ],
   "note": "As C131; the initial state and the noises jointly Gaussian and measurable; C132_independent shows that independent Gaussian vectors are. Normality of the error is stated for all its linear functions."
  },
  {
   "property": "C133",
   "status": "proved",
   "theorems": [
    "OpenKalman.Moments.C133_cubature",
    "OpenKalman.Moments.C133_unscented",
    "OpenKalman.Moments.C133_normal"
   ],
   "note": "Cubature and unscented points, real scalars, unwrapped outputs; every law with vanishing third central moments. C133_normal shows that Gaussian vectors qualify."
  },
  {
   "property": "C134",
   "status": "partial",
   "theorems": [
    "OpenKalman.SecondOrder.C134_exact_partial",
    "OpenKalman.SecondOrder.C134_finite_partial",
    "OpenKalman.SecondOrder.C134_mixed_violated"
   ],
   "note": "Exact for functions quadratic in the input and in each noise term; the code leaves out mixed terms (C134_mixed_violated)."
  },
  {
   "property": "C135",
   "status": "partial",
   "theorems": [
    "OpenKalman.Moments.C135_scalar",
    "OpenKalman.Moments.C135_default_partial",
    "OpenKalman.Moments.C135_pair_violated"
   ],
   "note": "Exact for scalar input without noise; closed formula for all parameters. False for two dimensions (C135_pair_violated)."
  },
  {
   "property": "C136",
   "status": "proved",
   "theorems": [
    "OpenKalman.LinSys.C136_bound",
    "OpenKalman.LinSys.C136_chebyshev"
   ],
   "note": "Any laws, any finite sequence of moves and measurements, both forms; includes a Chebyshev bound. Noise means are told correctly."
  },
  {
   "property": "C137",
   "status": "proved",
   "theorems": [
    "OpenKalman.Kalman.C137_monotone",
    "OpenKalman.Kalman.C137_square_root"
   ],
   "note": "Real and complex; updates need non-degenerate told noise."
  },
  {
   "property": "C138",
   "status": "proved",
   "theorems": [
    "OpenKalman.Kalman.C138_affine",
    "OpenKalman.Kalman.C138_difference"
   ],
   "note": "Real and complex; updates need non-degenerate told noise."
  },
  {
   "property": "C139",
   "status": "partial",
   "theorems": [
    "OpenKalman.EigenHooks.C139_definite_partial",
    "OpenKalman.EigenHooks.C139_semidefinite_partial",
    "OpenKalman.EigenHooks.C139_rejects_partial",
    "OpenKalman.EigenHooks.C139_pivot_violated",
    "OpenKalman.EigenHooks.C139_negative_violated",
    "OpenKalman.EigenHooks.C139_zero_diagonal_violated",
    "OpenKalman.EigenHooks.C139_upper_storage_violated",
    "OpenKalman.EigenHooks.C139_dynamic_violated"
   ],
   "note": "positive definite matrices; semidefinite ones if Eigen's exchange leaves the matrix unchanged; indefinite ones with a non-zero diagonal are refused; the rest is violated by the code"
  },
  {
   "property": "C140",
   "status": "partial",
   "theorems": [
    "OpenKalman.EigenHooks.C140_hermitian",
    "OpenKalman.EigenHooks.C140_update",
    "OpenKalman.EigenHooks.C140_downdate_partial",
    "OpenKalman.EigenHooks.C140_throws",
    "OpenKalman.EigenHooks.C140_semidefinite_violated"
   ],
   "note": "all updates, and all downdates to a positive definite result; a singular result is refused (violated by the code)"
  },
  {
   "property": "C141",
   "status": "partial",
   "theorems": [
    "OpenKalman.EigenHooks.C141_definite",
    "OpenKalman.EigenHooks.C141_semidefinite_partial",
    "OpenKalman.EigenHooks.C141_triangular",
    "OpenKalman.EigenHooks.C141_unique",
    "OpenKalman.EigenHooks.C141_exact",
    "OpenKalman.EigenHooks.C141_exact_bound",
    "OpenKalman.EigenHooks.C141_unique_only",
    "OpenKalman.EigenHooks.C141_neither_partial",
    "OpenKalman.EigenHooks.C141_indefinite_violated",
    "OpenKalman.EigenHooks.C141_flags_violated",
    "OpenKalman.EigenHooks.C141_neither_violated"
   ],
   "note": "definite and semidefinite, triangular and general systems; indefinite Hermitian ones, flags for Hermitian ones and wide systems without flags are violated by the code"
  },
  {
   "property": "C142",
   "status": "proved",
   "theorems": [
    "OpenKalman.EigenHooks.C142_qr",
    "OpenKalman.EigenHooks.C142_lq",
    "OpenKalman.EigenHooks.C142_adjoint"
   ],
   "note": "for every library meeting the contract"
  },
  {
   "property": "C143",
   "status": "partial",
   "theorems": [
    "OpenKalman.EigenHooks.C143_filter_partial",
    "OpenKalman.EigenHooks.C143_start",
    "OpenKalman.EigenHooks.C143_singular_violated"
   ],
   "note": "all histories of regular calls from a positive definite prior; a singular prior makes the update throw (violated by the code)"
  },
  {
   "property": "C144",
   "status": "partial",
   "theorems": [
    "OpenKalman.Transformation.C144_partial",
    "OpenKalman.Transformation.C144_given",
    "OpenKalman.Transformation.C144_temporary_violated",
    "OpenKalman.Transformation.C144_changed_violated",
    "OpenKalman.Transformation.C144_copy_violated",
    "OpenKalman.Transformation.C144_violated"
   ],
   "note": "Proved for all programs that leave alone the function objects of transformations made without an explicit Jacobian and copy only const transformations or ones with a Jacobian. The code keeps a reference to the constructor argument for default derivatives (dangling for temporaries) and refuses copies of non-const order-0 transformations."
  },
  {
   "property": "C145",
   "status": "partial",
   "theorems": [
    "OpenKalman.Transformation.C145_once",
    "OpenKalman.Transformation.C145_same_point_partial",
    "OpenKalman.Transformation.C145_same_point_violated",
    "OpenKalman.Transformation.C145_linear",
    "OpenKalman.Transformation.C145_identity_partial",
    "OpenKalman.Transformation.C145_identity_violated"
   ],
   "note": "Each call samples each distribution once, in any order of evaluation. Value and derivatives use different samples, and IdentityTransformation does not sample."
  },
  {
   "property": "C146",
   "status": "partial",
   "theorems": [
    "OpenKalman.Comma.C146_fill",
    "OpenKalman.Comma.C146_only_tableaux",
    "OpenKalman.Comma.C146_overwrites",
    "OpenKalman.Comma.C146_mean",
    "OpenKalman.Comma.C146_finished_violated",
    "OpenKalman.Comma.C146_finished_partial",
    "OpenKalman.Comma.C146_kept_violated",
    "OpenKalman.Comma.C146_diagonal",
    "OpenKalman.Comma.C146_kept_diagonal_violated",
    "OpenKalman.Comma.C146_covariance_partial",
    "OpenKalman.Comma.C146_square_root",
    "OpenKalman.Comma.C146_complex_diagonal_violated",
    "OpenKalman.Comma.C146_other_triangle"
   ],
   "note": "A list of blocks is accepted iff it forms a tableau, whose values are then written; means, diagonal matrices, covariances and square roots follow. Violated for finished() of a mean, initialisers that are kept, and complex diagonal covariances. Eigen's CommaInitializer is modelled after Eigen 3.4."
  },
  {
   "property": "C147",
   "status": "partial",
   "theorems": [
    "OpenKalman.TypedOps.C147_vertical_partial",
    "OpenKalman.TypedOps.C147_horizontal_partial",
    "OpenKalman.TypedOps.C147_mixed_violated",
    "OpenKalman.TypedOps.C147_diagonal_partial",
    "OpenKalman.TypedOps.C147_diagonal_violated",
    "OpenKalman.TypedOps.C147_split",
    "OpenKalman.TypedOps.C147_split_concat",
    "OpenKalman.TypedOps.C147_split_columns"
   ],
   "note": "Concatenation is proved for parts that are all Euclidean-transformed or none, along the diagonal for parts that are not; splitting and round trips without such conditions. The code refuses or breaks the other cases, which is proved as C147_mixed_violated and C147_diagonal_violated."
  },
  {
   "property": "C148",
   "status": "proved",
   "theorems": [
    "OpenKalman.TypedOps.C148_invariant",
    "OpenKalman.TypedOps.C148_points",
    "OpenKalman.TypedOps.C148_points_returned",
    "OpenKalman.TypedOps.C148_coefficients_agree"
   ],
   "note": "Column patterns are of plain axes; functions see the numbers of the columns."
  },
  {
   "property": "C149",
   "status": "partial",
   "theorems": [
    "OpenKalman.TypedOps.C149_solve_partial",
    "OpenKalman.TypedOps.C149_angles_violated"
   ],
   "note": "Proved for Matrix right sides and for means without angles. With angles the result is wrapped and no solution: C149_angles_violated."
  },
  {
   "property": "C150",
   "status": "proved",
   "theorems": [
    "OpenKalman.SigmaFilter.C150_semidefinite",
    "OpenKalman.SigmaFilter.C150_definite",
    "OpenKalman.SigmaFilter.C150_parameters"
   ],
   "note": "For all functions, admissible parameters and square roots. The need for beta >= alpha^2 is shown by C150_parameters."
  },
  {
   "property": "C151",
   "status": "proved",
   "theorems": [
    "OpenKalman.SigmaFilter.C151_invariant",
    "OpenKalman.SigmaFilter.C151_history"
   ],
   "note": "The solver is a contract: it solves solvable systems. Square roots are arbitrary (C151_invariant) or those of the library (C151_history)."
  },
  {
   "property": "C152",
   "status": "partial",
   "theorems": [
    "OpenKalman.SigmaFilter.C152_nonnegative",
    "OpenKalman.SigmaFilter.C152_negative_partial",
    "OpenKalman.SigmaFilter.C152_dependent_violated",
    "OpenKalman.SigmaFilter.C152_many_outputs_violated",
    "OpenKalman.SigmaFilter.C152_history_partial"
   ],
   "note": "False as stated: the default unscented form throws for dependent or many outputs (two violated theorems). Proved without a negative weight, with an exact condition otherwise, and through histories with added positive definite noise."
  },
  {
   "property": "C153",
   "status": "partial",
   "theorems": [
    "OpenKalman.Containers.C153_chain_partial",
    "OpenKalman.Containers.C153_elements",
    "OpenKalman.Containers.C153_array",
    "OpenKalman.Containers.C153_bytes",
    "OpenKalman.Containers.C153_convert_violated",
    "OpenKalman.Containers.C153_overflow_violated"
   ],
   "note": "False as stated: conversion to a static extent and the end of subspan are not checked (two violated theorems). Proved for all other chains, with and without checks."
  },
  {
   "property": "C154",
   "status": "partial",
   "theorems": [
    "OpenKalman.Containers.C154_construct",
    "OpenKalman.Containers.C154_values",
    "OpenKalman.Containers.C154_convert_partial",
    "OpenKalman.Containers.C154_size_partial",
    "OpenKalman.Containers.C154_size_violated",
    "OpenKalman.Containers.C154_array_violated",
    "OpenKalman.Containers.C154_moved_violated"
   ],
   "note": "False as stated for size() with gaps, arrays of fixed size, moved-from arrays (three violated theorems). Construction and value semantics proved in full; conversion with assertions; size exactly if the layout has no gaps."
  },
  {
   "property": "C155",
   "status": "proved",
   "theorems": [
    "OpenKalman.Steady.C155_call",
    "OpenKalman.Steady.C155_least",
    "OpenKalman.Steady.C155_converges",
    "OpenKalman.Steady.C155_iff",
    "OpenKalman.Steady.C155_square_root"
   ],
   "note": "Exact scalars; the matrices of the filter's calls are constant, the measurements are not. About predict and update called in turn; operator(), which means the same, cannot be instantiated (KalmanFilter.hpp:178)."
  },
  {
   "property": "C156",
   "status": "proved",
   "theorems": [
    "OpenKalman.Steady.C156_forgets",
    "OpenKalman.Steady.C156_finds"
   ],
   "note": "The two filters start with the same covariance; with different covariances their means approach each other if the measurements are those of a state that moves as told. About predict and update called in turn; operator() cannot be instantiated (KalmanFilter.hpp:178)."
  },
  {
   "property": "C157",
   "status": "partial",
   "theorems": [
    "OpenKalman.Stages.C157_slices_partial",
    "OpenKalman.Stages.C157_grouped_partial",
    "OpenKalman.Stages.C157_grouping_violated",
    "OpenKalman.Stages.C157_single_violated",
    "OpenKalman.Stages.C157_several",
    "OpenKalman.Stages.C157_matched"
   ],
   "note": "Proved: the right slices are taken, and given groups each stage gets its own terms. Violated: the groups are concatenated, so that every call is refused."
  },
  {
   "property": "C158",
   "status": "partial",
   "theorems": [
    "OpenKalman.ToContainer.C158_right",
    "OpenKalman.ToContainer.C158_accepts_partial",
    "OpenKalman.ToContainer.C158_sets_refused",
    "OpenKalman.ToContainer.C158_standard_violated",
    "OpenKalman.ToContainer.C158_initial",
    "OpenKalman.ToContainer.C158_closure"
   ],
   "note": "Whatever is returned is right and accepted by the standard; containers that can be filled element by element are accepted. Sets and forward lists are refused by the code (violated)."
  },
  {
   "property": "C159",
   "status": "partial",
   "theorems": [
    "OpenKalman.FixedSize.C159_make",
    "OpenKalman.FixedSize.C159_contradiction",
    "OpenKalman.FixedSize.C159_operation",
    "OpenKalman.FixedSize.C159_in_place",
    "OpenKalman.FixedSize.C159_expressions",
    "OpenKalman.FixedSize.C159_forgets_violated",
    "OpenKalman.FixedSize.C159_square_violated",
    "OpenKalman.FixedSize.C159_broadcast_violated"
   ],
   "note": "Claims are true and as good as they can be for every expression of the operations modelled; three ways in which the code loses or invents sizes are proved as violations."
  },
  {
   "property": "C160",
   "status": "proved",
   "theorems": [
    "OpenKalman.Frames.C160_covariant",
    "OpenKalman.Frames.C160_square_root"
   ],
   "note": "For linear transformations on Euclidean patterns, exact scalars."
  },
  {
   "property": "C161",
   "status": "proved",
   "theorems": [
    "OpenKalman.Frames.C161_least_squares",
    "OpenKalman.Frames.C161_profile",
    "OpenKalman.Frames.C161_square_root"
   ],
   "note": "For linear transformations on Euclidean patterns, exact scalars. The profile of the cost (C161_profile) needs a final covariance of full rank; the minimum does not."
  },
  {
   "property": "C162",
   "status": "partial",
   "theorems": [
    "OpenKalman.SigmaFrames.C162_reaches",
    "OpenKalman.SigmaFrames.C162_lower_partial",
    "OpenKalman.SigmaFrames.C162_order_violated"
   ],
   "note": "Proved for any choice of corresponding square roots (C162_reaches) and, with lower Cholesky factors as in the code, for lower triangular changes of coordinates with positive diagonal (C162_lower_partial); exchanging components changes the result (C162_order_violated)."
  },
  {
   "property": "C163",
   "status": "proved",
   "theorems": [
    "OpenKalman.LinSys.C163_evidence",
    "OpenKalman.LinSys.C163_calls"
   ],
   "note": "The sum of log-likelihoods along the filter is the logarithm of the joint density of all measured numbers, in both forms; the density is a density of the law of the measurements."
  },
  {
   "property": "C164",
   "status": "proved",
   "theorems": [
    "OpenKalman.Kalman.C164_continuous",
    "OpenKalman.Kalman.C164_continuous_root",
    "OpenKalman.Kalman.C164_much_noise",
    "OpenKalman.Kalman.C164_little_noise",
    "OpenKalman.Kalman.C164_no_prior"
   ],
   "note": "Continuity of whole histories in both forms; limits of one update as measurement noise grows, vanishes, and as the prior covariance grows."
  },
  {
   "property": "C165",
   "status": "partial",
   "theorems": [
    "OpenKalman.Makers.C165_accepts_violated",
    "OpenKalman.Makers.C165_empty_violated",
    "OpenKalman.Makers.C165_accepts_partial",
    "OpenKalman.Makers.C165_open",
    "OpenKalman.Makers.C165_open_matrix",
    "OpenKalman.Makers.C165_zero",
    "OpenKalman.Makers.C165_extents",
    "OpenKalman.Makers.C165_components_partial",
    "OpenKalman.Makers.C165_count",
    "OpenKalman.Makers.C165_column_violated",
    "OpenKalman.Makers.C165_row_violated",
    "OpenKalman.Makers.C165_matrix_partial",
    "OpenKalman.Makers.C165_eigen",
    "OpenKalman.Makers.C165_mean_partial",
    "OpenKalman.Makers.C165_mean_whole",
    "OpenKalman.Makers.C165_square",
    "OpenKalman.Makers.C165_covariance",
    "OpenKalman.Makers.C165_covariance_axes",
    "OpenKalman.Makers.C165_lower_violated",
    "OpenKalman.Makers.C165_lower_partial",
    "OpenKalman.Makers.C165_constructor",
    "OpenKalman.Makers.C165_root_violated",
    "OpenKalman.Makers.C165_root_partial",
    "OpenKalman.Makers.C165_scalar_violated"
   ],
   "note": "Extents and components proved for all lists whose length fits; wrong lengths never give an object. Violated: multiples of the size and empty lists at the constraint, columns (row-major default) and rows listed by columns, the documented triangle, square-root covariances (ill-formed) and their scalar type. Conversion of numbers and tensors are not modelled."
  },
  {
   "property": "C166",
   "status": "partial",
   "theorems": [
    "OpenKalman.TypeMatch.C166_match",
    "OpenKalman.TypeMatch.C166_may_violated",
    "OpenKalman.TypeMatch.C166_may_complete",
    "OpenKalman.TypeMatch.C166_may_partial",
    "OpenKalman.TypeMatch.C166_may_two",
    "OpenKalman.TypeMatch.C166_may_first",
    "OpenKalman.TypeMatch.C166_match_may"
   ],
   "note": "patterns_match_with proved for all types; patterns_may_match_with never refuses types that can agree, and is exact for two types or a first type with all extents fixed. Violated: the first type is compared with the others, but these not with each other."
  },
  {
   "property": "C167",
   "status": "proved",
   "theorems": [
    "OpenKalman.LinSys.C167_white",
    "OpenKalman.LinSys.C167_squares",
    "OpenKalman.LinSys.C167_independent"
   ],
   "note": "Residuals of update along any history: mean zero, covariance P_yy, uncorrelated, same affine span as the measurements; expected weighted squares equal the count; independent and Gaussian in Gaussian systems; both forms."
  },
  {
   "property": "C168",
   "status": "proved",
   "theorems": [
    "OpenKalman.Joint.C168_independent",
    "OpenKalman.Joint.C168_square_root",
    "OpenKalman.Joint.C168_paired",
    "OpenKalman.Joint.C168_concatenate"
   ],
   "note": "For every interleaving of joint and separate measurements, in self-adjoint and in Cholesky form; the joint object is the one that concatenate makes."
  },
  {
   "property": "C169",
   "status": "partial",
   "theorems": [
    "OpenKalman.Lifetimes.C169_sound_partial",
    "OpenKalman.Lifetimes.C169_exact_partial",
    "OpenKalman.Lifetimes.C169_temporary",
    "OpenKalman.Lifetimes.C169_destroyed_violated",
    "OpenKalman.Lifetimes.C169_moved_violated",
    "OpenKalman.Lifetimes.C169_assigned_violated"
   ],
   "note": "Proved for programs that keep the views of which other views were made; views::all takes named views by pointer (violations proved)."
  },
  {
   "property": "C170",
   "status": "proved",
   "theorems": [
    "OpenKalman.SigmaFilter.C170_transform",
    "OpenKalman.SigmaFilter.C170_bias",
    "OpenKalman.SigmaFilter.C170_history",
    "OpenKalman.SigmaFilter.C170_coded"
   ],
   "note": "C170_transform, C170_bias, C170_history, C170_coded: for continuously differentiable models, the sample-point transform and the filters built on it tend to the linearised ones as the standard deviations shrink, for all admissible parameters and square roots. Exact arithmetic; patterns without wrapping."
  },
  {
   "property": "C171",
   "status": "partial",
   "theorems": [
    "OpenKalman.Signs.C171_classes",
    "OpenKalman.Signs.C171_signbit_partial",
    "OpenKalman.Signs.C171_copysign_partial",
    "OpenKalman.Signs.C171_copysign_integer_partial",
    "OpenKalman.Signs.C171_abs",
    "OpenKalman.Signs.C171_abs_partial",
    "OpenKalman.Signs.C171_sqrt",
    "OpenKalman.Signs.C171_hypot",
    "OpenKalman.Signs.C171_hypot_partial",
    "OpenKalman.Signs.C171_fmod_partial",
    "OpenKalman.Signs.C171_signs_violated",
    "OpenKalman.Signs.C171_hypot_violated",
    "OpenKalman.Signs.C171_fmod_violated",
    "OpenKalman.Signs.C171_atan2_partial",
    "OpenKalman.Signs.C171_atan2_violated"
   ],
   "note": "Classes of numbers, sqrt in all cases, and hypot, fmod, abs, and atan2 away from zeros whose sign bit matters, up to the sign of a zero are proved; signbit, copysign, abs and hypot exactly when signs can be seen. The code loses the signs of zeros: counterexamples proved. Finite arithmetic is exact."
  },
  {
   "property": "C172",
   "status": "partial",
   "theorems": [
    "OpenKalman.Kalman.C172_bounded",
    "OpenKalman.Kalman.C172_error",
    "OpenKalman.Kalman.C172_converges",
    "OpenKalman.Kalman.C172_windup",
    "OpenKalman.Kalman.C172_cross_iff",
    "OpenKalman.Kalman.C172_cross_partial",
    "OpenKalman.Kalman.C172_cross_violated"
   ],
   "note": "Bounds, convergence and the growth in unobserved directions are proved in full. The cross-covariance is that of a joint distribution exactly if noise makes up for it (iff proved); without noise and with a factor below 1 it is not, and an update with it reports a negative covariance: counterexample proved."
  },
  {
   "property": "C173",
   "status": "proved",
   "theorems": [
    "OpenKalman.MonteCarlo.C173_consistent",
    "OpenKalman.MonteCarlo.C173_unbiased"
   ],
   "note": "Expectations, variance of the mean and almost sure limits, for any order of the reduction. That the generator yields independent draws is a hypothesis; angular outputs do not compile (C114)."
  },
  {
   "property": "C174",
   "status": "proved",
   "theorems": [
    "OpenKalman.MonteCarlo.C174_singular",
    "OpenKalman.MonteCarlo.C174_sharp"
   ],
   "note": "Exact scalars and Euclidean outputs; samples are given. Singularity is of the transform's own covariance. The bound is sharp for every number of components (C174_sharp)."
  }
 ]
}