{
 "C01": {"status": "proved", "note": "For all limits min<=0<max and all reals; the canonical value is characterised as unique."},
 "C02": {"status": "partial", "note": "Proved for the scaled branch (all limits). In the unscaled branch (limits exactly [-pi,pi)) it is false: C02_violated_at_pi; C02_round_trip_unscaled gives the exact result there."},
 "C03": {"status": "proved", "note": "Identification iff whole periods apart; decoding scale-invariant, range, and re-encoding normalises."},
 "C04": {"status": "proved", "note": "Canonical, unique, idempotent, even, periodic, equal to decode of encode, injective on the range."},
 "C05": {"status": "partial", "note": "Wrap and round trip proved. Decoding an arbitrary statistical value does not enforce non-negativity: C05_decode_can_be_negative."},
 "C06": {"status": "proved", "note": "Point preservation, canonicity, uniqueness for positive radius, round trip outside the unscaled branch; exact result inside it."},
 "C07": {"status": "proved", "note": "Point and direction preserved, ranges, fixed points, idempotence."},
 "C08": {"status": "proved", "note": "Round trip preserves radius magnitude and direction; equals wrap exactly away from the poles, and azimuth 0 at the poles."},
 "C09": {"status": "partial", "note": "Blockwise action, lengths, concatenation and whole-pattern round trip for every pattern; from_stat_space of a dynamic pattern under __cpp_lib_containers_ranges is shown to be wrong (C09_from_stat_dynamic_violated)."},
 "C10": {"status": "partial", "note": "Additivity and identity for all presentations; an empty dynamic range of a non-Euclidean type is shown to be reported as non-Euclidean."},
 "C11": {"status": "proved", "note": "Keys of non-Euclidean descriptors are their hash codes (see C13)."},
 "C12": {"status": "partial", "note": "Dispatcher equals the prefix order except for four presentations shown to disagree (C12_violated)."},
 "C13": {"status": "partial", "note": "Equal hash implies equal kind; collisions within a kind are exhibited (C13_violated), so the full claim is false."},
 "C14": {"status": "partial", "note": "Comparison is entry-by-entry with padding when both sizes are compile-time, or sizes agree and are non-zero, or the types leave the answer open; C14_violated proves the compile-time shortcut wrong otherwise (collections of two and of three distances compare equal). Stripping, the versions of stripping, equality via stripping and the equivalence relation are proved in full."},
 "C15": {"status": "partial", "note": "Compile-time access, iteration, size, involution and the closure's shortcut are proved; iterator subscripts (used for run-time indexing) are proved only where the offset does not cross a swapped position, and C15_subscript_violated shows the code reading the wrong entry otherwise."},
 "C16": {"status": "proved", "note": "Any pattern comparison obeying the partial-order laws (proved for descriptor lists in C11). The dimension statement needs hash codes to determine dimensions (see C13)."},
 "C17": {"status": "partial", "note": "Largest/smallest proved for both versions. Uniform components: a one-dimensional answer is right (C17_uniform_partial), the membership test is exact for ranges with at least one axis; C17_uniform_violated gives a two-dimensional answer and missing answers."},
 "C18": {"status": "proved", "note": "By structural induction over nested view expressions: size, compile-time access, iterator access at any position and offset, and iteration agree with list operations. An out-of-range slice is undefined behaviour (C18_slice_unchecked)."},
 "C19": {"status": "proved", "note": "Recursive and loop versions agree for every fixed/dynamic combination; result characterised as lexicographic order; order laws inherited from the element comparison."},
 "C20": {"status": "proved", "note": "Characterised for all fixed/dynamic/unsized combinations with at least one sized argument; C20_prefix_not_transitive shows why transitivity is restricted to equal lengths."},
 "C21": {"status": "proved", "note": "All n, both triangles, both orders: in span, strictly ordered, bijective, symmetric. Collisions for non-square extents and for stacks of matrices are proved as scope limits."},
 "C22": {"status": "proved", "note": "Square matrices and stacks of them over an arbitrary nested mapping; rank-1 too. Failure for non-square matrices proved with witnesses."},
 "C23": {"status": "proved", "note": "Layout and accessor composed, arbitrary nested layout and content."},
 "C24": {"status": "partial", "note": "The code violates the law for every offset 0<i<P (proved); it holds at offset 0 and for the constant accessor."},
 "C25": {"status": "partial", "note": "Reads, round trip, uniqueness of diagonal_of proved. Declared span fails for nested span 1, is_unique fails for rank 3, diagonal_of strides fail for rank > 2: each refuted with a witness and proved on the remaining cases."},
 "C26": {"status": "partial", "note": "Reads, span, uniqueness, involution proved for all ranks; strides proved when both indices exist in the nested object, and refuted when the second is an implicit trailing index."},
 "C27": {"status": "partial", "note": "Proved for every base of a field and every exponent except the least of its type, whose negation overflows (negation proved). The overload with a real exponent disagrees with the standard for exponents of integral value: negations proved."},
 "C28": {"status": "partial", "note": "Logarithm: termination, core interval and exactness proved for every positive real. Exponential: proved for arguments within the range of int; outside the conversion is undefined (negation proved)."},
 "C29": {"status": "proved", "note": "For every non-empty list of reals, and the complex overload as principal root of the sum of squares; exact arithmetic."},
 "C30": {"status": "proved", "note": "Every complex number, with uniqueness of the root; exact arithmetic without signed zeros."},
 "C31": {"status": "partial", "note": "Remainder contract, exceptions and NaN proved; a quotient of exactly 2^63 passes the test and its conversion is undefined (negation proved)."},
 "C32": {"status": "partial", "note": "Real overload proved for all arguments. The complex overload agrees only on or right of the imaginary axis and on the real axis; to the left it is always half a turn off (negation proved)."},
 "C33": {"status": "proved", "note": "Every complex number, with the principal range of the real part and agreement with the real functions."},
 "C34": {"status": "partial", "note": "Whenever trace returns a value it is the sum of the diagonal, for every shape and truthful tagging, with no side condition. It returns a value for everything except two cases, both proved to fail: a constant on a proper triangle does not compile, and a triangular object empty at run time is reduced over nothing."},
 "C35": {"status": "partial", "note": "Whenever determinant returns a value the argument is square and the value is Mathlib's Matrix.det. It returns a value for every square argument except the two cases of C34; the empty run-time triangle is shown to fail. The library determinant of an untagged matrix is taken to be exact."},
 "C36": {"status": "partial", "note": "contract equals the matrix product with truthful tags on all three library paths for all nonempty square operands, for all operands that are not diagonal, and for rectangular diagonal ones exactly when a stated shape condition holds (iff theorems). The code loses the shape of a 3x2 diagonal times a constant and of a product of rectangular diagonals; both are exhibited."},
 "C37": {"status": "partial", "note": "Sum of any nonempty list with any tags equals the elementwise sum and does not depend on the order, for square shapes or if at most one argument is a nonzero diagonal. Two 2x3 diagonals are shown to sum to a 2x2 result."},
 "C38": {"status": "partial", "note": "Matrices: values, shapes and involution without side condition; transpose keeps tags truthful; conjugate keeps them truthful except for nonreal constants on a proper triangle, where the negation is proved. Tensors of any rank: indices 0 and 1 for all tags, other pairs for untagged and constant tensors; a 2x2x2 tensor with symmetric slices is shown to be returned unchanged by transpose<0,2>."},
 "C39": {"status": "partial", "note": "Any operation over any indices on constants and on non-diagonal objects; sums and products of diagonal ones under stated shape conditions; reduction to a scalar; averages along indices and over everything. Violations proved: row sums of a static n x n diagonal come back 1x1, the total product of a static diagonal does not compile (n x n) or recurses for ever (n x 1), product over an empty zero object is 0."},
 "C40": {"status": "partial", "note": "Tiling is exact when the blocks fit (C40_tile, C40_tile_iff); vertical, horizontal and diagonal concatenation and their splitting are proved for column-shaped or diagonal cases. The rest is false and shown by the _violated theorems: split<0>/split<1> shapes, empty last block, misfit detected after the write, rank 3, diagonal operands ill-formed, mixed diagonal/triangular operands, complex Hermitian operands with different storage triangles."},
 "C41": {"status": "partial", "note": "set_slice/get_slice round trip, untouched elements and rejection of out-of-range blocks are proved; get_slice with explicitly named indices and get_chip<0> give the wrong shape (C41_get_slice_rows_violated, C41_get_chip_row_violated, C41_get_slice_leading_violated), and nullary chipwise with zero chips writes out of range."},
 "C42": {"status": "partial", "note": "Exact shortcuts (one-dimensional, diagonal, constant-diagonal, constant with constant right-hand side) proved for every input with nonzero divisors; least squares proved for a square constant matrix; the code returns the wrong shape for rectangular constant matrices, wraps complex solutions as Hermitian, ignores must_be_exact for a zero matrix and accepts mismatched rows in the diagonal branch."},
 "C43": {"status": "partial", "note": "Cholesky factor and square, LQ, QR and both rank updates; shortcuts proved to accept and be right without the library, other branches given a correct library. Missing and shown to fail: LQ of a static column, a constant of run-time size one, complex 1x1 triangular update (missing conjugate), zero A with tall diagonal or static column U."},
 "C44": {"status": "partial", "note": "Refinement proved for every history on covariances with an assignable nested matrix; for a non-assignable nested matrix the code returns stale values (negation proved)."},
 "C45": {"status": "partial", "note": "The code violates the property: copy/move assignment tests the target's synchronisation flag instead of the source's. Negation proved with a history; proved for all histories meeting the guard; exact set of bad flag pairs proved."},
 "C46": {"status": "partial", "note": "Const reads and set_component through a reference view skip synchronisation: stale read and lost update proved. All other interleavings proved coherent."},
 "C47": {"status": "partial", "note": "Covariance arithmetic for every size, stored form (self-adjoint, diagonal, either triangle), plain or square root, over real and complex scalars: sum, difference, products, scalar product and quotient, negation, scale and inverse scale by scalars and matrices, and the in-place versions in every synchronisation state. Partial because the code differs from the property for scalar products of square roots, negative scaling of square roots stored as squares, complex scale factors and some in-place arguments (each with a proved counterexample)."},
 "C48": {"status": "proved", "note": "For every solver meeting its specification; singular measurement covariances included (C48_solvable). Exact arithmetic."},
 "C49": {"status": "proved", "note": "By induction over histories with changing dimensions; updates need positive definite total measurement noise. Exact arithmetic."},
 "C50": {"status": "proved", "note": "By induction over histories; the LQ decomposition and rank update are specified, not modelled step by step. Exact arithmetic. C50_cycle is about what operator() means; as written it cannot be instantiated (KalmanFilter.hpp:178)."},
 "C51": {"status": "proved", "note": "Stacked = sequential for any Hermitian prior with invertible innovation covariances; order independence for positive definite noise."},
 "C52": {"status": "proved", "note": "Information form, completion of the square, and Bayes' rule for the normal densities."},
 "C53": {"status": "partial", "note": "Moments, padding, Cholesky form and composition proved for any number of noise terms and transforms. The cross-covariance of consecutive transforms and the noise of LinearTransform with an IdentityTransformation are wrong in the code: negations proved."},
 "C54": {"status": "proved", "note": "Closed form of the information matrix and unique minimisation of the weighted sum of squares for every history and every positive forgetting factor."},
 "C55": {"status": "proved", "note": "Positive semidefinite, zero for zero Hessians, exact mean for every quadratic function; covariance exact for variables with normal moments up to order four."},
 "C56": {"status": "proved", "note": "For every number of blocks (an input and any noise terms) of positive dimension: points exist, match mean and covariance, weights add up to one, affine functions are propagated exactly with cross-covariance, means of quadratic functions are exact, consecutive functions of any kind equal their composite, Cholesky form agrees. Euclidean outputs, exact scalars. The cross-covariance of consecutive transformations is wrong (C56_cross_violated)."},
 "C57": {"status": "proved", "note": "For all alpha /= 0, beta, and kappa with dim + kappa > 0, and every block structure. The Cholesky form with a negative first weight agrees whenever the covariance is positive semidefinite. Euclidean outputs, exact scalars."},
 "C58": {"status": "partial", "note": "The claim is false for the code: the coefficient is a quotient of integers. Proved: with the default parameters it divides by zero in every dimension; with any other weight the points, if defined, never match the moments; the published formula does match them."},
 "C59": {"status": "proved", "note": "For every list of at least two samples, and every order and grouping with the initial value used once (as std::reduce does). Euclidean outputs; samples are given; exact scalars."},
 "C60": {"status": "partial", "note": "Stated with actual Gaussian random vectors (Mathlib's multivariateGaussian and independence): sum, matrix and scalar multiples, division, concatenation and in-place operators proved for every stored form and synchronisation state; splitting proved except for Cholesky factors that are not block diagonal, where it is shown to fail. operator- is shown never to describe the difference of independent vectors (covariances are subtracted) unless the subtrahend is certain; it is shown to undo operator+."},
 "C61": {"status": "proved", "note": "For every positive definite covariance in every stored form and every list of observations: log_likelihood is the sum of the logarithms of a function proved to be the density of the Gaussian law with respect to Lebesgue measure; entropy is half log2 of (2 pi e)^n det P and is proved equal to the differential entropy integral. solve is assumed to solve positive definite systems."},
 "C62": {"status": "partial", "note": "Finite-difference jacobian and hessian of LinearizedTransformation: inputs restored on normal return for any transformation, exact on quadratics, symmetric Hessians, limits to derivatives. Missing: the code leaves inputs perturbed when the transformation throws and does not wrap differences of angular outputs (both shown as violations)."},
 "C63": {"status": "partial", "note": "Concatenation of any number of covariances or square roots represents the block-diagonal matrix, splitting the diagonal blocks, and splitting undoes concatenation. Partial because the code differs for Cholesky factors with entries outside the block, one-dimensional pieces of diagonal square roots, mixed operands and complex storage triangles (each with a proved counterexample)."},
 "C64": {"status": "partial", "note": "Exact moments for every combination of self-adjoint, diagonal and lower-factor storage: linear transforms, the update step, updates through the identity transform, runs of any length, cubature and unscented points. Upper triangular storage breaks all of them: proved exactly how (C64_transform_upper, C64_points_upper) and refuted with witnesses (C64_*_violated). Patterns Euclidean."},
 "C65": {"status": "proved", "note": "Limits of the exact iterations; floating-point stopping is not modelled except for the comparison of the Halley iteration."},
 "C66": {"status": "partial", "note": "Termination, congruence and correctness of sin and cos proved below 2^63 turns. The documented half turn and the boundary of exactly 2^63 turns fail: negations proved."},
 "C67": {"status": "proved", "note": "Forward functions within the range of the integer conversions, inverse functions everywhere they can exist."},
 "C68": {"status": "proved", "note": "The law of the sample is proved to be the Gaussian law with the mean and covariance of the distribution. The random number generator itself is not modelled: its output is assumed to be a standard normal vector."},
 "C69": {"status": "partial", "note": "Real unary functors without exception; complex unary, binary and bound functors outside the cases in which the tables are wrong, which are exhibited."},
 "C70": {"status": "partial", "note": "Transposes, self-adjoint views, selections and diagonals without exception; the rest and whole expressions outside the cases in which the traits are wrong, which are exhibited."},
 "C71": {"status": "partial", "note": "Through any expression outside the cases in which the code is wrong, which are exhibited; constants without exception."},
 "C72": {"status": "partial", "note": "Everything but the tensor order of objects with a zero extent after an extent above 1, which is wrong (C72_order_violated)."},
 "C73": {"status": "partial", "note": "For collections of at least as many indices as the rank; shorter ones that the concept admits are ill-formed or undefined (C73_access_violated)."},
 "C74": {"status": "partial", "note": "Exact up to the largest index count, and in full if later patterns are equivalent to Dimensions<1>; C74_match_violated shows that this is needed."},
 "C75": {"status": "partial", "note": "Same shape, instantiability and default rank in full; the rank asked for is not honoured for some extents (C75_rank_violated)."},
 "C76": {"status": "partial", "note": "Functions: all collections with a size or a fixed common dimension; concepts: exact for compile-time sizes but for one case. The remaining cases are wrong (C76_*_violated)."},
 "C77": {"status": "partial", "note": "Conversion, back conversion and round trip for all ranks, shapes and patterns with compile-time dimensions; the other cases and copies are wrong (C77_*_violated)."},
 "C78": {"status": "partial", "note": "Construction, sums, in-place operations and any history of them proved for axes and angles; plain differences, fractions and distances disproved by witnesses."},
 "C79": {"status": "partial", "note": "Mean, deviations, independence of representatives and Euclidean case proved; invariance of covariance and update under rotation disproved by witnesses."},
 "C80": {"status": "partial", "note": "Proved by induction over all towers in which transpositions exchange indices 0 and 1, constants under a conjugate are real, and patterns put on objects with a constant fix the same dimensions. Outside these the code is wrong: see the theorems ending in violated."},
 "C81": {"status": "partial", "note": "Proved for Hermitian adapters, and for pattern and to-diagonal adapters with compile-time dimensions. For run-time patterns the assertions are wrong (C81_assertions_violated)."},
 "C82": {"status": "partial", "note": "Proved for every tower of adapters on dense Eigen matrices whose Hermitian adapters keep the triangle written (and for the diagonal in general). For Hermitian adapters that keep the other triangle and for the loops without a hook the code is wrong, which is proved."},
 "C83": {"status": "partial", "note": "Proved on the right for all operands and on the left where the code has a hook that respects it. On the left without such a hook the code computes the wrong product, and non-square operands are not refused; both are proved."},
 "C84": {"status": "partial", "note": "Proved for all ranks and matching extents, for sources whose elements depend on no other element of the destination. Mismatched run-time extents, destinations ending in a fixed 1 and overlapping sources are violations, which are proved."},
 "C85": {"status": "partial", "note": "Setting is proved in full. Getting is proved except for unit and strict triangular views and diagonal objects on row vectors, where the violation is proved."},
 "C86": {"status": "partial", "note": "Proved except for unit and strict triangular views, where the violation is proved."},
 "C87": {"status": "partial", "note": "Repetition is proved for all positive factors, refusal if a factor is known only at run time; a fixed factor 0 is accepted, which is proved."},
 "C88": {"status": "partial", "note": "Proved for all run-time extents including 0, and for fixed extents that agree (ones first). For other fixed extents, and for some zeros, the code is wrong, which is proved."},
 "C89": {"status": "partial", "note": "Proved for operations without indices in all branches and for operations with indices in the loops; the two branches in which operations with indices do not compile are proved to fail."},
 "C90": {"status": "partial", "note": "Proved for all selections of indices and ranks; the branch for one operation per element is wrong for column-major layouts and reordered indices, which is proved."},
 "C91": {"status": "partial", "note": "Proved for every object whose elements can be written independently; for objects that share elements the violation is proved."},
 "C92": {"status": "partial", "note": "Characterised for floating and complex numbers and for integral numbers within stated bounds. Missing cases are proved violations: unsigned errors, mixed signs, overflow, negative errors."},
 "C93": {"status": "partial", "note": "Holds if the type of the value can represent the number; otherwise violated (C93_convert_violated)."},
 "C94": {"status": "partial", "note": "Casting to complex types with integral parts and mixing signed and unsigned parts are violated; the rest is proved."},
 "C95": {"status": "partial", "note": "Soundness of guaranteed and permitted verdicts with Any non-Euclidean, run-time dimensions apart, no zero-dimensional elements beside ranges, strict comparisons closed; each restriction is needed (violations proved). C95_decided is complete for closed types."},
 "C96": {"status": "partial", "note": "C96_guaranteed holds in full. Completeness fails for two types of one descriptor; permitted fails for zero-dimensional elements, empty ranges and a multi-dimensional first element; otherwise proved both ways."},
 "C97": {"status": "partial", "note": "The choice is proved in full; acceptance under the conditions of C95; rejection fails because later patterns are not compared with each other."},
 "C98": {"status": "proved", "note": "All pairs of integer types of 8 to 64 bits and all values; orderings made from other numbers than the constants are shown inconsistent (C98_from_number_violated)."},
 "C99": {"status": "partial", "note": "Proved for unsized sentinels and for advance by n and to a bound; with sized sentinels the code has the test inverted: right exactly if the steps equal the distance (C99_sized_exact, C99_bounded_violated)."},
 "C100": {"status": "proved", "note": "All compositions of views of ranges that do not change in size after construction; if they do the tables of concat_view are stale (C100_stale_violated)."},
 "C101": {"status": "partial", "note": "Arithmetic and walk proved; size fails for the least number of a type of 32 bits or more, the distance to the sentinel for more numbers than the signed type has (violations proved)."},
 "C102": {"status": "partial", "note": "C++20 copy proved; C++17 copy does nothing for types that cannot be assigned and does not compile for throwing ones; moving fails for some types (violations proved)."},
 "C103": {"status": "partial", "note": "Proved for all towers of views over tuples, arrays and ranges. Missing because of the code: std::ranges::subrange (size always 2) and arrays of unknown bound (size 0), shown by C103_subrange_violated and C103_unknown_bound_violated."},
 "C104": {"status": "partial", "note": "Proved for all towers of views, for apply and for mdspan extents. Missing because of the code: subranges, which give iterators for constant indices (C104_subrange_violated)."},
 "C105": {"status": "proved", "note": "All nestings of standard tuples; other tuple-like types do not compile."},
 "C106": {"status": "partial", "note": "Zero operands; constants when the extents of the result agree with those contracted; square constant-diagonal matrices with one pair, and with two pairs when the extents agree. The code uses the extents of the result, and does not require diagonal matrices to be square: counterexamples proved."},
 "C107": {"status": "partial", "note": "Proved for real constants on the diagonal; the code also accepts others: counterexample proved."},
 "C108": {"status": "partial", "note": "Proved for all towers with real numbers, without Hermitian adapters, or around expressions. Complex Hermitian adapters around matrices return dangling references and keep imaginary parts: counterexamples proved."},
 "C109": {"status": "proved", "note": "For all towers in which diagonal adapters directly contain a column."},
 "C110": {"status": "partial", "note": "extents of different ranks can compare as equal"},
 "C111": {"status": "proved", "note": "index type unsigned, number of elements representable"},
 "C112": {"status": "partial", "note": "uniqueness is reported without checking strides; conversions from strides are unchecked with NDEBUG"},
 "C113": {"status": "proved", "note": "slices within the extents, as documented; positions representable"},
 "C114": {"status": "partial", "note": "Outputs proved for all patterns of axes and angles; the cross-covariance where positive and negative inputs each add up to canonical angles. Otherwise false: C114_cross_violated, C114_order_violated."},
 "C115": {"status": "partial", "note": "Every chain of conversions keeps the point. Assignment of a Mean to a EuclideanMean with a Euclidean pattern is ambiguous (C115_assign_violated), the rest is C115_assign_partial."},
 "C116": {"status": "partial", "note": "Dimensions, constants, diagonals, triangles, one-dimensionality and permitted squares hold in full. Guaranteed squares fail for dynamic rows, empty matrices are ill-formed, Hermitian fails for nested matrices that are not square (violated theorems)."},
 "C117": {"status": "partial", "note": "Dimensions, constant diagonals, one-dimensionality and guaranteed squares of wrappers hold. A wrapper is not permitted to be square for N = 2, DiagonalMatrix is guaranteed square for N >= 3, VectorBlock counts its indices wrongly (violated theorems)."},
 "C118": {"status": "proved", "note": "Exact arithmetic; arrays that are different arguments do not overlap, except the sum stored onto one of its terms."},
 "C119": {"status": "partial", "note": "Sum of squares, two-norm, infinity norm and one-norm hold for all inputs; the Frobenius norm is exact just if the magnitudes do not decrease, row by row (C119_frob_norm_violated otherwise)."},
 "C120": {"status": "proved", "note": "All loops of blas2_matrix_vector_product.hpp, exact arithmetic, output not overlapping the inputs (except the in-place form)."},
 "C121": {"status": "proved", "note": "Exact arithmetic; for any division that is one for the diagonal components."},
 "C122": {"status": "proved", "note": "All loops of blas3_matrix_product.hpp, exact arithmetic, output not overlapping the inputs (except the in-place forms)."},
 "C123": {"status": "proved", "note": "Exact arithmetic, non-zero stored diagonal."},
 "C124": {"status": "proved", "note": "Exact arithmetic; for Hermitian updates a real factor (or the overwriting rank-1 form, which takes its real part); that this is needed is proved too."},
 "C125": {"status": "proved", "note": "Exact finite arithmetic; infinities, for which the loops of the code do not end, are not modelled."},
 "C126": {"status": "partial", "note": "r is wrong for numbers at most safmn2² in size (C126_r_violated, C126_small_wrong); everything else holds. In the branch for a tiny f unitarity holds up to safmin/safmn2² (2^-52 for double)."},
 "C127": {"status": "partial", "note": "Extents, places in memory and strides proved for all layouts; twice proved for the three standard layouts. For other layouts a second transposition does not compile (C127_twice_violated)."},
 "C128": {"status": "proved", "note": "All nestings of accessors."},
 "C129": {"status": "partial", "note": "Holds but for one distribution per element in a column-major matrix, and numbers passed as lvalues; both negations are proved."},
 "C130": {"status": "partial", "note": "Independence and laws under the preconditions of C129; the cases missing are those in which C129 fails."},
 "C131": {"status": "proved", "note": "Exact arithmetic; numbers real; the filter is the model of Model/Kalman.lean with any library routines that meet their specifications; Euclidean patterns; the covariance of the noise of each measurement is positive definite."},
 "C132": {"status": "proved", "note": "As C131; the initial state and the noises jointly Gaussian and measurable; C132_independent shows that independent Gaussian vectors are. Normality of the error is stated for all its linear functions."},
 "C133": {"status": "proved", "note": "Cubature and unscented points, real scalars, unwrapped outputs; every law with vanishing third central moments. C133_normal shows that Gaussian vectors qualify."},
 "C134": {"status": "partial", "note": "Exact for functions quadratic in the input and in each noise term; the code leaves out mixed terms (C134_mixed_violated)."},
 "C135": {"status": "partial", "note": "Exact for scalar input without noise; closed formula for all parameters. False for two dimensions (C135_pair_violated)."},
 "C136": {"status": "proved", "note": "Any laws, any finite sequence of moves and measurements, both forms; includes a Chebyshev bound. Noise means are told correctly."},
 "C137": {"status": "proved", "note": "Real and complex; updates need non-degenerate told noise."},
 "C138": {"status": "proved", "note": "Real and complex; updates need non-degenerate told noise."},
 "C139": {"status": "partial", "note": "positive definite matrices; semidefinite ones if Eigen's exchange leaves the matrix unchanged; indefinite ones with a non-zero diagonal are refused; the rest is violated by the code"},
 "C140": {"status": "partial", "note": "all updates, and all downdates to a positive definite result; a singular result is refused (violated by the code)"},
 "C141": {"status": "partial", "note": "definite and semidefinite, triangular and general systems; indefinite Hermitian ones, flags for Hermitian ones and wide systems without flags are violated by the code"},
 "C142": {"status": "proved", "note": "for every library meeting the contract"},
 "C143": {"status": "partial", "note": "all histories of regular calls from a positive definite prior; a singular prior makes the update throw (violated by the code)"},
 "C144": {"status": "partial", "note": "Proved for all programs that leave alone the function objects of transformations made without an explicit Jacobian and copy only const transformations or ones with a Jacobian. The code keeps a reference to the constructor argument for default derivatives (dangling for temporaries) and refuses copies of non-const order-0 transformations."},
 "C145": {"status": "partial", "note": "Each call samples each distribution once, in any order of evaluation. Value and derivatives use different samples, and IdentityTransformation does not sample."},
 "C146": {"status": "partial", "note": "A list of blocks is accepted iff it forms a tableau, whose values are then written; means, diagonal matrices, covariances and square roots follow. Violated for finished() of a mean, initialisers that are kept, and complex diagonal covariances. Eigen's CommaInitializer is modelled after Eigen 3.4."},
 "C147": {"status": "partial", "note": "Concatenation is proved for parts that are all Euclidean-transformed or none, along the diagonal for parts that are not; splitting and round trips without such conditions. The code refuses or breaks the other cases, which is proved as C147_mixed_violated and C147_diagonal_violated."},
 "C148": {"status": "proved", "note": "Column patterns are of plain axes; functions see the numbers of the columns."},
 "C149": {"status": "partial", "note": "Proved for Matrix right sides and for means without angles. With angles the result is wrapped and no solution: C149_angles_violated."},
 "C150": {"status": "proved", "note": "For all functions, admissible parameters and square roots. The need for beta >= alpha^2 is shown by C150_parameters."},
 "C151": {"status": "proved", "note": "The solver is a contract: it solves solvable systems. Square roots are arbitrary (C151_invariant) or those of the library (C151_history)."},
 "C152": {"status": "partial", "note": "False as stated: the default unscented form throws for dependent or many outputs (two violated theorems). Proved without a negative weight, with an exact condition otherwise, and through histories with added positive definite noise."},
 "C153": {"status": "partial", "note": "False as stated: conversion to a static extent and the end of subspan are not checked (two violated theorems). Proved for all other chains, with and without checks."},
 "C154": {"status": "partial", "note": "False as stated for size() with gaps, arrays of fixed size, moved-from arrays (three violated theorems). Construction and value semantics proved in full; conversion with assertions; size exactly if the layout has no gaps."},
 "C155": {"status": "proved", "note": "Exact scalars; the matrices of the filter's calls are constant, the measurements are not. About predict and update called in turn; operator(), which means the same, cannot be instantiated (KalmanFilter.hpp:178)."},
 "C156": {"status": "proved", "note": "The two filters start with the same covariance; with different covariances their means approach each other if the measurements are those of a state that moves as told. About predict and update called in turn; operator() cannot be instantiated (KalmanFilter.hpp:178)."},
 "C157": {"status": "partial", "note": "Proved: the right slices are taken, and given groups each stage gets its own terms. Violated: the groups are concatenated, so that every call is refused."},
 "C158": {"status": "partial", "note": "Whatever is returned is right and accepted by the standard; containers that can be filled element by element are accepted. Sets and forward lists are refused by the code (violated)."},
 "C159": {"status": "partial", "note": "Claims are true and as good as they can be for every expression of the operations modelled; three ways in which the code loses or invents sizes are proved as violations."},
 "C160": {"status": "proved", "note": "For linear transformations on Euclidean patterns, exact scalars."},
 "C161": {"status": "proved", "note": "For linear transformations on Euclidean patterns, exact scalars. The profile of the cost (C161_profile) needs a final covariance of full rank; the minimum does not."},
 "C162": {"status": "partial", "note": "Proved for any choice of corresponding square roots (C162_reaches) and, with lower Cholesky factors as in the code, for lower triangular changes of coordinates with positive diagonal (C162_lower_partial); exchanging components changes the result (C162_order_violated)."},
 "C163": {"status": "proved", "note": "The sum of log-likelihoods along the filter is the logarithm of the joint density of all measured numbers, in both forms; the density is a density of the law of the measurements."},
 "C164": {"status": "proved", "note": "Continuity of whole histories in both forms; limits of one update as measurement noise grows, vanishes, and as the prior covariance grows."},
 "C165": {"status": "partial", "note": "Extents and components proved for all lists whose length fits; wrong lengths never give an object. Violated: multiples of the size and empty lists at the constraint, columns (row-major default) and rows listed by columns, the documented triangle, square-root covariances (ill-formed) and their scalar type. Conversion of numbers and tensors are not modelled."},
 "C166": {"status": "partial", "note": "patterns_match_with proved for all types; patterns_may_match_with never refuses types that can agree, and is exact for two types or a first type with all extents fixed. Violated: the first type is compared with the others, but these not with each other."},
 "C167": {"status": "proved", "note": "Residuals of update along any history: mean zero, covariance P_yy, uncorrelated, same affine span as the measurements; expected weighted squares equal the count; independent and Gaussian in Gaussian systems; both forms."},
 "C168": {"status": "proved", "note": "For every interleaving of joint and separate measurements, in self-adjoint and in Cholesky form; the joint object is the one that concatenate makes."},
 "C169": {"status": "partial", "note": "Proved for programs that keep the views of which other views were made; views::all takes named views by pointer (violations proved)."},
 "C170": {"status": "proved", "note": "C170_transform, C170_bias, C170_history, C170_coded: for continuously differentiable models, the sample-point transform and the filters built on it tend to the linearised ones as the standard deviations shrink, for all admissible parameters and square roots. Exact arithmetic; patterns without wrapping."},
 "C171": {"status": "partial", "note": "Classes of numbers, sqrt in all cases, and hypot, fmod, abs, and atan2 away from zeros whose sign bit matters, up to the sign of a zero are proved; signbit, copysign, abs and hypot exactly when signs can be seen. The code loses the signs of zeros: counterexamples proved. Finite arithmetic is exact."},
 "C172": {"status": "partial", "note": "Bounds, convergence and the growth in unobserved directions are proved in full. The cross-covariance is that of a joint distribution exactly if noise makes up for it (iff proved); without noise and with a factor below 1 it is not, and an update with it reports a negative covariance: counterexample proved."},
 "C173": {"status": "proved", "note": "Expectations, variance of the mean and almost sure limits, for any order of the reduction. That the generator yields independent draws is a hypothesis; angular outputs do not compile (C114)."},
 "C174": {"status": "proved", "note": "Exact scalars and Euclidean outputs; samples are given. Singularity is of the transform's own covariance. The bound is sharp for every number of components (C174_sharp)."}
}
